import Verif.Lemmas.SimToc
import Verif.Lemmas.ParserRecords

/-!
# The parser, side by side

For C87.
-/

namespace RSM
namespace History
open PyM Parser

/-- A node that refers to no others. -/
def Alone (a : NodeRec) : Prop := a.parent = none ∧ a.kids = [] ∧ (∀ x, a.target ≠ .node x) ∧ a.targets = []

theorem alone_new (c : Cls) : Alone (NodeRec.new c) := ⟨rfl, rfl, fun _ h => (by cases h), rfl⟩

/-! ## Records -/

theorem setAttr_alone {k : Str} {v : MetaVal} {n m : NodeRec} (h : setAttr k v n = .ok m) (hn : Alone n) : Alone m := by
  obtain ⟨h1, h2, h3, h4⟩ := hn
  unfold setAttr at h
  split at h
  · cases h
  split at h
  · cases h; exact ⟨h1, h2, h3, h4⟩
  split at h
  · rename_i e
    cases h
    cases v with
    | text s =>
      unfold setTextAttr at e
      obtain ⟨f, hf, rfl⟩ := Option.map_eq_some_iff.mp e
      obtain ⟨p, hp, rfl⟩ := setter_mem hf
      simp only [textAttrs, List.mem_cons, List.not_mem_nil, or_false] at hp
      rcases hp with rfl | rfl | rfl | rfl | rfl | rfl | rfl | rfl | rfl | rfl | rfl | rfl | rfl | rfl | rfl |
        rfl | rfl | rfl <;> exact ⟨h1, h2, h3, h4⟩
    | list l =>
      unfold setListAttr at e
      obtain ⟨f, hf, rfl⟩ := Option.map_eq_some_iff.mp e
      obtain ⟨p, hp, rfl⟩ := setter_mem hf
      simp only [listAttrs, List.mem_cons, List.not_mem_nil, or_false] at hp
      rcases hp with rfl | rfl | rfl <;> exact ⟨h1, h2, h3, h4⟩
    | bool =>
      unfold setBoolAttr at e
      obtain ⟨f, hf, rfl⟩ := Option.map_eq_some_iff.mp e
      obtain ⟨p, hp, rfl⟩ := setter_mem hf
      simp only [boolAttrs, List.mem_cons, List.not_mem_nil, or_false] at hp
      rcases hp with rfl | rfl | rfl | rfl | rfl | rfl | rfl <;> exact ⟨h1, h2, h3, h4⟩
  · split at h
    · cases h
    · cases h; exact ⟨h1, h2, h3, h4⟩

theorem setAll_alone : ∀ {d : List (Str × MetaVal)} {n m : NodeRec}, setAll d n = .ok m → Alone n → Alone m
  | [], n, m, h, hn => by cases h; exact hn
  | (k, v) :: d, n, m, h, hn => by
    rw [setAll] at h
    obtain ⟨a, h1, h2⟩ := bind_ok h
    exact setAll_alone h2 (setAttr_alone h1 hn)

theorem ingestMeta_alone {c : Cst} {n m : NodeRec} (h : ingestMeta c n = .ok m) (hn : Alone n) : Alone m := by
  unfold ingestMeta at h
  split at h
  · cases h; exact hn
  · obtain ⟨d, _, h2⟩ := bind_ok h
    unfold ingest at h2
    split at h2 <;> exact setAll_alone h2 hn

theorem bibLoop_alone : ∀ {l : List Cst} {n m : NodeRec}, bibLoop l n = .ok m → Alone n → Alone m
  | [], n, m, h, hn => by cases h; exact hn
  | p :: l, n, m, h, hn => by
    rw [bibLoop] at h
    obtain ⟨⟨k, v⟩, _, h⟩ := bind_ok h
    obtain ⟨a, h1, h2⟩ := bind_ok h
    exact bibLoop_alone h2 (setAttr_alone h1 hn)

theorem bibRecord_alone {c : Cst} {n : NodeRec} (h : bibRecord c = .ok n) : Alone n := by
  unfold bibRecord at h
  obtain ⟨_, _, h⟩ := bind_ok h
  obtain ⟨_, _, h⟩ := bind_ok h
  exact bibLoop_alone h ⟨rfl, rfl, fun _ h => (by cases h), rfl⟩

theorem make_alone {type : Str} {c : Cst} {n : NodeRec} (h : make type c = some n) : Alone n := by
  unfold make at h
  obtain ⟨k, _, rfl⟩ := Option.map_eq_some_iff.mp h
  exact ⟨rfl, rfl, fun _ h => (by cases h), rfl⟩

theorem headingRecord_alone {c : Cst} {n : NodeRec} (h : headingRecord c = .ok n) : Alone n := by
  unfold headingRecord at h
  split at h
  · cases h
  · rename_i m hm
    have := make_alone hm
    refine ingestMeta_alone h ?_
    split
    · exact this
    · exact this

theorem baseRecord_alone {type : Str} {c : Cst} {n : NodeRec} (h : baseRecord type c = .ok n) : Alone n := by
  unfold baseRecord at h
  split at h
  · rename_i m hm
    have := make_alone hm
    cases h
    split <;> exact this
  · split at h
    · cases h; exact ⟨rfl, rfl, fun _ h => (by cases h), rfl⟩
    · cases h

theorem asisRecord_alone {type : Str} {c : Cst} {n a : NodeRec} (h : asisRecord type c n = .ok (some a)) : Alone a := by
  unfold asisRecord at h
  split at h
  · obtain ⟨x, _, h⟩ := bind_ok h
    split at h
    · cases h
    · split at h <;> (cases h; exact ⟨rfl, rfl, fun _ h => (by cases h), rfl⟩)
  · cases h

theorem nodeRecord_alone {type : Str} {c : Cst} {prev next : Option Cst} {n : NodeRec} {a : Option NodeRec}
    {ids : List Nat} (h : nodeRecord type c prev next = .ok (n, a, ids)) : Alone n ∧ ∀ m ∈ a, Alone m := by
  unfold nodeRecord at h
  obtain ⟨n1, h1, h⟩ := bind_ok h
  obtain ⟨n2, h2, h⟩ := bind_ok h
  obtain ⟨a', h3, h⟩ := bind_ok h
  obtain ⟨⟨n4, s1⟩, h4, h⟩ := bind_ok h
  obtain ⟨⟨n5, s2⟩, h5, h⟩ := bind_ok h
  cases h
  refine ⟨?_, fun m hm => by cases hm; exact asisRecord_alone h3⟩
  have g2 := ingestMeta_alone h2 (baseRecord_alone h1)
  have g3 : Alone (setKind type c n2) := by
    unfold setKind
    split
    · split <;> exact g2
    · exact g2
  have g4 : Alone n4 := by
    unfold setTarget at h4
    split at h4
    · obtain ⟨x, hx, h4⟩ := bind_ok h4
      simp only at h4
      split at h4 <;> (cases h4; exact ⟨g3.1, g3.2.1, fun _ h => (by cases h), g3.2.2.2⟩)
    · cases h4; exact g3
  have g5 : Alone (setPrev type n4) := by
    unfold setPrev
    repeat' split
    all_goals first | exact g4 | exact ⟨g4.1, g4.2.1, fun _ h => (by cases h), g4.2.2.2⟩
  have g6 : Alone n5 := by
    unfold setCite at h5
    split at h5
    · obtain ⟨x, hx, h5⟩ := bind_ok h5
      cases h5; exact g5
    · cases h5; exact g5
  rw [padText_eq]
  exact g6

theorem s_alone {n N : Nat} {a : NodeRec} (h : Alone a) : Sim (heaps n) (ref n) N (Nodes.new a) (Nodes.new a) :=
  s_make h.1 h.2.1 h.2.2.1 h.2.2.2

/-! ## The loop -/

/-- The states of two parsers. -/
structure TwinP (n : Nat) (s0 s : PState) : Prop where
  heap : Twin n s0.heap s.heap
  root : s.root = s0.root.map (· + n)
  rootLt : ∀ x ∈ s0.root, x < s0.heap.next
  bib : s.bib = s0.bib.map (· + n)
  bibLt : ∀ x ∈ s0.bib, x < s0.heap.next
  log : s.log = s0.log

/-- Code of the parser. -/
def parsers (n : Nat) : Pairing PState := ⟨fun s => s.heap.next, TwinP n⟩

/-- Elements of the stack. -/
def entry (n : Nat) : Kind Entry :=
  ⟨fun N e => ∀ x ∈ e.parent, x < N, fun e => { e with parent := e.parent.map (· + n) },
    fun h1 h2 x hx => Nat.lt_of_lt_of_le (h2 x hx) h1⟩

section
variable {n N : Nat} {r : Ref}

theorem lens_parsers : Lens (parsers n) (heaps n) (·.heap) (fun h s => { s with heap := h }) where
  get _ _ h := TwinP.heap h
  size _ := rfl
  set s0 s t0 t h T hm := by
    have h : TwinP n s0 s := h
    exact ⟨T, h.root, fun x hx => Nat.lt_of_lt_of_le (h.rootLt x hx) hm, h.bib,
      fun x hx => Nat.lt_of_lt_of_le (h.bibLt x hx) hm, h.log⟩
  resize _ _ := rfl

theorem s_onHeapP {α : Type} {k : Kind α} {m0 m : HeapM α} (h : Sim (heaps n) k N m0 m) :
    Sim (parsers n) k N (Parser.onHeap m0) (Parser.onHeap m) := s_zoom lens_parsers h

theorem s_readP {α : Type} {k : Kind α} {f0 f : PState → ParseM α}
    (hf : ∀ s0 s, TwinP n s0 s → N ≤ s0.heap.next → Sim (parsers n) k s0.heap.next (f0 s0) (f s)) :
    Sim (parsers n) k N (PyM.get >>= f0) (PyM.get >>= f) := s_get hf

theorem s_warnP (w : PWarning) : Sim (parsers n) plain N (Parser.warn w) (Parser.warn w) :=
  s_modify fun s0 s h _ => by
    have h : TwinP n s0 s := h
    exact ⟨⟨h.heap, h.root, h.rootLt, h.bib, h.bibLt, by show s.log ++ _ = s0.log ++ _; rw [h.log]⟩, Nat.le_refl _⟩

/-- A result or an exception, about which something is known. -/
theorem s_lift {α β : Type} {k : Kind β} {e : Except PyErr α} {f0 f : α → ParseM β}
    (hf : ∀ a, e = .ok a → Sim (parsers n) k N (f0 a) (f a)) :
    Sim (parsers n) k N (lift e >>= f0) (lift e >>= f) := by
  cases e with
  | error x => exact fun s0 s h hm => .err h (Nat.le_refl _)
  | ok a => exact hf a rfl

theorem entriesOf_map (p : Option Ref) (c : Cst) (cond : Cst → Bool) :
    entriesOf (p.map (· + n)) c cond = (entriesOf p c cond).map (entry n).map := by
  unfold entriesOf
  rw [List.map_map]; rfl

theorem entriesOf_ok {p : Option Ref} (c : Cst) (cond : Cst → Bool) (hp : ∀ x ∈ p, x < N) :
    (list (entry n)).ok N (entriesOf p c cond) := by
  intro e he
  unfold entriesOf at he
  obtain ⟨x, _, rfl⟩ := List.mem_map.1 he
  exact hp

theorem s_entries {p : Option Ref} (c : Cst) (cond : Cst → Bool) (hp : ∀ x ∈ p, x < N) :
    Sim (parsers n) (list (entry n)) N (pure (entriesOf p c cond)) (pure (entriesOf (p.map (· + n)) c cond)) :=
  s_pure (entriesOf_ok c cond hp) (entriesOf_map p c cond)

theorem s_pushed {x : Ref} (c : Cst) (skip : List Nat) (hx : x < N) :
    Sim (parsers n) (list (entry n)) N (pure (pushed x c skip)) (pure (pushed (x + n) c skip)) :=
  s_entries (p := some x) c _ fun y hy => by cases hy; exact hx

theorem s_attach {p : Option Ref} {x : Ref} (hp : ∀ y ∈ p, y < N) (hx : x < N) :
    Sim (parsers n) plain N (attach p x) (attach (p.map (· + n)) (x + n)) := by
  cases p with
  | none => exact s_unit
  | some q =>
    have hq := hp q rfl
    refine s_readP fun s0 s T hm => ?_
    rw [T.heap.isInst (by omega)]
    exact s_ite Iff.rfl (fun _ => s_onHeapP (s_append (by omega) (by omega))) fun _ => s_unit

theorem s_appendTo {p : Option Ref} {x : Ref} (hp : ∀ y ∈ p, y < N) (hx : x < N) :
    Sim (parsers n) plain N (appendTo p x) (appendTo (p.map (· + n)) (x + n)) := by
  cases p with
  | none => exact s_throw _
  | some q => exact s_onHeapP (s_append (hp q rfl) hx)

theorem s_nil : Sim (parsers n) (list (entry n)) N (pure []) (pure []) := s_pure (fun _ h => by cases h) rfl

theorem s_visitBibliography : Sim (parsers n) (list (entry n)) N visitBibliography visitBibliography := by
  refine s_bind (s_onHeapP (s_makeNew _)) fun M b hM hb => ?_
  have hb : b < M := hb
  refine s_then (s_modify fun s0 s h hm => ?_) fun K _ hK => s_readP fun s0 s T hm => ?_
  · have h : TwinP n s0 s := h
    have hm : M ≤ s0.heap.next := hm
    exact ⟨⟨h.heap, h.root, h.rootLt, rfl, fun x hx => by cases hx; show b < s0.heap.next; omega, h.log⟩, Nat.le_refl _⟩
  · rw [T.root]
    exact s_then (s_appendTo T.rootLt (show b < s0.heap.next by omega)) fun _ _ _ => s_nil

theorem s_visitBibtex (c : Cst) : Sim (parsers n) (list (entry n)) N (visitBibtex c) (visitBibtex c) := by
  intro s0 s T hm
  have T : TwinP n s0 s := T
  unfold visitBibtex
  rw [T.bib]
  cases e : s0.bib with
  | none => exact (s_then (s_warnP _) fun _ _ _ => s_nil) s0 s T hm
  | some b =>
    have hb := T.bibLt b e
    have key : Sim (parsers n) (list (entry n)) s0.heap.next
        (do forEach (fun x : Cst => Parser.warn (.badBibitem x.start)) (c.namedChildren.filter fun x => x.type = "ERROR".toList)
            pure (entriesOf (some b) c fun x => x.type = "bibitem".toList))
        (do forEach (fun x : Cst => Parser.warn (.badBibitem x.start)) (c.namedChildren.filter fun x => x.type = "ERROR".toList)
            pure (entriesOf (some (b + n)) c fun x => x.type = "bibitem".toList)) :=
      s_then (s_each (fun _ _ _ => s_warnP _) _) fun M _ hM =>
        s_entries (p := some b) c _ fun y hy => by cases hy; omega
    exact key s0 s T (Nat.le_refl _)

theorem s_visitBibitem {e : Entry} (he : (entry n).ok N e) :
    Sim (parsers n) (list (entry n)) N (visitBibitem e) (visitBibitem ((entry n).map e)) := by
  refine s_lift fun a ha => s_bind (s_onHeapP (s_alone (bibRecord_alone ha))) fun M b hM hb => ?_
  exact s_then (s_appendTo (p := e.parent) (fun x hx => Nat.lt_of_lt_of_le (he x hx) hM) hb) fun _ _ _ => s_nil

theorem s_noteRoot (a : NodeRec) (hr : r < N) : Sim (parsers n) plain N (noteRoot a r) (noteRoot a (r + n)) := by
  refine s_ite Iff.rfl (fun _ => s_modify fun s0 s h hm => ?_) fun _ => s_unit
  have h : TwinP n s0 s := h
  have hm : N ≤ s0.heap.next := hm
  exact ⟨⟨h.heap, rfl, fun x hx => by cases hx; show r < s0.heap.next; omega, h.bib, h.bibLt, h.log⟩, Nat.le_refl _⟩

theorem s_visitHeading {e : Entry} (he : (entry n).ok N e) :
    Sim (parsers n) (list (entry n)) N (visitHeading e) (visitHeading ((entry n).map e)) := by
  refine s_lift fun a ha => s_bind (s_onHeapP (s_alone (headingRecord_alone ha))) fun M b hM hb => ?_
  have hb : b < M := hb
  refine s_then (s_noteRoot a hb) fun K _ hK => ?_
  refine s_then (s_attach (p := e.parent) (fun x hx => Nat.lt_of_lt_of_le (he x hx) (by omega)) (show b < K by omega)) fun L _ hL => ?_
  exact s_pushed _ _ (by omega)

theorem s_wrapClaim (type : Str) (c : Cst) (a : NodeRec) (hr : r < N) :
    Sim (parsers n) (ref n) N (wrapClaim type c a r) (wrapClaim type c a (r + n)) := by
  refine s_ite Iff.rfl (fun _ => ?_) fun _ => s_pure hr rfl
  refine s_bind (s_onHeapP (s_alone ⟨rfl, rfl, fun _ h => (by cases h), rfl⟩)) fun M b hM hb => ?_
  have hb : b < M := hb
  exact s_then (s_onHeapP (s_append hb (by omega))) fun K _ hK => s_pure (Nat.lt_of_lt_of_le hb hK) rfl

theorem s_addAsis {a : Option NodeRec} (ha : ∀ m ∈ a, Alone m) (hr : r < N) :
    Sim (parsers n) plain N (addAsis r a) (addAsis (r + n) a) := by
  cases a with
  | none => exact s_unit
  | some m =>
    refine s_bind (s_onHeapP (s_alone (ha m rfl))) fun M b hM hb => ?_
    exact s_onHeapP (s_append (by omega) hb)

theorem s_visitNode {e : Entry} (type : Str) (c : Cst) (skip : List Nat) (he : (entry n).ok N e) :
    Sim (parsers n) (list (entry n)) N (visitNode e type c skip) (visitNode ((entry n).map e) type c skip) := by
  refine s_then (s_ite Iff.rfl (fun _ => s_warnP _) fun _ => s_unit) fun M0 _ hM0 => ?_
  refine s_lift fun a ha => ?_
  obtain ⟨a, o, ids⟩ := a
  obtain ⟨h1, h2⟩ := nodeRecord_alone ha
  refine s_bind (s_onHeapP (s_alone h1)) fun M x hM hx => ?_
  have hx : x < M := hx
  refine s_then (s_noteRoot a hx) fun M2 _ hM2 => ?_
  refine s_then (s_addAsis h2 (by omega)) fun M3 _ hM3 => ?_
  refine s_bind (s_wrapClaim type c a (by omega)) fun M4 y hM4 hy => ?_
  have hy : y < M4 := hy
  refine s_then (s_attach (p := e.parent) (fun x hx => Nat.lt_of_lt_of_le (he x hx) (by omega)) hy) fun M5 _ hM5 => ?_
  exact s_pushed _ _ (by omega)

theorem s_visitEntry {e : Entry} (he : (entry n).ok N e) :
    Sim (parsers n) (list (entry n)) N (Parser.visit e) (Parser.visit ((entry n).map e)) := by
  unfold Parser.visit
  refine s_ite Iff.rfl (fun _ => s_nil) fun _ => s_ite Iff.rfl (fun _ => s_visitBibliography) fun _ =>
    s_ite Iff.rfl (fun _ => s_visitBibtex _) fun _ => s_ite Iff.rfl (fun _ => s_visitBibitem he) fun _ =>
    s_ite Iff.rfl (fun _ => s_visitHeading he) fun _ => ?_
  refine s_lift fun a ha => ?_
  cases a with
  | through =>
    show Sim _ _ _ (pure ((entriesOf e.parent e.cst fun _ => true).take 1))
      (pure ((entriesOf (e.parent.map (· + n)) e.cst fun _ => true).take 1))
    refine s_pure (fun x hx => entriesOf_ok (n := n) e.cst _ he x (List.mem_of_mem_take hx)) ?_
    rw [entriesOf_map, ← List.map_take]; rfl
  | «as» type c skip => exact s_visitNode type c skip he

theorem s_buildLoop : ∀ (k : Nat) {N : Nat} {st : List Entry}, (∀ e ∈ st, (entry n).ok N e) →
    Sim (parsers n) plain N (buildLoop k st) (buildLoop k (st.map (entry n).map))
  | 0, _, _, _ => s_outOfFuel
  | k + 1, _, [], _ => s_unit
  | k + 1, N, e :: st, h => by
    refine s_bind (s_visitEntry (h e (by simp))) fun M new hM hn => ?_
    have := s_buildLoop k (N := M) (st := new ++ st) fun x hx => by
      rcases List.mem_append.1 hx with hx | hx
      · exact hn x hx
      · exact (entry n).mono hM (h x (by simp [hx]))
    rw [List.map_append] at this
    exact this

theorem s_abstractify (k : Nat) (c : Cst) :
    Sim (parsers n) (opt (ref n)) N (abstractify k c) (abstractify k c) := by
  refine s_then (s_modify fun s0 s h hm => ?_) fun M _ hM => ?_
  · have h : TwinP n s0 s := h
    exact ⟨⟨h.heap, rfl, fun _ h => (by cases h), rfl, fun _ h => (by cases h), h.log⟩, Nat.le_refl _⟩
  refine s_then (s_buildLoop k (st := [⟨none, none, c, none⟩]) fun e he x hx => ?_) fun K _ hK => ?_
  · cases List.mem_singleton.1 he; cases hx
  refine s_readP fun s0 s T hm => ?_
  rw [T.root]
  cases e : s0.root with
  | none => exact s_pure (fun _ h => by cases h) rfl
  | some r =>
    have hr := T.rootLt r e
    exact s_then (s_onHeapP (s_normalizeText (Nat.le_refl k) hr)) fun L _ hL =>
      s_pure (fun x hx => by cases hx; exact Nat.lt_of_lt_of_le hr hL) rfl

/-- The states of two `TSParser`s; the attribute `ast` is only written. -/
structure TwinTS (n : Nat) (s0 s : ParserState) : Prop where
  heap : Twin n s0.heap s.heap
  log : s.log = s0.log

/-- Code of `TSParser`. -/
def tsParsers (n : Nat) : Pairing ParserState := ⟨fun s => s.heap.next, TwinTS n⟩

theorem lens_tsParsers : Lens (tsParsers n) (parsers n) (fun s => { heap := s.heap, log := s.log : PState })
    (fun p s => { s with heap := p.heap, log := p.log }) where
  get _ _ h := ⟨TwinTS.heap h, rfl, fun _ h => (by cases h), rfl, fun _ h => (by cases h), TwinTS.log h⟩
  size _ := rfl
  set s0 s t0 t h T hm := by
    have T : TwinP n t0 t := T
    exact ⟨T.heap, T.log⟩
  resize _ _ := rfl

theorem s_guard {α : Type} {k : Kind α} {m0 m : PyM ParserState α} (h : Sim (tsParsers n) k N m0 m) :
    Sim (tsParsers n) k N (guardAttribute m0) (guardAttribute m) := by
  intro s0 s T hm
  unfold guardAttribute
  have := h s0 s T hm
  generalize m0 s0 = x at this
  generalize m s = y at this
  cases this with
  | ok a b c d => exact .ok a b c d
  | fuel => exact .fuel
  | @err e _ _ a b => cases e <;> exact .err a b

theorem s_parse (k : Nat) (c : Cst) : Sim (tsParsers n) (ref n) N (parse k c) (parse k c) := by
  refine s_then (s_modify fun s0 s h hm => ?_) fun M _ hM => ?_
  · have h : TwinTS n s0 s := h
    exact ⟨⟨h.heap, h.log⟩, Nat.le_refl _⟩
  refine s_bind (s_guard (s_zoom lens_tsParsers (s_abstractify k c))) fun K r hK hr => ?_
  refine s_then (s_modify fun s0 s h hm => ?_) fun L _ hL => ?_
  · have h : TwinTS n s0 s := h
    exact ⟨⟨h.heap, h.log⟩, Nat.le_refl _⟩
  cases r with
  | none => exact s_throw _
  | some r =>
    have hr : r < K := hr r rfl
    refine s_then (s_modify fun s0 s h hm => ?_) fun L2 _ hL2 => s_pure (show r < L2 by omega) rfl
    have h : TwinTS n s0 s := h
    have hm : L ≤ s0.heap.next := hm
    exact ⟨⟨h.heap.update (f0 := fun a => { a with src := c.text }) (f := fun a => { a with src := c.text }) (by omega)
      fun a ha => ⟨rfl, ha.parent, ha.kids, ha.target, ha.targets⟩, h.log⟩, Nat.le_refl _⟩

end
end History
end RSM
