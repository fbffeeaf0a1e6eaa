import Verif.Lemmas.SimNodes

/-!
# The transformer, side by side

For C87.
-/

namespace RSM
namespace History
open PyM Transformer

/-! ## `==` -/

section Eq
variable {n : Nat} {h0 h : Heap} (T : Twin n h0 h)
include T

theorem Twin.eqAttrs {a : Ref} (ha : a < h0.next) : h.eqAttrs (a + n) = h0.eqAttrs a := by
  unfold Heap.eqAttrs; rw [T.isInst ha, T.isInst ha]

theorem Twin.eqOperands {a b : Ref} (ha : a < h0.next) (hb : b < h0.next) :
    h.eqOperands (a + n) (b + n) = ((h0.eqOperands a b).1 + n, (h0.eqOperands a b).2 + n) := by
  unfold Heap.eqOperands
  rw [T.get a ha, T.get b hb, show (shiftRec n (h0.get a)).cls = (h0.get a).cls from rfl,
    show (shiftRec n (h0.get b)).cls = (h0.get b).cls from rfl]
  split <;> rfl

theorem Twin.eqOperands_lt {a b : Ref} (ha : a < h0.next) (hb : b < h0.next) :
    (h0.eqOperands a b).1 < h0.next ∧ (h0.eqOperands a b).2 < h0.next := by
  unfold Heap.eqOperands
  split
  · exact ⟨hb, ha⟩
  · exact ⟨ha, hb⟩

omit T in
theorem allShort_mono {f g : Heap.EqAttr → Option Bool} : ∀ {l : List Heap.EqAttr} {b : Bool},
    (∀ x b, f x = some b → g x = some b) → Heap.allShort f l = some b → Heap.allShort g l = some b
  | [], _, _, h => h
  | x :: l, b, hf, h => by
    unfold Heap.allShort at h ⊢
    cases e : f x with
    | none => rw [e] at h; cases h
    | some c =>
      rw [e] at h
      rw [hf x c e]
      cases c with
      | false => exact h
      | true => exact allShort_mono hf h

omit T in
theorem tupleEq_mono {n N : Nat} {f g : Ref → Ref → Option Bool}
    (hf : ∀ x y b, x < N → y < N → f x y = some b → g (x + n) (y + n) = some b) : ∀ {l m : List Ref} {b : Bool},
    (∀ x ∈ l, x < N) → (∀ x ∈ m, x < N) → Heap.tupleEq f l m = some b →
    Heap.tupleEq g (l.map (· + n)) (m.map (· + n)) = some b
  | [], [], _, _, _, h => h
  | [], _ :: _, _, _, _, h => h
  | _ :: _, [], _, _, _, h => h
  | x :: l, y :: m, b, hl, hm, h => by
    rw [Heap.tupleEq] at h
    rw [List.map_cons, List.map_cons, Heap.tupleEq]
    have ih := fun h => tupleEq_mono (l := l) (m := m) (b := b) hf (fun x hx => hl x (by simp [hx])) (fun x hx => hm x (by simp [hx])) h
    by_cases e : x = y
    · rw [if_pos e] at h
      rw [if_pos (by omega)]
      exact ih h
    · rw [if_neg e] at h
      rw [if_neg (by omega)]
      cases e2 : f x y with
      | none => rw [e2] at h; cases h
      | some c =>
        rw [e2] at h
        rw [hf x y c (hl x (by simp)) (hm y (by simp)) e2]
        cases c with
        | false => exact h
        | true => exact ih h

omit T in
theorem opt_beq (p q : Option Ref) : (p.map (· + n) == q.map (· + n)) = (p == q) := by
  cases p <;> cases q <;> try rfl
  rename_i a b
  by_cases e : a = b
  · subst e; simp
  · have h1 : (some (a + n) == some (b + n)) = false := beq_eq_false_iff_ne.2 fun h => e (by
      have := Option.some.inj h; omega)
    have h2 : (some a == some b) = false := beq_eq_false_iff_ne.2 fun h => e (Option.some.inj h)
    exact h1.trans h2.symm

omit T in
theorem target_beq (p q : Target) : (shiftTarget n p == shiftTarget n q) = (p == q) := by
  cases p <;> cases q <;> try rfl
  rename_i a b
  by_cases e : a = b
  · subst e; simp
  · have h1 : (Target.node (a + n) == .node (b + n)) = false := beq_eq_false_iff_ne.2 fun h => e (by
      have := Target.node.inj h; omega)
    have h2 : (Target.node a == .node b) = false := beq_eq_false_iff_ne.2 fun h => e (Target.node.inj h)
    exact h1.trans h2.symm

theorem Twin.dunderEq : ∀ {k k' : Nat} {a b : Ref} {x : Bool}, k ≤ k' → a < h0.next → b < h0.next →
    h0.dunderEq k a b = some x → h.dunderEq k' (a + n) (b + n) = some x
  | 0, _, _, _, _, _, _, _, hx => by cases hx
  | k + 1, 0, _, _, _, hk, _, _, _ => by omega
  | k + 1, k' + 1, a, b, x, hk, ha, hb, hx => by
    unfold Heap.dunderEq at hx ⊢
    rw [T.eqAttrs ha]
    refine allShort_mono (fun at_ v hv => ?_) hx
    cases at_ with
    | children =>
      simp only [] at hv ⊢
      rw [T.children ha, T.children hb]
      refine tupleEq_mono (N := h0.next) (fun x y c hx hy hc => ?_) (T.kid ha) (T.kid hb) hv
      rw [T.eqOperands hx hy]
      have := T.eqOperands_lt hx hy
      exact Twin.dunderEq (by omega) this.1 this.2 hc
    | parent =>
      simp only [T.get a ha, T.get b hb] at hv ⊢
      rw [← hv]; exact congrArg some (opt_beq _ _)
    | target =>
      simp only [T.get a ha, T.get b hb, T.isInst hb] at hv ⊢
      rw [← hv]
      split
      · rfl
      · exact congrArg some (target_beq _ _)
    | overwriteReftext => simp only [T.get a ha, T.get b hb, T.isInst hb] at hv ⊢; exact hv
    | label => simp only [T.get a ha, T.get b hb] at hv ⊢; exact hv
    | types => simp only [T.get a ha, T.get b hb] at hv ⊢; exact hv
    | nonum => simp only [T.get a ha, T.get b hb] at hv ⊢; exact hv
    | number => simp only [T.get a ha, T.get b hb] at hv ⊢; exact hv

theorem Twin.pyEq {k k' : Nat} {a b : Ref} {x : Bool} (hk : k ≤ k') (ha : a < h0.next) (hb : b < h0.next)
    (hx : h0.pyEq k a b = some x) : h.pyEq k' (a + n) (b + n) = some x := by
  unfold Heap.pyEq at hx ⊢
  rw [T.eqOperands ha hb]
  have := T.eqOperands_lt ha hb
  exact T.dunderEq hk this.1 this.2 hx

theorem Twin.prevSteps : ∀ (k : Nat) {r : Ref}, r < h0.next →
    prevSteps h k (r + n) = (prevSteps h0 k r).map (· + n) ∧ ∀ x, prevSteps h0 k r = .ok x → x < h0.next
  | 0, r, hr => ⟨rfl, fun x hx => by cases hx; exact hr⟩
  | k + 1, r, hr => by
    unfold Transformer.prevSteps
    rw [T.prevSibling hr]
    cases e : h0.prevSibling r (.cls .Step) with
    | error x => exact ⟨rfl, fun x hx => by cases hx⟩
    | ok o =>
      cases o with
      | none => exact ⟨rfl, fun x hx => by cases hx⟩
      | some y => exact Twin.prevSteps k (T.prev_lt hr e)

omit T in
theorem Twin.numberSteps : ∀ {l : List Ref} {h0 h : Heap} (i : Nat), Twin n h0 h → (∀ x ∈ l, x < h0.next) →
    Twin n (numberSteps h0 i l) (numberSteps h i (l.map (· + n))) ∧ (numberSteps h0 i l).next = h0.next
  | [], _, _, _, T, _ => ⟨T, rfl⟩
  | x :: l, h0, h, i, T, hl => by
    have := Twin.numberSteps (l := l) (i + 1) (T.update (r := x) (f0 := fun n => { n with number := .int i })
      (f := fun n => { n with number := .int i }) (hl x (by simp)) fun a ha =>
        ⟨rfl, ha.parent, ha.kids, ha.target, ha.targets⟩) fun y hy => hl y (by simp [hy])
    exact ⟨this.1, this.2⟩

end Eq

/-! ## Loops -/

section Loop
variable {σ : Type} {ρ : Pairing σ} {n : Nat}

/-- The state contains objects. -/
structure Holding (n : Nat) (ρ : Pairing σ) (heapOf : σ → Heap) : Prop where
  twin : ∀ s0 s, ρ.rel s0 s → Twin n (heapOf s0) (heapOf s)
  size : ∀ s0, ρ.size s0 = (heapOf s0).next

theorem s_trav {heapOf : σ → Heap} (H : Holding n ρ heapOf) {c : Heap → Ref → Bool} {b0 b : Ref → PyM σ Unit} {N : Nat}
    (hc : ∀ h0 h r, Twin n h0 h → r < h0.next → c h (r + n) = c h0 r)
    (hb : ∀ M r, N ≤ M → r < M → Sim ρ plain M (b0 r) (b (r + n))) :
    ∀ {k k' M : Nat} {st : List Ref}, k ≤ k' → N ≤ M → (∀ r ∈ st, r < M) →
      Sim ρ plain M (travLoop heapOf c b0 k st) (travLoop heapOf c b k' (st.map (· + n)))
  | 0, _, _, _, _, _, _ => fun _ _ _ _ => .fuel
  | k + 1, 0, _, _, hk, _, _ => by omega
  | k + 1, k' + 1, M, [], hk, _, _ => fun s0 s hr hm => .ok hr (Nat.le_refl _) trivial rfl
  | k + 1, k' + 1, M, r :: st, hk, hn, hs => by
    intro s0 s hr hm
    have T := H.twin s0 s hr
    have hsz := H.size s0
    have h1 := hs r (by simp)
    have h2 : r < (heapOf s0).next := by omega
    rw [List.map_cons, travLoop, travLoop, hc _ _ r T h2]
    have ih := fun M st => s_trav (k := k) (k' := k') (M := M) (st := st) H hc hb (by omega)
    split
    · have := hb _ r (Nat.le_trans hn hm) (by omega) s0 s hr (Nat.le_refl _)
      generalize b0 r s0 = x at this
      generalize b (r + n) s = y at this
      cases this with
      | ok a b c d =>
        rename_i t0 t
        simp only []
        have T2 := H.twin t0 t a
        have hsz2 := H.size t0
        rw [T2.children (by omega), ← List.map_append]
        refine (ih (ρ.size t0) _ (by omega) (fun x hx => ?_) t0 t a (Nat.le_refl _)).mono b
        rcases List.mem_append.1 hx with hx | hx
        · rw [hsz2]; exact T2.kid (by omega) x hx
        · exact Nat.lt_of_lt_of_le (hs x (by simp [hx])) (by omega)
      | err a b => exact .err a b
      | fuel => exact .fuel
    · rw [T.children (by omega), ← List.map_append]
      refine ih (ρ.size s0) _ (by omega) (fun x hx => ?_) s0 s hr (Nat.le_refl _)
      rcases List.mem_append.1 hx with hx | hx
      · rw [hsz]; exact T.kid (by omega) x hx
      · exact Nat.lt_of_lt_of_le (hs x (by simp [hx])) hm

end Loop

theorem holding_heaps {n : Nat} : Holding n (heaps n) id := ⟨fun _ _ h => h, fun _ => rfl⟩

theorem s_normalizeText {n N : Nat} {k k' : Nat} {r : Ref} (hk : k ≤ k') (hr : r < N) :
    Sim (heaps n) plain N (Normalize.normalizeText k r) (Normalize.normalizeText k' (r + n)) :=
  s_trav holding_heaps (fun _ _ _ _ _ => rfl) (fun _ _ _ h => s_normalizeNode h) hk (Nat.le_refl N)
    (st := [r]) fun x hx => by cases List.mem_singleton.1 hx; exact hr

/-! ## The state of the transformer -/

/-- A dictionary of labels, with the objects renamed. -/
def shiftLabels (n : Nat) (l : List (Str × Ref)) : List (Str × Ref) := l.map fun p => (p.1, p.2 + n)

/-- The states of two transformers. -/
structure TwinT (n : Nat) (s0 s : TState) : Prop where
  heap : Twin n s0.heap s.heap
  labels : s.labels = shiftLabels n s0.labels
  bound : ∀ p ∈ s0.labels, p.2 < s0.heap.next
  log : s.log = s0.log

/-- Code of the transformer. -/
def trans (n : Nat) : Pairing TState := ⟨fun s => s.heap.next, TwinT n⟩

theorem holding_trans {n : Nat} : Holding n (trans n) (·.heap) := ⟨fun _ _ h => TwinT.heap h, fun _ => rfl⟩

theorem lens_trans {n : Nat} : Lens (trans n) (heaps n) (·.heap) (fun h s => { s with heap := h }) where
  get _ _ h := TwinT.heap h
  size _ := rfl
  set s0 s t0 t h T hm := by
    have h : TwinT n s0 s := h
    exact ⟨T, h.labels, fun p hp => Nat.lt_of_lt_of_le (h.bound p hp) hm, h.log⟩
  resize _ _ := rfl

section Trans
variable {n N : Nat} {r : Ref}

theorem s_onHeap {α : Type} {k : Kind α} {m0 m : HeapM α} (h : Sim (heaps n) k N m0 m) :
    Sim (trans n) k N (onHeap m0) (onHeap m) := s_zoom lens_trans h

theorem s_readT {α : Type} {k : Kind α} {f0 f : TState → TM α}
    (hf : ∀ s0 s, TwinT n s0 s → N ≤ s0.heap.next → Sim (trans n) k s0.heap.next (f0 s0) (f s)) :
    Sim (trans n) k N (PyM.get >>= f0) (PyM.get >>= f) := s_get hf

theorem s_warnT (w : TWarning) : Sim (trans n) plain N (warn w) (warn w) :=
  s_modify fun s0 s h _ => by
    have h : TwinT n s0 s := h
    exact ⟨⟨h.heap, h.labels, h.bound, by show s.log ++ _ = s0.log ++ _; rw [h.log]⟩, Nat.le_refl _⟩

theorem s_assignT (f : NodeRec → NodeRec) (hr : r < N)
    (h1 : ∀ a, f (shiftRec n a) = shiftRec n (f a))
    (h2 : ∀ a, (f a).parent = a.parent ∧ (f a).kids = a.kids ∧ (f a).target = a.target ∧ (f a).targets = a.targets) :
    Sim (trans n) plain N (assign r f) (assign (r + n) f) :=
  s_modify fun s0 s h hm => by
    have h : TwinT n s0 s := h
    have hm : N ≤ s0.heap.next := hm
    refine ⟨⟨h.heap.update (by omega) fun a ha => ⟨h1 a, ?_⟩, h.labels, h.bound, h.log⟩, Nat.le_refl _⟩
    obtain ⟨e1, e2, e3, e4⟩ := h2 a
    exact ⟨e1 ▸ ha.parent, e2 ▸ ha.kids, e3 ▸ ha.target, e4 ▸ ha.targets⟩

theorem lookup_shift (l : Str) : ∀ ls : List (Str × Ref), (shiftLabels n ls).lookup l = (ls.lookup l).map (· + n)
  | [] => rfl
  | (a, b) :: ls => by
    have ih := lookup_shift l ls
    unfold shiftLabels at ih ⊢
    rw [List.map_cons, List.lookup_cons, List.lookup_cons]
    cases l == a
    · exact ih
    · rfl

theorem lookup_mem {l : Str} : ∀ {ls : List (Str × Ref)} {x : Ref}, ls.lookup l = some x → (l, x) ∈ ls
  | [], _, h => by cases h
  | (a, b) :: ls, x, h => by
    rw [List.lookup_cons] at h
    by_cases e : l = a
    · subst e
      rw [beq_self_eq_true] at h
      cases h
      simp
    · rw [beq_eq_false_iff_ne.2 e] at h
      exact List.mem_cons_of_mem _ (lookup_mem h)

/-! ## `collect_labels` -/

theorem s_collectBody (hr : r < N) : Sim (trans n) plain N (collectBody r) (collectBody (r + n)) := by
  refine s_readT fun s0 s T hm => ?_
  rw [T.labels, T.heap.get r (by omega), show (shiftRec n (s0.heap.get r)).label = (s0.heap.get r).label from rfl]
  dsimp only
  rw [lookup_shift]
  refine s_ite (by simp) (fun _ => ?_) fun _ => ?_
  · exact s_then (s_warnT _) fun M _ hM => s_assignT _ (by omega) (fun _ => rfl) fun _ => ⟨rfl, rfl, rfl, rfl⟩
  · refine s_modify fun t0 t h hm2 => ?_
    have h : TwinT n t0 t := h
    have hm2 : s0.heap.next ≤ t0.heap.next := hm2
    refine ⟨⟨h.heap, ?_, fun p hp => ?_, h.log⟩, Nat.le_refl _⟩
    · show t.labels ++ _ = shiftLabels n (t0.labels ++ _)
      rw [h.labels]; simp [shiftLabels]
    · rcases List.mem_append.1 hp with hp | hp
      · exact h.bound p hp
      · cases List.mem_singleton.1 hp
        show r < t0.heap.next
        omega

/-- A loop of the transformer. -/
theorem s_travT {c : Heap → Ref → Bool} {b0 b : Ref → TM Unit} {k k' : Nat}
    (hc : ∀ h0 h r, Twin n h0 h → r < h0.next → c h (r + n) = c h0 r)
    (hb : ∀ M r, N ≤ M → r < M → Sim (trans n) plain M (b0 r) (b (r + n))) (hk : k ≤ k') (hr : r < N) :
    Sim (trans n) plain N (travLoop (·.heap) c b0 k [r]) (travLoop (·.heap) c b k' [r + n]) :=
  s_trav holding_trans hc hb hk (Nat.le_refl N) (st := [r]) fun x hx => by cases List.mem_singleton.1 hx; exact hr

theorem s_collectLabels {k k' : Nat} (hk : k ≤ k') (hr : r < N) :
    Sim (trans n) plain N (collectLabels k r) (collectLabels k' (r + n)) :=
  s_travT (fun h0 h r T hr => by rw [T.get r hr]; rfl) (fun _ _ _ h => s_collectBody h) hk hr

/-! ## `resolve_pending_references` -/

theorem s_labelTo {a : NodeRec} (l : Str) (h1 : a.parent = none) (h2 : a.kids = []) (h3 : ∀ x, a.target ≠ .node x)
    (h4 : a.targets = []) :
    Sim (trans n) (ref n) N
      (do let s ← PyM.get
          match s.labels.lookup l with
          | some r => pure r
          | none => do
            warn (.unknownLabel l)
            onHeap (Nodes.new a))
      (do let s ← PyM.get
          match s.labels.lookup l with
          | some r => pure r
          | none => do
            warn (.unknownLabel l)
            onHeap (Nodes.new a)) := by
  refine s_readT fun s0 s T hm => ?_
  rw [T.labels, lookup_shift]
  cases e : s0.labels.lookup l with
  | none => exact s_then (s_warnT _) fun M _ hM => s_onHeap (s_make h1 h2 h3 h4)
  | some x => exact s_pure (T.bound _ (lookup_mem e)) rfl

theorem s_labelToNode (l : Str) : Sim (trans n) (ref n) N (labelToNode l) (labelToNode l) :=
  s_labelTo l rfl rfl (fun _ h => by cases h) rfl

theorem s_labelToBibitem (l : Str) : Sim (trans n) (ref n) N (labelToBibitem l) (labelToBibitem l) :=
  s_labelTo l rfl rfl (fun _ h => by cases h) rfl

theorem s_mapM' {f : Str → TM Ref} (hf : ∀ M l, Sim (trans n) (ref n) M (f l) (f l)) : ∀ (l : List Str) {N : Nat},
    Sim (trans n) (list (ref n)) N (mapM' f l) (mapM' f l)
  | [], _ => s_pure (fun _ h => by cases h) rfl
  | x :: l, N => by
    refine s_bind (hf N x) fun M a hM ha => s_bind (s_mapM' hf l) fun K as hK has => s_pure (fun y hy => ?_) rfl
    rcases List.mem_cons.1 hy with rfl | hy
    · exact (ref n).mono hK ha
    · exact has y hy

/-- A new reference to a node. -/
theorem s_newRef {x : Ref} (s : Str) (hx : x < N) : Sim (heaps n) (ref n) N
    (Nodes.new { NodeRec.new .Reference with target := .node x, overwriteReftext := s })
    (Nodes.new { NodeRec.new .Reference with target := .node (x + n), overwriteReftext := s }) :=
  s_new (a := { NodeRec.new .Reference with target := .node x, overwriteReftext := s })
    ⟨fun _ h => (by cases h), fun _ h => (by cases h), fun y hy => (by cases hy; omega), fun _ h => (by cases h)⟩

theorem one_lt {x N : Nat} (h : x < N) : ∀ y ∈ [x], y < N := fun y hy => by cases List.mem_singleton.1 hy; exact h

theorem s_resolveReference (hr : r < N) : Sim (trans n) plain N (resolveReference r) (resolveReference (r + n)) := by
  refine s_readT fun s0 s T hm => ?_
  have hr : r < s0.heap.next := by omega
  rw [T.heap.get r hr, show (shiftRec n (s0.heap.get r)).target = shiftTarget n (s0.heap.get r).target from rfl]
  dsimp only
  have key : ∀ l : Str, Sim (trans n) plain s0.heap.next
      (do let target ← labelToNode l
          let s ← PyM.get
          if s.heap.isInst target .Error then onHeap (Nodes.replaceSelf r [target])
          else do
            let ref ← onHeap (Nodes.new { NodeRec.new .Reference with
              target := .node target, overwriteReftext := (s.heap.get r).overwriteReftext })
            onHeap (Nodes.replaceSelf r [ref]))
      (do let target ← labelToNode l
          let s ← PyM.get
          if s.heap.isInst target .Error then onHeap (Nodes.replaceSelf (r + n) [target])
          else do
            let ref ← onHeap (Nodes.new { NodeRec.new .Reference with
              target := .node target, overwriteReftext := (s.heap.get (r + n)).overwriteReftext })
            onHeap (Nodes.replaceSelf (r + n) [ref])) := by
    intro l
    refine s_bind (s_labelToNode l) fun M a hM ha => s_readT fun t0 t T2 hm2 => ?_
    have ha : a < M := ha
    show Sim _ _ _ _ (if t.heap.isInst (a + n) .Error then _ else _)
    rw [T2.heap.isInst (by omega)]
    refine s_ite Iff.rfl (fun _ => ?_) fun _ => ?_
    · exact s_onHeap (s_replaceSelf (cs := [a]) (by omega) (one_lt (by omega)))
    · rw [T2.heap.get r (by omega)]
      refine s_bind (s_onHeap (s_newRef _ (by omega))) fun K x hK hx => ?_
      exact s_onHeap (s_replaceSelf (cs := [x]) (by omega) (one_lt hx))
  cases (s0.heap.get r).target with
  | none => exact key _
  | str l => exact key _
  | node _ => exact s_throw _

theorem s_appendBacklink (l : Str) (hr : r < N) : Sim (trans n) plain N (appendBacklink l r) (appendBacklink l (r + n)) := by
  refine s_readT fun s0 s T hm => ?_
  rw [T.heap.isInst (by omega)]
  exact s_ite Iff.rfl (fun _ => s_assignT _ (by omega) (fun _ => rfl) fun _ => ⟨rfl, rfl, rfl, rfl⟩) fun _ => s_throw _

theorem s_resolveCite (k : Nat) (hr : r < N) : Sim (trans n) plain N (resolveCite k r) (resolveCite k (r + n)) := by
  refine s_readT fun s0 s T hm => ?_
  rw [T.heap.get r (by omega)]
  refine s_bind (s_mapM' (fun _ l => s_labelToBibitem l) _) fun M ts hM hts => ?_
  have hts : ∀ x ∈ ts, x < M := hts
  refine s_bind (k := ref n) (s_onHeap (s_new (n := n)
    (a := { NodeRec.new .Cite with targets := ts, label := citeLabel k }) ?_)) fun K x hK hx => ?_
  · exact ⟨fun _ h => (by cases h), fun _ h => (by cases h), fun _ h => (by cases h), fun y hy =>
      Nat.lt_succ_of_lt (hts y hy)⟩
  · refine s_then (s_onHeap (s_replaceSelf (cs := [x]) (by omega) (one_lt hx))) fun L _ hL => ?_
    exact s_forEach (k := ref n) (fun _ _ _ h => s_appendBacklink _ h) fun y hy => Nat.lt_of_lt_of_le (hts y hy) (by omega)

theorem s_resolvePrev {k k' : Nat} (hk : k ≤ k') (hr : r < N) :
    Sim (trans n) plain N (resolvePrev k r) (resolvePrev k' (r + n)) := by
  refine s_readT fun s0 s T hm => ?_
  have hr : r < s0.heap.next := by omega
  cases e : s0.heap.firstAncestorOfType [.Step] k r with
  | none => exact s_outOfFuel
  | some o =>
    obtain ⟨e2, hb⟩ := T.heap.firstAncestor _ hk hr e
    rw [e2]
    cases o with
    | none => exact s_throw _
    | some step =>
      have hs := hb step rfl
      simp only [Option.map_some]
      rw [T.heap.get r hr, show prevCount (shiftRec n (s0.heap.get r)) = prevCount (s0.heap.get r) by
        unfold prevCount
        rw [show (shiftRec n (s0.heap.get r)).target = shiftTarget n (s0.heap.get r).target from rfl]
        cases (s0.heap.get r).target <;> rfl]
      cases prevCount (s0.heap.get r) with
      | none => exact s_throw _
      | some m =>
        obtain ⟨e3, hb3⟩ := T.heap.prevSteps m.toNat hs
        simp only []
        rw [e3]
        cases e4 : prevSteps s0.heap m.toNat step with
        | error x => exact s_throw _
        | ok t =>
          have ht := hb3 t e4
          simp only [Except.map]
          rw [T.heap.get t ht]
          have key : ∀ M (u : Unit), s0.heap.next ≤ M → Sim (trans n) plain M
              (do let ref ← onHeap (Nodes.new { NodeRec.new .Reference with
                    target := .node t, overwriteReftext := (s0.heap.get r).overwriteReftext })
                  onHeap (Nodes.replaceSelf r [ref]))
              (do let ref ← onHeap (Nodes.new { NodeRec.new .Reference with
                    target := .node (t + n), overwriteReftext := (s0.heap.get r).overwriteReftext })
                  onHeap (Nodes.replaceSelf (r + n) [ref])) := fun M _ hM =>
            s_bind (s_onHeap (s_newRef _ (by omega))) fun K x hK hx =>
              s_onHeap (s_replaceSelf (cs := [x]) (by omega) (one_lt hx))
          exact s_ite Iff.rfl (fun _ => s_then (s_warnT _) key) fun _ => key _ () (Nat.le_refl _)

theorem Twin.isPending {h0 h : Heap} (T : Twin n h0 h) (hr : r < h0.next) : isPending h (r + n) = isPending h0 r := by
  unfold Transformer.isPending; rw [T.get r hr]; rfl

/-- The loop over the references. -/
def resolving (n : Nat) : Pairing ResolveState := ⟨fun s => s.t.heap.next, fun s0 s => TwinT n s0.t s.t ∧ s.counter = s0.counter⟩

theorem lens_resolving : Lens (resolving n) (trans n) (·.t) (fun t s => { s with t := t }) where
  get _ _ h := h.1
  size _ := rfl
  set _ _ _ _ h h2 _ := ⟨h2, h.2⟩
  resize _ _ := rfl

theorem s_onT {α : Type} {k : Kind α} {m0 m : TM α} (h : Sim (trans n) k N m0 m) :
    Sim (resolving n) k N (onT m0) (onT m) :=
  s_zoom lens_resolving h

theorem s_resolveBody {k k' : Nat} (hk : k ≤ k') (hr : r < N) :
    Sim (resolving n) plain N (resolveBody k r) (resolveBody k' (r + n)) := by
  refine s_get fun s0 s T hm => ?_
  obtain ⟨T, e⟩ := T
  have hm : N ≤ s0.t.heap.next := hm
  rw [T.heap.isInst (by omega), T.heap.isInst (by omega), T.heap.isInst (by omega), e]
  refine s_ite Iff.rfl (fun _ => s_onT (s_resolveReference (by show r < s0.t.heap.next; omega))) fun _ => s_ite Iff.rfl (fun _ => ?_) fun _ =>
    s_ite Iff.rfl (fun _ => s_onT (s_resolvePrev hk (by show r < s0.t.heap.next; omega))) fun _ => s_unit
  refine s_then (s_modify fun t0 t h _ => ⟨⟨h.1, ?_⟩, Nat.le_refl _⟩) fun M _ hM => s_onT (s_resolveCite _ ?_)
  · show t.counter + 1 = t0.counter + 1
    rw [h.2]
  · have hM : s0.t.heap.next ≤ M := hM
    omega

/-- Forget the variables of a loop. -/
def finish {σ : Type} (out : σ → TState) : Res σ Unit → Res TState Unit
  | .ok _ s => .ok () (out s)
  | .err e s => .err e (out s)

/-- Code with variables of its own. -/
theorem s_local {σ : Type} {ρ : Pairing σ} {m0 m : PyM σ Unit} {out : σ → TState} {inj : TState → σ} {c0 c : TM Unit}
    (h0 : ∀ t, c0 t = finish out (m0 (inj t)))
    (h1 : ∀ t, c t = finish out (m (inj t)))
    (hi : ∀ t0 t, TwinT n t0 t → ρ.rel (inj t0) (inj t) ∧ ρ.size (inj t0) = t0.heap.next)
    (ho : ∀ s0 s, ρ.rel s0 s → TwinT n (out s0) (out s) ∧ ρ.size s0 = (out s0).heap.next)
    (hm : Sim ρ plain N m0 m) : Sim (trans n) plain N c0 c := by
  intro t0 t T hn
  rw [h0, h1]
  obtain ⟨h2, h3⟩ := hi t0 t T
  have := hm _ _ h2 (by rw [h3]; exact hn)
  rw [h3] at this
  generalize m0 (inj t0) = x at this
  generalize m (inj t) = y at this
  cases this with
  | ok a b c d =>
    obtain ⟨o1, o2⟩ := ho _ _ a
    exact .ok o1 (by rw [o2] at b; exact b) trivial rfl
  | err a b =>
    obtain ⟨o1, o2⟩ := ho _ _ a
    exact .err o1 (by rw [o2] at b; exact b)
  | fuel => exact .fuel

theorem s_resolvePendingReferences {k k' : Nat} (hk : k ≤ k') (hr : r < N) :
    Sim (trans n) plain N (resolvePendingReferences k r) (resolvePendingReferences k' (r + n)) := by
  refine s_then ?_ fun M _ hM => ?_
  · refine s_local (ρ := resolving n) (m0 := travLoop (·.t.heap) isPending (resolveBody k) k [r])
      (m := travLoop (·.t.heap) isPending (resolveBody k') k' [r + n]) (out := (·.t)) (inj := fun t => { t := t })
      (fun t => by unfold runResolve; cases travLoop _ _ _ _ _ _ <;> rfl)
      (fun t => by unfold runResolve; cases travLoop _ _ _ _ _ _ <;> rfl) (fun t0 t h => ⟨⟨h, rfl⟩, rfl⟩) (fun s0 s h => ⟨h.1, rfl⟩) ?_
    exact s_trav (ρ := resolving n) ⟨fun _ _ h => h.1.heap, fun _ => rfl⟩ (fun h0 h r T hr => T.isPending hr) (fun _ _ _ h => s_resolveBody hk h) hk
      (Nat.le_refl N) (st := [r]) (one_lt hr)
  · exact s_travT (fun h0 h r T hr => T.isPending hr) (fun _ _ _ _ => s_throw _) hk (by omega)

/-! ## `add_necessary_subproofs` -/

theorem s_subproofBody (hr : r < N) : Sim (trans n) plain N (subproofBody r) (subproofBody (r + n)) := by
  refine s_readT fun s0 s T hm => ?_
  have hr : r < s0.heap.next := by omega
  rw [T.heap.children hr, T.heap.firstOfType hr]
  have hk := T.heap.kid hr
  refine s_ite (by simp) (fun _ => s_unit) fun _ => ?_
  dsimp only
  rw [List.length_map]
  generalize hj : (s0.heap.children r).length = j
  rcases s0.heap.firstOfType r [.Step, .Subproof] with _ | ⟨y, i⟩
  all_goals
    simp only [Option.map_none, Option.map_some]
    rw [← List.map_take, ← List.map_drop, List.getElem?_map]
    refine s_then (s_onHeap (s_clear hr)) fun M _ hM => ?_
    refine s_bind (s_onHeap (s_makeNew _)) fun K st hK hst => ?_
    have hst : st < K := hst
    refine s_then (s_onHeap (s_appendAll hst fun c hc => Nat.lt_of_lt_of_le (hk c (List.mem_of_mem_take hc)) (by omega)))
      fun L _ hL => ?_
    refine s_then (s_assignT _ (by omega) (fun _ => rfl) fun _ => ⟨rfl, rfl, rfl, rfl⟩) fun L2 _ hL2 => ?_
    generalize e : (s0.heap.children r)[(_ : Nat)]? = o
    cases o with
    | none => exact s_onHeap (s_append (by omega) (by omega))
    | some c =>
      have hc := hk c (List.mem_of_getElem? e)
      refine s_readT fun t0 t T2 hm2 => ?_
      show Sim _ _ _ _ (if t.heap.isInst (c + n) _ then _ else if t.heap.isInst (c + n) _ then _ else _)
      rw [T2.heap.isInst (by omega), T2.heap.isInst (by omega)]
      refine s_ite Iff.rfl (fun _ => ?_) fun _ => s_ite Iff.rfl (fun _ => s_ite Iff.rfl (fun _ => ?_) fun _ => s_throw _) fun _ => s_throw _
      · refine s_bind (s_onHeap (s_makeNew _)) fun K2 sp hK2 hsp => ?_
        have hsp : sp < K2 := hsp
        refine s_then (s_onHeap (s_appendAll hsp fun c hc => Nat.lt_of_lt_of_le (hk c (List.mem_of_mem_drop hc)) (by omega)))
          fun L3 _ hL3 => ?_
        refine s_onHeap (s_appendAll (cs := [st, sp]) (by omega) fun c hc => ?_)
        simp only [List.mem_cons, List.not_mem_nil, or_false] at hc
        rcases hc with rfl | rfl <;> omega
      · refine s_onHeap (s_appendAll (cs := [st, c]) (by omega) fun c hc => ?_)
        simp only [List.mem_cons, List.not_mem_nil, or_false] at hc
        rcases hc with rfl | rfl <;> omega

theorem s_addNecessarySubproofs {k k' : Nat} (hk : k ≤ k') (hr : r < N) :
    Sim (trans n) plain N (addNecessarySubproofs k r) (addNecessarySubproofs k' (r + n)) :=
  s_travT (fun h0 h r T hr => T.isInst hr _) (fun _ _ _ h => s_subproofBody h) hk hr

/-! ## `autonumber_nodes` -/

/-- The loop that numbers. -/
def numbering (n : Nat) : Pairing NumberState :=
  ⟨fun s => s.t.heap.next, fun s0 s => TwinT n s0.t s.t ∧ s.counts = s0.counts ∧ s.withinAppendix = s0.withinAppendix⟩

theorem s_numberBody (hr : r < N) : Sim (numbering n) plain N (numberBody r) (numberBody (r + n)) := by
  intro s0 s T hm
  obtain ⟨t0, c0, w0⟩ := s0
  obtain ⟨t, c, w⟩ := s
  obtain ⟨T, e1, e2⟩ := T
  simp only [] at T e1 e2
  subst e1 e2
  have hr : r < t0.heap.next := Nat.lt_of_lt_of_le hr hm
  unfold numberBody
  simp only []
  rw [T.heap.get r hr, show (shiftRec n (t0.heap.get r)).cls = (t0.heap.get r).cls from rfl,
    show (shiftRec n (t0.heap.get r)).nonum = (t0.heap.get r).nonum from rfl, T.heap.isInst hr, T.heap.isInst hr,
    T.heap.isInstAny hr]
  split
  · exact .ok ⟨T, rfl, rfl⟩ (Nat.le_refl _) trivial rfl
  split
  · rw [T.heap.children hr]
    have e : ((t0.heap.children r).map (· + n)).filter (fun x => t.heap.isInst x .Step) =
        ((t0.heap.children r).filter (fun x => t0.heap.isInst x .Step)).map (· + n) := by
      rw [List.filter_map]
      refine congrArg _ (List.filter_congr fun x hx => ?_)
      exact T.heap.isInst (T.heap.kid hr x hx) _
    rw [e]
    have := Twin.numberSteps (l := (t0.heap.children r).filter (fun x => t0.heap.isInst x .Step)) 1 T.heap
      fun x hx => T.heap.kid hr x (List.mem_filter.1 hx).1
    refine .ok ⟨⟨this.1, T.labels, fun p hp => ?_, T.log⟩, rfl, rfl⟩ ?_ trivial rfl
    · rw [this.2]; exact T.bound p hp
    · exact Nat.le_of_eq this.2.symm
  split
  · exact .ok ⟨T, rfl, rfl⟩ (Nat.le_refl _) trivial rfl
  split
  · generalize e : Counters.value _ _ = v
    cases v with
    | none => exact .err ⟨T, rfl, rfl⟩ (Nat.le_refl _)
    | some num =>
      have T1 : Twin n (t0.heap.update r fun n => { n with number := num })
          (t.heap.update (r + n) fun n => { n with number := num }) :=
        T.heap.update hr fun a ha => ⟨rfl, ha.parent, ha.kids, ha.target, ha.targets⟩
      simp only []
      rw [T1.isInst hr]
      refine .ok ⟨⟨?_, T.labels, fun p hp => ?_, T.log⟩, rfl, rfl⟩ ?_ trivial rfl
      · simp only []
        split
        · exact T1.update hr fun a ha => ⟨rfl, ha.parent, ha.kids, ha.target, ha.targets⟩
        · exact T1
      · simp only []
        split <;> exact T.bound p hp
      · simp only [numbering]
        split <;> exact Nat.le_refl _
  · exact .ok ⟨T, rfl, rfl⟩ (Nat.le_refl _) trivial rfl

theorem s_autonumberNodes {k k' : Nat} (hk : k ≤ k') (hr : r < N) :
    Sim (trans n) plain N (autonumberNodes k r) (autonumberNodes k' (r + n)) := by
  refine s_local (ρ := numbering n) (m0 := travLoop (·.t.heap) (fun _ _ => true) numberBody k [r])
      (m := travLoop (·.t.heap) (fun _ _ => true) numberBody k' [r + n]) (out := (·.t)) (inj := fun t => { t := t })
      (fun t => by unfold autonumberNodes; cases travLoop _ _ _ _ _ _ <;> rfl)
      (fun t => by unfold autonumberNodes; cases travLoop _ _ _ _ _ _ <;> rfl) (fun t0 t h => ⟨⟨h, rfl, rfl⟩, rfl⟩) (fun s0 s h => ⟨h.1, rfl⟩) ?_
  exact s_trav (ρ := numbering n) ⟨fun _ _ h => h.1.heap, fun _ => rfl⟩ (fun _ _ _ _ _ => rfl) (fun _ _ _ h => s_numberBody h) hk
      (Nat.le_refl N) (st := [r]) (one_lt hr)

end Trans
end History
end RSM
