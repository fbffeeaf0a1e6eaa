import Verif.Lemmas.SimTrans

/-!
# The rest of the transformer, side by side

For C87.
-/

namespace RSM
namespace History
open PyM Transformer

section
variable {n N : Nat} {r : Ref}

/-! ## `make_toc` -/

/-- The loops that make the table of contents. -/
structure TwinToc (n : Nat) (s0 s : TocState) : Prop where
  t : TwinT n s0.t s.t
  toc : s.toc = s0.toc.map (· + n)
  tocLt : ∀ x ∈ s0.toc, x < s0.t.heap.next
  current : s.current = s0.current.map (· + n)
  currentLt : ∀ x ∈ s0.current, x < s0.t.heap.next

/-- Code of those loops. -/
def tocs (n : Nat) : Pairing TocState := ⟨fun s => s.t.heap.next, TwinToc n⟩

theorem lens_tocs : Lens (tocs n) (heaps n) (·.t.heap) (fun h s => { s with t := { s.t with heap := h } }) where
  get _ _ h := (TwinToc.t h).heap
  size _ := rfl
  set s0 s t0 t h T hm := by
    have h : TwinToc n s0 s := h
    exact ⟨⟨T, h.t.labels, fun p hp => Nat.lt_of_lt_of_le (h.t.bound p hp) hm, h.t.log⟩, h.toc,
      fun x hx => Nat.lt_of_lt_of_le (h.tocLt x hx) hm, h.current, fun x hx => Nat.lt_of_lt_of_le (h.currentLt x hx) hm⟩
  resize _ _ := rfl

theorem holding_tocs : Holding n (tocs n) (·.t.heap) := ⟨fun _ _ h => (TwinToc.t h).heap, fun _ => rfl⟩

theorem s_tocHeap {α : Type} {k : Kind α} {m0 m : HeapM α} (h : Sim (heaps n) k N m0 m) :
    Sim (tocs n) k N (tocHeap m0) (tocHeap m) := s_zoom lens_tocs h

theorem s_readToc {α : Type} {k : Kind α} {f0 f : TocState → PyM TocState α}
    (hf : ∀ s0 s, TwinToc n s0 s → N ≤ s0.t.heap.next → Sim (tocs n) k s0.t.heap.next (f0 s0) (f s)) :
    Sim (tocs n) k N (PyM.get >>= f0) (PyM.get >>= f) := s_get hf

theorem s_tocFindBody (hr : r < N) : Sim (tocs n) plain N (tocFindBody r) (tocFindBody (r + n)) := by
  refine s_readToc fun s0 s T hm => ?_
  rw [T.toc]
  cases s0.toc with
  | none =>
    refine s_modify fun t0 t h hm2 => ⟨?_, Nat.le_refl _⟩
    have h : TwinToc n t0 t := h
    have hm2 : s0.t.heap.next ≤ t0.t.heap.next := hm2
    exact ⟨h.t, rfl, fun x hx => by cases hx; show r < t0.t.heap.next; omega, h.current, h.currentLt⟩
  | some x =>
    refine s_then (s_modify fun t0 t h hm2 => ⟨?_, Nat.le_refl _⟩) fun M _ hM => s_tocHeap (s_removeSelf (by omega))
    have h : TwinToc n t0 t := h
    exact ⟨⟨h.t.heap, h.t.labels, h.t.bound, by show t.t.log ++ _ = t0.t.log ++ _; rw [h.t.log]⟩, h.toc, h.tocLt, h.current, h.currentLt⟩

theorem s_parentOf {x : Option Ref} (hx : ∀ y ∈ x, y < N) :
    Sim (tocs n) (opt (ref n)) N (parentOf x) (parentOf (x.map (· + n))) := by
  cases x with
  | none => exact s_throw _
  | some y =>
    have hy := hx y rfl
    refine s_readToc fun s0 s T hm => ?_
    rw [T.t.heap.parent (by omega)]
    exact s_pure (T.t.heap.par (by omega)) rfl

theorem s_climb : Sim (tocs n) plain N climb climb := by
  refine s_readToc fun s0 s T hm => ?_
  rw [T.current]
  refine s_bind (s_parentOf T.currentLt) fun M p hM hp => s_bind (s_parentOf hp) fun K q hK hq => ?_
  refine s_modify fun t0 t h hm2 => ⟨?_, Nat.le_refl _⟩
  have h : TwinToc n t0 t := h
  have hm2 : K ≤ t0.t.heap.next := hm2
  exact ⟨h.t, h.toc, h.tocLt, rfl, fun x hx => Nat.lt_of_lt_of_le (hq x hx) hm2⟩

theorem s_appendCurrent (hr : r < N) : Sim (tocs n) plain N (appendCurrent r) (appendCurrent (r + n)) := by
  refine s_readToc fun s0 s T hm => ?_
  have hc := T.currentLt
  rw [T.current]
  cases e : s0.current with
  | none => exact s_throw _
  | some p => exact s_tocHeap (s_append (hc p e) (by omega))

theorem s_isLastInParent (c : Cls) (hr : r < N) :
    Sim (tocs n) plain N (isLastInParent r c) (isLastInParent (r + n) c) := by
  refine s_bind (s_parentOf (x := some r) fun y hy => by cases hy; exact hr) fun M p hM hp => ?_
  cases p with
  | none => exact s_throw _
  | some p =>
    have hp : p < M := hp p rfl
    refine s_readToc fun s0 s T hm => ?_
    show Sim _ _ _ _ (pure ((s.t.heap.lastOfType (p + n) [c]).map (·.1) == some (r + n)))
    rw [T.t.heap.lastOfType (by omega)]
    refine s_pure trivial ?_
    show _ = ((s0.t.heap.lastOfType p [c]).map (·.1) == some r)
    rw [← opt_beq (n := n) ((s0.t.heap.lastOfType p [c]).map (·.1)) (some r), Option.map_map, Option.map_map]
    rfl

theorem Twin.tocText {h0 h : Heap} (T : Twin n h0 h) {k k' : Nat} {x : Str} (hk : k ≤ k') (hr : r < h0.next)
    (hx : tocText k h0 r = some x) : tocText k' h (r + n) = some x := by
  unfold Transformer.tocText at hx ⊢
  rw [T.get r hr, show (shiftRec n (h0.get r)).nonum = (h0.get r).nonum from rfl,
    show (shiftRec n (h0.get r)).title = (h0.get r).title from rfl]
  split at hx
  · rename_i e; rw [if_pos e]; exact hx
  · rename_i e
    rw [if_neg e]
    cases e2 : h0.fullNumber k r with
    | none => rw [e2] at hx; cases hx
    | some full =>
      rw [e2] at hx
      rw [T.fullNumber hk hr e2]
      exact hx

theorem s_openList (hr : r < N) : Sim (tocs n) plain N (openList r) (openList (r + n)) := by
  refine s_bind (s_tocHeap (s_makeNew _)) fun M x hM hx => ?_
  have hx : x < M := hx
  refine s_then (s_tocHeap (s_append (by omega) hx)) fun K _ hK => ?_
  refine s_modify fun t0 t h hm2 => ⟨?_, Nat.le_refl _⟩
  have h : TwinToc n t0 t := h
  have hm2 : K ≤ t0.t.heap.next := hm2
  exact ⟨h.t, h.toc, h.tocLt, rfl, fun y hy => by cases hy; show x < t0.t.heap.next; omega⟩

theorem some_shift {α : Type} {o : Option α} {f : α → α} : (o.map f).isSome = o.isSome := by cases o <;> rfl

theorem s_tocBody {k k' : Nat} {toc : Ref} (hk : k ≤ k') (ht : toc < N) (hr : r < N) :
    Sim (tocs n) plain N (tocBody k toc r) (tocBody k' (toc + n) (r + n)) := by
  refine s_bind (s_tocHeap (s_makeNew _)) fun M item hM hi => ?_
  have hi : item < M := hi
  refine s_readToc fun s0 s T hm => ?_
  have hr : r < s0.t.heap.next := by omega
  cases e : tocText k s0.t.heap r with
  | none => exact s_outOfFuel
  | some text =>
    rw [T.t.heap.tocText hk hr e]
    refine s_bind (s_tocHeap (s_newRef _ hr)) fun M2 x hM2 hx => ?_
    refine s_then (s_tocHeap (s_append (c := x) (r := item) (by omega) hx)) fun M3 _ hM3 => ?_
    rw [T.t.heap.isInst hr, T.t.heap.isInst hr, T.t.heap.isInst hr]
    refine s_ite Iff.rfl (fun _ => ?_) fun _ => s_ite Iff.rfl (fun _ => ?_) fun _ => s_ite Iff.rfl (fun _ => ?_) fun _ => s_throw _
    · refine s_then (s_appendCurrent (by omega)) fun M4 _ hM4 => s_then (s_isLastInParent _ (by omega)) fun M5 b hM5 => ?_
      exact s_ite Iff.rfl (fun _ => s_climb) fun _ => s_unit
    · refine s_then (s_appendCurrent (by omega)) fun M4 _ hM4 => s_readToc fun t0 t T2 hm2 => ?_
      rw [T2.t.heap.firstOfType (by omega), some_shift]
      refine s_ite Iff.rfl (fun _ => s_openList (by omega)) fun _ => s_then (s_isLastInParent _ (by omega)) fun M5 b hM5 => ?_
      exact s_ite Iff.rfl (fun _ => s_climb) fun _ => s_unit
    · refine s_then (s_tocHeap (s_append (by omega) (by omega))) fun M4 _ hM4 => s_readToc fun t0 t T2 hm2 => ?_
      rw [T2.t.heap.firstOfType (by omega), some_shift]
      exact s_ite Iff.rfl (fun _ => s_openList (by omega)) fun _ => s_unit

theorem s_makeToc {k k' : Nat} (hk : k ≤ k') (hr : r < N) : Sim (trans n) plain N (makeToc k r) (makeToc k' (r + n)) := by
  intro t0 t T hn
  have T : TwinT n t0 t := T
  have hn : N ≤ t0.heap.next := hn
  unfold makeToc
  have h1 := s_trav (ρ := tocs n) holding_tocs (c := fun h r => h.isInst r .Contents) (b0 := tocFindBody) (b := tocFindBody)
    (fun _ _ _ T hr => T.isInst hr _) (fun _ _ _ h => s_tocFindBody h) hk (Nat.le_refl N) (st := [r]) (one_lt hr)
    { t := t0 } { t := t } ⟨T, rfl, fun _ h => (by cases h), rfl, fun _ h => (by cases h)⟩ hn
  simp only [List.map_cons, List.map_nil] at h1
  generalize travLoop (·.t.heap) (fun h r => h.isInst r .Contents) tocFindBody k [r] { t := t0 } = x at h1
  generalize travLoop (·.t.heap) (fun h r => h.isInst r .Contents) tocFindBody k' [r + n] { t := t } = y at h1
  cases h1 with
  | fuel => exact .fuel
  | err a b => exact .err (TwinToc.t a) b
  | ok a b c d =>
    rename_i u v s0 s
    have a : TwinToc n s0 s := a
    have b : t0.heap.next ≤ s0.t.heap.next := b
    simp only []
    rw [a.toc]
    cases e : s0.toc with
    | none => exact .ok a.t b trivial rfl
    | some toc =>
      have ht := a.tocLt toc e
      simp only [Option.map_some]
      have h2 := s_trav (ρ := tocs n) holding_tocs (c := fun h r => h.isInst r .Section) (b0 := tocBody k toc) (b := tocBody k' (toc + n))
        (fun _ _ _ T hr => T.isInst hr _) (fun M r hM h => s_tocBody hk (by omega) h) hk (Nat.le_refl s0.t.heap.next) (st := [r])
        (one_lt (by omega)) { s0 with current := some toc } { s with current := some (toc + n) }
        ⟨a.t, by show s.toc = _; rw [a.toc], a.tocLt, rfl, fun _ h => by cases h; exact ht⟩ (Nat.le_refl _)
      rw [show s.toc = some (toc + n) by rw [a.toc, e]; rfl] at h2
      simp only [List.map_cons, List.map_nil, e] at h2
      generalize travLoop (·.t.heap) (fun h r => h.isInst r .Section) (tocBody k toc) k [r] _ = x at h2 ⊢
      generalize travLoop (·.t.heap) (fun h r => h.isInst r .Section) (tocBody k' (toc + n)) k' [r + n] _ = y at h2 ⊢
      cases h2 with
      | fuel => exact .fuel
      | err a2 b2 => exact .err (TwinToc.t a2) (Nat.le_trans b b2)
      | ok a2 b2 c2 d2 => exact .ok (TwinToc.t a2) (Nat.le_trans b b2) trivial rfl

/-! ## `add_keywords_to_constructs`, `add_handrail_depth`, `assign_node_ids` -/

theorem s_keywordBody (hr : r < N) : Sim (trans n) plain N (keywordBody r) (keywordBody (r + n)) := by
  refine s_readT fun s0 s T hm => ?_
  rw [T.heap.get r (by omega), show (shiftRec n (s0.heap.get r)).kind = (s0.heap.get r).kind from rfl]
  refine s_ite Iff.rfl (fun _ => s_throw _) fun _ => ?_
  refine s_then (s_assignT _ (by omega) (fun _ => rfl) fun _ => ⟨rfl, rfl, rfl, rfl⟩) fun M _ hM => ?_
  exact s_ite Iff.rfl (fun _ => s_assignT _ (by omega) (fun _ => rfl) fun _ => ⟨rfl, rfl, rfl, rfl⟩) fun _ => s_unit

theorem s_addKeywords {k k' : Nat} (hk : k ≤ k') (hr : r < N) :
    Sim (trans n) plain N (addKeywordsToConstructs k r) (addKeywordsToConstructs k' (r + n)) :=
  s_travT (fun h0 h r T hr => T.isInst hr _) (fun _ _ _ h => s_keywordBody h) hk hr

theorem s_handrailInner {k k' : Nat} {d : Ref} (hk : k ≤ k') (hr : r < N) (hd : d < N) :
    Sim (trans n) plain N (handrailInner k r d) (handrailInner k' (r + n) (d + n)) := by
  refine s_readT fun s0 s T hm => ?_
  cases e : s0.heap.pyEq k d r with
  | none => exact s_outOfFuel
  | some b =>
    rw [T.heap.pyEq hk (by omega) (by omega) e]
    cases b with
    | true => exact s_unit
    | false => exact s_assignT _ (by omega) (fun _ => rfl) fun _ => ⟨rfl, rfl, rfl, rfl⟩

theorem s_addHandrailDepth {k k' : Nat} (hk : k ≤ k') (hr : r < N) :
    Sim (trans n) plain N (addHandrailDepth k r) (addHandrailDepth k' (r + n)) := by
  refine s_each (fun M c hM => ?_) _
  refine s_travT (fun h0 h r T hr => T.isInst hr _) (fun K x hK hx => ?_) hk (by omega)
  exact s_travT (fun h0 h r T hr => rfl) (fun L y hL hy => s_handrailInner hk (by omega) hy) hk hx

/-- The loop that gives ids. -/
def idents (n : Nat) : Pairing IdState := ⟨fun s => s.t.heap.next, fun s0 s => TwinT n s0.t s.t ∧ s.nodeid = s0.nodeid⟩

theorem s_idBody (hr : r < N) : Sim (idents n) plain N (idBody r) (idBody (r + n)) := by
  intro s0 s T hm
  have hm : N ≤ s0.t.heap.next := hm
  refine .ok ⟨⟨?_, T.1.labels, T.1.bound, T.1.log⟩, ?_⟩ (Nat.le_refl _) trivial rfl
  · rw [T.2]
    exact T.1.heap.update (f0 := fun a => { a with nodeid := some s0.nodeid }) (f := fun a => { a with nodeid := some s0.nodeid }) (Nat.lt_of_lt_of_le hr hm) fun a ha =>
      ⟨rfl, ha.parent, ha.kids, ha.target, ha.targets⟩
  · show s.nodeid + 1 = s0.nodeid + 1
    rw [T.2]

theorem s_assignNodeIds {k k' : Nat} (hk : k ≤ k') (hr : r < N) :
    Sim (trans n) plain N (assignNodeIds k r) (assignNodeIds k' (r + n)) := by
  refine s_local (ρ := idents n) (m0 := travLoop (·.t.heap) (fun _ _ => true) idBody k [r])
      (m := travLoop (·.t.heap) (fun _ _ => true) idBody k' [r + n]) (out := (·.t)) (inj := fun t => { t := t })
      (fun t => by unfold assignNodeIds; cases travLoop _ _ _ _ _ _ <;> rfl)
      (fun t => by unfold assignNodeIds; cases travLoop _ _ _ _ _ _ <;> rfl) (fun t0 t h => ⟨⟨h, rfl⟩, rfl⟩) (fun s0 s h => ⟨h.1, rfl⟩) ?_
  exact s_trav (ρ := idents n) ⟨fun _ _ h => h.1.heap, fun _ => rfl⟩ (fun _ _ _ _ _ => rfl) (fun _ _ _ h => s_idBody h) hk
      (Nat.le_refl N) (st := [r]) (one_lt hr)

theorem s_transform {k k' : Nat} (hk : k ≤ k') (hr : r < N) :
    Sim (trans n) plain N (transform k r) (transform k' (r + n)) :=
  s_then (s_collectLabels hk hr) fun _ _ _ => s_then (s_resolvePendingReferences hk (by omega)) fun _ _ _ =>
  s_then (s_addNecessarySubproofs hk (by omega)) fun _ _ _ => s_then (s_autonumberNodes hk (by omega)) fun _ _ _ =>
  s_then (s_makeToc hk (by omega)) fun _ _ _ => s_then (s_addKeywords hk (by omega)) fun _ _ _ =>
  s_then (s_addHandrailDepth hk (by omega)) fun _ _ _ => s_assignNodeIds hk (by omega)

end
end History
end RSM
