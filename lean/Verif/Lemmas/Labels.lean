import Verif.Lemmas.Traverse
import Verif.Spec.Transform

/-! Helper lemmas for `collect_labels`. -/

namespace RSM
open PyM Tree Transformer

namespace Transformer

theorem collectBody_apply (r : Ref) (s : TState) :
    collectBody r s =
      if (s.labels.lookup (s.heap.get r).label).isSome then
        .ok () { s with
          heap := s.heap.update r fun n => { n with label := [] }
          log := s.log ++ [.duplicateLabel (s.heap.get r).label] }
      else .ok () { s with labels := s.labels ++ [((s.heap.get r).label, r)] } := by
  simp only [collectBody, bind_apply, get_apply]
  split
  · rfl
  · rfl

/-- `x` keeps its label: the index `L0` does not know it and `x` is its first carrier in `all`. -/
def keeps (h : Heap) (L0 : List (Str × Ref)) (all : List Ref) (x : Ref) : Bool :=
  (L0.lookup (h.get x).label).isNone &&
    (all.find? fun y => (h.get y).label == (h.get x).label) == some x

def labelled (h : Heap) (x : Ref) : Bool := !(h.get x).label.isEmpty

structure CollectInv (h : Heap) (L0 : List (Str × Ref)) (log0 : List TWarning) (all done : List Ref)
    (s : TState) : Prop where
  next : s.heap.next = h.next
  get : ∀ x, s.heap.get x =
    if x ∈ done ∧ labelled h x = true ∧ keeps h L0 all x = false then { h.get x with label := [] }
    else h.get x
  labels : s.labels = L0 ++
    (done.filter fun x => labelled h x && keeps h L0 all x).map fun x => ((h.get x).label, x)
  log : s.log = log0 ++
    (done.filter fun x => labelled h x && !keeps h L0 all x).map
      fun x => .duplicateLabel (h.get x).label

theorem find?_split_nodup {all done todo : List Ref} {r : Ref} (hall : all = done ++ r :: todo)
    (P : Ref → Bool) (hr : P r = true) :
    all.find? P = some r ∨ ∃ y ∈ done, all.find? P = some y := by
  subst hall
  rw [List.find?_append]
  cases h : done.find? P with
  | none => left; simp [hr]
  | some y => right; exact ⟨y, List.mem_of_find?_eq_some h, rfl⟩

theorem lookup_collect {h : Heap} {L0 : List (Str × Ref)} {all done todo : List Ref} {r : Ref}
    (hall : all = done ++ r :: todo) (hnd : all.Nodup) (hl : labelled h r = true) :
    ((L0 ++ (done.filter fun x => labelled h x && keeps h L0 all x).map
      fun x => ((h.get x).label, x)).lookup (h.get r).label).isSome = !keeps h L0 all r := by
  have hr_done : r ∉ done := by
    subst hall
    exact fun hm => (List.disjoint_of_nodup_append hnd) hm (by simp)
  rw [List.lookup_append]
  cases hL : L0.lookup (h.get r).label with
  | some y => simp [keeps, hL]
  | none =>
    simp only [Option.none_or]
    rcases find?_split_nodup hall (fun y => (h.get y).label == (h.get r).label) (by simp) with
      hf | ⟨y, hy, hf⟩
    · have hk : keeps h L0 all r = true := by simp [keeps, hL, hf]
      rw [hk, Bool.not_true, Option.isSome_eq_false_iff, Option.isNone_iff_eq_none,
        List.lookup_eq_none_iff]
      intro p hp
      simp only [List.mem_map, List.mem_filter, Bool.and_eq_true] at hp
      obtain ⟨z, ⟨hz, hzl, hzk⟩, rfl⟩ := hp
      simp only [bne_iff_ne, ne_eq]
      intro heq
      simp only [keeps, ← heq, hf, Bool.and_eq_true, beq_iff_eq, Option.some.injEq] at hzk
      exact hr_done (hzk.2 ▸ hz)
    · have hne : y ≠ r := fun e => hr_done (e ▸ hy)
      have hk : keeps h L0 all r = false := by simp [keeps, hL, hf, hne]
      rw [hk, Bool.not_false, List.lookup_isSome_iff]
      have hly : (h.get y).label = (h.get r).label := by
        simpa using List.find?_some hf
      refine ⟨((h.get y).label, y), ?_, by simp [hly]⟩
      simp only [List.mem_map, List.mem_filter, Bool.and_eq_true]
      refine ⟨y, ⟨hy, ?_, ?_⟩, rfl⟩
      · simpa [labelled, hly] using hl
      · simp [keeps, hly, hL, hf]

theorem collect_step {h : Heap} {L0 : List (Str × Ref)} {log0} {all done todo : List Ref} {r : Ref}
    (hall : all = done ++ r :: todo) (hnd : all.Nodup) {s : TState}
    (I : CollectInv h L0 log0 all done s) :
    (if !(s.heap.get r).label.isEmpty then collectBody r s else .ok () s).Sat
      (fun _ s' => CollectInv h L0 log0 all (done ++ [r]) s') (fun _ _ => False) := by
  have hr_done : r ∉ done := by
    subst hall
    exact fun hm => (List.disjoint_of_nodup_append hnd) hm (by simp)
  have hgr : s.heap.get r = h.get r := by rw [I.get]; simp [hr_done]
  rw [hgr]
  by_cases hl : labelled h r = true
  · rw [if_pos (by simpa [labelled] using hl), collectBody_apply, hgr, I.labels,
      lookup_collect hall hnd hl]
    by_cases hk : keeps h L0 all r = true
    · simp only [hk, Bool.not_true, Bool.false_eq_true, if_false]
      refine ⟨I.next, ?_, ?_, ?_⟩
      · intro x
        simp only [I.get x, List.mem_append, List.mem_singleton]
        by_cases hx : x = r
        · subst hx; simp [hr_done, hk]
        · simp [hx]
      · simp [List.filter_append, hl, hk]
      · simp [List.filter_append, I.log, hl, hk]
    · simp only [hk, Bool.not_false, if_true]
      have hk' : keeps h L0 all r = false := by simpa using hk
      refine ⟨I.next, ?_, ?_, ?_⟩
      · intro x
        simp only [Heap.get_update, I.get x, List.mem_append, List.mem_singleton]
        by_cases hx : x = r
        · subst hx; simp [hr_done, hk', hl]
        · simp [hx]
      · simp [List.filter_append, hl, hk']
      · simp [List.filter_append, I.log, hl, hk']
  · have hl' : labelled h r = false := by simpa using hl
    rw [if_neg (by simpa [labelled] using hl)]
    refine ⟨I.next, ?_, ?_, ?_⟩
    · intro x
      simp only [I.get x, List.mem_append, List.mem_singleton]
      by_cases hx : x = r
      · subst hx; simp [hr_done, hl']
      · simp [hx]
    · simp [List.filter_append, hl', I.labels]
    · simp [List.filter_append, hl', I.log]

/-- What `collect_labels` computes, for any initial index. -/
theorem collectLabels_spec {h : Heap} {root t} (D : Doc h root t) (L0 log0) {fuel : Nat}
    (hfuel : t.size < fuel) :
    ∃ s', collectLabels fuel root { heap := h, labels := L0, log := log0 } = .ok () s' ∧
      CollectInv h L0 log0 t.pre t.pre s' := by
  unfold collectLabels
  rw [← D.root_eq, travLoop_tree (σ := TState) (·.heap) _ collectBody ?_ _ D.tree fuel hfuel]
  · have := forEach_index (σ := TState)
      (fun r s => if !(s.heap.get r).label.isEmpty then collectBody r s else .ok () s)
      (CollectInv h L0 log0 t.pre) (fun _ _ => False) t.pre
      (fun done r todo s hall I => collect_step hall D.nodup I) t.pre [] rfl
      { heap := h, labels := L0, log := log0 }
      ⟨rfl, by simp, by simp, by simp⟩
    obtain ⟨u, s', h1, h2⟩ := this.exists_ok
    exact ⟨s', h1, h2⟩
  · intro r s x
    rw [collectBody_apply]
    split
    · simp only [Res.state]
      refine Heap.children_update _ _ _ ?_ ?_ _ <;> intro _ <;> rfl
    · rfl

end Transformer
end RSM

namespace RSM
open PyM Tree Transformer

theorem firstCarrier_iff {h : Heap} {t : Tree} {x : Ref} :
    FirstCarrier h t x ↔ keeps h [] t.pre x = true := by
  have key := isFirstWith_find? (fun y => (h.get y).label == (h.get x).label) t.pre
  simp only [beq_iff_eq] at key
  unfold keeps FirstCarrier
  simp only [List.lookup_nil, Option.isNone_none, Bool.true_and, beq_iff_eq]
  constructor
  · intro H
    exact IsFirstWith.unique key H
  · intro H
    rw [H] at key
    exact key

theorem laterCarriers_eq {h : Heap} {all : List Ref} (hnd : all.Nodup) (done todo : List Ref)
    (hall : all = done ++ todo) :
    laterCarriers h done todo = todo.filter fun x => labelled h x && !keeps h [] all x := by
  induction todo generalizing done with
  | nil => rfl
  | cons x todo ih =>
    have hx_done : x ∉ done := by
      subst hall
      exact fun hm => (List.disjoint_of_nodup_append hnd) hm (by simp)
    rw [laterCarriers, List.filter_cons, ih (done ++ [x]) (by rw [hall]; simp)]
    have : ((h.get x).label ≠ [] ∧ ∃ y ∈ done, (h.get y).label = (h.get x).label) ↔
        (labelled h x && !keeps h [] all x) = true := by
      simp only [labelled, Bool.and_eq_true, Bool.not_eq_true', List.isEmpty_eq_false_iff]
      refine and_congr_right fun _ => ?_
      have hf : all.find? (fun y => (h.get y).label == (h.get x).label) =
          (done.find? fun y => (h.get y).label == (h.get x).label).or (some x) := by
        rw [hall, List.find?_append]; simp
      constructor
      · rintro ⟨y, hy, hyl⟩
        simp only [keeps, List.lookup_nil, Option.isNone_none, Bool.true_and, hf]
        cases hfd : done.find? fun y => (h.get y).label == (h.get x).label with
        | none =>
          rw [List.find?_eq_none] at hfd
          exact absurd hyl (by simpa using hfd y hy)
        | some z =>
          have := List.mem_of_find?_eq_some hfd
          have hne : z ≠ x := fun e => hx_done (e ▸ this)
          simp [hne]
      · intro hk
        simp only [keeps, List.lookup_nil, Option.isNone_none, Bool.true_and, hf] at hk
        cases hfd : done.find? fun y => (h.get y).label == (h.get x).label with
        | none => simp [hfd] at hk
        | some z =>
          exact ⟨z, List.mem_of_find?_eq_some hfd, by simpa using List.find?_some hfd⟩
    by_cases hc : (labelled h x && !keeps h [] all x) = true
    · rw [if_pos (this.mpr hc), if_pos hc]
    · rw [if_neg (fun H => hc (this.mp H)), if_neg hc]

theorem lookup_map_key {h : Heap} {l : List Ref} (s : Str) :
    (l.map fun x => ((h.get x).label, x)).lookup s =
      l.find? fun x => (h.get x).label == s := by
  induction l with
  | nil => rfl
  | cons x l ih =>
    simp only [List.map_cons, List.lookup_cons, List.find?_cons, ih]
    by_cases hx : (h.get x).label = s
    · simp [hx]
    · have h1 : (s == (h.get x).label) = false := by simpa using Ne.symm hx
      have h2 : ((h.get x).label == s) = false := by simpa using hx
      rw [h1, h2]

theorem collect_lookup {h : Heap} {t : Tree} (l : Str) :
    ((t.pre.filter fun x => labelled h x && keeps h [] t.pre x).map
      fun x => ((h.get x).label, x)).lookup l =
      if l = [] then none else t.pre.find? fun x => (h.get x).label == l := by
  rw [lookup_map_key, List.find?_filter]
  by_cases hl : l = []
  · subst hl
    rw [if_pos rfl, List.find?_eq_none]
    intro x _
    simp [labelled]
    intro h1 h2 h3
    exact absurd h3 h1
  · rw [if_neg hl]
    cases hf : t.pre.find? fun x => (h.get x).label == l with
    | none =>
      rw [List.find?_eq_none] at hf ⊢
      intro x hx
      have := hf x hx
      simp_all
    | some y =>
      rw [List.find?_eq_some_iff_append] at hf ⊢
      obtain ⟨h1, as, bs, h2, h3⟩ := hf
      have h1' : (h.get y).label = l := by simpa using h1
      refine ⟨?_, as, bs, h2, ?_⟩
      · have hk : keeps h [] t.pre y = true := by
          simp only [keeps, List.lookup_nil, Option.isNone_none, Bool.true_and, beq_iff_eq,
            List.find?_eq_some_iff_append]
          refine ⟨by simp, as, bs, h2, ?_⟩
          intro a ha
          rw [h1']; exact h3 a ha
        simp [labelled, h1', hl, hk]
      · intro a ha
        have := h3 a ha
        simp_all

theorem Transformer.CollectInv.doc {h : Heap} {L0 log0 all done s root t} (I : CollectInv h L0 log0 all done s)
    (D : Doc h root t) : Doc s.heap root t := by
  refine ⟨D.root_eq, D.tree.congr ?_ ?_, D.nodup, ?_⟩
  · intro r _
    simp only [Heap.parent, I.get r]
    split <;> rfl
  · intro r _
    simp only [Heap.children, Heap.isInst, I.get r]
    split <;> rfl
  · intro r hr
    rw [I.next]; exact D.bound r hr

end RSM
