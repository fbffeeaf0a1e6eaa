import Verif.Lemmas.NumberPage

/-!
# What the translators write of titles

For C94.
-/

namespace RSM
namespace Tr
open PyM Html

theorem abstract_shows {k : Conf} {x : Ref} {s s' : TrState} {cmd : Cmd} (hc : (s.heap.get x).cls = .Abstract)
    (h : visit k x s = .ok cmd s') : HasHeading cmd.text "3".toList "Abstract".toList := by
  rw [visit_eq (d := .Abstract) (by rw [hc]; decide)] at h
  unfold visitWith at h
  have hh := heading_shows 3 "Abstract".toList
  dsimp only at h
  obtain ⟨nd, s1, -, h⟩ := bindOk h
  obtain ⟨items, s2, h2, h⟩ := bindOk h
  cases h
  refine hh.trans (item_infix (i := heading 3 "Abstract") ?_)
  unfold wrapIf at h2
  split at h2
  · unfold wrapHeading at h2
    obtain ⟨_, _, -, h5⟩ := bindOk h2
    obtain ⟨_, _, -, h6⟩ := bindOk h5
    cases h6
    unfold abstractItems
    rw [wrapItem_one]
    simp
  · cases h2
    exact .tail _ (.head _)

theorem bibliography_shows {k : Conf} {x : Ref} {s s' : TrState} {cmd : Cmd} (hc : (s.heap.get x).cls = .Bibliography)
    (h : visit k x s = .ok cmd s') : HasHeading cmd.text "2".toList "References".toList := by
  rw [visit_eq (d := .Bibliography) (by rw [hc]; decide)] at h
  unfold visitWith at h
  have hh := heading_shows 2 "References".toList
  dsimp only at h
  split at h
  · unfold hrVisitBibliography at h
    obtain ⟨nd, s1, -, h⟩ := bindOk h
    obtain ⟨items, s2, h2, h⟩ := bindOk h
    cases h
    refine hh.trans (item_infix (i := heading 2 "References") ?_)
    unfold wrapHeading at h2
    obtain ⟨_, _, -, h5⟩ := bindOk h2
    obtain ⟨_, _, -, h6⟩ := bindOk h5
    cases h6
    unfold bibliographyItems
    simp only [List.take_succ_cons, List.take_zero, List.cons_append, List.nil_append]
    rw [wrapItem_one]
    simp
  · obtain ⟨nd, s1, -, h⟩ := bindOk h
    cases h
    exact hh.trans (item_infix (i := heading 2 "References") (.tail _ (.head _)))

theorem mem_insertAt {α : Type} {n : Nat} {x y : α} {l : List α} (h : y ∈ l) : y ∈ insertAt n x l := by
  unfold insertAt
  rw [← List.take_append_drop n l] at h
  rcases List.mem_append.mp h with h | h <;> simp [h]

theorem manuscript_shows {k : Conf} {x : Ref} {s s' : TrState} {cmd : Cmd} (hc : (s.heap.get x).cls = .Manuscript)
    (ht : (s.heap.get x).title ≠ []) (h : visit k x s = .ok cmd s') : HasHeading cmd.text "1".toList (s.heap.get x).title := by
  rw [visit_eq (d := .Manuscript) (by rw [hc]; decide)] at h
  unfold visitWith at h
  have hh := heading_shows 1 (s.heap.get x).title
  dsimp only at h
  have mem : heading 1 (s.heap.get x).title ∈ manuscriptItems (s.heap.get x) := by
    unfold manuscriptItems
    rw [if_pos ht]
    simp
  split at h
  · unfold hrVisitManuscript at h
    simp only [bind_apply, get_apply] at h
    rw [if_pos ht] at h
    have m1 : heading 1 (s.heap.get x).title ∈ wrapItem 4 (manuscriptItems (s.heap.get x)) ["heading".toList] "Title".toList .on := by
      unfold manuscriptItems wrapItem
      rw [if_pos ht]
      simp
    have m2 : heading 1 (s.heap.get x).title ∈ (if k.addSource then insertAt 2 (sourceDiv s.heap s.tree)
        (wrapItem 4 (manuscriptItems (s.heap.get x)) ["heading".toList] "Title".toList .on)
        else wrapItem 4 (manuscriptItems (s.heap.get x)) ["heading".toList] "Title".toList .on) := by
      split
      · exact mem_insertAt m1
      · exact m1
    revert h
    generalize (if k.addSource then insertAt 2 (sourceDiv s.heap s.tree)
        (wrapItem 4 (manuscriptItems (s.heap.get x)) ["heading".toList] "Title".toList .on)
        else wrapItem 4 (manuscriptItems (s.heap.get x)) ["heading".toList] "Title".toList .on) = items at m2 ⊢
    intro h
    cases e : s.heap.firstOfType x [.Contents] with
    | none =>
      rw [e] at h
      cases h
      exact hh.trans (item_infix m2)
    | some q =>
      rw [e] at h
      obtain ⟨m, s3, -, h⟩ := bindOk h
      cases h
      refine hh.trans (item_infix (i := heading 1 _) ?_)
      rw [← List.take_append_drop 3 items] at m2
      rcases List.mem_append.mp m2 with m2 | m2
      · simp only [List.mem_append]; exact .inl (.inl (.inl (.inl m2)))
      · simp only [List.mem_append]; exact .inr m2
  · simp only [bind_apply, node, gets_apply] at h
    cases h
    exact hh.trans (item_infix mem)

end Tr
end RSM
