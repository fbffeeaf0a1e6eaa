import Verif.Lemmas.Forest

/-! Helper lemmas for C03 and C04. -/

namespace RSM
open PyM Heap Nodes

theorem SameAttributes.refl (h : Heap) : SameAttributes h h := ⟨rfl, fun _ => rfl⟩

theorem SameAttributes.trans {a b c : Heap} (h1 : SameAttributes a b) (h2 : SameAttributes b c) :
    SameAttributes a c := ⟨h2.1.trans h1.1, fun x => (h2.2 x).trans (h1.2 x)⟩

theorem SameAttributes.withParent (h : Heap) (r p) : SameAttributes h (h.withParent r p) := by
  refine ⟨rfl, fun x => ?_⟩
  unfold Heap.withParent; rw [get_update]; split <;> rfl

theorem SameAttributes.withKids (h : Heap) (r f) : SameAttributes h (h.withKids r f) := by
  refine ⟨rfl, fun x => ?_⟩
  unfold Heap.withKids; rw [get_update]; split <;> rfl

theorem SameAttributes.orphan (l : List Ref) (h : Heap) : SameAttributes h (orphan l h) := by
  induction l generalizing h with
  | nil => exact .refl h
  | cons c l ih => exact (SameAttributes.withParent h c none).trans (ih _)

theorem SameAttributes.cls {h h' : Heap} (H : SameAttributes h h') (x : Ref) :
    (h'.get x).cls = (h.get x).cls := by
  have := congrArg NodeRec.cls (H.2 x); simpa using this

theorem insertReplacements_spec (p : Ref) (reps : List Ref) (pre post : List Ref) (h : Heap)
    (hn : h.isInst p .NodeWithChildren = true) (hk : h.children p = pre ++ post)
    (ha : ∀ r ∈ reps, h.Allowed r p) :
    ∃ h', Nodes.insertReplacements p pre.length reps h = .ok () h' ∧
      h'.children p = pre ++ reps ++ post ∧
      (∀ x, x ≠ p → h'.children x = h.children x) ∧
      (∀ x, h'.parent x = if x ∈ reps then some p else h.parent x) ∧
      SameAttributes h h' := by
  induction reps generalizing h pre with
  | nil => exact ⟨h, rfl, by simpa using hk, fun _ _ => rfl, by simp, .refl h⟩
  | cons r reps ih =>
    rw [insertReplacements_cons]
    simp only [ha r (by simp), if_true]
    have hk2 : ((h.withKids p (pyInsert pre.length r)).withParent r (some p)).children p =
        (pre ++ [r]) ++ post := by
      rw [children_withParent, children_withKids _ _ _ _ hn, hk]
      simp [pyInsert]
    obtain ⟨h', e1, e2, e3, e4, e5⟩ := ih (pre ++ [r])
      ((h.withKids p (pyInsert pre.length r)).withParent r (some p)) (by simpa using hn) hk2
      (by intro x hx; simpa using ha x (by simp [hx]))
    refine ⟨h', by simpa using e1, by simpa using e2, ?_, ?_,
      ((SameAttributes.withKids _ _ _).trans (SameAttributes.withParent _ _ _)).trans e5⟩
    · intro x hx
      rw [e3 x hx, children_withParent, children_withKids _ _ _ _ hn]; simp [hx]
    · intro x
      rw [e4 x, parent_withParent, parent_withKids]
      by_cases h1 : x ∈ reps <;> by_cases h2 : x = r <;> simp [h1, h2]

end RSM
