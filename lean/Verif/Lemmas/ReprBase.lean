import Verif.Model.Repr

/-! # Lemmas: what `repr` of nodes depends on -/

namespace RSM

theorem attrsRepr_congr {e : ReprEnv} {h h' : Heap} {r r' : Ref} {f f' : Ref → Str}
    (hc : (h'.get r').cls = (h.get r).cls) (hl : (h'.get r').label = (h.get r).label) (ht : (h'.get r').types = (h.get r).types)
    (hn : (h'.get r').nonum = (h.get r).nonum) (hu : (h'.get r').number = (h.get r).number)
    (hp : parentRepr h' (h'.get r').parent = parentRepr h (h.get r).parent)
    (hg : (h.get r).cls.isSub .BaseReference = true → targetRepr f' (h'.get r').target = targetRepr f (h.get r).target)
    (ho : (h'.get r').overwriteReftext = (h.get r).overwriteReftext) :
    attrsRepr e h' r' f' = attrsRepr e h r f := by
  unfold attrsRepr
  dsimp only
  rw [hl, ht, hn, hu, hc, ho]
  rw [hp]
  congr 1
  split
  · next h1 => rw [hg h1]
  · rfl

/-- `repr` of a node that is neither a text nor a reference to a node. -/
theorem nodeRepr_congr (e : ReprEnv) {h h' : Heap} {r : Ref} (hcls : ∀ x, (h'.get x).cls = (h.get x).cls)
    (hk : (h'.get r).kids = (h.get r).kids) (hl : (h'.get r).label = (h.get r).label) (ht : (h'.get r).types = (h.get r).types)
    (hn : (h'.get r).nonum = (h.get r).nonum) (hu : (h'.get r).number = (h.get r).number)
    (hp : (h'.get r).parent = (h.get r).parent) (hg : (h'.get r).target = (h.get r).target)
    (ho : (h'.get r).overwriteReftext = (h.get r).overwriteReftext)
    (hT : (h.get r).cls.isSub .Text = false)
    (hN : (h.get r).cls.isSub .BaseReference = true → ∀ x, (h.get r).target ≠ .node x) :
    nodeRepr e h' r = nodeRepr e h r := by
  unfold nodeRepr
  cases e.depth with
  | zero => rfl
  | succ d =>
    have hS : (h.get r).cls.isSub .SourceCode = false := by
      revert hT; cases (h.get r).cls <;> decide
    unfold nodeReprN
    dsimp only
    rw [hcls r, hk, hS, hT]
    simp only [hcls, Bool.false_eq_true, if_false]
    rw [attrsRepr_congr (f := nodeReprN e h d) (f' := nodeReprN e h' d) (hcls r) hl ht hn hu _ _ ho]
    · rw [hp]; unfold parentRepr; simp only [hcls]
    · intro hb
      rw [hg]
      unfold targetRepr
      split
      · rfl
      · rfl
      · next x ex => exact absurd ex (hN hb x)

end RSM
