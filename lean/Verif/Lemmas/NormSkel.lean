import Verif.Lemmas.NormKeep

/-! What normalisation leaves of the nodes that are neither texts nor keywords (helper lemmas). -/

namespace RSM
namespace Normalize
open PyM Nodes Heap LTree Transformer

mutual
/-- The tree without texts and keywords. -/
def skel (f : NodeRec → NodeRec) : LTree → List LTree
  | .node i a ks => if a.cls.isSub .Text = true ∨ a.cls = .Keyword then [] else [.node i (f a) (skelL f ks)]
def skelL (f : NodeRec → NodeRec) : List LTree → List LTree
  | [] => []
  | t :: ts => skel f t ++ skelL f ts
end

theorem skelL_eq (f : NodeRec → NodeRec) : ∀ ts : List LTree, skelL f ts = ts.flatMap (skel f)
  | [] => by rw [skelL]; rfl
  | t :: ts => by rw [skelL, skelL_eq f ts]; rfl

theorem skel_text {f : NodeRec → NodeRec} {k : LTree} (hk : k.isT = true) : skel f k = [] := by
  cases k with
  | node i a ks =>
    have ha : a.cls.isSub .Text = true := hk
    rw [skel, if_pos (.inl ha)]

theorem skel_mapIfText (f : NodeRec → NodeRec) (g k) : skel f (mapIfText g k) = skel f k := by
  unfold mapIfText
  split
  · rename_i hk
    rw [skel_text hk]
    cases k with
    | node i a ks =>
      have ha : a.cls.isSub .Text = true := hk
      rw [mapText, skel, if_pos (.inl ha)]
  · rfl

theorem skel_mapHead (f : NodeRec → NodeRec) (g ks) : (mapHead g ks).flatMap (skel f) = ks.flatMap (skel f) := by
  cases ks <;> simp [mapHead, skel_mapIfText]

theorem skel_mapLast (f : NodeRec → NodeRec) (g ks) : (mapLast g ks).flatMap (skel f) = ks.flatMap (skel f) := by
  cases hl : ks.getLast? with
  | none => rw [List.getLast?_eq_none_iff] at hl; subst hl; rfl
  | some k =>
    obtain ⟨a, rfl⟩ := List.getLast?_eq_some_iff.mp hl
    rw [mapLast_append]; simp [skel_mapIfText]

theorem skel_map (f : NodeRec → NodeRec) (g) (ks : List LTree) :
    (ks.map (mapIfText g)).flatMap (skel f) = ks.flatMap (skel f) := by
  rw [List.flatMap_map]; simp [skel_mapIfText]

theorem skel_run {f : NodeRec → NodeRec} {run : List LTree} (hrun : ∀ r ∈ run, r.isT = true) :
    run.flatMap (skel f) = [] := by
  rw [List.flatMap_eq_nil_iff]
  exact fun r hr => skel_text (hrun r hr)

theorem skel_mergeL (f : NodeRec → NodeRec) (ks) : (mergeL ks).flatMap (skel f) = ks.flatMap (skel f) := by
  refine runs_induction (P := fun ks => (mergeL ks).flatMap (skel f) = ks.flatMap (skel f)) rfl ?_ ?_ ks
  · intro k ks hk ih
    rw [mergeL_other hk, List.flatMap_cons, ih, List.flatMap_cons]
  · intro k run rest hk hrun hrest ih
    rw [mergeL_run hk _ _ hrun hrest, List.flatMap_cons, ih, List.flatMap_cons, List.flatMap_append, skel_run hrun,
      skel_text hk]
    cases k with
    | node i a ks =>
      have ha : a.cls.isSub .Text = true := hk
      rw [mapText, skel, if_pos (.inl ha)]
      rfl

theorem skel_kwTree (f : NodeRec → NodeRec) (n w) : skel f (kwTree n w) = [] := by
  rw [kwTree, skel, if_pos (.inr rfl)]

theorem Shaped.skel {n0 a ks ks4} (S : Shaped n0 a ks ks4) (f) :
    ks4.flatMap (Normalize.skel f) = ks.flatMap (Normalize.skel f) := by
  have hst : (stripL (mergeL ks)).flatMap (Normalize.skel f) = ks.flatMap (Normalize.skel f) := by
    unfold stripL
    rw [skel_mapLast, skel_mapHead, skel_mergeL]
  cases S with
  | plain hc => rw [skel_map, hst]
  | @construct w n hc hw hn =>
    rw [skel_map, ← hst]
    generalize stripL (mergeL ks) = l
    cases l with
    | nil => simp only [openL, List.flatMap_cons, List.flatMap_nil, skel_kwTree]; rfl
    | cons k l =>
      simp only [openL]
      split
      · rw [List.flatMap_cons, List.flatMap_cons, skel_mapHead, skel_kwTree, skel_text (by rfl)]; rfl
      · rw [List.flatMap_cons, skel_mapHead, skel_kwTree]; rfl

theorem unescAttrs_cls (a : NodeRec) : (unescAttrs a).cls = a.cls := rfl

/-- Normalisation only unescapes the titles. -/
theorem Norm.skel {n0 ts ts'} (N : Norm n0 ts ts') : skelL id ts' = skelL unescAttrs ts := by
  induction N with
  | nil => rw [skelL, skelL]
  | @cons i a ks ts ks4 ks5 ts' ex sh _ _ sp _ ih4 iht =>
    have hex : ex.flatMap (Normalize.skel id) = [] := by
      rcases sp with ⟨_, e, he, rfl⟩ | ⟨_, rfl⟩
      · simp only [List.flatMap_cons, List.flatMap_nil, List.append_nil]
        exact skel_text (by rfl)
      · rfl
    rw [skelL, skelL, skelL_eq, List.flatMap_append, hex, List.nil_append, ← skelL_eq, iht]
    congr 1
    rw [Normalize.skel, Normalize.skel, unescAttrs_cls, ih4, skelL_eq _ ks4, sh.skel, ← skelL_eq]
    rfl

end Normalize
end RSM
