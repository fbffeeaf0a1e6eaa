import Verif.Lemmas.NormKeep
import Verif.Spec.Verbatim

/-! What normalisation leaves of verbatim texts (helper lemmas). -/

namespace RSM
namespace Normalize
open PyM Nodes Heap LTree Transformer

/-- Whether the tree is a verbatim text. -/
def LTree.isV (k : LTree) : Bool := k.isT && k.attrs.asis

/-- The verbatim content of a node. -/
def vOwn (g : Str → Str) (c : Cls) : List LTree → List Verbatim
  | [k] => if k.isV then [⟨c, k.attrs.cls, k.attrs.lang, g k.attrs.text⟩] else []
  | _ => []

mutual
/-- The verbatim contents of a labelled tree. -/
def vT (g : Str → Str) : LTree → List Verbatim
  | .node _ a ks => if a.cls.isSub .Text then [] else vOwn g a.cls ks ++ vL g ks
def vL (g : Str → Str) : List LTree → List Verbatim
  | [] => []
  | t :: ts => vT g t ++ vL g ts
end

/-- What is wrong with the children of a node. -/
def wrongOwn (c : Cls) (ks : List LTree) : List Unit :=
  if ks.any LTree.isV && (decide (ks.length ≠ 1) || c.isSub .Construct) then [()] else []

mutual
/-- The verbatim texts that are not alone. -/
def wT : LTree → List Unit
  | .node _ a ks => if a.cls.isSub .Text then [] else wrongOwn a.cls ks ++ wL ks
def wL : List LTree → List Unit
  | [] => []
  | t :: ts => wT t ++ wL ts
end

theorem vL_eq (g) : ∀ ts : List LTree, vL g ts = ts.flatMap (vT g)
  | [] => by rw [vL]; rfl
  | t :: ts => by rw [vL, vL_eq g ts]; rfl

theorem wL_eq : ∀ ts : List LTree, wL ts = ts.flatMap wT
  | [] => by rw [wL]; rfl
  | t :: ts => by rw [wL, wL_eq ts]; rfl

/-! ## Functions that ignore texts and keywords -/

/-- The function ignores texts and keywords. -/
structure Ignores {β : Type} (F : LTree → List β) : Prop where
  text : ∀ k, k.isT = true → F k = []
  kw : ∀ n w, F (kwTree n w) = []

section
variable {β : Type} {F : LTree → List β} (I : Ignores F)
include I

theorem Ignores.mapIfText (g k) : F (mapIfText g k) = F k := by
  unfold Normalize.mapIfText
  split
  · rename_i hk
    rw [I.text k hk, I.text _ (by rw [isT_mapText]; exact hk)]
  · rfl

theorem Ignores.mapHead (g ks) : (mapHead g ks).flatMap F = ks.flatMap F := by
  cases ks <;> simp [Normalize.mapHead, I.mapIfText]

theorem Ignores.mapLast (g ks) : (mapLast g ks).flatMap F = ks.flatMap F := by
  cases hl : ks.getLast? with
  | none => rw [List.getLast?_eq_none_iff] at hl; subst hl; rfl
  | some k =>
    obtain ⟨a, rfl⟩ := List.getLast?_eq_some_iff.mp hl
    rw [mapLast_append]; simp [I.mapIfText]

theorem Ignores.map (g) (ks : List LTree) : (ks.map (Normalize.mapIfText g)).flatMap F = ks.flatMap F := by
  rw [List.flatMap_map]; simp [I.mapIfText]

theorem Ignores.mergeL (ks) : (mergeL ks).flatMap F = ks.flatMap F := by
  refine runs_induction (P := fun ks => (Normalize.mergeL ks).flatMap F = ks.flatMap F) rfl ?_ ?_ ks
  · intro k ks hk ih
    rw [mergeL_other hk, List.flatMap_cons, ih, List.flatMap_cons]
  · intro k run rest hk hrun hrest ih
    have hr : run.flatMap F = [] := List.flatMap_eq_nil_iff.mpr fun r hr => I.text r (hrun r hr)
    rw [mergeL_run hk _ _ hrun hrest, List.flatMap_cons, ih, List.flatMap_cons, List.flatMap_append, hr,
      I.text k hk, I.text _ (by rw [isT_mapText]; exact hk)]
    rfl

theorem Ignores.shaped {n0 a ks ks4} (S : Shaped n0 a ks ks4) : ks4.flatMap F = ks.flatMap F := by
  have hst : (stripL (Normalize.mergeL ks)).flatMap F = ks.flatMap F := by
    unfold stripL
    rw [I.mapLast, I.mapHead, I.mergeL]
  cases S with
  | plain hc => rw [I.map, hst]
  | @construct w n hc hw hn =>
    rw [I.map, ← hst]
    generalize stripL (Normalize.mergeL ks) = l
    cases l with
    | nil => simp only [openL, List.flatMap_cons, List.flatMap_nil, I.kw]; rfl
    | cons k l =>
      simp only [openL]
      split
      · rw [List.flatMap_cons, List.flatMap_cons, I.mapHead, I.kw, I.text _ (by rfl)]; rfl
      · rw [List.flatMap_cons, I.mapHead, I.kw]; rfl
end

theorem vT_ignores (g) : Ignores (vT g) where
  text k hk := by
    obtain ⟨i, a, ks⟩ := k
    have ha : a.cls.isSub .Text = true := hk
    rw [vT, if_pos ha]
  kw n w := by
    rw [kwTree, vT, if_neg (by decide), vL, vL, vT, if_pos (show (textAttrs w).cls.isSub .Text = true from rfl)]
    rfl

theorem wT_ignores : Ignores wT where
  text k hk := by
    obtain ⟨i, a, ks⟩ := k
    have ha : a.cls.isSub .Text = true := hk
    rw [wT, if_pos ha]
  kw n w := by
    rw [kwTree, wT, if_neg (by decide), wL, wL, wT, if_pos (show (textAttrs w).cls.isSub .Text = true from rfl)]
    rfl

/-! ## No verbatim texts appear -/

/-- There is no verbatim text among the trees. -/
def NoV (ks : List LTree) : Prop := ∀ k ∈ ks, k.isV = false

theorem isV_mapText (g k) : (LTree.mapText g k).isV = k.isV := by
  obtain ⟨i, a, ks⟩ := k; rfl

theorem isV_mapIfText (g k) : (mapIfText g k).isV = k.isV := by
  unfold mapIfText
  split
  · exact isV_mapText g k
  · rfl

theorem NoV.cons {k ks} : NoV (k :: ks) ↔ k.isV = false ∧ NoV ks := by
  unfold NoV; simp

theorem NoV.append {a b} : NoV (a ++ b) ↔ NoV a ∧ NoV b := by
  unfold NoV
  constructor
  · exact fun h => ⟨fun k hk => h k (by simp [hk]), fun k hk => h k (by simp [hk])⟩
  · rintro ⟨h1, h2⟩ k hk
    rcases List.mem_append.mp hk with h | h
    · exact h1 k h
    · exact h2 k h

theorem NoV.mapHead {g ks} (h : NoV ks) : NoV (mapHead g ks) := by
  cases ks with
  | nil => exact h
  | cons k ks =>
    rw [NoV.cons] at h
    rw [Normalize.mapHead, NoV.cons, isV_mapIfText]
    exact h

theorem NoV.mapLast {g ks} (h : NoV ks) : NoV (mapLast g ks) := by
  cases hl : ks.getLast? with
  | none => rw [List.getLast?_eq_none_iff] at hl; subst hl; exact h
  | some k =>
    obtain ⟨a, rfl⟩ := List.getLast?_eq_some_iff.mp hl
    rw [mapLast_append]
    rw [NoV.append, NoV.cons] at h ⊢
    rw [isV_mapIfText]
    exact h

theorem NoV.map {g ks} (h : NoV ks) : NoV (ks.map (mapIfText g)) := by
  intro k hk
  obtain ⟨k', hk', rfl⟩ := List.mem_map.mp hk
  rw [isV_mapIfText]
  exact h k' hk'

theorem NoV.mergeL {ks} (h : NoV ks) : NoV (mergeL ks) := by
  revert h
  refine runs_induction (P := fun ks => NoV ks → NoV (Normalize.mergeL ks)) (fun h => h) ?_ ?_ ks
  · intro k ks hk ih h
    rw [NoV.cons] at h
    rw [mergeL_other hk, NoV.cons]
    exact ⟨h.1, ih h.2⟩
  · intro k run rest hk hrun hrest ih h
    rw [NoV.cons, NoV.append] at h
    rw [mergeL_run hk _ _ hrun hrest, NoV.cons, isV_mapText]
    exact ⟨h.1, ih h.2.2⟩

theorem kw_notV (n w) : (kwTree n w).isV = false := by
  unfold kwTree LTree.isV LTree.isT; rfl

theorem text_notV (n s ks) : (LTree.node n (textAttrs s) ks).isV = false := by
  unfold LTree.isV; exact Bool.and_eq_false_iff.mpr (.inr rfl)

theorem NoV.shaped {n0 a ks ks4} (S : Shaped n0 a ks ks4) (h : NoV ks) : NoV ks4 := by
  have hst : NoV (stripL (Normalize.mergeL ks)) := by
    unfold stripL
    exact h.mergeL.mapHead.mapLast
  cases S with
  | plain hc => exact hst.map
  | @construct w n hc hw hn =>
    refine NoV.map ?_
    revert hst
    generalize stripL (Normalize.mergeL ks) = l
    intro hst
    cases l with
    | nil =>
      simp only [openL]
      exact NoV.cons.mpr ⟨kw_notV _ _, hst⟩
    | cons k l =>
      simp only [openL]
      split
      · exact NoV.cons.mpr ⟨kw_notV _ _, NoV.cons.mpr ⟨text_notV _ _ _, hst.mapHead⟩⟩
      · exact NoV.cons.mpr ⟨kw_notV _ _, hst.mapHead⟩

theorem NoV.norm {n0 ts ts'} (N : Norm n0 ts ts') (h : NoV ts) : NoV ts' := by
  induction N with
  | nil => exact h
  | @cons i a ks ts ks4 ks5 ts' ex sh _ _ sp _ ih4 iht =>
    rw [NoV.cons] at h
    rw [NoV.cons, NoV.append]
    refine ⟨h.1, ?_, iht h.2⟩
    rcases sp with ⟨_, e, he, rfl⟩ | ⟨_, rfl⟩
    · exact NoV.cons.mpr ⟨text_notV _ _ _, fun k hk => by cases hk⟩
    · intro k hk; cases hk

theorem NoV.vOwn {g c ks} (h : NoV ks) : vOwn g c ks = [] := by
  unfold Normalize.vOwn
  split
  · rename_i k
    rw [h k (by simp), if_neg (by simp)]
  · rfl

/-! ## A verbatim text that is alone -/

theorem isV_text {k : LTree} (h : k.isV = true) : k.isT = true ∧ k.attrs.asis = true := by
  unfold LTree.isV at h
  simpa using h

theorem shaped_lone {n0 a k ks4} (hk : k.isV = true) (hc : a.cls.isSub .Construct = false) (S : Shaped n0 a [k] ks4) :
    ks4 = [k.mapText strip] := by
  obtain ⟨hT, _⟩ := isV_text hk
  cases S with
  | construct h _ _ => rw [hc] at h; cases h
  | plain _ =>
    have e : mergeL [k] = [k] := by
      have := mergeL_run hT [] [] (by simp) (by simp)
      rw [List.append_nil] at this
      rw [this]
      obtain ⟨i, b, l⟩ := k
      rfl
    obtain ⟨i, b, l⟩ := k
    have hb : b.cls.isSub .Text = true := hT
    have m : ∀ (g : Str → Str) (b : NodeRec) , b.cls.isSub .Text = true →
        mapIfText g (.node i b l) = .node i { b with text := g b.text } l := by
      intro g b hb
      unfold mapIfText
      rw [if_pos (show (LTree.node i b l).isT = true from hb)]; rfl
    rw [e, stripL, mapHead, m _ _ hb, show [LTree.node i { b with text := lstrip b.text } l] =
      [] ++ [LTree.node i { b with text := lstrip b.text } l] from rfl, mapLast_append, m rstrip { b with text := lstrip b.text } hb]
    simp only [List.nil_append, List.map_cons, List.map_nil]
    rw [m squeezeText { b with text := rstrip (lstrip b.text) } hb]
    simp only [LTree.mapText]
    rw [squeeze_plain (rstrip_noLead (lstrip_noLead _)) (rstrip_noTrail _)]
    rfl

theorem unescAttrs_asis {b : NodeRec} (h : b.asis = true) : (unescAttrs b).text = b.text := by
  unfold unescAttrs
  simp [h]

theorem norm_lone {n0 k ts' c} (hk : k.isV = true) (N : Norm n0 [k] ts') :
    vOwn (fun s => s) c ts' = vOwn (fun s => s) c [k] := by
  cases N with
  | @cons i b ks ts ks4 ks5 ts'' ex sh N4 Nt sp _ =>
    obtain ⟨hT, hA⟩ := isV_text hk
    have hex : ex = [] := by
      rcases sp with ⟨h, _⟩ | ⟨_, rfl⟩
      · simp [spacedPair] at h
      · rfl
    rw [hex, Nt.nil_iff, List.nil_append]
    have hA' : b.asis = true := hA
    have e : (LTree.node i (unescAttrs b) ks5).isV = true := hk
    unfold vOwn
    simp only [hk, e, if_true]
    show [Verbatim.mk c (unescAttrs b).cls (unescAttrs b).lang (unescAttrs b).text] = [Verbatim.mk c b.cls b.lang b.text]
    rw [unescAttrs_asis hA']
    rfl

theorem Norm.verbatim {n0 ts ts'} (N : Norm n0 ts ts') (hw : wL ts = []) : vL (fun s => s) ts' = vL strip ts := by
  induction N with
  | nil => rw [vL, vL]
  | @cons i a ks ts ks4 ks5 ts' ex sh N4 _ sp _ ih4 iht =>
    rw [wL, List.append_eq_nil_iff] at hw
    have hex : ex.flatMap (vT fun s => s) = [] := by
      rcases sp with ⟨_, e, he, rfl⟩ | ⟨_, rfl⟩
      · simp only [List.flatMap_cons, List.flatMap_nil, List.append_nil]
        exact (vT_ignores _).text _ (by rfl)
      · rfl
    rw [vL, vL, vL_eq, List.flatMap_append, hex, List.nil_append, ← vL_eq, iht hw.2]
    congr 1
    rw [vT, vT]
    show (if a.cls.isSub .Text then [] else vOwn (fun s => s) a.cls ks5 ++ vL (fun s => s) ks5) = _
    by_cases hT : a.cls.isSub .Text = true
    · rw [if_pos hT, if_pos hT]
    rw [if_neg hT, if_neg hT]
    have hw1 := hw.1
    rw [wT, if_neg hT, List.append_eq_nil_iff] at hw1
    have h4 : wL ks4 = [] := by rw [wL_eq, wT_ignores.shaped sh, ← wL_eq]; exact hw1.2
    rw [ih4 h4, vL_eq _ ks4, (vT_ignores strip).shaped sh, ← vL_eq]
    congr 1
    by_cases hv : ks.any LTree.isV = true
    · have h := hw1.1
      unfold wrongOwn at h
      rw [hv, Bool.true_and] at h
      have h' : (decide (ks.length ≠ 1) || a.cls.isSub .Construct) = false := by
        cases e : (decide (ks.length ≠ 1) || a.cls.isSub .Construct) with
        | false => rfl
        | true => rw [e, if_pos rfl] at h; cases h
      rw [Bool.or_eq_false_iff] at h'
      have hlen : ks.length = 1 := by simpa using h'.1
      obtain ⟨k, rfl⟩ := List.length_eq_one_iff.mp hlen
      have hk : k.isV = true := by simpa using hv
      have e4 := shaped_lone hk h'.2 sh
      subst e4
      rw [norm_lone (by rw [isV_mapText]; exact hk) N4]
      unfold vOwn
      simp only [isV_mapText, hk, if_true]
      obtain ⟨j, b, l⟩ := k
      rfl
    · have hn : NoV ks := by
        intro k hk
        cases e : k.isV with
        | false => rfl
        | true => exact absurd (List.any_eq_true.mpr ⟨k, hk, e⟩) hv
      rw [hn.vOwn, ((hn.shaped sh).norm N4).vOwn]

/-! ## The heap -/

theorem vOwn_holds {h : Heap} {i a ks p} (H : Holds h p (.node i a ks)) :
    (verbatimOf h i).toList = vOwn (fun s => s) a.cls ks := by
  have hc : h.children i = ks.map root := H.children
  have hcls : (h.get i).cls = a.cls := H.cls
  unfold verbatimOf vOwn
  rw [hc, hcls]
  match ks, H with
  | [], _ => rfl
  | [k], H =>
    have K : Holds h (some i) k := H.kids k (by simp [LTree.kids])
    have e : (h.isInst k.root .Text && (h.get k.root).asis) = k.isV := by
      rw [K.isInst]
      unfold LTree.isV
      rw [← K.attrs]
      congr 1
      rw [K.attrs]; rfl
    have h1 : (h.get k.root).cls = k.attrs.cls := K.cls
    have h2 : (h.get k.root).lang = k.attrs.lang := by rw [← K.attrs]; rfl
    have h3 : (h.get k.root).text = k.attrs.text := by rw [← K.attrs]; rfl
    simp only [List.map_cons, List.map_nil]
    rw [e, h1, h2, h3]
    cases k.isV <;> rfl
  | _ :: _ :: _, _ => rfl

mutual
theorem verbatims_holds {h : Heap} : ∀ {t : LTree} {p}, Holds h p t → t.tree.pre.filterMap (verbatimOf h) = vT (fun s => s) t
  | .node i a ks, p, H => by
    have h1 := verbatimsL_holds (ts := ks) H.2.2.2
    have h2 := vOwn_holds H
    rw [LTree.tree, Tree.pre, List.filterMap_cons, h1, vT]
    by_cases hT : a.cls.isSub .Text = true
    · rw [if_pos hT]
      have hk : ks = [] := H.text_kids hT
      subst hk
      have h3 : verbatimOf h i = none := by
        have : (verbatimOf h i).toList = [] := h2
        cases e : verbatimOf h i with
        | none => rfl
        | some v => rw [e] at this; cases this
      rw [h3, vL]
    · rw [if_neg hT, ← h2]
      cases verbatimOf h i <;> rfl
theorem verbatimsL_holds {h : Heap} : ∀ {ts : List LTree} {p}, HoldsL h p ts →
    (Tree.preL (treeL ts)).filterMap (verbatimOf h) = vL (fun s => s) ts
  | [], _, _ => by rw [vL]; rfl
  | t :: ts, p, H => by
    rw [treeL, Tree.preL, List.filterMap_append, verbatims_holds H.1, verbatimsL_holds H.2, vL]
end

mutual
theorem vT_strip : ∀ t : LTree, vT strip t = (vT (fun s => s) t).map fun v => { v with text := strip v.text }
  | .node i a ks => by
    rw [vT, vT, vL_strip ks]
    split
    · rfl
    · rw [List.map_append]
      congr 1
      unfold vOwn
      split
      · split <;> rfl
      · rfl
theorem vL_strip : ∀ ts : List LTree, vL strip ts = (vL (fun s => s) ts).map fun v => { v with text := strip v.text }
  | [] => by rw [vL, vL]; rfl
  | t :: ts => by rw [vL, vL, vT_strip t, vL_strip ts, List.map_append]
end

mutual
theorem wT_holds {h : Heap} : ∀ {t : LTree} {p}, Holds h p t → VerbatimLone h t.tree → wT t = []
  | .node i a ks, p, H, hl => by
    rw [wT]
    split
    · rfl
    · rw [wL_holds H.2.2.2 (fun x hx => hl x (by rw [LTree.tree, Tree.pre]; exact List.mem_cons_of_mem _ hx)), List.append_nil]
      unfold wrongOwn
      rw [if_neg]
      intro hw
      rw [Bool.and_eq_true] at hw
      obtain ⟨k, hk, hv⟩ := List.any_eq_true.mp hw.1
      have K : Holds h (some i) k := H.kids k hk
      obtain ⟨h1, h2⟩ := isV_text hv
      have := hl i (by rw [LTree.tree, Tree.pre]; exact List.mem_cons_self) k.root
        (by rw [show h.children i = ks.map root from H.children]; exact List.mem_map_of_mem hk)
        (by rw [K.isInst]; exact h1) (by rw [← K.attrs] at h2; exact h2)
      rw [show h.children i = ks.map root from H.children, show h.isInst i .Construct = a.cls.isSub .Construct from H.isInst _] at this
      have h3 : ks.length = 1 := by rw [← List.length_map (f := root), this.1]; rfl
      have h4 := hw.2
      rw [this.2, h3] at h4
      simp at h4
theorem wL_holds {h : Heap} : ∀ {ts : List LTree} {p}, HoldsL h p ts →
    (∀ x ∈ Tree.preL (treeL ts), ∀ y ∈ h.children x, h.isInst y .Text = true → (h.get y).asis = true →
      h.children x = [y] ∧ h.isInst x .Construct = false) → wL ts = []
  | [], _, _, _ => by rw [wL]
  | t :: ts, p, H, hl => by
    rw [wL, wT_holds H.1 (fun x hx => hl x (by rw [treeL, Tree.preL]; exact List.mem_append_left _ hx)),
      wL_holds H.2 (fun x hx => hl x (by rw [treeL, Tree.preL]; exact List.mem_append_right _ hx))]
    rfl
end

theorem norm_verbatims {n0 : Nat} {h h' : Heap} {p q} {t0 t5 : LTree} (N : Norm n0 [t0] [t5]) (H0 : Holds h p t0)
    (H : Holds h' q t5) (hw : wT t0 = []) :
    verbatims h' t5.tree = (verbatims h t0.tree).map fun v => { v with text := strip v.text } := by
  have h1 := N.verbatim (by rw [wL, wL, hw]; rfl)
  rw [vL, vL, vL, vL, List.append_nil, List.append_nil] at h1
  unfold verbatims
  rw [verbatims_holds H, verbatims_holds H0, h1, vT_strip]

end Normalize
end RSM
