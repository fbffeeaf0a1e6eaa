import Verif.Lemmas.NormKeep
import Verif.Spec.Words

/-! Normalisation neither joins nor splits words (helper lemmas). -/

namespace RSM
namespace Normalize
open PyM Nodes Heap LTree Transformer

/-! ### Flows with the same words -/

/-- Two flows that give the same words wherever they stand. -/
def SameF (a b : Flow) : Prop := ∀ w y, wordsFrom w (a ++ y) = wordsFrom w (b ++ y)

theorem SameF.refl (a : Flow) : SameF a a := fun _ _ => rfl
theorem SameF.symm {a b : Flow} (h : SameF a b) : SameF b a := fun w y => (h w y).symm
theorem SameF.trans {a b c : Flow} (h : SameF a b) (h' : SameF b c) : SameF a c := fun w y => (h w y).trans (h' w y)

theorem wordsFrom_ctx {s s' : Flow} (h : ∀ w, wordsFrom w s = wordsFrom w s') :
    ∀ (x : Flow) w, wordsFrom w (x ++ s) = wordsFrom w (x ++ s')
  | [], w => h w
  | none :: x, w => by
    rw [List.cons_append, List.cons_append, wordsFrom, wordsFrom, wordsFrom_ctx h x]
  | some p :: x, w => by
    rw [List.cons_append, List.cons_append, wordsFrom, wordsFrom, wordsFrom_ctx h x]

theorem SameF.append {a a' b b' : Flow} (h : SameF a a') (h' : SameF b b') : SameF (a ++ b) (a' ++ b') := by
  intro w y
  rw [List.append_assoc, List.append_assoc, h w]
  exact wordsFrom_ctx (fun w => h' w y) a' w

theorem SameF.words {a b : Flow} (h : SameF a b) : words a = words b := by
  have := h [] []
  rw [List.append_nil, List.append_nil] at this
  exact this

theorem none_none : SameF [none, none] [none] := by
  intro w y
  show wordsFrom w (none :: none :: y) = wordsFrom w (none :: y)
  rw [wordsFrom, wordsFrom, wordsFrom]
  rfl

theorem glyphs_append (a b : Str) : glyphs (a ++ b) = glyphs a ++ glyphs b := List.map_append

theorem glyphs_space {c : Char} (h : isSpace c = true) (s : Str) : glyphs (c :: s) = none :: glyphs s := by
  unfold glyphs
  rw [List.map_cons, if_pos h]

theorem glyphs_blank (s : Str) : glyphs (' ' :: s) = none :: glyphs s := glyphs_space (by decide) s

theorem glyphs_allSp : ∀ {w : Str}, AllSp w → SameF (glyphs w ++ [none]) [none]
  | [], _ => .refl _
  | c :: w, h => by
    rw [glyphs_space (h c (by simp))]
    have ih := glyphs_allSp (w := w) fun d hd => h d (by simp [hd])
    exact ((SameF.refl [none]).append ih).trans none_none

theorem glyphs_allSp' : ∀ {w : Str}, AllSp w → SameF (none :: glyphs w) [none]
  | [], _ => .refl _
  | c :: w, h => by
    rw [glyphs_space (h c (by simp))]
    have ih := glyphs_allSp' (w := w) fun d hd => h d (by simp [hd])
    exact ((SameF.refl [none]).append ih).trans none_none

theorem glyphs_ne {w : Str} (h : AllSp w) (hw : w ≠ []) : SameF (glyphs w) [none] := by
  cases w with
  | nil => exact absurd rfl hw
  | cons c w =>
    rw [glyphs_space (h c (by simp))]
    exact glyphs_allSp' fun d hd => h d (by simp [hd])

theorem words_lead : ∀ {w : Str} (s : Flow), AllSp w → words (glyphs w ++ s) = words s
  | [], _, _ => rfl
  | c :: w, s, h => by
    rw [glyphs_space (h c (by simp))]
    show wordsFrom [] (none :: (glyphs w ++ s)) = _
    rw [wordsFrom]
    exact words_lead s fun d hd => h d (by simp [hd])

theorem words_trail {w : Str} (s : Flow) (h : AllSp w) : words (s ++ glyphs w) = words s := by
  have : ∀ (w : Str), AllSp w → ∀ p, wordsFrom p (glyphs w) = wordsFrom p [] := by
    intro w
    induction w with
    | nil => intro _ _; rfl
    | cons c w ih =>
      intro h p
      have := ih (fun d hd => h d (by simp [hd])) []
      rw [glyphs_space (h c (by simp))]
      show (if p.isEmpty then [] else [p]) ++ wordsFrom [] (glyphs w) = _
      rw [this]
      cases p <;> rfl
  have := wordsFrom_ctx (this w h) s []
  rw [List.append_nil] at this
  exact this

/-! ### Texts -/

/-- What a text shows. -/
abbrev G (v : Bool) (s : Str) : Flow := glyphs (readAs v s)

theorem G_lead (v w s) (hw : AllSp w) : G v (w ++ s) = glyphs w ++ G v s := by
  unfold G readAs
  split
  · rw [glyphs_append]
  · rw [show unescape (· ∈ special) (w ++ s) = _ from U_lead w s hw, glyphs_append]

theorem G_trail (v s w) (hw : AllSp w) : G v (s ++ w) = G v s ++ glyphs w := by
  unfold G readAs
  split
  · rw [glyphs_append]
  · rw [show unescape (· ∈ special) (s ++ w) = _ from U_trail s w hw, glyphs_append]

theorem G_split (v a b) : G v (a ++ ' ' :: b) = G v a ++ none :: G v b := by
  unfold G readAs
  split
  · rw [glyphs_append, glyphs_blank]
  · rw [show unescape (· ∈ special) (a ++ ' ' :: b) = U a ++ ' ' :: U b from U_split (by decide) a b, glyphs_append,
      glyphs_blank]

theorem G_lstrip (v s) : ∃ w, AllSp w ∧ G v s = glyphs w ++ G v (lstrip s) := by
  obtain ⟨w, h1, h2⟩ := lstrip_split s
  refine ⟨w, h2, ?_⟩
  conv_lhs => rw [h1]
  rw [G_lead _ _ _ h2]

theorem G_rstrip (v s) : ∃ w, AllSp w ∧ G v s = G v (rstrip s) ++ glyphs w := by
  obtain ⟨w, h1, h2⟩ := rstrip_split s
  refine ⟨w, h2, ?_⟩
  conv_lhs => rw [h1]
  rw [G_trail _ _ _ h2]

theorem G_rstrip_blank (v s) : SameF (G v (rstrip s) ++ [none]) (G v s ++ [none]) := by
  obtain ⟨w, hw, e⟩ := G_rstrip v s
  rw [e, List.append_assoc]
  exact (SameF.refl _).append (glyphs_allSp hw).symm

theorem G_lstrip_blank (v s) : SameF (none :: G v (lstrip s)) (none :: G v s) := by
  obtain ⟨w, hw, e⟩ := G_lstrip v s
  rw [e]
  exact (glyphs_allSp' hw).symm.append (.refl _)

theorem G_strip_blank (v s) : SameF (none :: (G v (RSM.strip s) ++ [none])) (none :: (G v s ++ [none])) := by
  have h1 : SameF (none :: (G v (RSM.strip s) ++ [none])) (none :: (G v (lstrip s) ++ [none])) :=
    (SameF.refl [none]).append (G_rstrip_blank v (lstrip s))
  exact h1.trans ((G_lstrip_blank v s).append (.refl [none]))

theorem G_squeeze (v s) : SameF (G v (squeezeText s)) (G v s) := by
  unfold squeezeText
  have h1 : SameF (G v (subTrailing s.length s)) (G v s) := by
    rw [subTrailing_eq _ _ le_rfl]
    split
    · exact .refl _
    · rename_i hne
      obtain ⟨w, h1, h2⟩ := rstrip_split s
      have hw : w ≠ [] := by
        rintro rfl
        rw [List.append_nil] at h1
        exact hne h1.symm
      rw [G_trail _ _ _ allSp_blank]
      conv_rhs => rw [h1, G_trail _ _ _ h2]
      exact (SameF.refl _).append (glyphs_ne h2 hw).symm
  refine .trans ?_ h1
  generalize subTrailing s.length s = t
  rw [subLeading_eq]
  split
  · exact .refl _
  · rename_i hne
    obtain ⟨w, h1, h2⟩ := lstrip_split t
    have hw : w ≠ [] := by
      rintro rfl
      exact hne h1.symm
    rw [show ' ' :: lstrip t = [' '] ++ lstrip t from rfl, G_lead _ _ _ allSp_blank]
    conv_rhs => rw [h1, G_lead _ _ _ h2]
    exact (glyphs_ne h2 hw).symm.append (.refl _)

theorem G_join (v) : ∀ (x : Str) (xs : List Str),
    SameF (none :: (G v (joinBlank ((x :: xs).map RSM.strip)) ++ [none])) ((x :: xs).flatMap (fun b => none :: G v b) ++ [none])
  | x, [] => by
    simp only [List.map_cons, List.map_nil, joinBlank, List.flatMap_cons, List.flatMap_nil, List.append_nil, List.cons_append]
    exact G_strip_blank v x
  | x, y :: ys => by
    have ih := G_join v y ys
    have hb : joinBlank ((x :: y :: ys).map RSM.strip) = RSM.strip x ++ ' ' :: joinBlank ((y :: ys).map RSM.strip) := rfl
    rw [hb, G_split, List.flatMap_cons, List.append_assoc (_ :: _)]
    have e1 : (none : Option Piece) :: (G v (RSM.strip x) ++ (none :: G v (joinBlank ((y :: ys).map RSM.strip))) ++ [none]) =
        (none :: (G v (RSM.strip x) ++ [none])) ++ (G v (joinBlank ((y :: ys).map RSM.strip)) ++ [none]) := by simp
    have e2 : (none : Option Piece) :: (G v x ++ [none]) ++ (G v (joinBlank ((y :: ys).map RSM.strip)) ++ [none]) =
        (none :: G v x) ++ (none :: (G v (joinBlank ((y :: ys).map RSM.strip)) ++ [none])) := by simp
    show SameF (none :: (G v (RSM.strip x) ++ (none :: G v (joinBlank ((y :: ys).map RSM.strip))) ++ [none])) _
    rw [e1]
    refine ((G_strip_blank v x).append (.refl _)).trans ?_
    rw [e2]
    exact (SameF.refl _).append ih

theorem G_runText (v a) (bs : List Str) :
    SameF (G v (runText a bs)) (G v a ++ bs.flatMap fun b => none :: G v b) := by
  match bs with
  | [] => simp only [runText, List.flatMap_nil, List.append_nil]; exact .refl _
  | [b] =>
    rw [runText, G_split]
    have h1 : SameF (G v (rstrip a) ++ none :: G v (lstrip b)) (G v (rstrip a) ++ none :: G v b) :=
      (SameF.refl _).append (G_lstrip_blank v b)
    have h2 := (G_rstrip_blank v a).append (.refl (G v b))
    simp only [List.append_assoc, List.cons_append, List.nil_append] at h2
    simpa using h1.trans h2
  | b :: c :: cs =>
    rw [runText, joinRun, G_split, G_split]
    obtain ⟨ds, l, e⟩ : ∃ ds l, b :: c :: cs = ds ++ [l] := ⟨_, _, (List.dropLast_append_getLast (by simp)).symm⟩
    obtain ⟨d, ds', rfl⟩ : ∃ d ds', ds = d :: ds' := by
      cases ds with
      | nil => simp at e
      | cons d ds' => exact ⟨d, ds', rfl⟩
    have hd : (b :: c :: cs).dropLast = d :: ds' := by rw [e, List.dropLast_concat]
    have hl : (b :: c :: cs).getLastD [] = l := by
      rw [List.getLastD_eq_getLast?, e, List.getLast?_concat]; rfl
    rw [hd, hl, e, List.flatMap_append]
    have h1 := G_join v d ds'
    have h2 : SameF (none :: (G v (joinBlank ((d :: ds').map RSM.strip)) ++ none :: G v (lstrip l)))
        ((d :: ds').flatMap (fun b => none :: G v b) ++ none :: G v l) := by
      have h3 : SameF (none :: (G v (joinBlank ((d :: ds').map RSM.strip)) ++ none :: G v (lstrip l)))
          (none :: (G v (joinBlank ((d :: ds').map RSM.strip)) ++ none :: G v l)) :=
        (SameF.refl (none :: G v (joinBlank ((d :: ds').map RSM.strip)))).append (G_lstrip_blank v l)
      have h4 := h1.append (.refl (G v l))
      simp only [List.append_assoc, List.cons_append, List.nil_append] at h4
      exact h3.trans h4
    have h5 : SameF (G v (rstrip a) ++ none :: (G v (joinBlank ((d :: ds').map RSM.strip)) ++ none :: G v (lstrip l)))
        (G v a ++ none :: (G v (joinBlank ((d :: ds').map RSM.strip)) ++ none :: G v (lstrip l))) := by
      have := (G_rstrip_blank v a).append
        (.refl (G v (joinBlank ((d :: ds').map RSM.strip)) ++ none :: G v (lstrip l)))
      simpa only [List.append_assoc, List.cons_append, List.nil_append] using this
    refine h5.trans ((SameF.refl (G v a)).append ?_)
    simp only [List.flatMap_cons, List.flatMap_nil, List.append_nil] at h2 ⊢
    exact h2

/-! ### Trees -/

mutual
/-- `flowOf` for labelled trees. -/
def fT (b : Before) : LTree → Flow
  | .node _ a ks =>
    if a.cls.isSub .Text then glyphs (readAs b.verbatim a.text)
    else if a.cls = .Keyword then []
    else [some (.node a.cls (words (fL .other ks)))]
/-- `flowsOf` for labelled trees. -/
def fL (b : Before) : List LTree → Flow
  | [] => []
  | .node i a ks :: ts =>
    b.gap (b.step a.cls a.asis) ++ fT (b.step a.cls a.asis) (.node i a ks) ++ fL (b.step a.cls a.asis) ts
end

mutual
/-- `shownFlow` for labelled trees. -/
def dT : LTree → Flow
  | .node _ a ks =>
    if a.cls.isSub .Text then glyphs a.text
    else if a.cls = .Keyword then []
    else [some (.node a.cls (words (dL ks)))]
def dL : List LTree → Flow
  | [] => []
  | t :: ts => dT t ++ dL ts
end

theorem dL_append : ∀ a b, dL (a ++ b) = dL a ++ dL b
  | [], b => by rw [dL]; rfl
  | t :: a, b => by rw [List.cons_append, dL, dL, dL_append a b, List.append_assoc]

/-- What a tree shows on its own. -/
def oT (t : LTree) : Flow := fT (.text t.attrs.asis) t

/-- What merged siblings show, with a blank between inline nodes. -/
def qL : List LTree → Flow
  | [] => []
  | t :: ts => oT t ++ (if spacedPair t.attrs ts then [none] else []) ++ qL ts

theorem oT_text {t : LTree} (h : t.isT = true) : oT t = G t.attrs.asis t.attrs.text := by
  obtain ⟨i, a, ks⟩ := t
  have ha : a.cls.isSub .Text = true := h
  unfold oT
  rw [fT, if_pos ha]
  rfl

theorem fT_text {t : LTree} (h : t.isT = true) (v : Bool) : fT (.text v) t = G v t.attrs.text := by
  obtain ⟨i, a, ks⟩ := t
  have ha : a.cls.isSub .Text = true := h
  rw [fT, if_pos ha]
  rfl

theorem fT_other {t : LTree} (h : t.isT = false) (b : Before) : fT b t = oT t := by
  obtain ⟨i, a, ks⟩ := t
  have ha : a.cls.isSub .Text = false := h
  unfold oT
  rw [fT, fT, ha]
  rfl

theorem spacedClasses_eq : spacedClasses = inlineClasses := rfl

theorem step_other {k : LTree} (h : k.isT = false) (b : Before) :
    b.step k.attrs.cls k.attrs.asis = if inlineClasses.contains k.attrs.cls then .inline else .other := by
  unfold Before.step
  rw [show k.attrs.cls.isSub .Text = false from h]
  rfl

theorem gap_other (b : Before) : Before.gap .other b = [] := by cases b <;> rfl
theorem gap_text (v : Bool) {b : Before} (h : ∀ w, b ≠ .text w) : Before.gap (.text v) b = [] := by
  cases b with
  | text w => exact absurd rfl (h w)
  | inline => rfl
  | other => rfl

theorem fL_cons (b : Before) (k : LTree) (ks) : fL b (k :: ks) =
    b.gap (b.step k.attrs.cls k.attrs.asis) ++ fT (b.step k.attrs.cls k.attrs.asis) k ++
      fL (b.step k.attrs.cls k.attrs.asis) ks := by
  obtain ⟨i, a, l⟩ := k
  rw [fL]
  rfl

theorem fL_run {run : List LTree} (hrun : ∀ r ∈ run, r.isT = true) (v : Bool) (rest : List LTree) :
    fL (.text v) (run ++ rest) = (run.flatMap fun r => none :: G v r.attrs.text) ++ fL (.text v) rest := by
  induction run with
  | nil => rfl
  | cons r run ih =>
    have hr := hrun r (by simp)
    have hs : (Before.text v).step r.attrs.cls r.attrs.asis = .text v := by
      unfold Before.step
      rw [if_pos (show r.attrs.cls.isSub .Text = true from hr)]
    rw [List.cons_append, fL_cons, hs, ih fun x hx => hrun x (by simp [hx]), fT_text hr, List.flatMap_cons]
    simp [Before.gap]

theorem fL_other {ks : List LTree} {v : Bool} (h : ∀ y ∈ ks.head?, y.isT = false) :
    fL (.text v) ks = fL .other ks := by
  cases ks with
  | nil => rw [fL, fL]
  | cons y ys =>
    have hy := h y rfl
    rw [fL_cons, fL_cons, step_other hy, step_other hy, gap_other, gap_text]
    intro w
    split <;> exact Before.noConfusion

theorem fL_inline (ks : List LTree) (a : NodeRec) (ha : inlineClasses.contains a.cls = true) :
    fL .inline ks = (if spacedPair a ks then [none] else []) ++ fL .other ks := by
  cases ks with
  | nil => rw [fL, fL]; rfl
  | cons y ys =>
    rw [fL_cons, fL_cons, gap_other]
    have hsp : spacedPair a (y :: ys) = inlineClasses.contains y.attrs.cls := by
      show (inlineClasses.contains a.cls && inlineClasses.contains y.attrs.cls) = _
      rw [ha, Bool.true_and]
    rw [hsp]
    cases hy : y.isT with
    | false =>
      rw [step_other hy, step_other hy]
      by_cases hc : inlineClasses.contains y.attrs.cls = true
      · rw [if_pos hc, if_pos hc]
        simp [Before.gap]
      · rw [if_neg hc, if_neg hc]
        simp [Before.gap]
    | true =>
      have hc : inlineClasses.contains y.attrs.cls = false := by
        have hy' : y.attrs.cls.isSub .Text = true := hy
        revert hy'
        generalize y.attrs.cls = c
        cases c <;> decide
      have e : ∀ b : Before, (∀ v, b ≠ .text v) → b.step y.attrs.cls y.attrs.asis = .text y.attrs.asis := by
        intro b hb
        unfold Before.step
        rw [if_pos (show y.attrs.cls.isSub .Text = true from hy)]
        cases b with
        | text v => exact absurd rfl (hb v)
        | inline => rfl
        | other => rfl
      rw [e .inline (fun v h => Before.noConfusion h), e .other (fun v h => Before.noConfusion h), hc]
      simp [Before.gap]

theorem spacedPair_merge (a : NodeRec) (ks : List LTree) : spacedPair a (mergeL ks) = spacedPair a ks := by
  have h := head_mergeL ks
  unfold classes at h
  cases h1 : mergeL ks with
  | nil =>
    rw [h1] at h
    cases ks with
    | nil => rfl
    | cons k ks => cases h
  | cons m ms =>
    rw [h1] at h
    cases ks with
    | nil => cases h
    | cons k ks =>
      simp only [List.map_cons, List.head?_cons, Option.some.injEq] at h
      simp only [spacedPair, h]

theorem q_mergeL (ks : List LTree) : SameF (qL (mergeL ks)) (fL .other ks) := by
  refine runs_induction (P := fun ks => SameF (qL (mergeL ks)) (fL .other ks)) ?_ ?_ ?_ ks
  · show SameF (qL []) (fL .other [])
    rw [qL, fL]; exact .refl _
  · intro k ks hk ih
    rw [mergeL_other hk, qL, fL_cons, gap_other, step_other hk, fT_other hk, List.nil_append, spacedPair_merge]
    rw [List.append_assoc]
    refine (SameF.refl _).append ?_
    by_cases hc : inlineClasses.contains k.attrs.cls = true
    · rw [if_pos hc, fL_inline _ k.attrs hc]
      exact (SameF.refl _).append ih
    · rw [if_neg hc]
      have : spacedPair k.attrs ks = false := by
        cases ks with
        | nil => rfl
        | cons y ys =>
          show (inlineClasses.contains k.attrs.cls && inlineClasses.contains y.attrs.cls) = _
          rw [Bool.eq_false_iff.mpr hc, Bool.false_and]
      rw [this]
      exact ih
  · intro k run rest hk hrun hrest ih
    have hs : Before.other.step k.attrs.cls k.attrs.asis = .text k.attrs.asis := by
      unfold Before.step
      rw [if_pos (show k.attrs.cls.isSub .Text = true from hk)]
    rw [mergeL_run hk _ _ hrun hrest, qL, fL_cons, gap_other, hs, fT_text hk, fL_run hrun, fL_other hrest,
      List.nil_append, oT_text (by rw [isT_mapText]; exact hk)]
    have hc : ∀ l, spacedPair (k.mapText fun t => runText t (run.map fun r => r.attrs.text)).attrs l = false := by
      intro l
      cases l with
      | nil => rfl
      | cons y ys =>
        show (spacedClasses.contains _ && spacedClasses.contains y.attrs.cls) = _
        rw [cls_mapText]
        have hk' : k.attrs.cls.isSub .Text = true := hk
        have : spacedClasses.contains k.attrs.cls = false := by
          revert hk'
          generalize k.attrs.cls = c
          cases c <;> decide
        rw [this, Bool.false_and]
    rw [hc, if_neg (by simp), List.append_nil, ← List.append_assoc]
    refine SameF.append ?_ ih
    have := G_runText k.attrs.asis k.attrs.text (run.map fun r => r.attrs.text)
    rw [List.flatMap_map] at this
    obtain ⟨i, a, l⟩ := k
    exact this

/-! ### The other steps -/

theorem spacedPair_head {a : NodeRec} {k k' : LTree} (h : k.attrs.cls = k'.attrs.cls) (ts ts') :
    spacedPair a (k :: ts) = spacedPair a (k' :: ts') := by
  show (spacedClasses.contains a.cls && spacedClasses.contains k.attrs.cls) = _
  rw [h]
  rfl

theorem q_snoc (a : List LTree) (k : LTree) : ∃ p, ∀ k' : LTree, k'.attrs.cls = k.attrs.cls → qL (a ++ [k']) = p ++ oT k' := by
  induction a with
  | nil =>
    refine ⟨[], fun k' _ => ?_⟩
    rw [List.nil_append, qL, qL]
    simp [spacedPair]
  | cons t a ih =>
    obtain ⟨p, hp⟩ := ih
    refine ⟨oT t ++ (if spacedPair t.attrs (a ++ [k]) then [none] else []) ++ p, fun k' hk => ?_⟩
    rw [List.cons_append, qL, hp k' hk]
    have : spacedPair t.attrs (a ++ [k']) = spacedPair t.attrs (a ++ [k]) := by
      cases a with
      | nil => exact spacedPair_head hk _ _
      | cons y ys => rfl
    rw [this]
    simp

theorem text_attrs_mapIfText {k : LTree} (hk : k.isT = true) (f : Str → Str) :
    oT (mapIfText f k) = G k.attrs.asis (f k.attrs.text) := by
  unfold mapIfText
  rw [if_pos hk, oT_text (by rw [isT_mapText]; exact hk)]
  obtain ⟨i, a, ks⟩ := k
  rfl

theorem cls_attrs_mapIfText (f : Str → Str) (k : LTree) (ts : List LTree) :
    spacedPair (mapIfText f k).attrs ts = spacedPair k.attrs ts := by
  cases ts with
  | nil => rfl
  | cons y ys =>
    unfold spacedPair
    rw [cls_mapIfText]

theorem words_stripL (ks : List LTree) : words (qL (stripL ks)) = words (qL ks) := by
  unfold stripL
  have h1 : ∀ ks : List LTree, words (qL (mapLast rstrip ks)) = words (qL ks) := by
    intro ks
    cases hl : ks.getLast? with
    | none => rw [List.getLast?_eq_none_iff] at hl; subst hl; rfl
    | some k =>
      obtain ⟨a, rfl⟩ := List.getLast?_eq_some_iff.mp hl
      rw [mapLast_append]
      obtain ⟨p, hp⟩ := q_snoc a k
      rw [hp k rfl, hp (mapIfText rstrip k) (cls_mapIfText _ _)]
      cases hk : k.isT with
      | false => unfold mapIfText; rw [hk]; rfl
      | true =>
        rw [text_attrs_mapIfText hk, oT_text hk]
        obtain ⟨w, hw, e⟩ := G_rstrip k.attrs.asis k.attrs.text
        rw [e, ← List.append_assoc, words_trail _ hw]
  rw [h1]
  cases ks with
  | nil => rfl
  | cons k ks =>
    rw [mapHead, qL, qL, cls_attrs_mapIfText]
    cases hk : k.isT with
    | false => unfold mapIfText; rw [hk]; rfl
    | true =>
      rw [text_attrs_mapIfText hk, oT_text hk]
      obtain ⟨w, hw, e⟩ := G_lstrip k.attrs.asis k.attrs.text
      rw [e, List.append_assoc, List.append_assoc, List.append_assoc, words_lead _ hw]

theorem q_squeeze (ks : List LTree) : SameF (qL (ks.map (mapIfText squeezeText))) (qL ks) := by
  induction ks with
  | nil => exact .refl _
  | cons k ks ih =>
    rw [List.map_cons, qL, qL, cls_attrs_mapIfText]
    have e : spacedPair k.attrs (ks.map (mapIfText squeezeText)) = spacedPair k.attrs ks := by
      cases ks with
      | nil => rfl
      | cons y ys => exact spacedPair_head (cls_mapIfText _ _) _ _
    rw [e]
    refine SameF.append (SameF.append ?_ (.refl _)) ih
    cases hk : k.isT with
    | false => unfold mapIfText; rw [hk]; exact .refl _
    | true =>
      rw [text_attrs_mapIfText hk, oT_text hk]
      exact G_squeeze _ _

theorem oT_keyword (n w) : oT (kwTree n w) = [] := by
  unfold oT kwTree
  rw [fT, if_neg (by decide), if_pos (show (NodeRec.new Cls.Keyword).cls = .Keyword from rfl)]

theorem spacedPair_keyword (n w ts) : spacedPair (kwTree n w).attrs ts = false := by
  cases ts <;> rfl

theorem words_openL (n w ks) : words (qL (openL n w ks)) = words (qL ks) := by
  cases ks with
  | nil => simp only [openL, qL, oT_keyword, spacedPair_keyword]; rfl
  | cons k ks =>
    have hm : words (qL (mapHead (' ' :: ·) (k :: ks))) = words (qL (k :: ks)) := by
      rw [mapHead, qL, qL, cls_attrs_mapIfText]
      cases hk : k.isT with
      | false => unfold mapIfText; rw [hk]; rfl
      | true =>
        rw [text_attrs_mapIfText hk, oT_text hk, show ' ' :: k.attrs.text = [' '] ++ k.attrs.text from rfl,
          G_lead _ _ _ allSp_blank, List.append_assoc, List.append_assoc, List.append_assoc,
          words_lead _ allSp_blank]
    simp only [openL]
    split
    · rw [qL, oT_keyword, spacedPair_keyword, qL, oT_text (by rfl)]
      have h1 : ∀ l, spacedPair (LTree.node n (textAttrs [' ']) []).attrs l = false := by
        intro l; cases l <;> rfl
      rw [h1]
      show words (G false [' '] ++ [] ++ qL (mapHead (' ' :: ·) (k :: ks))) = _
      rw [List.append_nil, show G false [' '] = glyphs [' '] from rfl, words_lead _ allSp_blank, hm]
    · rw [qL, oT_keyword, spacedPair_keyword]
      exact hm

theorem Shaped.words {n0 a ks ks4} (S : Shaped n0 a ks ks4) :
    Normalize.words (qL ks4) = Normalize.words (fL .other ks) := by
  cases S with
  | plain _ => rw [(q_squeeze _).words, words_stripL, (q_mergeL ks).words]
  | construct _ _ _ => rw [(q_squeeze _).words, words_openL, words_stripL, (q_mergeL ks).words]

/-- Normalisation keeps the words. -/
theorem Norm.words {n0 ts ts'} (N : Norm n0 ts ts') : dL ts' = qL ts := by
  induction N with
  | nil => rw [dL, qL]
  | @cons i a ks ts ks4 ks5 ts' ex sh _ _ sp _ ih4 iht =>
    have hex : dL ex = if spacedPair a ts then [none] else [] := by
      rcases sp with ⟨h, e, he, rfl⟩ | ⟨h, rfl⟩
      · rw [h, dL, dL, dT]; rfl
      · rw [h, dL]; rfl
    rw [dL, dL_append, hex, iht, qL, List.append_assoc]
    congr 1
    unfold oT
    rw [dT, fT, show (unescAttrs a).cls = a.cls from rfl, ih4, sh.words]
    by_cases ha : a.cls.isSub .Text = true
    · rw [if_pos ha, if_pos ha, text_unescAttrs ha]; rfl
    · rw [if_neg ha, if_neg ha]

/-! ### On the heap -/

mutual
theorem fT_label (h : Heap) (b : Before) : ∀ t : Tree, fT b (label h t) = flowOf h b t
  | .node x ts => by rw [label, fT, flowOf, fL_label h .other ts]; rfl
theorem fL_label (h : Heap) (b : Before) : ∀ ts : List Tree, fL b (labelL h ts) = flowsOf h b ts
  | [] => by rw [labelL, fL, flowsOf]
  | .node x ks :: ts => by
    rw [labelL, fL_cons, flowsOf, fT_label h _ (.node x ks), fL_label h _ ts, label]; rfl
end

mutual
theorem dT_holds {h : Heap} : ∀ {t : LTree} {p}, Holds h p t → shownFlow h t.tree = dT t
  | .node i a ks, p, H => by
    obtain ⟨_, _, ha, hk⟩ := H
    have hc : (h.get i).cls = a.cls := by rw [← ha]; rfl
    have ht : (h.get i).text = a.text := by rw [← ha]; rfl
    rw [LTree.tree, shownFlow, dT, dL_holds hk, hc, ht]
    unfold Heap.isInst
    rw [hc]
theorem dL_holds {h : Heap} : ∀ {ts : List LTree} {p}, HoldsL h p ts → shownFlows h (LTree.treeL ts) = dL ts
  | [], p, _ => by rw [LTree.treeL, shownFlows, dL]
  | t :: ts, p, H => by rw [LTree.treeL, shownFlows, dL, dT_holds H.1, dL_holds H.2]
end

theorem norm_words {n0 : Nat} {h h' : Heap} {t : Tree} {t5 : LTree} (N : Norm n0 [label h t] [t5])
    (H : Holds h' none t5) : shownFlow h' t5.tree = flowOf h (.text (h.get t.root).asis) t := by
  have := N.words
  rw [dL, dL, List.append_nil, qL, qL, List.append_nil] at this
  rw [dT_holds H, this]
  unfold oT
  rw [fT_label]
  obtain ⟨x, ks⟩ := t
  simp [spacedPair, label, LTree.attrs, Tree.root]
  rfl

end Normalize
end RSM
