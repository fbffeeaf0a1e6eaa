import Verif.Lemmas.NormText

/-! Helper lemmas for text normalisation: what the normalised tree looks like. -/

namespace RSM
namespace Normalize
open PyM Nodes Heap LTree Transformer

/-! ### Merging, by recursion on the children -/

theorem groupRuns_head {α : Type} (key : α → Bool) (y : α) (ys : List α) :
    ∃ run rest, groupRuns key (y :: ys) = (key y, run) :: rest := by
  simp only [groupRuns]
  split
  · exact ⟨_, _, rfl⟩
  · split
    · rename_i h; exact ⟨_, _, by rw [h]⟩
    · exact ⟨_, _, rfl⟩

theorem groupRuns_run {α : Type} (key : α → Bool) (run rest : List α) (hrun : ∀ r ∈ run, key r = true)
    (hrest : ∀ y ∈ rest.head?, key y = false) (x : α) (hx : key x = true) :
    groupRuns key (x :: (run ++ rest)) = (true, x :: run) :: groupRuns key rest := by
  induction run generalizing x with
  | nil =>
    cases rest with
    | nil => simp [groupRuns, hx]
    | cons y ys =>
      obtain ⟨r, g, e⟩ := groupRuns_head key y ys
      rw [List.nil_append, groupRuns, e]
      simp [hx, hrest y rfl]
  | cons z run ih =>
    rw [List.cons_append, groupRuns, ih (fun r hr => hrun r (by simp [hr])) z (hrun z (by simp))]
    simp [hx]

theorem mergeL_other {k : LTree} (hk : k.isT = false) (ks : List LTree) :
    mergeL (k :: ks) = k :: mergeL ks := by
  unfold mergeL
  rw [groupRuns]
  split
  · rename_i h; simp [h, hk, mergeGroup]
  · rename_i b run rest h
    rw [h, hk]
    split
    · rename_i hb; subst hb; simp [mergeGroup]
    · simp [mergeGroup]

theorem mergeL_run {k : LTree} (hk : k.isT = true) (run rest : List LTree)
    (hrun : ∀ r ∈ run, r.isT = true) (hrest : ∀ y ∈ rest.head?, y.isT = false) :
    mergeL (k :: (run ++ rest)) =
      (k.mapText fun t => runText t (run.map fun r => r.attrs.text)) :: mergeL rest := by
  unfold mergeL
  rw [groupRuns_run isT run rest hrun hrest k hk]
  simp [mergeGroup]

/-- Induction on a list of children, a run of texts at a time. -/
theorem runs_induction {P : List LTree → Prop} (nil : P [])
    (other : ∀ k ks, k.isT = false → P ks → P (k :: ks))
    (run : ∀ k run rest, k.isT = true → (∀ r ∈ run, r.isT = true) →
      (∀ y ∈ rest.head?, y.isT = false) → P rest → P (k :: (run ++ rest)))
    (ks : List LTree) : P ks := by
  have : ∀ n (ks : List LTree), ks.length ≤ n → P ks := by
    intro n
    induction n with
    | zero => intro ks h; rw [List.length_eq_zero_iff.mp (Nat.le_zero.mp h)]; exact nil
    | succ n ih =>
      intro ks h
      cases ks with
      | nil => exact nil
      | cons k ks =>
        simp only [List.length_cons] at h
        by_cases hk : k.isT = true
        · have e := List.takeWhile_append_dropWhile (p := isT) (l := ks)
          rw [← e]
          refine run k _ _ hk ?_ ?_ (ih _ ?_)
          · intro r hr
            have : ∀ (l : List LTree), r ∈ l.takeWhile isT → r.isT = true := by
              intro l
              induction l with
              | nil => simp
              | cons a l ihl =>
                rw [List.takeWhile_cons]
                split
                · intro hm
                  rcases List.mem_cons.mp hm with rfl | hm
                  · assumption
                  · exact ihl hm
                · simp
            exact this ks hr
          · intro y hy
            have := List.head?_dropWhile_not isT ks
            rw [hy] at this
            simpa using this
          · have := (List.dropWhile_sublist (l := ks) isT).length_le
            omega
        · exact other k ks (by simpa using hk) (ih ks (by omega))
  exact this ks.length ks le_rfl

/-! ### Classes -/

def classes (ks : List LTree) : List Cls := ks.map fun k => k.attrs.cls

/-- No two neighbours both satisfy `P`. -/
def NoAdj (P : Cls → Bool) : List Cls → Prop
  | [] => True
  | c :: cs => (∀ d ∈ cs.head?, P c = true → P d = false) ∧ NoAdj P cs

theorem NoAdj.mid {P : Cls → Bool} {cs : List Cls} (h : NoAdj P cs) {l a b r}
    (e : cs = l ++ a :: b :: r) (ha : P a = true) : P b = false := by
  induction l generalizing cs with
  | nil => subst e; exact h.1 b rfl ha
  | cons c l ih => subst e; exact ih h.2 rfl

@[simp] theorem classes_mapHead (f ks) : classes (mapHead f ks) = classes ks := by
  cases ks <;> simp [mapHead, classes]
@[simp] theorem classes_mapLast (f ks) : classes (mapLast f ks) = classes ks := by
  cases hl : ks.getLast? with
  | none => rw [List.getLast?_eq_none_iff] at hl; subst hl; rfl
  | some k =>
    obtain ⟨a, rfl⟩ := List.getLast?_eq_some_iff.mp hl
    rw [mapLast_append]; simp [classes]
@[simp] theorem classes_map (f ks) : classes (ks.map (mapIfText f)) = classes ks := by
  simp [classes]
@[simp] theorem classes_stripL (ks) : classes (stripL ks) = classes ks := by simp [stripL]

def isTextCls (c : Cls) : Bool := c.isSub .Text

theorem head_mergeL (ks : List LTree) :
    (classes (mergeL ks)).head? = (classes ks).head? := by
  refine runs_induction (P := fun ks => (classes (mergeL ks)).head? = (classes ks).head?) rfl ?_ ?_ ks
  · intro k ks hk _; rw [mergeL_other hk]; rfl
  · intro k run rest hk hrun hrest _; rw [mergeL_run hk _ _ hrun hrest]; simp [classes]

theorem noAdj_mergeL (ks : List LTree) : NoAdj isTextCls (classes (mergeL ks)) := by
  refine runs_induction (P := fun ks => NoAdj isTextCls (classes (mergeL ks))) trivial ?_ ?_ ks
  · intro k ks hk ih
    rw [mergeL_other hk]
    exact ⟨fun d _ h => (by rw [show isTextCls k.attrs.cls = false from hk] at h; cases h), ih⟩
  · intro k run rest hk hrun hrest ih
    rw [mergeL_run hk _ _ hrun hrest]
    refine ⟨fun d hd _ => ?_, ih⟩
    have h1 : d ∈ (classes (mergeL rest)).head? := hd
    rw [head_mergeL] at h1
    cases rest with
    | nil => cases h1
    | cons y ys =>
      simp only [classes, List.map_cons, List.head?_cons, Option.mem_def, Option.some.injEq] at h1
      subst h1
      exact hrest y rfl

theorem not_text_of_math {c : Cls} (h : c.isSub .Math = true) : c.isSub .Text = false := by
  revert h; cases c <;> decide

theorem Shaped.noAdj {n0 a ks ks4} (S : Shaped n0 a ks ks4) : NoAdj isTextCls (classes ks4) := by
  have hm := noAdj_mergeL ks
  have hst : NoAdj isTextCls (classes (stripL (mergeL ks))) := by rw [classes_stripL]; exact hm
  have hkw : isTextCls .Keyword = false := by decide
  cases S with
  | plain hc => rw [classes_map]; exact hst
  | construct hc hw hn =>
    rw [classes_map]
    generalize stripL (mergeL ks) = l at hst
    cases l with
    | nil => exact ⟨by simp, trivial⟩
    | cons k l =>
      simp only [openL]
      split
      · rename_i hmath
        refine ⟨fun d _ h => (by rw [show isTextCls .Keyword = true from h] at hkw; cases hkw), ?_⟩
        refine ⟨fun d hd _ => ?_, ?_⟩
        · have hd' : d ∈ (classes (mapHead (' ' :: ·) (k :: l))).head? := hd
          rw [classes_mapHead] at hd'
          simp only [classes, List.map_cons, List.head?_cons, Option.mem_def, Option.some.injEq] at hd'
          subst hd'
          exact not_text_of_math hmath
        · have : NoAdj isTextCls (classes (mapHead (' ' :: ·) (k :: l))) := by
            rw [classes_mapHead]; exact hst
          exact this
      · refine ⟨fun d _ h => (by rw [show isTextCls .Keyword = true from h] at hkw; cases hkw), ?_⟩
        have : NoAdj isTextCls (classes (mapHead (' ' :: ·) (k :: l))) := by
          rw [classes_mapHead]; exact hst
        exact this

def isSpacedCls (c : Cls) : Bool := spacedClasses.contains c

/-- Put a text between neighbours that are both inline. -/
def weave : List Cls → List Cls
  | [] => []
  | c :: cs =>
    c :: ((if isSpacedCls c && (cs.head?.any isSpacedCls) then [.Text] else []) ++ weave cs)

theorem Norm.classes {n0 ts ts'} (N : Norm n0 ts ts') : classes ts' = weave (classes ts) := by
  induction N with
  | nil => rfl
  | @cons i a ks ts ks4 ks5 ts' ex _ _ _ sp _ _ ih =>
    have : (Normalize.classes ex) = if isSpacedCls a.cls && ((Normalize.classes ts).head?.any isSpacedCls)
        then [.Text] else [] := by
      have hp : spacedPair a ts = (isSpacedCls a.cls && ((Normalize.classes ts).head?.any isSpacedCls)) := by
        cases ts <;> simp [spacedPair, Normalize.classes, isSpacedCls]
      rcases sp with ⟨h, e, _, rfl⟩ | ⟨h, rfl⟩
      · rw [← hp, h]; rfl
      · rw [← hp, h]; rfl
    simp only [Normalize.classes, List.map_cons, attrs_mk, weave, List.map_append] at this ih ⊢
    rw [ih, this]
    rfl

theorem head_weave (cs : List Cls) : (weave cs).head? = cs.head? := by cases cs <;> rfl

theorem spaced_not_text {c : Cls} (h : isSpacedCls c = true) : isTextCls c = false := by
  revert h; cases c <;> decide

theorem noAdj_text_weave {cs : List Cls} (h : NoAdj isTextCls cs) : NoAdj isTextCls (weave cs) := by
  induction cs with
  | nil => trivial
  | cons c cs ih =>
    rw [weave]
    split
    · rename_i hs
      simp only [Bool.and_eq_true, Option.any_eq_true] at hs
      obtain ⟨h1, d, h2, h3⟩ := hs
      refine ⟨fun d hd hc => (by rw [spaced_not_text h1] at hc; cases hc), ?_, ih h.2⟩
      intro e he _
      have he' : e ∈ (weave cs).head? := he
      rw [head_weave, h2] at he'
      cases he'
      exact spaced_not_text h3
    · refine ⟨fun d hd hc => ?_, ih h.2⟩
      have hd' : d ∈ (weave cs).head? := hd
      rw [head_weave] at hd'
      exact h.1 d hd' hc

theorem noAdj_spaced_weave (cs : List Cls) : NoAdj isSpacedCls (weave cs) := by
  induction cs with
  | nil => trivial
  | cons c cs ih =>
    rw [weave]
    have hT : isSpacedCls .Text = false := by decide
    split
    · refine ⟨fun d hd _ => ?_, fun d _ h => ?_, ih⟩
      · simp only [List.cons_append, List.head?_cons, Option.mem_def, Option.some.injEq] at hd
        subst hd; exact hT
      · rw [hT] at h; cases h
    · rename_i hs
      refine ⟨fun d hd hc => ?_, ih⟩
      have hd' : d ∈ (weave cs).head? := hd
      rw [head_weave] at hd'
      cases hdd : isSpacedCls d with
      | false => rfl
      | true =>
        exfalso; apply hs
        rw [hc, hd']
        simp [hdd]

/-! ### The nodes of the result -/

mutual
/-- All subtrees, in document order. -/
def subs : LTree → List LTree
  | .node i a ks => .node i a ks :: subsL ks
def subsL : List LTree → List LTree
  | [] => []
  | t :: ts => subs t ++ subsL ts
end

@[simp] theorem subsL_append (a b : List LTree) : subsL (a ++ b) = subsL a ++ subsL b := by
  induction a with
  | nil => rfl
  | cons t a ih => simp [subsL, ih]

theorem self_mem_subs (t : LTree) : t ∈ subs t := by cases t; simp [subs]

mutual
theorem map_root_subs (t : LTree) : (subs t).map root = t.refs := by
  match t with
  | .node i a ks => simp [subs, map_root_subsL ks]
theorem map_root_subsL (ts : List LTree) : (subsL ts).map root = refsL ts := by
  match ts with
  | [] => rfl
  | t :: ts => simp [subsL, map_root_subs t, map_root_subsL ts]
end

mutual
theorem holds_subs {h : Heap} {p t} (H : Holds h p t) : ∀ s ∈ subs t, ∃ q, Holds h q s := by
  match t with
  | .node i a ks =>
    have h2 := holds_subsL (ts := ks) H.2.2.2
    intro s hs
    simp only [subs, List.mem_cons] at hs
    rcases hs with rfl | hs
    · exact ⟨p, H⟩
    · exact h2 s hs
theorem holds_subsL {h : Heap} {p ts} (H : HoldsL h p ts) : ∀ s ∈ subsL ts, ∃ q, Holds h q s := by
  match ts with
  | [] => intro s hs; cases hs
  | t :: ts =>
    have h1 := holds_subs (t := t) H.1
    have h2 := holds_subsL (ts := ts) H.2
    intro s hs
    simp only [subsL, List.mem_append] at hs
    rcases hs with hs | hs
    · exact h1 s hs
    · exact h2 s hs
end

/-- Where a subtree of the result comes from. -/
theorem Norm.inv {n0 ts ts'} (N : Norm n0 ts ts') : ∀ s ∈ subsL ts',
    (∃ e, s = .node e (textAttrs [' ']) []) ∨
    ∃ i a ks ks4 ks5, s = .node i (unescAttrs a) ks5 ∧ Shaped n0 a ks ks4 ∧ Norm n0 ks4 ks5 := by
  induction N with
  | nil => intro s hs; cases hs
  | @cons i a ks ts ks4 ks5 ts' ex sh N4 _ sp _ ih4 iht =>
    intro s hs
    simp only [subsL, subs, subsL_append, List.cons_append, List.mem_cons, List.mem_append] at hs
    rcases hs with rfl | hs | hs | hs
    · exact .inr ⟨i, a, ks, ks4, ks5, rfl, sh, N4⟩
    · exact ih4 s hs
    · rcases sp with ⟨_, e, _, rfl⟩ | ⟨_, rfl⟩
      · simp only [subsL, subs, List.append_nil, List.mem_singleton] at hs
        exact .inl ⟨e, hs⟩
      · cases hs
    · exact iht s hs

theorem Norm.nil_iff {n0 ts'} (N : Norm n0 [] ts') : ts' = [] := by cases N; rfl

/-- The first tree of the result. -/
theorem Norm.head {n0 ts ts' t'} (N : Norm n0 ts ts') (h : ts'.head? = some t') :
    ∃ i a ks ks5, ts.head? = some (.node i a ks) ∧ t' = .node i (unescAttrs a) ks5 := by
  cases N with
  | nil => cases h
  | cons _ _ _ _ _ =>
    simp only [List.head?_cons, Option.some.injEq] at h
    exact ⟨_, _, _, _, rfl, h.symm⟩

/-- The last tree of the result. -/
theorem Norm.last {n0 ts ts' t'} (N : Norm n0 ts ts') (h : ts'.getLast? = some t') :
    ∃ i a ks ks5, ts.getLast? = some (.node i a ks) ∧ t' = .node i (unescAttrs a) ks5 := by
  induction N generalizing t' with
  | nil => cases h
  | @cons i a ks ts ks4 ks5 ts' ex _ _ N sp _ _ ih =>
    cases ts with
    | nil =>
      have h1 := N.nil_iff
      subst h1
      rcases sp with ⟨h1, _⟩ | ⟨_, rfl⟩
      · simp [spacedPair] at h1
      · simp only [List.append_nil, List.getLast?_singleton, Option.some.injEq] at h
        exact ⟨i, a, ks, ks5, rfl, h.symm⟩
    | cons t ts =>
      have hne : ts' ≠ [] := by cases N; simp
      have h2 : ts'.getLast? = some t' := by
        rw [List.getLast?_cons, List.getLast?_append] at h
        cases hl : ts'.getLast? with
        | none => exact absurd (List.getLast?_eq_none_iff.mp hl) hne
        | some x => rw [hl] at h; simpa using h
      obtain ⟨j, b, kk, kk5, h3, h4⟩ := ih h2
      exact ⟨j, b, kk, kk5, by rw [List.getLast?_cons_cons]; exact h3, h4⟩

/-- The trees of the result. -/
theorem Norm.mem {n0 ts ts' t'} (N : Norm n0 ts ts') (h : t' ∈ ts') :
    (∃ e, t' = .node e (textAttrs [' ']) []) ∨
    ∃ i a ks ks5, .node i a ks ∈ ts ∧ t' = .node i (unescAttrs a) ks5 := by
  induction N with
  | nil => cases h
  | @cons i a ks ts ks4 ks5 ts' ex _ _ N sp _ _ ih =>
    rcases List.mem_cons.mp h with rfl | h
    · exact .inr ⟨i, a, ks, ks5, by simp, rfl⟩
    · rcases List.mem_append.mp h with h | h
      · rcases sp with ⟨_, e, _, rfl⟩ | ⟨_, rfl⟩
        · exact .inl ⟨e, by simpa using h⟩
        · cases h
      · rcases ih h with h | ⟨j, b, kk, kk5, h1, h2⟩
        · exact .inl h
        · exact .inr ⟨j, b, kk, kk5, by simp [h1], h2⟩

/-! ### Texts of the result -/

theorem text_unescAttrs {a : NodeRec} (h : a.cls.isSub .Text = true) :
    (unescAttrs a).text = readAs a.asis a.text := by
  unfold unescAttrs readAs
  simp only [h, Bool.true_and]
  cases a.asis
  · simpa using unesc_eq a.text
  · rfl

theorem text_mapIfText {f k} (h : k.isT = true) : (mapIfText f k).attrs.text = f k.attrs.text := by
  unfold mapIfText; rw [if_pos h]; cases k; rfl

theorem Shaped.squeezed {n0 a ks ks4} (S : Shaped n0 a ks ks4) : ∀ k ∈ ks4, k.isT = true →
    ∃ s, k.attrs.text = squeezeText s := by
  have key : ∀ l : List LTree, ∀ k ∈ l.map (mapIfText squeezeText), k.isT = true →
      ∃ s, k.attrs.text = squeezeText s := by
    intro l k hk ht
    obtain ⟨k0, _, rfl⟩ := List.mem_map.mp hk
    rw [isT_mapIfText] at ht
    exact ⟨k0.attrs.text, text_mapIfText ht⟩
  cases S with
  | plain hc => exact key _
  | construct hc hw hn => exact key _

theorem blank_oneBlank : OneBlank [' '] :=
  ⟨[' '], [], [], rfl, .inr rfl, .inl rfl, by simp [NoLead], by simp [NoTrail]⟩

theorem Norm.oneBlank {n0 a ks ks4 ks5} (S : Shaped n0 a ks ks4) (N : Norm n0 ks4 ks5) :
    ∀ k ∈ ks5, k.isT = true → OneBlank k.attrs.text := by
  intro k hk ht
  rcases N.mem hk with ⟨e, rfl⟩ | ⟨i, b, kk, kk5, h1, rfl⟩
  · exact blank_oneBlank
  · have hb : b.cls.isSub .Text = true := ht
    obtain ⟨s, hs⟩ := S.squeezed _ h1 hb
    rw [attrs_mk, text_unescAttrs hb]
    rw [attrs_mk] at hs
    rw [hs]
    exact read_oneBlank _ (squeeze_oneBlank s)

theorem stripL_head {l : List LTree} {k} (h : (stripL l).head? = some k) (hk : k.isT = true) :
    NoLead k.attrs.text := by
  match l with
  | [] => cases h
  | [k0] =>
    have e : stripL [k0] = [mapIfText rstrip (mapIfText lstrip k0)] := mapLast_append _ [] _
    rw [e] at h
    simp only [List.head?_cons, Option.some.injEq] at h
    subst h
    have hk0 : k0.isT = true := by simpa using hk
    rw [text_mapIfText (by simpa using hk0), text_mapIfText hk0]
    exact rstrip_noLead (lstrip_noLead _)
  | k0 :: k1 :: l =>
    obtain ⟨init, last, e⟩ : ∃ init last, k1 :: l = init ++ [last] :=
      ⟨_, _, (List.dropLast_append_getLast (by simp)).symm⟩
    have e2 : stripL (k0 :: k1 :: l) = (mapIfText lstrip k0 :: init) ++ [mapIfText rstrip last] := by
      unfold stripL
      rw [mapHead, e, ← List.cons_append, mapLast_append]
    rw [e2] at h
    simp only [List.cons_append, List.head?_cons, Option.some.injEq] at h
    subst h
    have hk0 : k0.isT = true := by simpa using hk
    rw [text_mapIfText hk0]
    exact lstrip_noLead _

theorem stripL_last {l : List LTree} {k} (h : (stripL l).getLast? = some k) (hk : k.isT = true) :
    NoTrail k.attrs.text := by
  unfold stripL at h
  generalize mapHead lstrip l = m at h
  cases hl : m.getLast? with
  | none => rw [List.getLast?_eq_none_iff] at hl; subst hl; cases h
  | some k0 =>
    obtain ⟨a, rfl⟩ := List.getLast?_eq_some_iff.mp hl
    rw [mapLast_append] at h
    have h' : mapIfText rstrip k0 = k := by simpa using h
    subst h'
    rw [text_mapIfText (by simpa using hk)]
    exact rstrip_noTrail _

theorem Norm.noLead {n0 a ks ks4 ks5} (hc : a.cls.isSub .Construct = false) (S : Shaped n0 a ks ks4)
    (N : Norm n0 ks4 ks5) {k} (hk : ks5.head? = some k) (ht : k.isT = true) :
    NoLead k.attrs.text := by
  obtain ⟨i, b, kk, kk5, h1, rfl⟩ := N.head hk
  have hb : b.cls.isSub .Text = true := ht
  rw [attrs_mk, text_unescAttrs hb]
  refine read_noLead _ ?_
  cases S with
  | construct hc' _ _ => rw [hc] at hc'; cases hc'
  | plain _ =>
    cases hm : (stripL (mergeL ks)).head? with
    | none => rw [List.head?_map, hm] at h1; cases h1
    | some k0 =>
      rw [List.head?_map, hm] at h1
      simp only [Option.map_some, Option.some.injEq] at h1
      have ht0 : k0.isT = true := by
        rw [← isT_mapIfText squeezeText k0, h1]; exact hb
      have := text_mapIfText (f := squeezeText) ht0
      rw [h1, attrs_mk] at this
      rw [this]
      exact squeeze_noLead (stripL_head hm ht0)

theorem Norm.noTrail {n0 a ks ks4 ks5} (hc : a.cls.isSub .Construct = false) (S : Shaped n0 a ks ks4)
    (N : Norm n0 ks4 ks5) {k} (hk : ks5.getLast? = some k) (ht : k.isT = true) :
    NoTrail k.attrs.text := by
  obtain ⟨i, b, kk, kk5, h1, rfl⟩ := N.last hk
  have hb : b.cls.isSub .Text = true := ht
  rw [attrs_mk, text_unescAttrs hb]
  refine read_noTrail _ ?_
  cases S with
  | construct hc' _ _ => rw [hc] at hc'; cases hc'
  | plain _ =>
    cases hm : (stripL (mergeL ks)).getLast? with
    | none => rw [List.getLast?_map, hm] at h1; cases h1
    | some k0 =>
      rw [List.getLast?_map, hm] at h1
      simp only [Option.map_some, Option.some.injEq] at h1
      have ht0 : k0.isT = true := by
        rw [← isT_mapIfText squeezeText k0, h1]; exact hb
      have := text_mapIfText (f := squeezeText) ht0
      rw [h1, attrs_mk] at this
      rw [this]
      exact squeeze_noTrail (stripL_last hm ht0)

end Normalize
end RSM
