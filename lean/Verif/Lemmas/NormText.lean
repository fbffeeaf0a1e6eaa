import Verif.Spec.Normalize
import Verif.Lemmas.NormLoop
import Verif.Props.Escape

/-! Helper lemmas for text normalisation: strings. -/

namespace RSM
namespace Normalize

def AllSp (s : Str) : Prop := ∀ c ∈ s, isSpace c = true

instance (s : Str) : Decidable (AllSp s) := by unfold AllSp; infer_instance

theorem special_not_space {c : Char} (h : c ∈ special) : isSpace c = false := by
  simp only [special, List.mem_cons, List.not_mem_nil, or_false] at h
  rcases h with rfl | rfl | rfl | rfl | rfl | rfl | rfl <;> decide

theorem space_ne_backslash {c : Char} (h : isSpace c = true) : c ≠ '\\' := by
  rintro rfl; revert h; decide

theorem space_not_special {c : Char} (h : isSpace c = true) : c ∉ special := fun hm => by
  rw [special_not_space hm] at h; cases h

abbrev U (s : Str) : Str := unescape (· ∈ special) s

theorem unesc_eq (s : Str) : unesc s = U s := by
  unfold unesc
  rw [C32_escape _ (show delims.Nodup by decide) (show '\\' ∉ delims by decide)]
  rfl

theorem U_space {c : Char} (hc : isSpace c = true) (s : Str) : U (c :: s) = c :: U s :=
  unescape_cons_of_ne (space_ne_backslash hc) s

theorem U_split {c : Char} (hc : isSpace c = true) (x y : Str) : U (x ++ c :: y) = U x ++ c :: U y := by
  induction x with
  | nil => exact U_space hc y
  | cons a x ih =>
    cases x with
    | nil =>
      have h1 : ¬ (a = '\\' ∧ c ∈ special) := fun h => space_not_special hc h.2
      show unescape (· ∈ special) (a :: c :: y) = a :: c :: U y
      rw [unescape, if_neg h1]
      exact congrArg _ (U_space hc y)
    | cons b x =>
      show unescape _ (a :: b :: (x ++ c :: y)) = unescape _ (a :: b :: x) ++ _
      rw [unescape, unescape]
      have ih' : unescape (· ∈ special) (b :: (x ++ c :: y)) = U (b :: x) ++ c :: U y := ih
      split
      · exact ih'
      · rw [ih']; rfl

theorem U_nil : U [] = [] := rfl

theorem U_lead (w s : Str) (hw : AllSp w) : U (w ++ s) = w ++ U s := by
  induction w with
  | nil => rfl
  | cons c w ih =>
    rw [List.cons_append, U_space (hw c (by simp)), ih fun d hd => hw d (by simp [hd])]; rfl

theorem U_trail (s w : Str) (hw : AllSp w) : U (s ++ w) = U s ++ w := by
  cases w with
  | nil => simp
  | cons c w =>
    rw [U_split (hw c (by simp))]
    have := U_lead w [] fun d hd => hw d (by simp [hd])
    rw [List.append_nil, U_nil, List.append_nil] at this
    rw [this]

theorem U_snoc (x : Str) (c : Char) : ∃ y, U (x ++ [c]) = y ++ [c] := by
  induction x with
  | nil => exact ⟨[], rfl⟩
  | cons a x ih =>
    obtain ⟨y, hy⟩ := ih
    cases x with
    | nil =>
      show ∃ y, unescape _ [a, c] = y ++ [c]
      rw [unescape]
      split
      · exact ⟨[], rfl⟩
      · exact ⟨[a], rfl⟩
    | cons b x =>
      show ∃ y, unescape _ (a :: b :: (x ++ [c])) = y ++ [c]
      have hy' : unescape (· ∈ special) (b :: (x ++ [c])) = y ++ [c] := hy
      rw [unescape]
      split
      · exact ⟨y, hy'⟩
      · exact ⟨a :: y, by rw [hy']; rfl⟩

theorem U_noLead {s : Str} (hs : NoLead s) : NoLead (U s) := by
  cases s with
  | nil => exact hs
  | cons d s =>
    obtain ⟨e, s', h1, h2⟩ := head_unescape (P := (· ∈ special)) (by decide) d s
    intro c hc
    rw [show U (d :: s) = e :: s' from h1] at hc
    simp only [List.head?_cons, Option.mem_def, Option.some.injEq] at hc
    subst hc
    rcases h2 with rfl | h2
    · exact hs _ rfl
    · exact special_not_space h2

theorem U_noTrail {s : Str} (hs : NoTrail s) : NoTrail (U s) := by
  cases hl : s.getLast? with
  | none => rw [List.getLast?_eq_none_iff] at hl; subst hl; exact hs
  | some c =>
    obtain ⟨x, rfl⟩ := List.getLast?_eq_some_iff.mp hl
    obtain ⟨y, hy⟩ := U_snoc x c
    intro d hd
    rw [hy] at hd
    have hd' : c = d := by simpa using hd
    subst hd'
    exact hs _ hl

/-! ### Stripping -/

theorem mem_takeWhile {p : Char → Bool} {c : Char} {s : Str} (h : c ∈ s.takeWhile p) : p c = true := by
  induction s with
  | nil => cases h
  | cons d s ih =>
    rw [List.takeWhile_cons] at h
    split at h
    · rcases List.mem_cons.mp h with rfl | h
      · assumption
      · exact ih h
    · cases h

theorem dropWhile_nil {p : Char → Bool} {s : Str} : s.dropWhile p = [] ↔ ∀ c ∈ s, p c = true := by
  induction s with
  | nil => simp
  | cons d s ih =>
    rw [List.dropWhile_cons]
    by_cases hd : p d = true
    · simp [hd, ih]
    · simp [hd]

theorem lstrip_split (s : Str) : ∃ w, s = w ++ lstrip s ∧ AllSp w :=
  ⟨s.takeWhile isSpace, (List.takeWhile_append_dropWhile ..).symm, fun _ hc => mem_takeWhile hc⟩

theorem rstrip_split (s : Str) : ∃ w, s = rstrip s ++ w ∧ AllSp w := by
  obtain ⟨w, h1, h2⟩ := lstrip_split s.reverse
  refine ⟨w.reverse, ?_, fun c hc => h2 c (by simpa using hc)⟩
  have := congrArg List.reverse h1
  simpa [rstrip, lstrip] using this

theorem lstrip_noLead (s : Str) : NoLead (lstrip s) := by
  intro c hc
  have := List.head?_dropWhile_not isSpace s
  unfold lstrip at hc
  rw [hc] at this
  simpa using this

theorem rstrip_noTrail (s : Str) : NoTrail (rstrip s) := by
  intro c hc
  unfold rstrip at hc
  rw [List.getLast?_reverse] at hc
  exact lstrip_noLead s.reverse c hc

theorem lstrip_of_noLead {s : Str} (h : NoLead s) : lstrip s = s := by
  cases s with
  | nil => rfl
  | cons c s => simp [lstrip, h c rfl]

theorem rstrip_of_noTrail {s : Str} (h : NoTrail s) : rstrip s = s := by
  unfold rstrip
  have : NoLead s.reverse := by
    intro c hc; exact h c (by rw [List.head?_reverse] at hc; exact hc)
  rw [show s.reverse.dropWhile isSpace = lstrip s.reverse from rfl, lstrip_of_noLead this,
    List.reverse_reverse]

theorem rstrip_allSp {s : Str} (h : AllSp s) : rstrip s = [] := by
  unfold rstrip
  rw [dropWhile_nil.mpr fun c hc => h c (by simpa using hc)]
  rfl

theorem rstrip_cons {c : Char} {s : Str} (h : ¬ AllSp (c :: s)) : rstrip (c :: s) = c :: rstrip s := by
  unfold rstrip
  rw [List.reverse_cons, List.dropWhile_append]
  split
  · rename_i he
    have hs : AllSp s := by
      intro d hd
      have := dropWhile_nil.mp (List.isEmpty_iff.mp he)
      exact this d (by simpa using hd)
    have hc : isSpace c = false := by
      cases hc : isSpace c with
      | false => rfl
      | true =>
        exact absurd (fun d hd => by
          rcases List.mem_cons.mp hd with rfl | hd
          · exact hc
          · exact hs d hd) h
    rw [List.isEmpty_iff.mp he]
    simp [hc]
  · simp

theorem rstrip_eq_nil {s : Str} (h : rstrip s = []) : AllSp s := by
  obtain ⟨w, h1, h2⟩ := rstrip_split s
  rw [h, List.nil_append] at h1
  rw [h1]; exact h2

/-! ### The regular expressions -/

theorem blanksDollar_eq (s : Str) :
    blanksDollar s = if s ≠ [] ∧ AllSp s then some [] else none := by
  induction s with
  | nil => rfl
  | cons c s ih =>
    rw [blanksDollar, ih, greedyStep.eq_def]
    by_cases hc : isSpace c = true
    · rw [if_pos hc]
      by_cases hs : AllSp s
      · have h2 : AllSp (c :: s) := by
          intro d hd
          rcases List.mem_cons.mp hd with rfl | hd
          · exact hc
          · exact hs d hd
        rw [if_pos (show c :: s ≠ [] ∧ AllSp (c :: s) from ⟨by simp, h2⟩)]
        cases s with
        | nil => rfl
        | cons d s => rw [if_pos ⟨by simp, hs⟩]
      · have h2 : ¬ AllSp (c :: s) := fun h => hs fun d hd => h d (by simp [hd])
        rw [if_neg (show ¬ (s ≠ [] ∧ AllSp s) from fun h => hs h.2),
          if_neg (show ¬ (c :: s ≠ [] ∧ AllSp (c :: s)) from fun h => h2 h.2)]
        have : dollar s = false := by
          cases hd : dollar s with
          | false => rfl
          | true =>
            exfalso; apply hs
            unfold dollar at hd
            rcases Bool.or_eq_true_iff.mp hd with h | h
            · rw [List.isEmpty_iff.mp h]; intro d hd; cases hd
            · rw [eq_of_beq h]; intro d hd
              simp only [List.mem_singleton] at hd
              subst hd; decide
        simp [this]
    · rw [if_neg hc, if_neg]
      exact fun h => hc (h.2 c (by simp))

theorem matchTrailing_eq (s : Str) :
    matchTrailing s = if rstrip s ≠ s ∧ '\n' ∉ rstrip s then some (rstrip s, []) else none := by
  induction s with
  | nil => simp [matchTrailing, rstrip]
  | cons c s ih =>
    rw [matchTrailing, blanksDollar_eq, lazyStep.eq_def]
    by_cases hsp : AllSp (c :: s)
    · rw [if_pos ⟨by simp, hsp⟩, rstrip_allSp hsp]
      simp
    · rw [if_neg (fun h => hsp h.2), rstrip_cons hsp, ih]
      by_cases hc : c = '\n'
      · subst hc; simp
      · simp only [hc, if_false, ne_eq, List.cons.injEq, true_and, List.mem_cons, Ne.symm hc, false_or]
        split <;> rfl

theorem subTrailing_eq (n : Nat) (s : Str) (hn : s.length ≤ n) :
    subTrailing n s = if rstrip s = s then s else rstrip s ++ [' '] := by
  induction n generalizing s with
  | zero =>
    have : s = [] := List.length_eq_zero_iff.mp (by omega)
    subst this; simp [subTrailing, rstrip]
  | succ n ih =>
    cases s with
    | nil => simp [subTrailing, rstrip]
    | cons c s =>
      rw [subTrailing, matchTrailing_eq]
      by_cases hr : rstrip (c :: s) = c :: s
      · rw [if_neg (fun h => h.1 hr), if_pos hr]
        have hsp : ¬ AllSp (c :: s) := fun h => by rw [rstrip_allSp h] at hr; cases hr
        rw [rstrip_cons hsp] at hr
        simp only [List.cons.injEq, true_and] at hr
        rw [subStep, ih s (by simp at hn; omega), if_pos hr]
      · rw [if_neg hr]
        by_cases hnl : '\n' ∈ rstrip (c :: s)
        · rw [if_neg (fun h => h.2 hnl)]
          have hsp : ¬ AllSp (c :: s) := fun h => by rw [rstrip_allSp h] at hnl; cases hnl
          rw [rstrip_cons hsp] at hr ⊢
          simp only [List.cons.injEq, true_and] at hr
          rw [subStep, ih s (by simp at hn; omega), if_neg hr]; rfl
        · rw [if_pos ⟨hr, hnl⟩]
          have : subTrailing n [] = [] := by cases n <;> simp [subTrailing]
          rw [subStep, this]

theorem subLeading_eq (s : Str) : subLeading s = if lstrip s = s then s else ' ' :: lstrip s := by
  unfold subLeading
  have h1 := List.takeWhile_append_dropWhile (p := isSpace) (l := s)
  by_cases h : (s.takeWhile isSpace).isEmpty
  · rw [if_pos h]
    rw [List.isEmpty_iff.mp h, List.nil_append] at h1
    rw [if_pos (show lstrip s = s from h1)]
  · rw [if_neg h, if_neg]
    · rfl
    · intro e
      rw [show s.dropWhile isSpace = s from e] at h1
      have := congrArg List.length h1
      simp only [List.length_append] at this
      apply h
      rw [List.isEmpty_iff]
      exact List.length_eq_zero_iff.mp (by omega)

/-! ### The non-blank characters -/

theorem ink_append (a b : Str) : ink (a ++ b) = ink a ++ ink b := by simp [ink]

theorem ink_allSp {w : Str} (h : AllSp w) : ink w = [] := by
  simp only [ink, List.filter_eq_nil_iff]
  intro c hc
  simp [h c hc]

/-- Non-blank characters of a text read in one of the two ways. -/
abbrev R (v : Bool) (s : Str) : Str := ink (readAs v s)

theorem R_lead (v w s) (hw : AllSp w) : R v (w ++ s) = R v s := by
  unfold R readAs
  split
  · rw [ink_append, ink_allSp hw]; rfl
  · rw [show unescape (· ∈ special) (w ++ s) = _ from U_lead w s hw, ink_append, ink_allSp hw]; rfl

theorem R_trail (v s w) (hw : AllSp w) : R v (s ++ w) = R v s := by
  unfold R readAs
  split
  · rw [ink_append, ink_allSp hw, List.append_nil]
  · rw [show unescape (· ∈ special) (s ++ w) = _ from U_trail s w hw, ink_append, ink_allSp hw,
      List.append_nil]

theorem allSp_blank : AllSp [' '] := by decide

theorem R_split (v a b) : R v (a ++ ' ' :: b) = R v a ++ R v b := by
  unfold R readAs
  split
  · rw [ink_append, show ' ' :: b = [' '] ++ b from rfl, ink_append, ink_allSp allSp_blank]; rfl
  · rw [show unescape (· ∈ special) (a ++ ' ' :: b) = U a ++ ' ' :: U b from U_split (by decide) a b,
      ink_append, show ' ' :: U b = [' '] ++ U b from rfl, ink_append, ink_allSp allSp_blank]; rfl

theorem R_lstrip (v s) : R v (lstrip s) = R v s := by
  obtain ⟨w, h1, h2⟩ := lstrip_split s
  conv_rhs => rw [h1]
  rw [R_lead _ _ _ h2]

theorem R_rstrip (v s) : R v (rstrip s) = R v s := by
  obtain ⟨w, h1, h2⟩ := rstrip_split s
  conv_rhs => rw [h1]
  rw [R_trail _ _ _ h2]

theorem R_strip (v s) : R v (RSM.strip s) = R v s := by
  unfold RSM.strip; rw [R_rstrip, R_lstrip]

theorem R_blank (v s) : R v (' ' :: s) = R v s := R_lead v [' '] s allSp_blank

theorem R_squeeze (v s) : R v (squeezeText s) = R v s := by
  unfold squeezeText
  have h1 : R v (subTrailing s.length s) = R v s := by
    rw [subTrailing_eq _ _ le_rfl]
    split
    · rfl
    · rw [R_trail _ _ _ allSp_blank, R_rstrip]
  rw [← h1]
  generalize subTrailing s.length s = t
  rw [subLeading_eq]
  split
  · rfl
  · rw [R_blank, R_lstrip]

theorem R_nil (v) : R v [] = [] := by unfold R readAs; split <;> rfl

theorem R_joinBlank (v) (xs : List Str) : R v (joinBlank xs) = xs.flatMap (R v) := by
  induction xs with
  | nil => exact R_nil v
  | cons x xs ih =>
    cases xs with
    | nil => simp [joinBlank]
    | cons y xs =>
      rw [joinBlank, R_split, ih]; simp

theorem R_runText (v a) (bs : List Str) : R v (runText a bs) = R v a ++ bs.flatMap (R v) := by
  match bs with
  | [] => simp [runText]
  | [b] => rw [runText, R_split, R_rstrip, R_lstrip]; simp
  | b :: c :: cs =>
    rw [runText, joinRun, R_split, R_split, R_rstrip, R_joinBlank, R_lstrip]
    have h := List.dropLast_append_getLast? (l := b :: c :: cs) ((b :: c :: cs).getLastD [])
      (by rw [List.getLast?_eq_some_getLast (by simp), List.getLastD_eq_getLast?,
            List.getLast?_eq_some_getLast (by simp)]; rfl)
    conv_rhs => rw [← h]
    rw [List.flatMap_append, List.flatMap_map]
    simp [R_strip]

/-! ### White space at the ends -/

theorem noLead_append {a b : Str} (ha : a ≠ []) (h : NoLead a) : NoLead (a ++ b) := by
  cases a with
  | nil => exact absurd rfl ha
  | cons c a => intro d hd; exact h d hd

theorem squeeze_oneBlank (s : Str) : OneBlank (squeezeText s) := by
  unfold squeezeText
  rw [subTrailing_eq _ _ le_rfl]
  obtain ⟨b, hb, ht⟩ : ∃ b, (b = [] ∨ b = [' ']) ∧
      (if rstrip s = s then s else rstrip s ++ [' ']) = rstrip s ++ b := by
    by_cases h : rstrip s = s
    · exact ⟨[], .inl rfl, by rw [if_pos h, h]; simp⟩
    · exact ⟨[' '], .inr rfl, by rw [if_neg h]⟩
  rw [ht, subLeading_eq]
  have hnt := rstrip_noTrail s
  generalize rstrip s = r at hnt
  by_cases hr : r = []
  · subst hr
    rcases hb with rfl | rfl
    · exact ⟨[], [], [], rfl, .inl rfl, .inl rfl, by simp [NoLead], by simp [NoTrail]⟩
    · exact ⟨[' '], [], [], rfl, .inr rfl, .inl rfl, by simp [NoLead], by simp [NoTrail]⟩
  · have hl : ¬ AllSp r := by
      intro h
      have := rstrip_allSp h
      rw [rstrip_of_noTrail hnt] at this
      exact hr this
    have h1 : lstrip (r ++ b) = lstrip r ++ b := by
      unfold lstrip
      rw [List.dropWhile_append, if_neg]
      intro h
      exact hl fun c hc => dropWhile_nil.mp (List.isEmpty_iff.mp h) c hc
    have hlr : NoTrail (lstrip r) := by
      obtain ⟨w, e, hw⟩ := lstrip_split r
      intro c hc
      refine hnt c ?_
      rw [e, List.getLast?_append, hc]; rfl
    by_cases he : lstrip r = r
    · rw [if_pos (by rw [h1, he])]
      exact ⟨[], r, b, rfl, .inl rfl, hb, he ▸ lstrip_noLead r, hnt⟩
    · rw [if_neg (by rw [h1]; intro e; exact he (List.append_cancel_right e)), h1]
      exact ⟨[' '], lstrip r, b, rfl, .inr rfl, hb, lstrip_noLead r, hlr⟩

theorem read_oneBlank (v : Bool) {s : Str} (h : OneBlank s) : OneBlank (readAs v s) := by
  unfold readAs
  split
  · exact h
  · obtain ⟨a, m, b, rfl, ha, hb, h1, h2⟩ := h
    have haS : AllSp a := by rcases ha with rfl | rfl <;> decide
    have hbS : AllSp b := by rcases hb with rfl | rfl <;> decide
    refine ⟨a, U m, b, ?_, ha, hb, U_noLead h1, U_noTrail h2⟩
    show U _ = _
    rw [U_trail _ _ hbS, U_lead _ _ haS]

theorem read_noLead (v : Bool) {s : Str} (h : NoLead s) : NoLead (readAs v s) := by
  unfold readAs; split
  · exact h
  · exact U_noLead h

theorem read_noTrail (v : Bool) {s : Str} (h : NoTrail s) : NoTrail (readAs v s) := by
  unfold readAs; split
  · exact h
  · exact U_noTrail h

theorem squeeze_noLead {s : Str} (h : NoLead s) : NoLead (squeezeText s) := by
  unfold squeezeText
  rw [subTrailing_eq _ _ le_rfl]
  have : NoLead (if rstrip s = s then s else rstrip s ++ [' ']) := by
    by_cases hr : rstrip s = s
    · rw [if_pos hr]; exact h
    · rw [if_neg hr]
      obtain ⟨w, e, hw⟩ := rstrip_split s
      by_cases hn : rstrip s = []
      · exfalso
        have := rstrip_eq_nil hn
        cases s with
        | nil => exact hr rfl
        | cons c s => have h1 := h c rfl; rw [this c (by simp)] at h1; cases h1
      · refine noLead_append hn ?_
        intro c hc
        refine h c ?_
        rw [e]
        cases hrs : rstrip s with
        | nil => exact absurd hrs hn
        | cons d r => rw [hrs] at hc; exact hc
  rw [subLeading_eq, if_pos (lstrip_of_noLead this)]
  exact this

theorem squeeze_noTrail {s : Str} (h : NoTrail s) : NoTrail (squeezeText s) := by
  unfold squeezeText
  rw [subTrailing_eq _ _ le_rfl, if_pos (rstrip_of_noTrail h), subLeading_eq]
  split
  · exact h
  · rename_i hl
    obtain ⟨w, e, hw⟩ := lstrip_split s
    have hne : lstrip s ≠ [] := by
      intro hn
      rw [hn, List.append_nil] at e
      have h1 := rstrip_of_noTrail h
      rw [rstrip_allSp (e ▸ hw)] at h1
      apply hl; rw [hn, h1]
    intro c hc
    refine h c ?_
    rw [e, List.getLast?_append]
    rw [show ' ' :: lstrip s = [' '] ++ lstrip s from rfl, List.getLast?_append] at hc
    cases hls : (lstrip s).getLast? with
    | none => exact absurd (List.getLast?_eq_none_iff.mp hls) hne
    | some d => rw [hls] at hc; exact hc

theorem lstrip_noTrail {s : Str} (h : NoTrail s) : NoTrail (lstrip s) := by
  obtain ⟨w, e, hw⟩ := lstrip_split s
  intro c hc
  refine h c ?_
  rw [e, List.getLast?_append, hc]; rfl

theorem rstrip_noLead {s : Str} (h : NoLead s) : NoLead (rstrip s) := by
  obtain ⟨w, e, hw⟩ := rstrip_split s
  intro c hc
  refine h c ?_
  cases hr : rstrip s with
  | nil => rw [hr] at hc; cases hc
  | cons d r => rw [e, hr]; rw [hr] at hc; exact hc

end Normalize
end RSM
