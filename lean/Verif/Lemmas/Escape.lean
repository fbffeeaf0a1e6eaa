import Verif.Spec.Escape
import Verif.Model.Util
import Mathlib.Tactic.ByContra

/-! Helper lemmas for C32 – C36. -/

namespace RSM

theorem unescape_cons_of_ne {P : Char → Prop} [DecidablePred P] {c : Char} (hc : c ≠ '\\') (s : Str) :
    unescape P (c :: s) = c :: unescape P s := by
  cases s with
  | nil => rfl
  | cons d s => simp [unescape, hc]

theorem unescape_congr {P Q : Char → Prop} [DecidablePred P] [DecidablePred Q]
    (h : ∀ c, P c ↔ Q c) (s : Str) : unescape P s = unescape Q s := by
  induction s with
  | nil => rfl
  | cons c s ih =>
    cases s with
    | nil => rfl
    | cons d s => simp only [unescape, h, ih]

/-- Replacing `\c` by `c` is unescaping one character. -/
theorem pyReplace_eq_unescape {c : Char} (hc : c ≠ '\\') (s : Str) :
    pyReplace ['\\', c] [c] s = unescape (· = c) s := by
  unfold pyReplace
  match s with
  | [] => rfl
  | [d] => simp [replaceScan, unescape, List.isPrefixOf]
  | d :: e :: s =>
    simp only [replaceScan, unescape]
    by_cases h1 : d = '\\'
    · subst h1
      by_cases h2 : e = c
      · subst h2
        have := pyReplace_eq_unescape hc s
        unfold pyReplace at this
        simp [List.isPrefixOf, replaceScan, this, unescape_cons_of_ne hc]
      · have := pyReplace_eq_unescape hc (e :: s)
        unfold pyReplace at this
        simp [List.isPrefixOf, h2, Ne.symm h2, ← this, replaceScan]
    · have := pyReplace_eq_unescape hc (e :: s)
      unfold pyReplace at this
      simp [List.isPrefixOf, h1, Ne.symm h1, ← this, replaceScan]
termination_by s.length

theorem head_unescape {P : Char → Prop} [DecidablePred P] (hP : ¬ P '\\') (d : Char) (s : Str) :
    ∃ e s', unescape P (d :: s) = e :: s' ∧ (e = d ∨ P e) := by
  cases s with
  | nil => exact ⟨d, [], rfl, .inl rfl⟩
  | cons e s =>
    simp only [unescape]
    split
    · rename_i h
      have he : e ≠ '\\' := by rintro rfl; exact hP h.2
      exact ⟨e, unescape P s, unescape_cons_of_ne he s, .inr h.2⟩
    · exact ⟨d, _, rfl, .inl rfl⟩

theorem unescape_unescape {P : Char → Prop} [DecidablePred P] {c : Char} (hP : ¬ P '\\')
    (hPc : ¬ P c) (hc : c ≠ '\\') (s : Str) :
    unescape (· = c) (unescape P s) = unescape (fun x => P x ∨ x = c) s := by
  induction s with
  | nil => rfl
  | cons a s ih =>
    cases s with
    | nil => rfl
    | cons d s =>
      simp only [unescape]
      by_cases ha : a = '\\'
      · subst ha
        by_cases hd : P d
        · simp only [hd, and_self, if_true, true_or]
          rw [ih]
        · by_cases hdc : d = c
          · subst hdc
            simp only [hd, and_false, if_false, or_true, and_self, if_true]
            rw [unescape_cons_of_ne hc]
            simp only [unescape, and_self, if_true]
            rw [← unescape_cons_of_ne hc s, ih]
          · simp only [hd, hdc, and_false, if_false, or_self]
            obtain ⟨e, s', h1, h2⟩ := head_unescape hP d s
            have hec : e ≠ c := by
              rcases h2 with rfl | h2
              · exact hdc
              · rintro rfl; exact hPc h2
            rw [← ih, h1]
            simp [unescape, hec]
      · simp only [ha, false_and, if_false]
        rw [unescape_cons_of_ne ha, ih]

theorem foldl_replace (cs : List Char) (P : Char → Prop) [DecidablePred P] (s : Str)
    (hnd : cs.Nodup) (hb : '\\' ∉ cs) (hP : ¬ P '\\') (hdis : ∀ c ∈ cs, ¬ P c) :
    cs.foldl (fun ret c => pyReplace ['\\', c] [c] ret) (unescape P s) =
      unescape (fun x => P x ∨ x ∈ cs) s := by
  induction cs generalizing P with
  | nil => exact unescape_congr (by simp) s
  | cons c cs ih =>
    have hnd' := List.nodup_cons.mp hnd
    have hc : c ≠ '\\' := by rintro rfl; simp at hb
    rw [List.foldl_cons, pyReplace_eq_unescape hc,
      unescape_unescape hP (hdis c (by simp)) hc]
    rw [ih (fun x => P x ∨ x = c) hnd'.2 (by simp at hb; exact hb.2) (by
      rintro (h | h)
      · exact hP h
      · exact hc h.symm) (by
      rintro d hd (h | rfl)
      · exact hdis d (by simp [hd]) h
      · exact hnd'.1 hd)]
    exact unescape_congr (by simp [or_assoc]) s

theorem unescape_none (s : Str) : unescape (fun _ => False) s = s := by
  induction s with
  | nil => rfl
  | cons c s ih =>
    cases s with
    | nil => rfl
    | cons d s => simp [unescape, ih]

theorem unescape_addEscapes {P : Char → Prop} [DecidablePred P] (hP : ¬ P '\\') (s : Str) :
    unescape P (addEscapes P s) = s := by
  induction s with
  | nil => rfl
  | cons c s ih =>
    unfold addEscapes at ih ⊢
    simp only [List.flatMap_cons]
    by_cases hc : P c
    · have hne : c ≠ '\\' := by rintro rfl; exact hP hc
      simp only [hc, if_true, List.cons_append, List.nil_append]
      rw [unescape]
      simp only [hc, and_self, if_true]
      rw [unescape_cons_of_ne hne, ih]
    · simp only [hc, if_false, List.cons_append, List.nil_append]
      by_cases hne : c = '\\'
      · subst hne
        cases s with
        | nil => rfl
        | cons d s =>
          simp only [List.flatMap_cons] at ih ⊢
          by_cases hd : P d
          · simp only [hd, if_true, List.cons_append, List.nil_append] at ih ⊢
            rw [unescape]
            simp only [hP, and_false, if_false]
            rw [ih]
          · simp only [hd, if_false, List.cons_append, List.nil_append] at ih ⊢
            rw [unescape]
            simp only [hd, and_false, if_false]
            rw [ih]
      · rw [unescape_cons_of_ne hne, ih]

/-! ### `find` -/

/-- `pyFind` of one character. -/
theorem pyFind_char (s : Str) (c : Char) (start stop : Int) :
    (pyFind s [c] start stop = -1 ∧ ∀ i, InRange s.length start stop i → s[i]? ≠ some c) ∨
    ∃ i : Nat, pyFind s [c] start stop = i ∧ InRange s.length start stop i ∧ s[i]? = some c ∧
      ∀ j < i, InRange s.length start stop j → s[j]? ≠ some c := by
  have hpre : ∀ i, [c].isPrefixOf (s.drop i) = true ↔ s[i]? = some c := by
    intro i
    rw [List.isPrefixOf_iff_prefix, ← List.head?_drop]
    cases hd : s.drop i with
    | nil => simp
    | cons d l => simp [List.cons_prefix_cons, eq_comm]
  have hrange : ∀ i, (i < clampIdx s.length stop + 1 - 1 ∧
      (if start < 0 then (start + s.length).toNat else start.toNat) ≤ i) ↔
      InRange s.length start stop i := by
    intro i
    unfold InRange clampIdx
    constructor
    · rintro ⟨h1, h2⟩
      repeat' split at h1
      all_goals repeat' split at h2
      all_goals (try split) <;> omega
    · rintro ⟨h1, h2, h3⟩
      repeat' split at h1
      all_goals repeat' split at h2
      all_goals constructor <;> (try split) <;> omega
  unfold pyFind
  simp only [List.length_singleton]
  cases hf : (List.range (clampIdx s.length stop + 1 - 1)).find? fun i =>
      decide ((if start < 0 then (start + s.length).toNat else start.toNat) ≤ i) &&
        [c].isPrefixOf (s.drop i) with
  | none =>
    left
    refine ⟨rfl, fun i hi hc => ?_⟩
    have hi' := (hrange i).mpr hi
    rw [List.find?_eq_none] at hf
    exact hf i (List.mem_range.mpr hi'.1) (by simp [hi'.2, (hpre i).mpr hc])
  | some i =>
    right
    rw [List.find?_range_eq_some] at hf
    obtain ⟨h1, h2, h3⟩ := hf
    simp only [Bool.and_eq_true, decide_eq_true_eq] at h1
    refine ⟨i, rfl, (hrange i).mp ⟨List.mem_range.mp h2, h1.1⟩, (hpre i).mp h1.2, ?_⟩
    intro j hj hjr hjc
    have := h3 j hj
    simp [((hrange j).mpr hjr).2, (hpre j).mpr hjc] at this

theorem pyGetItem_pred {s : Str} {i : Nat} (hi : 0 < i) :
    pyGetItem s ((i : Int) - 1) = s[i - 1]? := by
  unfold pyGetItem
  rw [if_neg (by omega)]
  congr 1
  omega

/-- Range of the continued search. -/
theorem inRange_continue {n : Nat} {start stop : Int} {i j : Nat} (hi : InRange n start stop i) :
    InRange n ((i : Int) + 1) stop j ↔ InRange n start stop j ∧ i < j := by
  unfold InRange at *
  rw [if_neg (show ¬ (i : Int) + 1 < 0 by omega)]
  constructor
  · rintro ⟨h1, h2, h3⟩
    exact ⟨⟨by have := hi.1; omega, h2, h3⟩, by omega⟩
  · rintro ⟨⟨h1, h2, h3⟩, h4⟩
    exact ⟨by omega, h2, h3⟩

theorem findLoop_spec (e : EscapedString) (c : Char) (start stop : Int) (fuel i : Nat)
    (hpos : 0 < i) (hi : InRange e.src.length start stop i) (hc : e.src[i]? = some c)
    (hprev : ∀ j < i, InRange e.src.length start stop j → ¬ UnescapedAt e.src c j)
    (hfuel : e.src.length < fuel + i) :
    (e.findLoop [c] stop fuel i = some (-1) ∧
      ∀ j, InRange e.src.length start stop j → ¬ UnescapedAt e.src c j) ∨
    ∃ k : Nat, e.findLoop [c] stop fuel i = some (k : Int) ∧ InRange e.src.length start stop k ∧
      UnescapedAt e.src c k ∧
      ∀ j < k, InRange e.src.length start stop j → ¬ UnescapedAt e.src c j := by
  induction fuel generalizing i with
  | zero => have := hi.2.2; omega
  | succ n ih =>
    rw [EscapedString.findLoop, pyGetItem_pred hpos]
    by_cases hb : e.src[i - 1]? = some '\\'
    · simp only [hb, if_true]
      have hnot : ¬ UnescapedAt e.src c i := by
        rintro ⟨_, h | h⟩
        · omega
        · exact h hb
      have hprev' : ∀ j ≤ i, InRange e.src.length start stop j → ¬ UnescapedAt e.src c j := by
        intro j hj hr
        rcases Nat.lt_or_eq_of_le hj with h | rfl
        · exact hprev j h hr
        · exact hnot
      rcases pyFind_char e.src c ((i : Int) + 1) stop with ⟨h1, h2⟩ | ⟨k, h1, h2, h3, h4⟩
      · left
        rw [h1]
        refine ⟨by simp, fun j hj hu => ?_⟩
        by_cases hji : j ≤ i
        · exact hprev' j hji hj hu
        · exact h2 j ((inRange_continue hi).mpr ⟨hj, by omega⟩) hu.1
      · rw [h1]
        rw [if_neg (by omega)]
        have hk := (inRange_continue hi).mp h2
        refine ih k (by omega) hk.1 h3 ?_ (by omega)
        intro j hj hr hu
        by_cases hji : j ≤ i
        · exact hprev' j hji hr hu
        · exact h4 j hj ((inRange_continue hi).mpr ⟨hr, by omega⟩) hu.1
    · right
      simp only [hb, if_false]
      exact ⟨i, rfl, hi, ⟨hc, .inr hb⟩, hprev⟩

theorem isEscapeChar_iff (e : EscapedString) (c : Char) : e.isEscapeChar [c] = true ↔ c ∈ e.chars := by
  simp only [EscapedString.isEscapeChar, List.any_eq_true, beq_iff_eq, List.cons.injEq, and_true]
  constructor
  · rintro ⟨x, hx, rfl⟩; exact hx
  · intro h; exact ⟨c, h, rfl⟩

theorem indexLoop_of_findLoop (e : EscapedString) (c : Char) (stop : Int) (fuel i k : Nat)
    (hpos : 0 < i) (hi : i ≤ e.src.length)
    (h : e.findLoop [c] stop fuel i = some (k : Int)) :
    e.indexLoop [c] stop fuel i = some (.ok (k : Int)) := by
  induction fuel generalizing i with
  | zero => simp [EscapedString.findLoop] at h
  | succ n ih =>
    rw [EscapedString.findLoop, pyGetItem_pred hpos] at h
    rw [EscapedString.indexLoop, pyGetItem_pred hpos]
    have hg : e.src[i - 1]? = some (e.src[i - 1]'(by omega)) := List.getElem?_eq_getElem _
    rw [hg] at h ⊢
    simp only [Option.some.injEq] at h ⊢
    by_cases hb : e.src[i - 1]'(by omega) = '\\'
    · simp only [hb, if_true] at h ⊢
      rcases pyFind_char e.src c ((i : Int) + 1) stop with ⟨h1, h2⟩ | ⟨m, h1, h2, h3, h4⟩
      · rw [h1] at h; simp at h
      · rw [h1] at h ⊢
        rw [if_neg (by omega)] at h
        have := h2.1
        rw [if_neg (by omega)] at this
        exact ih m (by omega) (by have := h2.2.2; omega) h
    · simp only [hb, if_false] at h ⊢
      simpa using h

/-- With only escaped occurrences in range, `index` ends at -1 when the next-to-last character is
not a backslash. -/
theorem indexLoop_neg (e : EscapedString) (c : Char) (start stop : Int) (fuel i : Nat)
    (hpos : 0 < i) (hi : InRange e.src.length start stop i) (hc : e.src[i]? = some c)
    (hnone : ∀ j, InRange e.src.length start stop j → ¬ UnescapedAt e.src c j)
    (hlast : e.src[e.src.length - 2]? ≠ some '\\')
    (hfuel : e.src.length + 1 < fuel + i) :
    e.indexLoop [c] stop fuel i = some (.ok (-1)) := by
  induction fuel generalizing i with
  | zero => have := hi.2.2; omega
  | succ n ih =>
    rw [EscapedString.indexLoop, pyGetItem_pred hpos]
    have hb : e.src[i - 1]? = some '\\' := by
      by_contra hb
      exact hnone i hi ⟨hc, .inr hb⟩
    simp only [hb, if_true]
    rcases pyFind_char e.src c ((i : Int) + 1) stop with ⟨h1, h2⟩ | ⟨m, h1, h2, h3, h4⟩
    · rw [h1]
      cases n with
      | zero => have := hi.2.2; omega
      | succ n =>
        rw [EscapedString.indexLoop]
        have hl := hi.2.2
        have : pyGetItem e.src (-1 - 1) = e.src[e.src.length - 2]? := by
          unfold pyGetItem
          rw [if_pos (by omega), if_neg (by omega)]
          congr 1
          omega
        rw [this]
        rw [List.getElem?_eq_getElem (by omega)] at hlast ⊢
        simp only [ne_eq, Option.some.injEq] at hlast
        simp [hlast]
    · rw [h1]
      have hm := (inRange_continue hi).mp h2
      exact ih m (by omega) hm.1 h3 (by omega)

/-- With only escaped occurrences before `stop`, and a backslash next to last, `index` never
ends. -/
theorem indexLoop_diverges (e : EscapedString) (c : Char) (stop : Int) (fuel : Nat) (i : Int)
    (hi : i = -1 ∨ ∃ k : Nat, i = k ∧ 0 < k ∧ InRange e.src.length 0 stop k ∧ e.src[k]? = some c)
    (hnone : ∀ j, InRange e.src.length 0 stop j → ¬ UnescapedAt e.src c j)
    (h2 : 2 ≤ e.src.length) (hlast : e.src[e.src.length - 2]? = some '\\') :
    e.indexLoop [c] stop fuel i = none := by
  induction fuel generalizing i with
  | zero => rfl
  | succ n ih =>
    have hg : pyGetItem e.src (i - 1) = some '\\' := by
      rcases hi with rfl | ⟨k, rfl, hk, hr, hc⟩
      · have : pyGetItem e.src (-1 - 1) = e.src[e.src.length - 2]? := by
          unfold pyGetItem
          rw [if_pos (by omega), if_neg (by omega)]
          congr 1
          omega
        rw [this, hlast]
      · rw [pyGetItem_pred hk]
        by_contra hb
        exact hnone k hr ⟨hc, .inr hb⟩
    rw [EscapedString.indexLoop, hg]
    simp only [if_true]
    apply ih
    rcases pyFind_char e.src c (i + 1) stop with ⟨h1, _⟩ | ⟨m, h1, h2, h3, _⟩
    · exact .inl h1
    · right
      have hr : InRange e.src.length 0 stop m :=
        ⟨by simp, h2.2.1, h2.2.2⟩
      refine ⟨m, h1, ?_, hr, h3⟩
      rcases Nat.eq_zero_or_pos m with rfl | h
      · exact absurd ⟨h3, .inl rfl⟩ (hnone 0 hr)
      · exact h

/-! ### `split` -/

theorem pySlice_nat (s : Str) (i j : Nat) (hj : j ≤ s.length) :
    pySlice s i j = between s i j := by
  unfold pySlice between clampIdx
  rw [if_neg (by omega), if_neg (by omega)]
  simp only [Int.toNat_natCast, Nat.min_eq_left hj]
  by_cases h : i ≤ s.length
  · rw [Nat.min_eq_left h]
  · rw [Nat.min_eq_right (by omega), List.drop_eq_nil_of_le (by simp; omega),
      List.drop_eq_nil_of_le (by simp; omega)]

theorem pySlice_pred (s : Str) (p q : Nat) (hq : q ≤ s.length) (h : 0 < q ∨ s = []) :
    pySlice s ((p : Int) + 1) ((q : Int) - 1) = between s (p + 1) (q - 1) := by
  rcases Nat.eq_zero_or_pos q with rfl | hq0
  · rcases h with h | rfl
    · omega
    · simp [pySlice, between]
  · rw [← pySlice_nat s (p + 1) (q - 1) (by omega)]
    congr 1
    omega

theorem splitLoop_spec (e : EscapedString) (prev curr : Nat) (runs : List Str) (todo : Str)
    (htodo : e.src.drop curr = todo) (hcurr : curr ≤ e.src.length) :
    let cuts := (List.range' curr todo.length).filter fun i =>
      decide (0 < i ∧ (∃ c ∈ e.src[i]?, c ∈ e.chars) ∧ e.src[i - 1]? ≠ some '\\')
    e.splitLoop prev curr runs todo =
      runs ++ List.zipWith (fun p q => between e.src (p + 1) (q - 1)) (prev :: cuts)
        (cuts ++ [e.src.length]) := by
  induction todo generalizing prev curr runs with
  | nil =>
    have : curr = e.src.length := by
      have := List.drop_eq_nil_iff.mp htodo; omega
    subst this
    simp only [EscapedString.splitLoop, List.length_nil, List.range'_zero, List.filter_nil,
      List.nil_append, List.zipWith_cons_cons, List.zipWith_nil_right]
    rw [pySlice_pred _ _ _ (Nat.le_refl _)]
    cases e.src
    · right; rfl
    · left; simp
  | cons c todo ih =>
    have hlt : curr < e.src.length := by
      by_contra h
      rw [List.drop_eq_nil_of_le (by omega)] at htodo
      cases htodo
    have hget : e.src[curr]? = some c := by
      rw [← List.head?_drop, htodo]; rfl
    have hdrop : e.src.drop (curr + 1) = todo := by
      rw [← List.tail_drop, htodo]; rfl
    have hcast : ((curr : Int) + 1) = ((curr + 1 : Nat) : Int) := by omega
    rw [EscapedString.splitLoop, hcast]
    intro cuts
    have hcuts : cuts = (if 0 < curr ∧ (∃ c ∈ e.src[curr]?, c ∈ e.chars) ∧
        e.src[curr - 1]? ≠ some '\\' then [curr] else []) ++
        (List.range' (curr + 1) todo.length).filter fun i =>
          decide (0 < i ∧ (∃ c ∈ e.src[i]?, c ∈ e.chars) ∧ e.src[i - 1]? ≠ some '\\') := by
      simp only [cuts, List.length_cons, List.range'_succ, List.filter_cons]
      by_cases hif : 0 < curr ∧ (∃ c ∈ e.src[curr]?, c ∈ e.chars) ∧ e.src[curr - 1]? ≠ some '\\'
      · rw [if_pos (by simpa using hif), if_pos hif]; rfl
      · rw [if_neg (by simpa using hif), if_neg hif]; simp
    by_cases hif : 0 < curr ∧ (∃ c ∈ e.src[curr]?, c ∈ e.chars) ∧ e.src[curr - 1]? ≠ some '\\'
    · have hcond : (e.chars.contains c &&
          (decide ((curr : Int) > 0) && pyGetItem e.src (curr - 1) != some '\\')) = true := by
        obtain ⟨h1, ⟨d, hd, hmem⟩, h3⟩ := hif
        rw [pyGetItem_pred h1]
        rw [hget] at hd
        cases hd
        simp [h1, hmem, h3]
      rw [if_pos hcond, ih curr (curr + 1) _ hdrop hlt, hcuts, if_pos hif,
        pySlice_pred _ _ _ (Nat.le_of_lt hlt) (.inl hif.1)]
      simp
    · have hcond : ¬ (e.chars.contains c &&
          (decide ((curr : Int) > 0) && pyGetItem e.src (curr - 1) != some '\\')) = true := by
        intro h
        apply hif
        simp only [List.contains_eq_mem, Bool.and_eq_true, decide_eq_true_eq, bne_iff_ne] at h
        have h1 : 0 < curr := by omega
        rw [pyGetItem_pred h1] at h
        exact ⟨h1, ⟨c, by simp [hget], h.1⟩, h.2.2⟩
      rw [if_neg hcond, ih prev (curr + 1) runs hdrop hlt, hcuts, if_neg hif]
      simp

end RSM
