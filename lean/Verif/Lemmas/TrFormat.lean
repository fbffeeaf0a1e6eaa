import Verif.Spec.Obstacle

/-! # Lemmas: which templates can be filled -/

namespace RSM
namespace Tr

/-- What has been read of a template. -/
def FmtMode.seen : FmtMode → Str
  | .lit => []
  | .opened => ['{']
  | .closed => ['}']
  | .field b => '{' :: b.reverse

/-- A replacement field has been begun properly. -/
def FmtMode.sound : FmtMode → Prop
  | .field b => b ≠ [] ∧ '}' ∉ b ∧ b.reverse.head? ≠ some '{'
  | _ => True

theorem Template.append {a b : Str} (ha : Template a) (hb : Template b) : Template (a ++ b) := by
  induction ha with
  | nil => exact hb
  | char h1 h2 _ ih => exact .char h1 h2 ih
  | opening _ ih => exact .opening ih
  | closing _ ih => exact .closing ih
  | nodeclass _ ih => rw [List.append_assoc]; exact .nodeclass ih
  | number _ ih => rw [List.append_assoc]; exact .number ih

theorem BadTemplate.append {a b : Str} {e} (ha : Template a) (hb : BadTemplate b e) : BadTemplate (a ++ b) e := by
  cases hb with
  | unclosed h1 h2 h3 => rw [← List.append_assoc]; exact .unclosed (ha.append h1) h2 h3
  | unopened h1 h2 => rw [← List.append_assoc]; exact .unopened (ha.append h1) h2
  | noName h1 => rw [← List.append_assoc]; exact .noName (ha.append h1)
  | name h1 h2 h3 h4 h5 h6 =>
    rw [← List.append_assoc, ← List.append_assoc]
    exact .name (ha.append h1) h2 h3 h4 h5 h6

/-- What a template is like by the way it is filled. -/
def Filled (s : Str) : Except PyErr Str → Prop
  | .ok _ => Template s
  | .error e => BadTemplate s e

theorem Filled.map {a s : Str} {r : Except PyErr Str} (ha : Template a) (h : Filled s r) (f : Str → Str) :
    Filled (a ++ s) (r.map f) := by
  cases r with
  | ok x => exact ha.append h
  | error e => exact h.append ha

theorem formatGo_filled (nc num : Str) : ∀ (s : Str) (m : FmtMode), m.sound →
    Filled (m.seen ++ s) (formatGo nc num m s)
  | [], .lit, _ => Template.nil
  | [], .opened, _ => .unclosed (a := []) (n := []) .nil (by simp) (by simp)
  | [], .closed, _ => .unopened (a := []) (s := []) .nil (by simp)
  | [], .field b, h => by
    rw [List.append_nil]
    exact .unclosed (a := []) .nil h.2.2 (by simpa using h.2.1)
  | c :: s, .lit, _ => by
    rw [formatGo]
    split
    · rename_i e; subst e; exact formatGo_filled nc num s .opened trivial
    split
    · rename_i e; subst e; exact formatGo_filled nc num s .closed trivial
    · rename_i h1 h2
      exact (formatGo_filled nc num s .lit trivial).map (a := [c]) (.char h1 h2 .nil) _
  | c :: s, .opened, _ => by
    rw [formatGo]
    split
    · rename_i e; subst e
      exact (formatGo_filled nc num s .lit trivial).map (a := "{{".toList) (.opening .nil) _
    split
    · rename_i e; subst e; exact .noName (a := []) .nil
    · rename_i h1 h2
      exact formatGo_filled nc num s (.field [c]) ⟨by simp, by simpa using fun h => h2 h.symm, by simpa using h1⟩
  | c :: s, .closed, _ => by
    rw [formatGo]
    split
    · rename_i e; subst e
      exact (formatGo_filled nc num s .lit trivial).map (a := "}}".toList) (.closing .nil) _
    · rename_i h1
      exact .unopened (a := []) (s := c :: s) .nil (by simpa using h1)
  | c :: s, .field b, h => by
    rw [formatGo]
    split
    · rename_i e; subst e
      have key : ∀ n : Str, b.reverse = n → (FmtMode.field b).seen ++ '}' :: s = ('{' :: n ++ ['}']) ++ s := by
        rintro _ rfl; simp [FmtMode.seen]
      split
      · rename_i e
        rw [key _ e]
        exact (formatGo_filled nc num s .lit trivial).map (by exact Template.nodeclass .nil) _
      split
      · rename_i e
        rw [key _ e]
        exact (formatGo_filled nc num s .lit trivial).map (by exact Template.number .nil) _
      · rename_i h1 h2
        exact .name (a := []) .nil (by simpa using h.1) h.2.2 (by simpa using h.2.1) h1 h2
    · rename_i h1
      have := formatGo_filled nc num s (.field (c :: b)) ⟨by simp, ?_, ?_⟩
      · simpa [FmtMode.seen] using this
      · rw [List.mem_cons, not_or]; exact ⟨fun e => h1 e.symm, h.2.1⟩
      · rw [List.reverse_cons]
        obtain ⟨x, l, e⟩ := List.exists_cons_of_ne_nil (show b.reverse ≠ [] by simpa using h.1)
        have := h.2.2
        rw [e] at this ⊢
        exact this

theorem formatGo_field (nc num : Str) : ∀ (n : Str), '}' ∉ n → ∀ (b s : Str),
    formatGo nc num (.field b) (n ++ s) = formatGo nc num (.field (n.reverse ++ b)) s
  | [], _, _, _ => rfl
  | c :: n, h, b, s => by
    rw [List.mem_cons, not_or] at h
    rw [List.cons_append, formatGo, if_neg (fun e => h.1 e.symm), formatGo_field nc num n h.2]
    simp

/-- A sound template is filled, and what follows it comes after. -/
theorem formatGo_template (nc num : Str) {a : Str} (ha : Template a) (s : Str) :
    ∃ x : Str, formatGo nc num .lit (a ++ s) = (formatGo nc num .lit s).map (x ++ ·) := by
  have key : ∀ (x y : Str) (r : Except PyErr Str), (r.map (y ++ ·)).map (x ++ ·) = r.map ((x ++ y) ++ ·) := by
    intro x y r; cases r <;> simp [Except.map]
  induction ha with
  | nil => exact ⟨[], by cases h : formatGo nc num .lit s <;> simp [Except.map, h]⟩
  | @char c a h1 h2 _ ih =>
    obtain ⟨x, hx⟩ := ih
    refine ⟨c :: x, ?_⟩
    rw [List.cons_append, formatGo, if_neg h1, if_neg h2, hx]
    exact key [c] x _
  | opening _ ih => obtain ⟨x, hx⟩ := ih; exact ⟨_, (congrArg (Except.map ('{' :: ·)) hx).trans (key ['{'] x _)⟩
  | closing _ ih => obtain ⟨x, hx⟩ := ih; exact ⟨_, (congrArg (Except.map ('}' :: ·)) hx).trans (key ['}'] x _)⟩
  | nodeclass _ ih => obtain ⟨x, hx⟩ := ih; exact ⟨_, (congrArg (Except.map (nc ++ ·)) hx).trans (key nc x _)⟩
  | number _ ih => obtain ⟨x, hx⟩ := ih; exact ⟨_, (congrArg (Except.map (num ++ ·)) hx).trans (key num x _)⟩

theorem formatGo_bad (nc num : Str) {s : Str} {e} (h : BadTemplate s e) : formatGo nc num .lit s = .error e := by
  have key : ∀ {a s : Str} {e}, Template a → formatGo nc num .lit s = .error e →
      formatGo nc num .lit (a ++ s) = .error e := by
    intro a s e ha hs
    obtain ⟨x, hx⟩ := formatGo_template nc num ha s
    rw [hx, hs]; rfl
  have fld : ∀ (n s : Str), n ≠ [] → n.head? ≠ some '{' → '}' ∉ n →
      formatGo nc num .lit ('{' :: (n ++ s)) = formatGo nc num (.field n.reverse) s := by
    intro n s h1 h2 h3
    cases n with
    | nil => exact absurd rfl h1
    | cons c n =>
      rw [List.mem_cons, not_or] at h3
      show formatGo nc num .opened (c :: (n ++ s)) = _
      rw [formatGo, if_neg (by simpa using h2), if_neg (fun e => h3.1 e.symm), formatGo_field nc num n h3.2]
      simp
  cases h with
  | @unclosed a n h1 h2 h3 =>
    refine key h1 ?_
    by_cases hn : n = []
    · subst hn; rfl
    · rw [← List.append_nil n, fld n [] hn h2 h3]; rfl
  | @unopened a s h1 h2 =>
    refine key h1 ?_
    cases s with
    | nil => rfl
    | cons c s =>
      show formatGo nc num .closed (c :: s) = _
      rw [formatGo, if_neg (by simpa using h2)]
  | noName h1 => exact key h1 rfl
  | @name a n s h1 h2 h3 h4 h5 h6 =>
    rw [List.append_assoc, List.cons_append]
    refine key h1 ?_
    rw [fld n _ h2 h3 h4, formatGo, if_pos rfl, List.reverse_reverse, if_neg h5, if_neg h6]

/-- A template cannot be filled and not be filled. -/
theorem Template.not_bad {s : Str} (h : Template s) {e} : ¬ BadTemplate s e := by
  intro hb
  obtain ⟨x, hx⟩ := formatGo_template [] [] h []
  rw [List.append_nil, formatGo_bad [] [] hb] at hx
  cases hx

theorem formatGo_cases (nc num s : Str) : (∃ x, formatGo nc num .lit s = .ok x ∧ ∀ e, ¬ BadTemplate s e) ∨
    ∃ e, formatGo nc num .lit s = .error e ∧ BadTemplate s e := by
  have h := formatGo_filled nc num s .lit trivial
  cases hr : formatGo nc num .lit s with
  | ok x => rw [hr] at h; exact .inl ⟨x, rfl, fun e => Template.not_bad h⟩
  | error e => rw [hr] at h; exact .inr ⟨e, rfl, h⟩

theorem template_or_bad (s : Str) : Template s ∨ ∃ e, BadTemplate s e := by
  have h := formatGo_filled [] [] s .lit trivial
  cases hr : formatGo [] [] .lit s with
  | ok x => rw [hr] at h; exact .inl h
  | error e => rw [hr] at h; exact .inr ⟨e, h⟩

end Tr
end RSM
