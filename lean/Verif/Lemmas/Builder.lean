import Verif.Model.Builder
import Verif.Spec.Between

/-! # Lemmas about the builder -/

namespace RSM
namespace Build
variable {o w : Str}

theorem lazyGroup_some {s g a : Str} (h : lazyGroup w s = some (g, a)) :
    s = g ++ w ++ a ∧ '\n' ∉ g ∧ ∀ g' a', s = g' ++ w ++ a' → g.length ≤ g'.length := by
  induction s generalizing g a with
  | nil => cases h
  | cons c s ih =>
    rw [lazyGroup] at h
    split at h
    · next hp =>
      cases h
      obtain ⟨t, ht⟩ := List.isPrefixOf_iff_prefix.1 hp
      refine ⟨?_, List.not_mem_nil, fun _ _ _ => Nat.zero_le _⟩
      rw [← ht, List.drop_left, List.nil_append]
    · next hp =>
      split at h
      · cases h
      · next hc =>
        cases e : lazyGroup w s with
        | none => rw [e] at h; cases h
        | some x =>
          rw [e] at h
          cases h
          obtain ⟨h1, h2, h3⟩ := ih e
          refine ⟨by rw [h1]; rfl, ?_, ?_⟩
          · rw [List.mem_cons]
            rintro (h | h)
            · exact hc h.symm
            · exact h2 h
          · intro g' a' e'
            cases g' with
            | nil =>
              refine absurd (List.isPrefixOf_iff_prefix.2 ⟨a', ?_⟩) hp
              rw [e', List.nil_append]
            | cons c' g' =>
              simp only [List.cons_append, List.cons.injEq] at e'
              have := h3 g' a' e'.2
              simp only [List.length_cons]
              omega

theorem lazyGroup_none (hw : w ≠ []) {s : Str} (h : lazyGroup w s = none) (g a : Str) (e : s = g ++ w ++ a) :
    '\n' ∈ g := by
  induction s generalizing g with
  | nil =>
    have := congrArg List.length e
    simp only [List.length_nil, List.length_append] at this
    have : w.length ≠ 0 := fun e => hw (List.length_eq_zero_iff.1 e)
    omega
  | cons c s ih =>
    rw [lazyGroup] at h
    split at h
    · cases h
    · next hp =>
      cases g with
      | nil =>
        refine absurd (List.isPrefixOf_iff_prefix.2 ⟨a, ?_⟩) hp
        rw [e, List.nil_append]
      | cons c' g =>
        simp only [List.cons_append, List.cons.injEq] at e
        split at h
        · next hc => rw [← e.1, hc]; exact List.mem_cons_self
        · rw [Option.map_eq_none_iff] at h
          exact List.mem_cons_of_mem _ (ih h g e.2)

theorem between_nil {s g a : Str} (h : Between o w s [] g a) : s = o ++ (g ++ w ++ a) := by
  have := h.split
  rw [this]
  simp only [List.nil_append, List.append_assoc]

theorem between_cons {c : Char} {s b g a : Str} {c' : Char} (h : Between o w (c :: s) (c' :: b) g a) :
    c = c' ∧ Between o w s b g a := by
  have := h.split
  simp only [List.cons_append, List.cons.injEq] at this
  exact ⟨this.1, this.2, h.oneLine⟩

theorem between_lift {c : Char} {s b g a : Str} (h : Between o w s b g a) : Between o w (c :: s) (c :: b) g a :=
  ⟨by rw [h.split]; rfl, h.oneLine⟩

theorem matchBetween_some {s g a : Str} (h : matchBetween o w s = some (g, a)) : FirstBetween o w s [] g a := by
  unfold matchBetween at h
  split at h
  · next hp =>
    obtain ⟨t, ht⟩ := List.isPrefixOf_iff_prefix.1 hp
    obtain ⟨h1, h2, h3⟩ := lazyGroup_some h
    rw [← ht, List.drop_left] at h1 h3
    refine ⟨⟨?_, h2⟩, ?_⟩
    · rw [← ht, h1]
      simp only [List.nil_append, List.append_assoc]
    · intro b' g' a' hb
      cases b' with
      | nil =>
        refine .inr ⟨rfl, h3 g' a' ?_⟩
        have := between_nil hb
        rw [← ht] at this
        exact List.append_cancel_left this
      | cons c b' => exact .inl (Nat.zero_lt_succ _)
  · cases h

theorem matchBetween_none (hw : w ≠ []) {s : Str} (h : matchBetween o w s = none) (g a : Str) :
    ¬Between o w s [] g a := by
  intro hb
  have e := between_nil hb
  unfold matchBetween at h
  split at h
  · rw [e, List.drop_left] at h
    exact hb.oneLine (lazyGroup_none hw h g a rfl)
  · next hp => exact hp (List.isPrefixOf_iff_prefix.2 ⟨_, e.symm⟩)

theorem first_lift {c : Char} {s b g a : Str} (hn : ∀ g a, ¬Between o w (c :: s) [] g a)
    (h : FirstBetween o w s b g a) : FirstBetween o w (c :: s) (c :: b) g a := by
  refine ⟨between_lift h.toBetween, ?_⟩
  intro b' g' a' hb
  cases b' with
  | nil => exact absurd hb (hn _ _)
  | cons c' b' =>
    have := h.first _ _ _ (between_cons hb).2
    simp only [List.length_cons]
    omega

theorem none_lift {c : Char} {s : Str} (hn : ∀ g a, ¬Between o w (c :: s) [] g a)
    (h : ∀ b g a, ¬Between o w s b g a) (b g a) : ¬Between o w (c :: s) b g a := by
  intro hb
  cases b with
  | nil => exact hn _ _ hb
  | cons c' b => exact h _ _ _ (between_cons hb).2

theorem none_nil (hw : w ≠ []) (b g a : Str) : ¬Between o w [] b g a := by
  intro h
  have := congrArg List.length h.split
  simp only [List.length_nil, List.length_append] at this
  have : w.length ≠ 0 := fun e => hw (List.length_eq_zero_iff.1 e)
  omega

theorem searchBetween_some {s g : Str} (hw : w ≠ []) (h : searchBetween o w s = some g) :
    ∃ b a, FirstBetween o w s b g a := by
  induction s with
  | nil => cases h
  | cons c s ih =>
    rw [searchBetween] at h
    cases e : matchBetween o w (c :: s) with
    | some x =>
      rw [e] at h
      cases h
      exact ⟨[], x.2, matchBetween_some e⟩
    | none =>
      rw [e] at h
      obtain ⟨b, a, hb⟩ := ih h
      exact ⟨c :: b, a, first_lift (matchBetween_none hw e) hb⟩

theorem searchBetween_none {s : Str} (hw : w ≠ []) (h : searchBetween o w s = none) (b g a) :
    ¬Between o w s b g a := by
  induction s generalizing b g a with
  | nil => exact none_nil hw b g a
  | cons c s ih =>
    rw [searchBetween] at h
    cases e : matchBetween o w (c :: s) with
    | some x => rw [e] at h; cases h
    | none =>
      rw [e] at h
      exact none_lift (matchBetween_none hw e) (fun _ _ _ => ih h _ _ _) b g a

/-- The first place is unique. -/
theorem _root_.RSM.FirstBetween.unique {s b g a b' g' a' : Str} (h : FirstBetween o w s b g a)
    (h' : FirstBetween o w s b' g' a') : b = b' ∧ g = g' ∧ a = a' := by
  have h1 := h.first _ _ _ h'.toBetween
  have h2 := h'.first _ _ _ h.toBetween
  have e := h.split.symm.trans h'.split
  simp only [List.append_assoc] at e
  have e1 := List.append_inj e (by omega)
  have e2 := List.append_inj (List.append_cancel_left e1.2) (by omega)
  exact ⟨e1.1, e2.1, List.append_cancel_left e2.2⟩

theorem findall_skip (n : Nat) (s t : Str) (h : s.length = n) : findallBetween o w n (s ++ t) = findallBetween o w 0 t := by
  induction s generalizing n with
  | nil => cases h; rfl
  | cons c s ih =>
    cases n with
    | zero => cases h
    | succ n =>
      rw [List.cons_append, findallBetween]
      exact ih n (by simpa using h)

theorem findall_all (hw : w ≠ []) (s : Str) : AllBetween o w s (findallBetween o w 0 s) := by
  induction hn : s.length using Nat.strongRecOn generalizing s with
  | _ n ih =>
    subst hn
    -- walk to the first match
    have key : ∀ (pre t : Str), s = pre ++ t →
        (∀ {b g a}, FirstBetween o w t b g a → FirstBetween o w s (pre ++ b) g a) →
        ((∀ b g a, ¬Between o w t b g a) → ∀ b g a, ¬Between o w s b g a) →
        AllBetween o w s (findallBetween o w 0 t) := by
      intro pre t hs hf hnn
      induction t generalizing pre with
      | nil => exact .none (hnn (none_nil hw))
      | cons c t iht =>
        rw [findallBetween]
        cases e : matchBetween o w (c :: t) with
        | some x =>
          obtain ⟨g, a⟩ := x
          have hm := matchBetween_some e
          simp only []
          have hlen : 0 < w.length := List.length_pos_iff.2 hw
          have hsp := hm.split
          have : findallBetween o w (o.length + g.length + w.length - 1) t = findallBetween o w 0 a := by
            have e2 : t = (o ++ g ++ w).tail ++ a := by
              have h2 : o ++ g ++ w ≠ [] := by
                intro h; have := congrArg List.length h
                simp only [List.length_append, List.length_nil] at this; omega
              have h3 : c :: t = (o ++ g ++ w) ++ a := by
                rw [hsp]; simp only [List.nil_append, List.append_assoc]
              generalize o ++ g ++ w = x at h2 h3
              cases x with
              | nil => exact absurd rfl h2
              | cons y x => simp only [List.cons_append, List.cons.injEq] at h3; exact h3.2
            rw [e2]
            apply findall_skip
            simp only [List.length_tail, List.length_append]
          rw [this]
          refine .next (hf hm) (ih a.length ?_ a rfl)
          have := congrArg List.length hsp
          rw [hs]
          simp only [List.length_append, List.length_nil, List.length_cons] at this ⊢
          omega
        | none =>
          simp only []
          have hn := matchBetween_none hw e
          refine iht (pre ++ [c]) ?_ ?_ ?_
          · rw [hs]; simp
          · intro b g a hb
            have := hf (first_lift hn hb)
            simpa using this
          · intro h
            exact hnn (none_lift hn h)
    exact key [] s rfl (fun h => h) (fun h => h)

theorem _root_.RSM.AllBetween.unique {s l l'} (h : AllBetween o w s l) (h' : AllBetween o w s l') : l = l' := by
  induction h generalizing l' with
  | none hn =>
    cases h' with
    | none => rfl
    | next hf => exact absurd hf.toBetween (hn _ _ _)
  | next hf _ ih =>
    cases h' with
    | none hn => exact absurd hf.toBetween (hn _ _ _)
    | next hf' h' =>
      obtain ⟨-, rfl, rfl⟩ := hf.unique hf'
      rw [ih h']

/-! ## Replacing the placeholder -/

/-- The places where a text is replaced are marked by `none`. -/
def replaceMark (old : Str) : Nat → Str → List (Option Char)
  | _, [] => []
  | skip + 1, _ :: s => replaceMark old skip s
  | 0, c :: s =>
    if old.isPrefixOf (c :: s) then none :: replaceMark old (old.length - 1) s
    else some c :: replaceMark old 0 s

theorem replaceScan_mark (old new : Str) (n : Nat) (s : Str) :
    replaceScan old new n s = (replaceMark old n s).flatMap fun x => match x with | none => new | some c => [c] := by
  induction s generalizing n with
  | nil => cases n <;> rfl
  | cons c s ih =>
    cases n with
    | succ n => rw [replaceScan, replaceMark, ih]
    | zero =>
      rw [replaceScan, replaceMark]
      split <;> simp only [List.flatMap_cons, ih, List.cons_append, List.nil_append]

theorem flatMap_some (f : Option Char → Str) (hf : ∀ c, f (some c) = [c]) (l : Str) : (l.map some).flatMap f = l := by
  induction l with
  | nil => rfl
  | cons c l ih => rw [List.map_cons, List.flatMap_cons, hf, ih]; rfl

end Build
end RSM
