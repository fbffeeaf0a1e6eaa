import Verif.Lemmas.ReprBase
import Verif.Lemmas.BalBase

/-! # Lemmas: `repr` shows no angle brackets when nothing in the nodes has any -/

namespace RSM
open Html Tr

theorem noAngle_hexStr (k n : Nat) : NoAngle (hexStr k n) := by
  induction k generalizing n with
  | zero => exact .nil
  | succ k ih =>
    rw [hexStr, noAngle_append]
    refine ⟨ih _, ?_⟩
    have : ∀ m < 16, NoAngle [Nat.digitChar m] := by decide
    exact this _ (Nat.mod_lt _ (by decide))

theorem noAngle_reprChar {e : ReprEnv} {q c : Char} (hc : NoAngle [c]) : NoAngle (reprChar e q c) := by
  unfold reprChar
  have hx := noAngle_hexStr
  split
  · exact noAngle_cons.2 ⟨by decide, hc⟩
  repeat' (split; first | decide | exact hc | exact noAngle_append.2 ⟨by decide, hx _ _⟩)
  exact noAngle_append.2 ⟨by decide, hx _ _⟩

theorem noAngle_flatMap {α : Type} {l : List α} {f : α → Str} (h : ∀ x ∈ l, NoAngle (f x)) : NoAngle (l.flatMap f) := by
  induction l with
  | nil => exact .nil
  | cons x l ih =>
    rw [List.flatMap_cons, noAngle_append]
    exact ⟨h x List.mem_cons_self, ih fun y hy => h y (List.mem_cons_of_mem _ hy)⟩

theorem noAngle_strRepr {e : ReprEnv} {s : Str} (h : NoAngle s) : NoAngle (strRepr e s) := by
  unfold strRepr
  dsimp only
  have hq : NoAngle [if '\'' ∈ s ∧ '"' ∉ s then '"' else '\''] := by split <;> decide
  rw [noAngle_append, noAngle_cons]
  refine ⟨⟨(noAngle_cons.1 hq).1, noAngle_flatMap fun c hc => noAngle_reprChar ?_⟩, hq⟩
  refine noAngle_cons.2 ⟨⟨?_, ?_⟩, .nil⟩ <;> rintro rfl
  · exact h.1 hc
  · exact h.2 hc

theorem noAngle_commaJoin {l : List Str} (h : ∀ x ∈ l, NoAngle x) : NoAngle (commaJoin l) := by
  induction l with
  | nil => exact .nil
  | cons x l ih =>
    cases l with
    | nil => exact h x List.mem_cons_self
    | cons y l =>
      rw [commaJoin, noAngle_append, noAngle_append]
      · exact ⟨⟨h x List.mem_cons_self, by decide⟩, ih fun z hz => h z (List.mem_cons_of_mem _ hz)⟩
      · nofun

theorem noAngle_nodeReprN {e : ReprEnv} (hs : ∀ s, NoAngle s → NoAngle (e.shorten s)) {h : Heap} (hc : CleanHeap h) (d : Nat) (r : Ref) :
    NoAngle (nodeReprN e h d r) := by
  induction d generalizing r with
  | zero => exact .nil
  | succ d ih =>
    unfold nodeReprN
    have c := hc r
    have ha : ∀ x ∈ attrsRepr e h r (nodeReprN e h d), NoAngle x := by
      intro x hx
      unfold attrsRepr at hx
      dsimp only at hx
      simp only [List.mem_append] at hx
      have hp : NoAngle (parentRepr h (h.get r).parent) := by
        unfold parentRepr
        split
        · decide
        · exact noAngle_name _
      have hm : ∀ {b : Prop} [Decidable b] {y : Str} {l : List Str}, NoAngle y → x ∈ (if b then [] else [y]) → NoAngle x := by
        intro b _ y l hy hx
        split at hx
        · cases hx
        · cases List.mem_singleton.1 hx; exact hy
      rcases hx with ((((hx | hx) | hx) | hx) | hx) | hx
      · exact hm (l := []) (noAngle_append.2 ⟨by decide, c.label⟩) hx
      · refine hm (l := []) (noAngle_append.2 ⟨by decide, ?_⟩) hx
        unfold listRepr
        rw [noAngle_append, noAngle_cons]
        refine ⟨⟨by decide, noAngle_commaJoin ?_⟩, by decide⟩
        intro y hy
        obtain ⟨z, hz, rfl⟩ := List.mem_map.1 hy
        exact noAngle_strRepr (c.types z hz)
      · split at hx
        · cases List.mem_singleton.1 hx; decide
        · cases hx
      · split at hx
        · cases List.mem_singleton.1 hx; exact noAngle_append.2 ⟨by decide, noAngle_fmt c.number⟩
        · cases hx
      · cases List.mem_singleton.1 hx; exact noAngle_append.2 ⟨by decide, hp⟩
      · split at hx
        · rcases List.mem_append.1 hx with hx | hx
          · have ht := c.target
            unfold targetRepr at hx
            split at hx
            · cases hx
            · rename_i s e1
              rw [e1] at ht
              exact hm (l := []) (noAngle_append.2 ⟨by decide, ht⟩) hx
            · cases List.mem_singleton.1 hx; exact noAngle_append.2 ⟨by decide, ih _⟩
          · exact hm (l := []) (noAngle_append.2 ⟨by decide, c.overwriteReftext⟩) hx
        · cases hx
    dsimp only
    have hn := noAngle_name (h.get r).cls
    split
    · simp only [noAngle_append]
      exact ⟨⟨⟨⟨hn, by decide⟩, hs _ c.text⟩, by decide⟩, c.lang⟩ |> fun h => ⟨h, by decide⟩
    split
    · simp only [noAngle_append]
      exact ⟨⟨⟨hn, by decide⟩, hs _ c.text⟩, by decide⟩
    · simp only [noAngle_append]
      refine ⟨⟨⟨⟨hn, by decide⟩, noAngle_commaJoin ha⟩, ?_⟩, by decide⟩
      split
      · rw [noAngle_append, noAngle_append]
        refine ⟨⟨by decide, noAngle_commaJoin ?_⟩, by decide⟩
        intro y hy
        obtain ⟨z, -, rfl⟩ := List.mem_map.1 hy
        exact noAngle_name _
      · exact .nil

theorem noAngle_repr {e : ReprEnv} (hs : ∀ s, NoAngle s → NoAngle (e.shorten s)) (h : Heap) (hc : CleanHeap h) (r : Ref) :
    NoAngle (nodeRepr e h r) := noAngle_nodeReprN hs hc _ r

end RSM
