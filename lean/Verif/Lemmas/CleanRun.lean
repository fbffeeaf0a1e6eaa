import Verif.Lemmas.Steady
import Verif.Lemmas.BalBase
import Verif.Lemmas.BalBib
import Verif.Spec.CleanSource

/-! # Lemmas: `transform` brings no angle brackets into texts -/

namespace RSM
open Transformer Html Tr

theorem noAngle_replaceScan {old new : Str} (hn : NoAngle new) : ∀ (s : Str) (k : Nat), NoAngle s →
    NoAngle (replaceScan old new k s)
  | [], k, _ => by cases k <;> exact NoAngle.nil
  | c :: s, k + 1, h => noAngle_replaceScan hn s k (noAngle_cons.mp h).2
  | c :: s, 0, h => by
    have hs := (noAngle_cons.mp h).2
    rw [replaceScan]
    split
    · exact noAngle_append.mpr ⟨hn, noAngle_replaceScan hn s _ hs⟩
    · exact noAngle_cons.mpr ⟨(noAngle_cons.mp h).1, noAngle_replaceScan hn s _ hs⟩

theorem noAngle_citeLabel (k : Nat) : NoAngle (citeLabel k) :=
  noAngle_append.mpr ⟨by decide, noAngle_digits k⟩

theorem noQuote_citeLabel (k : Nat) : '"' ∉ citeLabel k := by
  unfold citeLabel
  rw [List.mem_append, not_or]
  exact ⟨by decide, digit_noQuote k⟩

theorem noAngle_unknownLabel {l : Str} (h : NoAngle l) : NoAngle (unknownLabelText l) :=
  noAngle_append.mpr ⟨noAngle_append.mpr ⟨by decide, h⟩, by decide⟩

theorem cleanIn_new (c : Cls) : CleanIn (NodeRec.new c) := by
  have hnum : CleanNum (NodeRec.new c).number := by
    cases c <;> first | exact trivial | (show NoAngle _; decide)
  exact ⟨⟨NoAngle.nil, nofun, hnum, by cases c <;> decide, NoAngle.nil, NoAngle.nil, NoAngle.nil, NoAngle.nil,
    NoAngle.nil, NoAngle.nil, nofun, nofun, NoAngle.nil, trivial, NoAngle.nil, NoAngle.nil, trivial, NoAngle.nil,
    NoAngle.nil, NoAngle.nil, nofun, by cases c <;> decide, by cases c <;> decide⟩, by cases c <;> decide, nofun, nofun, rfl, rfl⟩

theorem noAngle_tocText {h : Heap} (hc : ∀ x, CleanIn (h.get x)) {fuel : Nat} {sec : Ref} {text : Str}
    (e : tocText fuel h sec = some text) : NoAngle text := by
  unfold tocText at e
  split at e
  · injection e with e; rw [← e]; exact (hc sec).title
  · split at e
    · cases e
    · rename_i full hf
      injection e with e
      rw [← e]
      refine noAngle_append.mpr ⟨noAngle_append.mpr ⟨?_, by decide⟩, (hc sec).title⟩
      cases full with
      | none => show NoAngle "None".toList; decide
      | some f => exact noAngle_fullNumber (fun x => (hc x).toClean) _ _ hf f rfl

theorem noAngle_snoc {l : List Str} {x : Str} (hl : ∀ y ∈ l, NoAngle y) (hx : NoAngle x) : ∀ y ∈ l ++ [x], NoAngle y := by
  intro y hy
  rcases List.mem_append.mp hy with h | h
  · exact hl y h
  · rw [List.mem_singleton.mp h]; exact hx

theorem noAngle_letter : ∀ c ∈ asciiUppercase, NoAngle [c] := by decide

/-- `transform` brings no angle brackets into texts. -/
theorem clean_steady : Steady fun _ n => CleanIn n where
  links x n p ks h := { h with }
  unlabel x n h := { h with label := NoAngle.nil }
  noTarget x := { cleanIn_new .Error with text := noAngle_unknownLabel (by decide) }
  error x a l h e y := { cleanIn_new .Error with text := noAngle_unknownLabel (by have := h.target; rw [e] at this; exact this) }
  unknown x a l h hl y := { cleanIn_new .UnknownBibitem with number := noAngle_unknownLabel (h.targetlabels l hl) }
  reference x a z h y := { cleanIn_new .Reference with target := trivial, overwriteReftext := h.overwriteReftext }
  cite ys k y := { cleanIn_new .Cite with label := noAngle_citeLabel k }
  backlink x n k h := { h with
    backlinks := noAngle_snoc h.backlinks (noAngle_citeLabel k)
    links := fun l hl => by
      rcases List.mem_append.mp hl with hl | hl
      · exact h.links l hl
      · rw [List.mem_singleton.mp hl]; exact noQuote_citeLabel k }
  made c _ y := cleanIn_new c
  depth x n k h := { h with }
  number x n k h := { h with number := trivial }
  letter x n c hm h := { h with number := noAngle_letter c hm }
  template x n h := { h with reftextTemplate := noAngle_replaceScan (by decide) _ _ h.reftextTemplate }
  entry h hc fuel sec text e y := { cleanIn_new .Reference with target := trivial, overwriteReftext := noAngle_tocText hc e }
  kind x n h := { h with types := noAngle_snoc h.types h.kind }
  assumption x n h := { h with types := noAngle_snoc h.types (by decide) }
  id x n k h := { h with }

end RSM
