import Verif.Lemmas.ParserPage
import Verif.Lemmas.CleanParse

/-! # Lemmas: where the display formulas of a manuscript stand, and what its entries have in them -/

namespace RSM
open Html

namespace Parser

section
variable {h : Heap} {src : List Part}

theorem formulasFitL_append {p : Cls} : ∀ {xs ys : List Outline},
    formulasFitL p (xs ++ ys) = (formulasFitL p xs && formulasFitL p ys)
  | [], ys => by rw [formulasFitL]; simp
  | x :: xs, ys => by rw [List.cons_append, formulasFitL, formulasFitL, formulasFitL_append, Bool.and_assoc]

theorem formulaCount_append : ∀ {xs ys : List Outline}, formulaCount (xs ++ ys) = formulaCount xs + formulaCount ys
  | [], ys => by rw [formulaCount]; simp
  | .node l ks :: xs, ys => by rw [List.cons_append, formulaCount, formulaCount, formulaCount_append, Nat.add_assoc]

/-- The display formulas among nodes. -/
def displays (h : Heap) (xs : List Ref) : List Ref := xs.filter fun x => (h.get x).cls = .MathBlock

theorem displays_count : ∀ ts : List Tree, (displays h (ts.map Tree.root)).length = formulaCount (outlinesOf h ts)
  | [] => by rw [outlinesOf, formulaCount]; rfl
  | .node i ks :: ts => by
    rw [outlinesOf, formulaCount_append, ← displays_count ts, outlineOf, List.map_cons]
    unfold displays
    rw [List.filter_cons]
    show (if decide ((h.get i).cls = .MathBlock) = true then _ else _ : List Ref).length = _
    by_cases hm : (h.get i).cls = .MathBlock
    · have hu : ¬ (h.isInst i .Text = true ∨ (h.get i).cls = .Keyword ∨ (h.get i).cls = .Bibliography) := by
        unfold Heap.isInst; rw [hm]; decide
      rw [if_neg hu, if_pos (decide_eq_true hm), formulaCount, formulaCount, if_pos (show (look h i).cls = .MathBlock from hm),
        List.length_cons]
      omega
    · rw [if_neg (fun h => hm (of_decide_eq_true h))]
      split
      · rw [formulaCount]; omega
      · rw [formulaCount, formulaCount, if_neg (show ¬ (look h i).cls = .MathBlock from hm)]; omega

/-- The node is no display formula, or stands where it should. -/
def Sits (h : Heap) (pc : Cls) (p : Option Ref) (x : Ref) : Prop :=
  ((h.get x).cls = .MathBlock → (h.parent x = p ∧ pc = .Paragraph) ∨
    ∃ q, h.parent x = some q ∧ (h.get q).cls = .Paragraph) ∧
  ((h.get x).cls = .Paragraph → (displays h (h.children x)).length ≤ 1)

mutual
theorem sits_tree : ∀ {t : Tree} {p : Option Ref} {pc : Cls}, IsTree h p t → AllGiven h src t.pre →
    formulasFitL pc (outlineOf h t) = true → ∀ x ∈ t.pre, Sits h pc p x
  | .node i ks, p, pc, T, G, hn, x, hx => by
    have T' := T
    rw [IsTree] at T'
    have Gk : AllGiven h src (Tree.preL ks) := fun y hy => G y (by rw [Tree.pre]; exact List.mem_cons_of_mem _ hy)
    rw [outlineOf] at hn
    by_cases hl : h.isInst i .Text = true ∨ (h.get i).cls = .Keyword ∨ (h.get i).cls = .Bibliography
    · have hu := unseen_tree T G (by
        show Unseen (h.get i).cls
        rcases hl with hl | hl | hl
        · exact .inl hl
        · exact .inr (.inl hl)
        · exact .inr (.inr (.inl hl))) x hx
      constructor <;> intro hc <;> rw [hc] at hu <;> exact absurd hu (by decide)
    rw [if_neg hl, formulasFitL, formulasFitL, Bool.and_true, formulasFit] at hn
    simp only [Bool.and_eq_true] at hn
    obtain ⟨⟨h1, h2⟩, h3⟩ := hn
    have e : (look h i).cls = (h.get i).cls := rfl
    rw [e] at h1 h2 h3
    rw [Tree.pre, List.mem_cons] at hx
    rcases hx with rfl | hx
    · constructor
      · intro hc
        rw [hc] at h1
        simp only [ne_eq, not_true_eq_false, decide_false, Bool.false_or, decide_eq_true_eq] at h1
        exact .inl ⟨T'.1, h1⟩
      · intro hc
        rw [hc] at h3
        simp only [ne_eq, not_true_eq_false, decide_false, Bool.false_or, decide_eq_true_eq] at h3
        rw [T'.2.1, displays_count]
        exact h3
    · obtain ⟨s1, s2⟩ := sits_forest T'.2.2 Gk h2 x hx
      refine ⟨fun hc => ?_, s2⟩
      rcases s1 hc with ⟨g1, g2⟩ | g
      · exact .inr ⟨i, g1, g2⟩
      · exact .inr g
theorem sits_forest : ∀ {ts : List Tree} {p : Option Ref} {pc : Cls}, IsForest h p ts → AllGiven h src (Tree.preL ts) →
    formulasFitL pc (outlinesOf h ts) = true → ∀ x ∈ Tree.preL ts, Sits h pc p x
  | [], p, pc, T, G, hn, x, hx => by rw [Tree.preL] at hx; cases hx
  | t :: ts, p, pc, T, G, hn, x, hx => by
    rw [IsForest] at T
    rw [Tree.preL] at G hx
    rw [outlinesOf, formulasFitL_append, Bool.and_eq_true] at hn
    rcases List.mem_append.mp hx with hx | hx
    · exact sits_tree T.1 (fun y hy => G y (List.mem_append_left _ hy)) hn.1 x hx
    · exact sits_forest T.2 (fun y hy => G y (List.mem_append_right _ hy)) hn.2 x hx
end
end

variable {c : Cst} {fuel : Nat} {s s' : ParserState} {r : Ref} {t : Tree}

/-- The formulas of the manuscript stand where they should if those of the source do. -/
theorem parse_formulasFit (S : Source c) (F : Forest s.heap) (hf : 12 * c.size < fuel) (h : parse fuel c s = .ok r s')
    (D : Doc s'.heap r t) (ho : outlineOf s'.heap t = [sourceOutline c])
    (hd : formulasFit .Node (sourceOutline c) = true) : FormulasFit s'.heap t := by
  obtain ⟨G, -, -, -⟩ := parse_given S F hf h D
  have G : AllGiven s'.heap (walks (sourceParts c)) t.pre := G
  have hs := sits_tree (pc := .Node) D.tree G (by rw [ho, formulasFitL, formulasFitL, Bool.and_true]; exact hd)
  constructor
  · intro x hx hc
    rcases (hs x hx).1 hc with ⟨_, h⟩ | h
    · cases h
    · exact h
  · rintro p hp hc l m q e hm ⟨x, hx, hxc⟩
    exfalso
    have := (hs p hp).2 hc
    rw [e] at this
    unfold displays at this
    rw [List.filter_append, List.filter_cons, if_pos (decide_eq_true hm), List.length_append, List.length_cons] at this
    have h0 : 0 < (l.filter fun x => decide ((s'.heap.get x).cls = .MathBlock)).length :=
      List.length_pos_of_mem (List.mem_filter.mpr ⟨hx, decide_eq_true hxc⟩)
    omega

theorem entrySafe_given {a n : NodeRec} {d : Cst} (h1 : core a = core n) (h2 : bibRecord d = .ok n) (h3 : EntrySafe d) :
    '"' ∉ a.label ∧ '\n' ∉ a.label ∧ '\n' ∉ a.doi := by
  have e1 : a.label = (entryLook d).label := (core_label h1).trans (by rw [← bibRecord_entry h2]; rfl)
  have e2 : a.doi = (entryLook d).doi := by
    have : (core a).doi = (core n).doi := by rw [h1]
    exact this.trans (by rw [← bibRecord_entry h2]; rfl)
  rw [e1, e2]
  exact h3

/-- The entries of the manuscript can be linked if those of the source can. -/
theorem parse_entrySafe (S : Source c) (F : Forest s.heap) (hf : 12 * c.size < fuel) (h : parse fuel c s = .ok r s')
    (D : Doc s'.heap r t) (hc : AllClean s'.heap) (hE : EntriesSafe c) :
    ∀ x ∈ t.pre, (s'.heap.get x).cls = .Bibitem → LinkSafe (s'.heap.get x) := by
  intro x hx hb
  obtain ⟨G, -, -, hM⟩ := parse_given S F hf h D
  have hne : x ≠ r := fun e => by rw [e, hM] at hb; cases hb
  obtain ⟨q, _, hq, _⟩ := D.parent_mem hx hne
  have key : '"' ∉ (s'.heap.get x).label ∧ '\n' ∉ (s'.heap.get x).label ∧ '\n' ∉ (s'.heap.get x).doi := by
    have g := G x hx q hq
    cases g with
    | added h1 => rcases h1 with h1 | h1 <;> rw [hb] at h1 <;> cases h1
    | bibliography h1 => have := core_cls h1; rw [hb] at this; cases this
    | entry _ h1 h2 h3 =>
      obtain ⟨l, hl, hd⟩ := h1
      exact entrySafe_given h3 h2 (hE.entries l hl _ hd)
    | @made n ks _ _ h3 _ h5 =>
      have hn : n.cls = .Bibitem := (core_cls h5).symm.trans hb
      cases h3 with
      | @part kind d ps _ _ g1 g2 g3 g4 _ =>
        exfalso
        rw [g2] at hn
        unfold classOf at hn
        split at hn
        · cases hn
        rw [if_neg g4.2.1] at hn
        cases hl : classTable.lookup kind with
        | none => rw [hl] at hn; cases hn
        | some cl =>
          rw [hl] at hn
          have : ∀ q ∈ classTable, q.2 ≠ .Bibitem := by decide +kernel
          exact this _ (mem_of_lookup hl) hn
      | claim => cases hn
      | asis h => rw [hn] at h; cases h
      | code _ _ h => rw [hn] at h; cases h
      | entry h1 h2 => exact entrySafe_given h5 h2 (hE.strays _ _ h1)
  exact ⟨key.1, key.2.1, key.2.2, (hc x).links⟩

end Parser
end RSM
