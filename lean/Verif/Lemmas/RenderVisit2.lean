import Verif.Lemmas.RenderVisit

/-! # Lemmas: what is written for nodes with numbers, links and notes -/

namespace RSM
namespace Tr
open PyM

variable {k : Conf} {h0 : Heap} {num : Ref → Option Str} {ref : Ref → Str}

/-! ## Sections and theorems -/

theorem sectionHeading_named {r s s' text} (N : Named k h0 num ref r) (hf : SameFrame h0 s.heap)
    (h : sectionHeading k r s = .ok text s') : s' = s ∧ text =
      (if (h0.get r).nonum then [] else Render.shown (num r) ++ ". ".toList) ++ (h0.get r).title := by
  have e1 : (s.heap.get r).nonum = (h0.get r).nonum := (congrArg NodeRec.nonum (hf.2 r) :)
  have e2 : (s.heap.get r).title = (h0.get r).title := (congrArg NodeRec.title (hf.2 r) :)
  simp only [sectionHeading, node, bind_apply, gets_apply, e1, e2] at h
  cases hn : (h0.get r).nonum with
  | true =>
    rw [hn, if_pos rfl] at h
    cases h
    exact ⟨rfl, rfl⟩
  | false =>
    rw [hn, if_neg (by simp)] at h
    obtain ⟨o, s1, h1, h2⟩ := bindOk h
    obtain ⟨rfl, rfl⟩ := fullNumber_named N hf h1
    cases h2
    exact ⟨rfl, by simp [fmtOpt_eq]⟩

theorem visit_section {r b s s' c} (hk : k.handrails = false) (hf : SameFrame h0 s.heap)
    (N : Named k h0 num ref r) (hn : s.heap.get r = record h0 r b)
    (hc : (h0.get r).cls = .Section ∨ (h0.get r).cls = .Subsection ∨ (h0.get r).cls = .Subsubsection)
    (hv : visit k r s = .ok c s') : Seen k h0 num ref r c s s' := by
  have hc' : (s.heap.get r).cls = (h0.get r).cls := by rw [hn]; rfl
  have hl : ∃ n, (h0.get r).cls.level = some n ∧ natStr n = Render.level (h0.get r).cls := by
    rcases hc with e | e | e <;> rw [e]
    · exact ⟨2, rfl, by decide⟩
    · exact ⟨3, rfl, by decide⟩
    · exact ⟨4, rfl, by decide⟩
  obtain ⟨n, hl, hlv⟩ := hl
  have hd : methodClass visitNames (s.heap.get r).cls = .ok .Section := by
    rw [hc']; rcases hc with e | e | e <;> rw [e] <;> rfl
  have hp : (h0.get r).cls ≠ .Proof := by rcases hc with e | e | e <;> rw [e] <;> decide
  rw [visit_eq hd] at hv
  simp only [visitWith, sectionItems, wrapIf, hk, Bool.false_eq_true, if_false, node, bind_apply, gets_apply, hn] at hv
  rw [show (record h0 r b).cls = (h0.get r).cls from rfl, hl] at hv
  simp only [bind_apply, gets_apply, assign, modify_apply] at hv
  have hr1 : (s.heap.update r fun nd => { nd with types := ("level-".toList ++ natStr n) :: nd.types }).get r =
      { record h0 r b with types := ("level-".toList ++ natStr n) :: Render.types h0 r } := by
    rw [Heap.get_update, if_pos rfl, hn]; rfl
  rw [hr1] at hv
  generalize hs1 : ({ s with heap := s.heap.update r fun nd =>
    { nd with types := ("level-".toList ++ natStr n) :: nd.types } } : TrState) = s1 at hv
  have hf1 : SameFrame h0 s1.heap := by
    subst hs1
    exact hf.trans (SameFrame.update _ _ _ fun _ => rfl)
  cases hh : sectionHeading k r s1 with
  | err e s2 => rw [hh] at hv; cases hv
  | ok text s2 =>
    rw [hh] at hv
    cases hv
    obtain ⟨rfl, rfl⟩ := sectionHeading_named N hf1 hh
    have htag : (Item.openTag (nodeTag { record h0 r b with types := ("level-".toList ++ natStr n) :: Render.types h0 r }
        "section")).makeText =
        Render.line (Render.nodeTag h0 r "section" ["level-".toList ++ Render.level (h0.get r).cls]) := by
      unfold nodeTag
      rw [args_text, line_nl]
      simp [Render.nodeTag, record, lower, fromKeys_eq, hlv]
    refine ⟨?_, ?_, ?_⟩
    · have : Render.opening h0 num ref k.highlight r =
          Render.line (Render.nodeTag h0 r "section" ["level-".toList ++ Render.level (h0.get r).cls])
          ++ Render.line (Render.element ('h' :: Render.level (h0.get r).cls) []
            ((if (h0.get r).nonum then [] else Render.shown (num r) ++ ". ".toList) ++ (h0.get r).title)) := by
        rcases hc with e | e | e <;> simp only [Render.opening, e]
      rw [this]
      rw [Cmd.text, List.flatMap_cons, List.flatMap_cons, htag, heading_text, hlv, List.flatMap_nil, List.append_nil]
    · have : shut h0 r = [Render.line (Render.endTag "section")] := by
        rcases hc with e | e | e <;> simp only [shut, e]
      rw [this]
      rfl
    · exact Retyped.own (f := fun nd => { nd with types := ("level-".toList ++ natStr n) :: nd.types })
        (fun _ => rfl) (by subst hs1; rfl) hp

theorem capital_eq (c : Cls) : capitalize (lower c.name) = Render.capital c.name := by
  cases c <;> decide

theorem visit_theorem {r b s s' c} (hk : k.handrails = false) (hf : SameFrame h0 s.heap)
    (N : Named k h0 num ref r) (hn : s.heap.get r = record h0 r b)
    (hc : (h0.get r).cls ∈ [.Theorem, .Lemma, .Corollary, .Example, .Exercise, .Proposition, .Problem, .Porism,
      .Remark, .Definition])
    (hv : visit k r s = .ok c s') : Seen k h0 num ref r c s s' := by
  have hc' : (s.heap.get r).cls = (h0.get r).cls := by rw [hn]; rfl
  have hd : methodClass visitNames (s.heap.get r).cls = .ok .Theorem := by
    rw [hc']; simp only [List.mem_cons, List.not_mem_nil, or_false] at hc
    rcases hc with e | e | e | e | e | e | e | e | e | e <;> rw [e] <;> rfl
  have hp : (h0.get r).cls ≠ .Proof := by
    intro e; rw [e] at hc; exact absurd hc (by decide)
  rw [visit_eq hd] at hv
  simp only [visitWith, theoremItems, theoremNumber, hk, Bool.false_eq_true, if_false, node, bind_apply, gets_apply,
    hn] at hv
  have hop : Render.opening h0 num ref k.highlight r = Render.line (Render.nodeTag h0 r "div" [] ["theorem"])
      ++ Render.title (Render.capital (h0.get r).cls.name
          ++ (if (h0.get r).nonum = false ∧ (h0.get r).number.truthy then ' ' :: Render.shown (num r) else [])
          ++ (if (h0.get r).title = [] then ".".toList else ": ".toList)) (h0.get r).title := by
    simp only [List.mem_cons, List.not_mem_nil, or_false] at hc
    rcases hc with e | e | e | e | e | e | e | e | e | e <;> simp only [Render.opening, e]
  have hsh : shut h0 r = [Render.line (Render.endTag "div")] := by
    simp only [List.mem_cons, List.not_mem_nil, or_false] at hc
    rcases hc with e | e | e | e | e | e | e | e | e | e <;> simp only [shut, e]
  have key : ∀ n, n = (if (h0.get r).nonum = false ∧ (h0.get r).number.truthy then ' ' :: Render.shown (num r) else []) →
      Seen k h0 num ref r (.batchDefer [.openTag (nodeTag (record h0 r b) (additional := ["theorem"])),
        .text (titleText (capitalize (lower (record h0 r b).cls.name) ++ n ++
          (if (record h0 r b).title ≠ [] then ": ".toList else ".".toList)) (record h0 r b).title)]) s s := by
    intro n hnum
    refine ⟨?_, by rw [hsh]; rfl, Retyped.same rfl hp⟩
    rw [hop]
    simp only [Cmd.text, List.flatMap_cons, List.flatMap_nil, List.append_nil, nodeTag_text, text_text, line_nl,
      titleText_eq]
    rw [show (record h0 r b).cls = (h0.get r).cls from rfl, show (record h0 r b).title = (h0.get r).title from rfl,
      capital_eq, hnum]
    congr 3
    by_cases ht : (h0.get r).title = [] <;> simp [ht]
  by_cases hnum : (h0.get r).nonum = false ∧ (h0.get r).number.truthy
  · have e : (¬ (record h0 r b).nonum ∧ (record h0 r b).number.truthy) := by
      simpa [record] using hnum
    rw [if_pos e] at hv
    cases hh : fullNumber k r s with
    | err e s2 => simp only [bind_apply, hh] at hv; cases hv
    | ok o s2 =>
      simp only [bind_apply, hh] at hv
      obtain ⟨rfl, rfl⟩ := fullNumber_named N hf hh
      cases hv
      exact key _ (by rw [if_pos hnum, fmtOpt_eq])
  · have e : ¬ (¬ (record h0 r b).nonum ∧ (record h0 r b).number.truthy) := by
      simpa [record] using hnum
    rw [if_neg e] at hv
    cases hv
    exact key _ (by rw [if_neg hnum])

end Tr
end RSM
