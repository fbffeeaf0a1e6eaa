import Verif.Spec.Targets
import Verif.Lemmas.TrTwice2
import Verif.Props.Translator

/-!
# C40: translating the same tree twice
-/

namespace RSM
open Tr PyM

/-- **C40.** If the plain translator translates a document, a second translation of the same tree
(as the first one left it, by the same or another translator without deferred commands) returns the
same HTML.

A hypothesis: no URL or pending reference has a node as its target, since `repr` of this node would be shown, with
the types that the translator adds to it (the parser makes no such reference). -/
theorem C40_plain_twice (k : Conf) (root : Ref) (t : Tree) (s s1 : TrState) (out : Str)
    (hplain : k.handrails = false)
    (hd : Doc s.heap root t) (hfuel : 2 * t.size ≤ k.fuel)
    (hrefs : NoNodeTargets s.heap t)
    (hok : translate k root s = .ok out s1) :
    ∀ s2 : TrState, s2.heap = s1.heap → s2.deferred = [] →
      (translate k root s2).value = some out := by
  intro s2 hh h2
  have hd0 : s.deferred = [] := by
    rw [translate_eq k hd hfuel] at hok
    split at hok
    · cases hok
    · rename_i h; exact Decidable.not_not.mp h
  rw [translate_eq k hd hfuel, if_neg (by simpa using hd0)] at hok
  have hfits : Fits s.heap t.pre := fits_tree t hd.tree (fun q hq => by cases hq)
  have tr := (evalTree_traces k hplain t hfits).trace (started root s) (SameFrame.refl _)
  cases e : evalTree k t (started root s) with
  | err x s3 => rw [e] at hok; cases hok
  | ok u s3 =>
    rw [e] at hok tr
    cases hok
    have hroot : Ready s.heap t.root (started root s).heap := by
      rintro ⟨p, _, h1, _⟩
      have : s.heap.parent t.root = none := by
        have := hd.tree
        cases t with
        | node r ks => exact this.1
      rw [this] at h1; cases h1
    have hredo := redo_tree k hplain t hd.tree hfits
      hrefs
      (s := started root s) (SameFrame.refl _) hroot e
    have hl : Later s.heap s.heap s2.heap := by rw [hh]; exact tr
    obtain ⟨s4, o, e4, _, b4, b4'⟩ := hredo (started root s2) ⟨hl, by
      show s2.deferred = s.deferred
      rw [h2, hd0], rfl⟩
    have hdoc : Doc s2.heap root t :=
      ⟨hd.root_eq, hl.frame.isTree hd.tree, hd.nodup, by
        have := hd.bound
        rw [hl.frame.1]; exact this⟩
    rw [translate_eq k hdoc hfuel, if_neg (by simpa using h2), e4]
    show some s4.body = some s1.body
    rw [b4, b4']
    rfl

/-- The example document with a proof and a display formula; the first translation changes it. -/
def twiceHeap : Heap :=
  { next := 12
    get := fun r => match r with
      | 0 => { NodeRec.new .Manuscript with kids := [1], title := "T" }
      | 1 => { NodeRec.new .Section with parent := some 0, title := "Intro", number := .int 1
                                         kids := [2, 6], types := ["appendix"] }
      | 2 => { NodeRec.new .Paragraph with parent := some 1, kids := [3, 4, 5] }
      | 3 => { NodeRec.new .Text with parent := some 2, text := "Let " }
      | 4 => { NodeRec.new .MathBlock with parent := some 2, kids := [] , number := .int 1}
      | 5 => { NodeRec.new .Reference with parent := some 2, target := .node 1 }
      | 6 => { NodeRec.new .Proof with parent := some 1, kids := [7, 8] }
      | 7 => { NodeRec.new .Step with parent := some 6, number := .int 1 }
      | 8 => { NodeRec.new .Step with parent := some 6, number := .int 2, types := ["step"] }
      | _ => NodeRec.new .Node }

def twiceTree : Tree :=
  .node 0 [.node 1 [.node 2 [.node 3 [], .node 4 [], .node 5 []], .node 6 [.node 7 [], .node 8 []]]]

/-- The hypotheses hold for the example, and the first translation does change the nodes. -/
example : Doc twiceHeap 0 twiceTree ∧ 2 * twiceTree.size ≤ plainConf.fuel ∧
    NoNodeTargets twiceHeap twiceTree ∧
    (translate plainConf 0 { heap := twiceHeap }).raised = none ∧
    ((translate plainConf 0 { heap := twiceHeap }).state.heap.get 8).types =
      ["step".toList, "last".toList] := by
  have : ∀ r ∈ twiceTree.pre, (twiceHeap.get r).cls ∉ [.URL, .BaseReference, .PendingReference, .PendingPrev] := by decide +kernel
  refine ⟨⟨rfl, ?_, by decide, by decide⟩, by decide +kernel, fun r hr hc => absurd hc (this r hr), by decide +kernel,
    by decide +kernel⟩
  simp only [twiceTree, IsTree, IsForest]; decide

/-- A formula followed by a full stop. -/
def dotHeap : Heap :=
  { next := 4
    get := fun r => match r with
      | 0 => { NodeRec.new .Manuscript with kids := [1] }
      | 1 => { NodeRec.new .Paragraph with parent := some 0, kids := [2, 3] }
      | 2 => { NodeRec.new .Math with parent := some 1 }
      | 3 => { NodeRec.new .Text with parent := some 1, text := "." }
      | _ => NodeRec.new .Node }

/-- **C40.** With handrails it is false.  The full stop that follows a formula is taken out of the
text the first time and put into an element of its own.  The second time only the end of this
element is written, so the two outputs differ (and the second one has a stray `</span>`). -/
theorem C40_handrails_false :
    "<p><span class=\"inline-math-wrapper\">\n<span class=\"math\">\\(\\)</span><span>.</span></span></p>".toList
      <:+: (translate railsConf 0 { heap := dotHeap }).value.getD [] ∧
    "<p><span class=\"math\">\\(\\)</span><span>.</span></span></p>".toList
      <:+: (translate railsConf 0 (translate railsConf 0 { heap := dotHeap }).state).value.getD [] ∧
    (translate railsConf 0 { heap := dotHeap }).value ≠
      (translate railsConf 0 (translate railsConf 0 { heap := dotHeap }).state).value := by
  refine ⟨by decide +kernel, by decide +kernel, by decide +kernel⟩

end RSM
