import Verif.Spec.SourceNumbers
import Verif.Spec.Structure

/-!
# The numbers of the steps of proofs

For C92.  The steps that are directly in the same thing are counted 1, 2, 3, …, also those without a number; the number of
a step goes on from the number of the step around it.
-/

namespace RSM
namespace Parser

/-- What is at the top of an outline. -/
def Outline.top : Outline → Look
  | .node a _ => a

mutual
/-- The steps below the top of an outline that show a number, with their numbers.  The steps go on from `outer`, but a
proof starts anew. -/
def Outline.steps (outer : Str) : Outline → List (Look × Str)
  | .node a os => stepsL (if a.cls = .Proof then [] else outer) 0 os
/-- The same for several outlines next to each other, after `count` steps. -/
def stepsL (outer : Str) (count : Nat) : List Outline → List (Look × Str)
  | [] => []
  | o :: os =>
    if o.top.cls = .Step then
      (if o.top.nonum then o.steps []
       else (o.top, dotted outer (natStr (count + 1))) :: o.steps (dotted outer (natStr (count + 1)))) ++
      stepsL outer (count + 1) os
    else o.steps outer ++ stepsL outer count os
end

/-- The steps of a source that show a number, with their numbers. -/
def sourceSteps (c : Cst) : List (Look × Str) := (sourceOutline c).steps []

mutual
/-- The references to earlier steps in an outline, each with the steps that it can lead to: the innermost step around it
and, going back, the steps before that one directly in the same thing; with their numbers, if they show one.  `steps` are
those outside. -/
def Outline.prevs (outer : Str) (steps : List (Look × Option Str)) : Outline → List (Look × List (Look × Option Str))
  | .node a os => (if a.cls = .PendingPrev then [(a, steps)] else []) ++ prevsL (if a.cls = .Proof then [] else outer) [] steps os
/-- The same for several outlines next to each other, after the steps `earlier`, the last one first. -/
def prevsL (outer : Str) (earlier steps : List (Look × Option Str)) : List Outline → List (Look × List (Look × Option Str))
  | [] => []
  | o :: os =>
    if o.top.cls = .Step then
      let n := if o.top.nonum then none else some (dotted outer (natStr (earlier.length + 1)))
      o.prevs (n.getD []) ((o.top, n) :: earlier) ++ prevsL outer ((o.top, n) :: earlier) steps os
    else o.prevs outer steps ++ prevsL outer earlier steps os
end

/-- The references to earlier steps of a source, with the steps that they can lead to. -/
def sourcePrevs (c : Cst) : List (Look × List (Look × Option Str)) := (sourceOutline c).prevs [] []

/-- No proof is given a number by its author. -/
def ProofsUnnumbered (c : Cst) : Prop :=
  ∀ kind d ps, .node kind d ps ∈ walks (sourceParts c) → kind = "proof".toList → metaText d "number".toList = none

end Parser

namespace Html

/-- The page shows this as the number of a step. -/
def ShowsStepNumber (page n : Str) : Prop :=
  "<div class=\"step-number\"><p>⟨".toList ++ n ++ "⟩</p></div>".toList <:+: page

end Html
end RSM
