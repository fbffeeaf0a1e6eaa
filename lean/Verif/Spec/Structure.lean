import Verif.Spec.SourceLinks
import Verif.Spec.Presentable

/-!
# Sources that can be transformed

For C79 and C84: what a source with structured proofs, references to earlier steps and appendices has to keep to.
-/

namespace RSM
namespace Parser
open Tr

/-- The class of the part that an outline is of. -/
def Outline.cls : Outline → Cls
  | .node l _ => l.cls

/-- How many steps back a reference to an earlier step leads; none if that is not a number. -/
def stepsBack (l : Look) : Option Nat :=
  match l.target with
  | .str s => (Transformer.pyInt s).map Int.toNat
  | _ => none

/-- There are as many steps to go back, where `steps` is the number of steps before the innermost step around, if
there is one. -/
def canGoBack (steps : Option Nat) (l : Look) : Bool :=
  match steps, stepsBack l with
  | some k, some n => n ≤ k
  | _, _ => false

mutual
/-- Every reference to an earlier step stands in a step with enough steps before it, among its siblings. -/
def prevsFine (steps : Option Nat) : Outline → Bool
  | .node l ks => (l.cls ≠ .PendingPrev || canGoBack steps l) && prevsFineL steps 0 ks
/-- The same for the parts of a part, of which `earlier` steps have come before. -/
def prevsFineL (steps : Option Nat) (earlier : Nat) : List Outline → Bool
  | [] => true
  | o :: os => prevsFine (if o.cls = .Step then some earlier else steps) o &&
      prevsFineL steps (if o.cls = .Step then earlier + 1 else earlier) os
end

/-- If there is a subproof among the parts, it is the last of them. -/
def SubproofLast (ps : List Part) : Prop :=
  ∀ a d qs b, ps = a ++ .node "subproof".toList d qs :: b → b = []

/-- What is numbered throughout the manuscript, like sections and tables, with a letter after an appendix marker. -/
def lettered (l : Look) : Bool :=
  l.cls.autonumber && !l.nonum && l.cls ≠ .Step && l.cls.numberWithin = [.Manuscript]

/-- Between an appendix marker and the next one, or the end, at most 26 of each kind are to be given a letter. -/
def LettersSuffice (l : List Look) : Prop :=
  ∀ before a mid after, l = before ++ a :: mid ++ after → a.cls = .Appendix → (∀ b ∈ mid, b.cls ≠ .Appendix) →
    ∀ kind : Cls, (mid.filter fun b => lettered b && b.cls.numberAs = kind).length ≤ 26

/-- How many entries of bibliographies there are, and of entries elsewhere. -/
def entryCount (c : Cst) : Nat :=
  (bibliographies c).flatten.length + ((sourceLooks c).filter fun b => b.cls = .Bibitem).length

/-- What the author has to see to for a manuscript to be transformed. -/
structure Structured (c : Cst) : Prop where
  /-- Citations are of entries. -/
  cites : CitesEntries c
  /-- References to earlier steps find them. -/
  prevs : prevsFine none (sourceOutline c) = true
  /-- Nothing comes after the subproof in a step. -/
  subproofs : ∀ d ps, .node "step".toList d ps ∈ walks (sourceParts c) → SubproofLast ps
  /-- There are letters for what comes after an appendix marker. -/
  letters : LettersSuffice (sourceLooks c)
  /-- The entries of bibliographies are given letters, too, if there is an appendix marker before them. -/
  entries : (∀ a ∈ sourceLooks c, a.cls ≠ .Appendix) ∨ entryCount c ≤ 26

end Parser
end RSM
