import Verif.Lemmas.Outcome
import Verif.Props.Transform

/-!
# C75: how `transform` ends
-/

namespace RSM
open Transformer Tree PyM

/-- **C75.** What `transform` raises, if anything, is what `TransformEnds` says: the exception of
the first reference in the document that cannot be resolved; else an assertion if a subproof is not
the last child of its step; else `StopIteration` if the letters of the appendix run out; else an
assertion if some construct has no kind; else nothing. -/
theorem C75_outcome (h : Heap) (root : Ref) (t : Tree) (fuel : Nat) (log : List TWarning)
    (hr : ResolveInput h root t) (ha : StepKidsAllowed h t) (hi : TocInput h t)
    (hf : 12 * t.size < fuel) (o : Option PyErr) :
    (transform fuel root { heap := h, log := log }).raised = o ↔ TransformEnds h t o := by
  have key := transform_ends (log := log) hr ha hi hf
  constructor
  · rintro rfl; exact key
  · -- the description leaves only one outcome
    have huniq : ∀ x ∈ t.pre, ∀ e e', Fails h t x e → Fails h t x e' → e = e' := by
      intro x hx e e' h1 h2
      obtain ⟨s, C, -⟩ := collectAndResolve_spec hr log (fuel := fuel) (by omega)
      have g1 := (fateErr_iff C.doc (fuel := fuel) (by omega)
        (fun l r => (C.lookup l r).trans (C.carries l r).symm) hx e).mpr
          ((C.relabel.fails C.carries).mpr h1)
      have g2 := (fateErr_iff C.doc (fuel := fuel) (by omega)
        (fun l r => (C.lookup l r).trans (C.carries l r).symm) hx e').mpr
          ((C.relabel.fails C.carries).mpr h2)
      rw [g1] at g2
      exact Option.some.inj g2
    have hno : ∀ {before x after e}, t.pre = before ++ x :: after → Fails h t x e →
        ¬ ReferencesFine h t := fun e1 h1 H => H _ (by rw [e1]; simp) _ h1
    intro ho
    generalize (transform fuel root { heap := h, log := log }).raised = p at key
    cases key with
    | reference e1 h1 h2 =>
      rename_i b1 x1 a1 er
      cases ho with
      | reference f1 g1 g2 =>
        rename_i b2 x2 a2 er2
        have hx : x1 = x2 := by
          rw [e1] at f1
          rcases List.append_eq_append_iff.mp f1 with ⟨l, rfl, hl⟩ | ⟨l, rfl, hl⟩
          · cases l with
            | nil => exact (List.cons.inj hl).1
            | cons y l =>
              obtain ⟨rfl, -⟩ := List.cons.inj hl
              exact absurd h1 (g2 _ (by simp) _)
          · cases l with
            | nil => exact (List.cons.inj hl).1.symm
            | cons y l =>
              obtain ⟨rfl, -⟩ := List.cons.inj hl
              exact absurd g1 (h2 _ (by simp) _)
        subst hx
        rw [huniq x1 (by rw [e1]; simp) _ _ h1 g1]
      | _ => exact absurd ‹ReferencesFine h t› (hno e1 h1)
    | subproof hF hS =>
      cases ho with
      | reference f1 g1 g2 => exact absurd hF (hno f1 g1)
      | subproof => rfl
      | _ => exact absurd ‹SubproofsLast h t› hS
    | letters hF hS hL =>
      cases ho with
      | reference f1 g1 g2 => exact absurd hF (hno f1 g1)
      | subproof _ h2 => exact absurd hS h2
      | letters => rfl
      | _ => exact absurd hL ‹¬ LettersRunOut h t.pre›
    | kind hF hS hL hK =>
      cases ho with
      | reference f1 g1 g2 => exact absurd hF (hno f1 g1)
      | subproof _ h2 => exact absurd hS h2
      | letters _ _ h3 => exact absurd h3 hL
      | kind => rfl
      | fine _ _ _ h4 => exact absurd h4 hK
    | fine hF hS hL hK =>
      cases ho with
      | reference f1 g1 g2 => exact absurd hF (hno f1 g1)
      | subproof _ h2 => exact absurd hS h2
      | letters _ _ h3 => exact absurd h3 hL
      | kind _ _ _ h4 => exact absurd hK h4
      | fine => rfl

/-- **C75.** So it returns exactly for the documents in which every reference can be resolved, every
subproof is the last child of its step, the letters suffice and every construct has a kind. -/
theorem C75_success (h : Heap) (root : Ref) (t : Tree) (fuel : Nat) (log : List TWarning)
    (hr : ResolveInput h root t) (ha : StepKidsAllowed h t) (hi : TocInput h t)
    (hf : 12 * t.size < fuel) :
    (transform fuel root { heap := h, log := log }).raised = none ↔
      (∀ x ∈ t.pre, ∀ e, ¬ Fails h t x e) ∧ SubproofsLast h t ∧ ¬ LettersRunOut h t.pre ∧
        ∀ x ∈ t.pre, .Construct ∈ (h.get x).cls.mro → (h.get x).kind ≠ [] := by
  rw [C75_outcome h root t fuel log hr ha hi hf]
  constructor
  · rintro ⟨⟩
    exact ⟨‹_›, ‹_›, ‹_›, ‹_›⟩
  · rintro ⟨h1, h2, h3, h4⟩
    exact .fine h1 h2 h3 h4

/-- **C75.** These are all the exceptions that can come out of it. -/
theorem C75_exceptions (h : Heap) (root : Ref) (t : Tree) (fuel : Nat) (log : List TWarning)
    (hr : ResolveInput h root t) (ha : StepKidsAllowed h t) (hi : TocInput h t)
    (hf : 12 * t.size < fuel) (e : PyErr)
    (he : (transform fuel root { heap := h, log := log }).raised = some e) :
    e ∈ [.attributeError, .rsmTransformerError, .valueError, .typeError, .assertionError,
      .stopIteration] := by
  rw [C75_outcome h root t fuel log hr ha hi hf] at he
  cases he with
  | reference _ h1 _ => cases h1 <;> decide
  | _ => decide

/-! ### Documents that meet the hypotheses, one for each way to end -/

example : TransformEnds refHeap refTree none :=
  (C75_outcome refHeap 0 refTree 200 [] ref_input ref_steps ref_toc (by decide) _).mp
    (by decide +kernel)

/-- A manuscript with a proof, in it a step 2 with the children 3 and 4, and a construct 5. -/
def endHeap (c3 c4 c5 : Cls) (kind : Str) : Heap where
  next := 6
  get := fun r => match r with
    | 0 => { NodeRec.new .Manuscript with kids := [1] }
    | 1 => { NodeRec.new .Proof with parent := some 0, kids := [2] }
    | 2 => { NodeRec.new .Step with parent := some 1, kids := [3, 4] }
    | 3 => { NodeRec.new c3 with parent := some 2 }
    | 4 => { NodeRec.new c4 with parent := some 2, kids := [5] }
    | 5 => { NodeRec.new c5 with parent := some 4, kind := kind, target := .str ['1'] }
    | _ => NodeRec.new .Node

def endTree : Tree := .node 0 [.node 1 [.node 2 [.node 3 [], .node 4 [.node 5 []]]]]

/-- The classes of the examples. -/
def endChoices : List (Cls × Cls × Cls × Str) :=
  [(.Paragraph, .Subproof, .Construct, ['l']), (.Paragraph, .Subproof, .Construct, []),
   (.Subproof, .Paragraph, .Construct, ['l']), (.Paragraph, .Subproof, .PendingPrev, [])]

theorem end_input : ∀ c ∈ endChoices, let h := endHeap c.1 c.2.1 c.2.2.1 c.2.2.2
    ResolveInput h 0 endTree ∧ StepKidsAllowed h endTree ∧ TocInput h endTree := by
  have h1 : ∀ c ∈ endChoices, ∀ u ∈ endTree.subtrees,
      (((endHeap c.1 c.2.1 c.2.2.1 c.2.2.2).get u.root).cls = .Step → ∀ k ∈ u.kids,
      ((endHeap c.1 c.2.1 c.2.2.1 c.2.2.2).get k.root).cls.possibleParents = [] ∨
        .Step ∈ ((endHeap c.1 c.2.1 c.2.2.1 c.2.2.2).get k.root).cls.possibleParents) := by decide
  have h2 : ∀ c ∈ endChoices, ∀ r ∈ endTree.pre,
      ((endHeap c.1 c.2.1 c.2.2.1 c.2.2.2).get r).cls ≠ .Contents := by decide
  have h3 : ∀ c ∈ endChoices, let h := endHeap c.1 c.2.1 c.2.2.1 c.2.2.2
      (¬ Pending h 0 ∧ (∀ x ∈ endTree.pre, (h.get x).cls = .Error → (h.get x).label = []) ∧
      ∀ r ∈ endTree.pre, r < h.next) := by decide
  have h4 : ∀ c ∈ endChoices, let h := endHeap c.1 c.2.1 c.2.2.1 c.2.2.2
      (h.children 0 = [1] ∧ h.children 1 = [2] ∧ h.children 2 = [3, 4] ∧ h.children 3 = [] ∧
       h.children 4 = [5] ∧ h.children 5 = []) := by decide
  intro c hc h
  obtain ⟨g0, g1, g2, g3, g4, g5⟩ := h4 c hc
  refine ⟨⟨⟨rfl, ?_, by decide, (h3 c hc).2.2⟩, (h3 c hc).1, (h3 c hc).2.1⟩,
    fun i ks hm => h1 c hc (.node i ks) hm, fun ⟨r, hr, hcc⟩ => absurd hcc (h2 c hc r hr)⟩
  exact ⟨rfl, g0, ⟨rfl, g1, ⟨rfl, g2, ⟨rfl, g3, trivial⟩, ⟨rfl, g4, ⟨rfl, g5, trivial⟩, trivial⟩,
    trivial⟩, trivial⟩, trivial⟩

example : endChoices.map (fun c =>
    (transform 80 0 { heap := endHeap c.1 c.2.1 c.2.2.1 c.2.2.2 }).raised) =
    [none, some .assertionError, some .assertionError, some .rsmTransformerError] := by
  decide +kernel

example : ¬ SubproofsLast (endHeap .Subproof .Paragraph .Construct ['l']) endTree := fun H => by
  have := H 2 [.node 3 [], .node 4 [.node 5 []]] (by simp [endTree, subtrees, subtreesL]) rfl [] (.node 3 []) _ rfl (by simp) rfl
  cases this

/-- A manuscript with an appendix marker and `n` sections after it. -/
def appendixHeap (n : Nat) : Heap where
  next := n + 2
  get := fun r =>
    if r = 0 then { NodeRec.new .Manuscript with kids := (List.range (n + 1)).map (· + 1) }
    else if r = 1 then { NodeRec.new .Appendix with parent := some 0 }
    else if r < n + 2 then { NodeRec.new .Section with parent := some 0 }
    else NodeRec.new .Node

/-- 26 sections are lettered, the 27th has no letter left. -/
example : LettersRunOut (appendixHeap 27) (List.range 29) ∧
    (26 ≤ earlierInScope (appendixHeap 26) .Manuscript (List.range 27) 27 ↔ False) := by
  refine ⟨⟨List.range 28, 28, [], by decide, ?_, ?_, ⟨1, by decide, ?_⟩, ?_⟩, ?_⟩ <;>
    decide +kernel

end RSM
