import Verif.Lemmas.TrAllEnds
import Verif.Props.Translator

/-!
# How a translation ends: C78

`Obstacle` (in `Spec/Obstacle`) lists what keeps the translators from writing a node.
-/

namespace RSM
namespace Tr
open PyM Tree

section
variable (k : Conf) (root : Ref) (t : Tree) (s : TrState)

/-- **C78.** How the translation of a document ends: with a page exactly if no node has an obstacle; and
otherwise with the exception of an obstacle of the first node, in the order of the document, that has
one. -/
theorem C78_outcome (D : Doc s.heap root t) (hf : 2 * t.size ≤ k.fuel) (hd : s.deferred = [])
    (hp : TargetsPlaced s.heap t) (hw : StepsWrapped s.heap t) :
    match translate k root s with
    | .ok _ _ => ∀ x ∈ t.pre, ∀ e, ¬ Obstacle k.handrails s.heap t x e
    | .err e _ => ∃ a x b, t.pre = a ++ x :: b ∧ Obstacle k.handrails s.heap t x e ∧
        ∀ y ∈ a, ∀ e, ¬ Obstacle k.handrails s.heap t y e := by
  have h := evalTree_through (k := k) (h0 := s.heap) (t0 := t) (fun x hx => Fit.of_doc D hf hp hx) hw t
    (started root s) (SameFrame.refl _) (fun _ x hx hc => hw.1 x hx hc) fun _ hx => hx
  rw [translate_eq k D hf, if_neg (by simp [hd])]
  cases e : evalTree k t (started root s) with
  | ok _ s' => rw [e] at h; exact h.1
  | err x s' => rw [e] at h; exact h

/-- **C78.** A document is translated exactly if no node of it has an obstacle. -/
theorem C78_success (D : Doc s.heap root t) (hf : 2 * t.size ≤ k.fuel) (hd : s.deferred = [])
    (hp : TargetsPlaced s.heap t) (hw : StepsWrapped s.heap t) :
    (∃ page s', translate k root s = .ok page s') ↔ ∀ x ∈ t.pre, ∀ e, ¬ Obstacle k.handrails s.heap t x e := by
  have h := C78_outcome k root t s D hf hd hp hw
  cases e : translate k root s with
  | ok page s' => rw [e] at h; exact ⟨fun _ => h, fun _ => ⟨page, s', rfl⟩⟩
  | err x s' =>
    rw [e] at h
    obtain ⟨a, y, b, h1, h2, _⟩ := h
    exact ⟨fun ⟨_, _, h⟩ => by (cases h), fun hn => absurd h2 (hn y (by rw [h1]; simp) x)⟩

/-- **C78.** No other exceptions are possible. -/
theorem C78_exceptions (D : Doc s.heap root t) (hf : 2 * t.size ≤ k.fuel) (hd : s.deferred = [])
    (hp : TargetsPlaced s.heap t) (hw : StepsWrapped s.heap t) {e : PyErr} {s' : TrState}
    (h : translate k root s = .err e s') :
    e ∈ [.assertionError, .rsmTranslatorError, .attributeError, .keyError, .valueError, .indexError] := by
  have ho := C78_outcome k root t s D hf hd hp hw
  rw [h] at ho
  obtain ⟨_, x, _, _, o, _⟩ := ho
  have bad : ∀ {T e}, BadTemplate T e →
      e ∈ [.assertionError, .rsmTranslatorError, .attributeError, .keyError, .valueError, .indexError] := by
    intro T e hb; cases hb <;> decide
  cases o with
  | reference _ _ _ hb => exact bad hb
  | cite _ _ hb => exact bad hb
  | menu _ _ hb => exact bad hb
  | equation _ _ _ hb => exact bad hb
  | _ => decide

end

/-! ### Cases -/

theorem trHeap_placed : TargetsPlaced trHeap trTree ∧ StepsWrapped trHeap trTree := by
  have hx : ∀ x ∈ trTree.pre, ((trHeap.get x).target = .none ∨ (trHeap.get x).target = .node 8) ∧
      (trHeap.get x).targets = [] ∧ (trHeap.get x).cls ≠ .Step ∧ (trHeap.get x).cls ≠ .MathBlock := by decide
  refine ⟨fun x h y hy => ?_, fun x h hc => absurd hc (hx x h).2.2.1, fun x h hc => absurd hc (hx x h).2.2.2⟩
  obtain ⟨h1, h2, _⟩ := hx x h
  rcases hy with ⟨_, hy⟩ | ⟨_, hy⟩
  · rcases h1 with h1 | h1 <;> rw [h1] at hy <;> cases hy
    exact .inl (by decide)
  · rw [h2] at hy; cases hy

/-- Not vacuous: the example document, which has a reference, meets the hypotheses; it is translated, so
nothing in it is an obstacle for either translator. -/
example : (∀ x ∈ trTree.pre, ∀ e, ¬ Obstacle false trHeap trTree x e) ∧
    ∀ x ∈ trTree.pre, ∀ e, ¬ Obstacle true trHeap trTree x e := by
  have h1 : (translate plainConf 0 { heap := trHeap }).raised = none := by decide +kernel
  have h2 : (translate railsConf 0 { heap := trHeap }).raised = none := by decide +kernel
  have key : ∀ k : Conf, k.fuel = 50 → (translate k 0 { heap := trHeap }).raised = none →
      ∀ x ∈ trTree.pre, ∀ e, ¬ Obstacle k.handrails trHeap trTree x e := by
    intro k hk hr
    refine (C78_success k 0 trTree { heap := trHeap } trDoc (by rw [hk]; decide) rfl trHeap_placed.1 trHeap_placed.2).mp ?_
    cases e : translate k 0 { heap := trHeap } with
    | ok a s' => exact ⟨a, s', rfl⟩
    | err e s' => rw [e] at hr; cases hr
  exact ⟨key plainConf rfl h1, key railsConf rfl h2⟩

/-- A manuscript with two faults: an entry without year (1) and a link without target (2). -/
def faultyHeap : Heap := { next := 3, get := fun r => match r with
  | 0 => { NodeRec.new .Manuscript with kids := [1, 2] }
  | 1 => { NodeRec.new .Bibitem with parent := some 0 }
  | 2 => { NodeRec.new .URL with parent := some 0 }
  | _ => NodeRec.new .Node }

/-- Both are obstacles, and the first decides the exception. -/
example : let t : Tree := .node 0 [.node 1 [], .node 2 []]
    Obstacle false faultyHeap t 1 .attributeError ∧ Obstacle false faultyHeap t 2 .rsmTranslatorError ∧
      (translate plainConf 0 { heap := faultyHeap }).raised = some .attributeError :=
  ⟨.year rfl rfl (fun _ h => by cases h), .noTarget rfl (.inl rfl), by decide +kernel⟩

/-- A step with a display formula and a sentence after it, as the parser builds it. -/
def stepHeap : Heap := { next := 4, get := fun r => match r with
  | 0 => { NodeRec.new .Manuscript with kids := [1] }
  | 1 => { NodeRec.new .Step with parent := some 0, kids := [2, 3] }
  | 2 => { NodeRec.new .MathBlock with parent := some 1 }
  | 3 => { NodeRec.new .Text with parent := some 1 }
  | _ => NodeRec.new .Node }

/-- **C78.** `StepsWrapped` cannot be left out: here no node has an obstacle, but the plain translator
raises `AttributeError` when it leaves the step, whose visit wrote a single tag and not the batch that
`leave_paragraph` expects (translator.py:809-813).  `transform` wraps what is in a step, so it does not
come to this. -/
theorem C78_step :
    let t : Tree := .node 0 [.node 1 [.node 2 [], .node 3 []]]
    Doc stepHeap 0 t ∧ TargetsPlaced stepHeap t ∧ (∀ x ∈ t.pre, ∀ e, ¬ Obstacle false stepHeap t x e) ∧
      (translate plainConf 0 { heap := stepHeap }).raised = some .attributeError := by
  refine ⟨⟨rfl, by simp only [IsTree, IsForest]; decide, by decide, by decide⟩, ?_, ?_, by decide +kernel⟩
  · intro x hx y hy
    have hx : x ∈ [0, 1, 2, 3] := hx
    simp only [List.mem_cons, List.not_mem_nil, or_false] at hx
    rcases hx with rfl | rfl | rfl | rfl <;> rcases hy with ⟨_, hy⟩ | ⟨_, hy⟩ <;> cases hy
  · intro x hx e o
    have hx : x ∈ [0, 1, 2, 3] := hx
    have key : ∀ x ∈ [0, 1, 2, 3], (stepHeap.get x).cls ∉ [.URL, .Reference, .Cite, .Caption] ∧
        (stepHeap.get x).cls.isSub .Bibitem = false ∧ ((stepHeap.get x).cls = .MathBlock → x = 2) := by decide
    obtain ⟨h1, h2, h3⟩ := key x hx
    cases o with
    | formula _ a b =>
      obtain rfl := h3 a
      exact absurd (b 1 rfl) (by decide)
    | noTarget a => rw [a] at h1; exact h1 (by decide)
    | unresolved a => rw [a] at h1; exact h1 (by decide)
    | reference a => exact h1 (by simp only [List.mem_cons] at a ⊢; tauto)
    | cite a => rw [a] at h1; exact h1 (by decide)
    | year a => rw [h2] at a; cases a
    | caption a => rw [a] at h1; exact h1 (by decide)
    | author a => cases a
    | menu a => cases a
    | equation a => cases a
    | minimap a => cases a

end Tr
end RSM
