import Verif.Lemmas.Labels

/-!
# C14: collecting labels
-/

namespace RSM
open Transformer

/-- `collect_labels` by a fresh transformer (empty index) on any document: it returns, empties the
label of every node that is not the first carrier of its label and changes nothing else;
the index maps each nonempty label to its first carrier and knows no other label; labels are then
unique; one warning is logged for each emptied label, in document order. -/
theorem C14_collect_labels {h : Heap} {root : Ref} {t : Tree} (D : Doc h root t)
    (log : List TWarning) {fuel : Nat} (hfuel : t.size < fuel) :
    ∃ s', collectLabels fuel root { heap := h, labels := [], log := log } = .ok () s' ∧
      (∀ x ∈ t.pre, ¬ FirstCarrier h t x → s'.heap.get x = { h.get x with label := [] }) ∧
      (∀ x, x ∉ t.pre ∨ FirstCarrier h t x → s'.heap.get x = h.get x) ∧
      s'.heap.next = h.next ∧
      Doc s'.heap root t ∧
      (∀ l r, s'.labels.lookup l = some r ↔
        l ≠ [] ∧ IsFirstWith (fun y => (h.get y).label = l) t.pre (some r)) ∧
      UniqueLabels s'.heap t ∧
      s'.log = log ++ (laterCarriers h [] t.pre).map fun x => .duplicateLabel (h.get x).label := by
  obtain ⟨s', hrun, I⟩ := collectLabels_spec D [] log hfuel
  have hdrop : ∀ x ∈ t.pre, ¬ FirstCarrier h t x → s'.heap.get x = { h.get x with label := [] } := by
    intro x hx hn
    rw [firstCarrier_iff] at hn
    rw [I.get]
    by_cases hl : labelled h x = true
    · rw [if_pos ⟨hx, hl, by simpa using hn⟩]
    · rw [if_neg (by simp [hl])]
      have : (h.get x).label = [] := by simpa [labelled] using hl
      cases hg : h.get x
      rw [hg] at this
      simp only at this
      subst this
      rfl
  have hkeep : ∀ x, x ∉ t.pre ∨ FirstCarrier h t x → s'.heap.get x = h.get x := by
    intro x hx
    rw [I.get, if_neg]
    rintro ⟨h1, h2, h3⟩
    rcases hx with hx | hx
    · exact hx h1
    · rw [firstCarrier_iff, h3] at hx
      cases hx
  refine ⟨s', hrun, hdrop, hkeep, I.next, I.doc D, ?_, ?_, ?_⟩
  · intro l r
    rw [I.labels, List.nil_append, collect_lookup]
    have key := isFirstWith_find? (fun y => (h.get y).label == l) t.pre
    simp only [beq_iff_eq] at key
    by_cases hl : l = []
    · simp [hl]
    · rw [if_neg hl]
      constructor
      · intro H; rw [H] at key; exact ⟨hl, key⟩
      · rintro ⟨_, H⟩; exact IsFirstWith.unique key H
  · intro x hx y hy hxy hne
    by_cases fx : FirstCarrier h t x
    · by_cases fy : FirstCarrier h t y
      · rw [hkeep x (.inr fx), hkeep y (.inr fy)] at hxy
        unfold FirstCarrier at fx fy
        rw [← hxy] at fy
        have := IsFirstWith.unique fx fy
        simpa using this
      · rw [hxy, hdrop y hy fy] at hne
        exact absurd rfl hne
    · rw [hdrop x hx fx] at hne
      exact absurd rfl hne
  · rw [I.log, laterCarriers_eq D.nodup [] t.pre rfl]

/-! A document with a repeated label meets the hypotheses: a manuscript with three paragraphs, two
of them labelled `a`. -/

def labelHeap : Heap where
  next := 4
  get := fun r => match r with
    | 0 => { NodeRec.new .Manuscript with kids := [1, 2, 3] }
    | 1 => { NodeRec.new .Paragraph with parent := some 0, label := ['a'] }
    | 2 => { NodeRec.new .Paragraph with parent := some 0, label := ['b'] }
    | 3 => { NodeRec.new .Paragraph with parent := some 0, label := ['a'] }
    | _ => NodeRec.new .Node

def labelTree : Tree := .node 0 [.node 1 [], .node 2 [], .node 3 []]

theorem label_doc : Doc labelHeap 0 labelTree where
  root_eq := rfl
  tree := ⟨rfl, rfl, ⟨rfl, rfl, trivial⟩, ⟨rfl, rfl, trivial⟩, ⟨rfl, rfl, trivial⟩, trivial⟩
  nodup := by decide
  bound := by decide

example : (collectLabels 5 0 { heap := labelHeap }).raised = none := by decide
example : (collectLabels 5 0 { heap := labelHeap }).state.labels = [(['a'], 1), (['b'], 2)] := by
  decide
example : ((collectLabels 5 0 { heap := labelHeap }).state.heap.get 3).label = [] := by decide
example : (collectLabels 5 0 { heap := labelHeap }).state.log = [.duplicateLabel ['a']] := by decide

end RSM
