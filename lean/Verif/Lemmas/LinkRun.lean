import Verif.Lemmas.TrAnchors
import Verif.Lemmas.WholeRun

/-! # Lemmas: where references and their targets are after `transform` -/

namespace RSM
open Transformer Tree PyM

/-- A run of `transform`, up to and from the resolved references. -/
structure Passed (h : Heap) (root : Ref) (t : Tree) (fuel : Nat) (log : List TWarning) (s1 : TState)
    (σ : Ref → Ref) (s' : TState) (t' : Tree) : Prop where
  run : collectAndResolve fuel root { heap := h, log := log } = .ok () s1
  doc1 : Doc s1.heap root (t.map σ)
  doc : Doc s'.heap root t'
  keeps : Keeps s1.heap s'.heap
  next : h.next ≤ s1.heap.next
  new : ∀ x ∈ t.pre, Pending h x → σ x ∈ t'.pre ∧ σ x < s1.heap.next
  old : ∀ x ∈ t.pre, ¬ Pending h x → x ∉ laterContents h t → x ∈ t'.pre
  cls : ∀ x < h.next, (s'.heap.get x).cls = (h.get x).cls
  label : ∀ l r, Carries h t l r → (s1.heap.get r).label = l

theorem passed {h : Heap} {root : Ref} {t : Tree} {fuel : Nat} {log : List TWarning} {s' : TState}
    (hr : ResolveInput h root t) (ha : StepKidsAllowed h t) (hi : TocInput h t)
    (hf : 12 * t.size < fuel)
    (hok : transform fuel root { heap := h, log := log } = .ok () s') :
    ∃ s1 σ t', Passed h root t fuel log s1 σ s' t' := by
  obtain ⟨s1, e1, e2⟩ := transform_ok hok
  obtain ⟨σ, D, M, n1, a1, f1, c1, -, g1⟩ := resolve_ok hr (by omega) e1
  have hi1 : TocInput s1.heap (t.map σ) := by
    rintro ⟨r, hr, hc⟩
    have : r ∈ (t.map σ).pre.filter (fun r => (s1.heap.get r).cls = .Contents) :=
      List.mem_filter.mpr ⟨hr, by simpa using hc⟩
    rw [g1] at this
    obtain ⟨h1, h2⟩ := List.mem_filter.mp this
    obtain ⟨W, E⟩ := hi ⟨r, h1, by simpa using h2⟩
    exact ⟨W.map M, E.map M⟩
  obtain ⟨t', D', f2, c2, K, -⟩ := after_ok D (ha.map M) hi1 (by rw [size_map]; exact hf) e2
  obtain ⟨s, τ, k, C, I, Dτ⟩ := resolved hr (by omega) e1
  have mem : ∀ z ∈ (t.map σ).pre, z ∉ laterContents h t → z ∈ t'.pre := by
    intro z hz hl
    have : z ∈ (t.map σ).pre.filter (· ∉ laterContents s1.heap (t.map σ)) := by
      rw [laterContents_congr g1]
      exact List.mem_filter.mpr ⟨hz, by simpa using hl⟩
    rw [← f2] at this
    exact (List.mem_filter.mp this).1
  have hσ : ∀ x ∈ t.pre, σ x ∈ (t.map σ).pre := fun x hx => by
    rw [pre_map]; exact List.mem_map_of_mem hx
  refine ⟨s1, σ, t', e1, D, D', K, n1, ?_, ?_, ?_, ?_⟩
  · intro x hx hp
    refine ⟨mem _ (hσ x hx) fun hl => ?_, D.bound _ (hσ x hx)⟩
    have h1 := hr.doc.bound _ (List.mem_filter.mp (List.mem_of_mem_tail hl)).1
    have h2 := (I.fresh x hx ((C.relabel.pending x).mpr hp)).1
    rw [C.relabel.1, ← Tree.map_inj (D.unique Dτ) x hx] at h2
    omega
  · intro x hx hp hl
    have : σ x = x := by
      rw [Tree.map_inj (D.unique Dτ) x hx]
      exact I.fix x fun H => hp ((C.relabel.pending x).mp H.2)
    refine mem x ?_ hl
    have h1 := hσ x hx
    rwa [this] at h1
  · intro x hx
    rw [K.cls (Nat.lt_of_lt_of_le hx n1)]
    exact cls_of_authored (a1 x hx)
  · intro l r hc
    obtain ⟨hm, hlab⟩ := carries_mem hc
    have hlt := hr.doc.bound r hm
    have := congrArg NodeRec.label (I.old r (by rw [C.relabel.1]; exact hlt))
    simp only at this
    rw [this, C.keep r (.inr ?_), hlab]
    unfold FirstCarrier
    rw [hlab]
    exact hc.2

end RSM
