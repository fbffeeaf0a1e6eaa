import Verif.Lemmas.WholeRun

/-!
# C15, C30, C31: the whole transform
-/

namespace RSM
open Transformer Tree PyM

/-! ## C31 -/

/-- **C31.** If `transform` returns, the result is a document in which the nodes of the author come
in the same order as before, without the resolved references and the tables of contents after the
first; what the author put into a node is unchanged; and all other nodes of the result are of
classes that carry no text of the author. -/
theorem C31_author_nodes (h : Heap) (root : Ref) (t : Tree) (fuel : Nat) (log : List TWarning)
    (s' : TState) (hr : ResolveInput h root t) (ha : StepKidsAllowed h t) (hi : TocInput h t)
    (hf : 12 * t.size < fuel)
    (hok : transform fuel root { heap := h, log := log } = .ok () s') :
    ∃ t', Doc s'.heap root t' ∧
      t'.pre.filter (· < h.next) =
        t.pre.filter (fun x => ¬ Pending h x ∧ x ∉ laterContents h t) ∧
      (∀ x < h.next, (s'.heap.get x).authored = (h.get x).authored) ∧
      (∀ x ∈ t'.pre, h.next ≤ x → (s'.heap.get x).cls ∈ createdClasses) := by
  obtain ⟨s1, e1, e2⟩ := transform_ok hok
  obtain ⟨σ, D, M, n1, a1, f1, c1, -, g1⟩ := resolve_ok hr (by omega) e1
  have hi1 : TocInput s1.heap (t.map σ) := by
    rintro ⟨r, hr, hc⟩
    have : r ∈ (t.map σ).pre.filter (fun r => (s1.heap.get r).cls = .Contents) :=
      List.mem_filter.mpr ⟨hr, by simpa using hc⟩
    rw [g1] at this
    obtain ⟨h1, h2⟩ := List.mem_filter.mp this
    obtain ⟨W, E⟩ := hi ⟨r, h1, by simpa using h2⟩
    exact ⟨W.map M, E.map M⟩
  obtain ⟨t', D', f2, c2, K, -⟩ := after_ok D (ha.map M) hi1 (by rw [size_map]; exact hf) e2
  refine ⟨t', D', ?_, ?_, ?_⟩
  · have h0 : t'.pre.filter (· < h.next) =
        (t'.pre.filter (· < s1.heap.next)).filter (· < h.next) := by
      rw [List.filter_filter]
      refine List.filter_congr ?_
      intro z _
      by_cases hz : z < h.next
      · have : z < s1.heap.next := by omega
        simp [hz, this]
      · simp [hz]
    rw [h0, f2, laterContents_congr g1, List.filter_filter]
    have h2 : t.pre.filter (fun x => ¬ Pending h x ∧ x ∉ laterContents h t) =
        (t.pre.filter fun x => ¬ Pending h x).filter (· ∉ laterContents h t) := by
      rw [List.filter_filter]
      refine List.filter_congr ?_
      intro z _
      by_cases h3 : Pending h z <;> by_cases h4 : z ∈ laterContents h t <;> simp [h3, h4]
    rw [h2, ← f1, List.filter_filter]
    refine List.filter_congr ?_
    intro z _
    rw [Bool.and_comm]
  · intro x hx
    rw [K.authored x (by omega), a1 x hx]
  · intro x hx hn
    rcases c2 x hx with h1 | h1
    · rcases c1 x h1 with h2 | h2
      · have := hr.doc.bound x h2; omega
      · rw [K.cls (D.bound x h1)]; exact h2.2
    · exact h1.2.1

/-- **C31.** So the text nodes of the document are the same, in the same order, with the same
text. -/
theorem C31_text (h : Heap) (root : Ref) (t : Tree) (fuel : Nat) (log : List TWarning)
    (s' : TState) (hr : ResolveInput h root t) (ha : StepKidsAllowed h t) (hi : TocInput h t)
    (hf : 12 * t.size < fuel)
    (hok : transform fuel root { heap := h, log := log } = .ok () s') :
    ∃ t', Doc s'.heap root t' ∧
      t'.pre.filter (fun x => (s'.heap.get x).cls = .Text) =
        t.pre.filter (fun x => (h.get x).cls = .Text) ∧
      ∀ x ∈ t.pre, (h.get x).cls = .Text → (s'.heap.get x).text = (h.get x).text := by
  obtain ⟨t', D', h1, h2, h3⟩ := C31_author_nodes h root t fuel log s' hr ha hi hf hok
  refine ⟨t', D', ?_, fun x hx _ =>
    show (s'.heap.get x).authored.text = (h.get x).authored.text by rw [h2 x (hr.doc.bound x hx)]⟩
  have e1 : t'.pre.filter (fun x => (s'.heap.get x).cls = .Text) =
      (t'.pre.filter (· < h.next)).filter (fun x => (h.get x).cls = .Text) := by
    rw [List.filter_filter]
    refine List.filter_congr ?_
    intro x hx
    by_cases hn : x < h.next
    · rw [cls_of_authored (h2 x hn)]; simp [hn]
    · have h4 := h3 x hx (by omega)
      have h5 : (s'.heap.get x).cls ≠ .Text := by
        intro e; rw [e] at h4; revert h4; decide
      simp [hn, h5]
  rw [e1, h1, List.filter_filter]
  refine List.filter_congr ?_
  intro x hx
  by_cases hc : (h.get x).cls = .Text
  · have hp : ¬ Pending h x := by unfold Pending; rw [hc]; decide
    have hl : x ∉ laterContents h t := by
      intro hl
      have := (List.mem_filter.mp (List.mem_of_mem_tail hl)).2
      rw [decide_eq_true_eq, hc] at this
      cases this
    simp [hc, hp, hl]
  · simp [hc]

/-! ## C15 -/

/-- **C15.** If no label of the author has the form `cite-N`, the labels in the document are unique
after `transform`. -/
theorem C15_unique_labels (h : Heap) (root : Ref) (t : Tree) (fuel : Nat) (log : List TWarning)
    (s' : TState) (hr : ResolveInput h root t) (ha : StepKidsAllowed h t) (hi : TocInput h t)
    (hf : 12 * t.size < fuel) (hcite : ∀ x ∈ t.pre, ¬ CiteForm (h.get x).label)
    (hok : transform fuel root { heap := h, log := log } = .ok () s') :
    ∃ t', Doc s'.heap root t' ∧ UniqueLabels s'.heap t' := by
  obtain ⟨s1, e1, e2⟩ := transform_ok hok
  obtain ⟨σ, D, M, n1, a1, f1, c1, u1, g1⟩ := resolve_ok hr (by omega) e1
  have hi1 : TocInput s1.heap (t.map σ) := by
    rintro ⟨r, hr, hc⟩
    have : r ∈ (t.map σ).pre.filter (fun r => (s1.heap.get r).cls = .Contents) :=
      List.mem_filter.mpr ⟨hr, by simpa using hc⟩
    rw [g1] at this
    obtain ⟨h1, h2⟩ := List.mem_filter.mp this
    obtain ⟨W, E⟩ := hi ⟨r, h1, by simpa using h2⟩
    exact ⟨W.map M, E.map M⟩
  obtain ⟨t', D', f2, c2, K, -⟩ := after_ok D (ha.map M) hi1 (by rw [size_map]; exact hf) e2
  refine ⟨t', D', ?_⟩
  intro x hx y hy hxy hne
  rcases c2 x hx with h1 | h1
  · rcases c2 y hy with h2 | h2
    · refine u1 hcite x h1 y h2 ?_ ?_
      · rw [← K.label x (D.bound x h1), ← K.label y (D.bound y h2)]; exact hxy
      · rw [← K.label x (D.bound x h1)]; exact hne
    · exact absurd (hxy.trans h2.2.2) hne
  · exact absurd h1.2.2 hne

/-- A paragraph 1 labelled `cite-0` with a citation 2 of the bibliography item 4. -/
def collideHeap : Heap where
  next := 5
  get := fun r => match r with
    | 0 => { NodeRec.new .Manuscript with kids := [1, 3] }
    | 1 => { NodeRec.new .Paragraph with parent := some 0, label := "cite-0".toList, kids := [2] }
    | 2 => { NodeRec.new .PendingCite with parent := some 1, targetlabels := [['b']] }
    | 3 => { NodeRec.new .Bibliography with parent := some 0, kids := [4] }
    | 4 => { NodeRec.new .Bibitem with parent := some 3, label := ['b'] }
    | _ => NodeRec.new .Node

/-- **C15.** The hypothesis is needed: here a paragraph labelled `cite-0` and the citation in it
have the same label after `transform`. -/
theorem C15_collision :
    let s' := (transform 70 0 { heap := collideHeap }).state
    (transform 70 0 { heap := collideHeap }).raised = none ∧
    s'.heap.children 0 = [1, 3] ∧ s'.heap.children 1 = [5] ∧
    (s'.heap.get 1).label = "cite-0".toList ∧ (s'.heap.get 5).label = "cite-0".toList := by
  decide +kernel

/-! ## C30 -/

/-- **C30.** After `transform` the index of the transformer still knows every label of the
document. -/
theorem C30_index_kept (h : Heap) (root : Ref) (t : Tree) (fuel : Nat) (log : List TWarning)
    (s' : TState) (hr : ResolveInput h root t) (ha : StepKidsAllowed h t) (hi : TocInput h t)
    (hf : 12 * t.size < fuel)
    (hok : transform fuel root { heap := h, log := log } = .ok () s')
    (l : Str) (r : Ref) (hc : Carries h t l r) : s'.labels.lookup l = some r := by
  obtain ⟨s1, e1, e2⟩ := transform_ok hok
  obtain ⟨s, σ0, k, C, I, D0⟩ := resolved hr (by omega) e1
  obtain ⟨σ, D, M, n1, a1, f1, c1, u1, g1⟩ := resolve_ok hr (by omega) e1
  have hi1 : TocInput s1.heap (t.map σ) := by
    rintro ⟨r, hr, hc⟩
    have : r ∈ (t.map σ).pre.filter (fun r => (s1.heap.get r).cls = .Contents) :=
      List.mem_filter.mpr ⟨hr, by simpa using hc⟩
    rw [g1] at this
    obtain ⟨h1, h2⟩ := List.mem_filter.mp this
    obtain ⟨W, E⟩ := hi ⟨r, h1, by simpa using h2⟩
    exact ⟨W.map M, E.map M⟩
  obtain ⟨t', D', f2, c2, K, hl⟩ := after_ok D (ha.map M) hi1 (by rw [size_map]; exact hf) e2
  rw [hl]
  have := I.labels
  simp only at this
  rw [this]
  exact (C.lookup l r).mpr hc

/-- **C30.** A later call of `transform` by the same transformer, on the same or another manuscript:
a node whose label the index already knows has no label afterwards, and a reference to such a label
refers to the node that the index knows, not to a node of the manuscript. -/
theorem C30_second_call (s s' : TState) (root : Ref) (t : Tree) (fuel : Nat)
    (hd : Doc s.heap root t) (hp : ¬ Pending s.heap root) (ha : StepKidsAllowed s.heap t)
    (hi : TocInput s.heap t) (hf : 12 * t.size < fuel)
    (hL : ∀ l r, s.labels.lookup l = some r → r < s.heap.next ∧ (s.heap.get r).cls ≠ .Error)
    (hE : ∀ x ∈ t.pre, (s.heap.get x).cls = .Error → (s.heap.get x).label = [])
    (hok : transform fuel root s = .ok () s') :
    (∀ x ∈ t.pre, (s.labels.lookup (s.heap.get x).label).isSome → (s'.heap.get x).label = []) ∧
    ∃ t', Doc s'.heap root t' ∧ ∀ x ∈ t.pre, (s.heap.get x).cls = .PendingReference →
      ∀ l r, (s.heap.get x).target = .str l → s.labels.lookup l = some r →
        ∃ y ∈ t'.pre, (s'.heap.get y).cls = .Reference ∧ (s'.heap.get y).target = .node r := by
  obtain ⟨s2, e1, e2⟩ := transform_ok hok
  unfold collectAndResolve at e1
  obtain ⟨⟨⟩, s1, e0, e1⟩ := bind_ok e1
  obtain ⟨s1', e, I⟩ := collectLabels_spec hd s.labels s.log (fuel := fuel) (by omega)
  have : s1' = s1 := by
    have e := e.symm.trans e0
    injection e
  subst this
  have hcls : ∀ x, (s1'.heap.get x).cls = (s.heap.get x).cls := by
    intro x; rw [I.get x]; split <;> rfl
  have D1 := I.doc hd
  have hP : ∀ x, Pending s1'.heap x ↔ Pending s.heap x := by
    intro x; unfold Pending; rw [hcls]
  have hL0 : ∀ l r, s.labels.lookup l = some r → s1'.labels.lookup l = some r := by
    intro l r h
    rw [I.labels, List.lookup_append, h]
    rfl
  have hL1 : ∀ l r, s1'.labels.lookup l = some r → r < s1'.heap.next ∧ (s1'.heap.get r).cls ≠ .Error := by
    intro l r hlr
    rw [I.next, hcls]
    rw [I.labels, List.lookup_append] at hlr
    cases hs : s.labels.lookup l with
    | some r' =>
      rw [hs] at hlr
      simp only [Option.some_or, Option.some.injEq] at hlr
      subst hlr
      exact hL l _ hs
    | none =>
      rw [hs, Option.none_or] at hlr
      have hm : ∀ (m : List Ref), (m.map fun x => ((s.heap.get x).label, x)).lookup l = some r →
          r ∈ m := by
        intro m
        induction m with
        | nil => intro h; cases h
        | cons a m ih =>
          intro h
          rw [List.map_cons, List.lookup_cons] at h
          split at h
          · injection h with h; subst h; simp
          · exact List.mem_cons_of_mem _ (ih h)
      obtain ⟨h1, h2⟩ := List.mem_filter.mp (hm _ hlr)
      refine ⟨hd.bound r h1, fun he => ?_⟩
      have := hE r h1 he
      simp [labelled, this] at h2
  have S := resolve_spec D1 (fuel := fuel) (by omega) (by rw [hP]; exact hp) hL1
  rw [e1] at S
  obtain ⟨σ, k, J, D2⟩ := S
  have M : MapCls s.heap s2.heap t σ := by
    refine ⟨?_, ?_⟩
    · intro x hx hpx
      have hfix := J.fix x (fun H => hpx ((hP x).mp H.2))
      rw [hfix]
      exact (J.cls_old (by rw [I.next]; exact hd.bound x hx)).trans (hcls x)
    · intro x hx hpx
      exact J.cls_new hx ((hP x).mpr hpx)
  have hi1 : TocInput s2.heap (t.map σ) := by
    rintro ⟨r, hr, hc⟩
    rw [pre_map] at hr
    obtain ⟨x, hx, rfl⟩ := List.mem_map.mp hr
    obtain ⟨W, E⟩ := hi ⟨x, hx, M.back hx hc (by decide) (by decide) (by decide)⟩
    exact ⟨W.map M, E.map M⟩
  obtain ⟨t', D', f2, c2, K, hl⟩ := after_ok D2 (ha.map M) hi1 (by rw [size_map]; exact hf) e2
  refine ⟨?_, t', D', ?_⟩
  · intro x hx hs
    have hx1 : x < s1'.heap.next := by rw [I.next]; exact hd.bound x hx
    rw [K.label x (Nat.lt_of_lt_of_le hx1 J.next)]
    have := J.old x hx1
    simp only at this
    rw [this]
    show (s1'.heap.get x).label = []
    rw [I.get x]
    split
    · rfl
    · rename_i hn
      by_cases hlx : (s.heap.get x).label = []
      · exact hlx
      · exfalso
        refine hn ⟨hx, by simpa [labelled] using hlx, ?_⟩
        unfold keeps
        obtain ⟨r, hr⟩ := Option.isSome_iff_exists.mp hs
        simp [hr]
  · intro x hx hc l r htg hlr
    have hpx : Pending s.heap x := .inl hc
    obtain ⟨pre, post, e⟩ := List.append_of_mem hx
    have hr := J.desc pre x post e ((hP x).mpr hpx)
    unfold ReplacementOf at hr
    rw [hcls, hc] at hr
    have hw : wantedLabel (s1'.heap.get x) = l := by
      unfold wantedLabel
      have : (s1'.heap.get x).target = (s.heap.get x).target := by rw [I.get x]; split <;> rfl
      rw [this, htg]
    simp only [hw, hL0 l r hlr] at hr
    have hy : σ x ∈ (t.map σ).pre := by rw [pre_map]; exact List.mem_map_of_mem hx
    have hyn := D2.bound _ hy
    have hcy : (s2.heap.get (σ x)).cls = .Reference := core_cls hr
    have hty : (s2.heap.get (σ x)).target = .node r := congrArg NodeRec.target hr
    refine ⟨σ x, ?_, by rw [K.cls hyn]; exact hcy, ?_⟩
    · have : σ x ∈ (t.map σ).pre.filter (· ∉ laterContents s2.heap (t.map σ)) := by
        refine List.mem_filter.mpr ⟨hy, ?_⟩
        simp only [decide_eq_true_eq]
        intro hl
        have := (List.mem_filter.mp (List.mem_of_mem_tail hl)).2
        rw [decide_eq_true_eq, hcy] at this
        cases this
      rw [← f2] at this
      exact (List.mem_filter.mp this).1
    · show (s'.heap.get (σ x)).authored.target = _
      rw [K.authored _ hyn]
      exact hty

/-- Two manuscripts: 0 with a labelled paragraph 1; 2 with a paragraph 3 of the same label and, in
it, a reference 4 to that label. -/
def twoHeap : Heap where
  next := 5
  get := fun r => match r with
    | 0 => { NodeRec.new .Manuscript with kids := [1] }
    | 1 => { NodeRec.new .Paragraph with parent := some 0, label := ['p'] }
    | 2 => { NodeRec.new .Manuscript with kids := [3] }
    | 3 => { NodeRec.new .Paragraph with parent := some 2, label := ['p'], kids := [4] }
    | 4 => { NodeRec.new .PendingReference with parent := some 3, target := .str ['p'] }
    | _ => NodeRec.new .Node

/-- **C30.** The second manuscript loses its label and its reference leads into the first
manuscript; with a transformer of its own neither happens. -/
theorem C30_cross_manuscript :
    let first := (transform 70 0 { heap := twoHeap }).state
    let second := (transform 70 2 first).state
    let fresh := (transform 70 2 { first with labels := [] }).state
    (transform 70 0 { heap := twoHeap }).raised = none ∧ (transform 70 2 first).raised = none ∧
    second.heap.children 3 = [5] ∧ (second.heap.get 5).target = .node 1 ∧
    (second.heap.get 3).label = [] ∧
    fresh.heap.children 3 = [5] ∧ (fresh.heap.get 5).target = .node 3 ∧
    (fresh.heap.get 3).label = ['p'] := by
  decide +kernel

/-- **C30.** The same tree twice: the label is gone. -/
theorem C30_same_tree_twice :
    let first := (transform 70 0 { heap := twoHeap }).state
    let again := (transform 70 0 first).state
    (first.heap.get 1).label = ['p'] ∧ (again.heap.get 1).label = [] ∧
    again.log = [.duplicateLabel ['p']] := by
  decide +kernel

/-! ## Documents that meet the hypotheses -/

theorem ref_steps : StepKidsAllowed refHeap refTree := by
  have : ∀ u ∈ refTree.subtrees, (refHeap.get u.root).cls = .Step → ∀ k ∈ u.kids,
      (refHeap.get k.root).cls.possibleParents = [] ∨
        .Step ∈ (refHeap.get k.root).cls.possibleParents := by decide
  intro i ks hm
  exact this (.node i ks) hm

theorem ref_toc : TocInput refHeap refTree := by
  have : ∀ r ∈ refTree.pre, (refHeap.get r).cls ≠ .Contents := by decide
  rintro ⟨r, hr, hc⟩
  exact absurd hc (this r hr)

theorem ref_cite : ∀ x ∈ refTree.pre, ¬ CiteForm (refHeap.get x).label := by
  have : ∀ x ∈ refTree.pre, (refHeap.get x).label.head? ≠ some 'c' := by decide
  rintro x hx ⟨n, e⟩
  apply this x hx
  rw [e]
  rfl

example : (transform 200 0 { heap := refHeap }).raised = none := by decide +kernel

/-- With a table of contents. -/
example : TocInput secHeap secTree := fun _ => ⟨sec_wellNested, sec_empty⟩
example : (transform 200 0 { heap := secHeap }).raised = none := by decide +kernel

/-- The second call: the state after the first manuscript meets the hypotheses. -/
example : let s := (transform 70 0 { heap := twoHeap }).state
    s.heap.next = 5 ∧ s.labels = [(['p'], 1)] ∧ s.heap.children 2 = [3] ∧ s.heap.children 3 = [4] ∧
    s.heap.parent 2 = none ∧ s.heap.parent 3 = some 2 ∧ s.heap.parent 4 = some 3 := by decide +kernel

end RSM
