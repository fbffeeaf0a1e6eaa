import Verif.Lemmas.TocSpec

/-!
# C26: the table of contents
-/

namespace RSM
open Transformer Tree

/-- C26: in a well-nested document, `make_toc` returns, drops all tables of contents but the first
with one warning each, and hangs below the first one one entry per section, nested as the sections
are, each with a reference to its section whose text is the full number and the title. -/
theorem C26_toc (s : TState) (root : Ref) (t : Tree) (fuel : Nat) (toc : Ref) (rest : List Ref)
    (hd : Doc s.heap root t) (hw : WellNested s.heap t) (he : ContentsEmpty s.heap t)
    (hf : 4 * t.size < fuel)
    (hc : t.pre.filter (fun r => (s.heap.get r).cls = .Contents) = toc :: rest) :
    ∃ s' items, makeToc fuel root s = .ok () s' ∧
      Doc s'.heap root ((t.without rest).graft toc items) ∧
      TocItems s.heap s'.heap (outerSections s.heap (t.without rest)) items ∧
      s'.log = s.log ++ List.replicate rest.length .multipleToc := by
  obtain ⟨s', items, h1, h2, h3, -, -, -, h4, -⟩ := makeToc_spec hd hw he hf hc
  exact ⟨s', items, h1, h2, h3, h4⟩

/-- C26: read in document order, the references in the table of contents point to all the sections,
subsections and subsubsections of the document, each once, in document order. -/
theorem C26_every_section_in_order (s s' : TState) (root : Ref) (t : Tree) (fuel : Nat) (toc : Ref)
    (rest : List Ref) (hd : Doc s.heap root t) (hw : WellNested s.heap t)
    (he : ContentsEmpty s.heap t) (hf : 4 * t.size < fuel)
    (hc : t.pre.filter (fun r => (s.heap.get r).cls = .Contents) = toc :: rest)
    (hok : makeToc fuel root s = .ok () s') :
    ∃ items, Doc s'.heap root ((t.without rest).graft toc items) ∧
      ((preL items).filter fun r => (s'.heap.get r).cls = .Reference).map
        (fun r => (s'.heap.get r).target) = (t.pre.filter (IsSec s.heap ·)).map .node := by
  obtain ⟨s2, items, h1, h2, h3, -⟩ := makeToc_spec hd hw he hf hc
  rw [hok] at h1
  injection h1 with _ h1
  subst h1
  refine ⟨items, h2, ?_⟩
  have W1 := hw.without (h1 := s.heap) rest (fun _ => rfl)
  obtain ⟨a, b⟩ := outerSections_spec s.heap (t.without rest)
  have := TocItems.targets W1 (fun k hk => ⟨mem_outerSections hk, a k hk⟩) h3
  have hrest : ∀ r ∈ rest, (s.heap.get r).cls = .Contents := by
    intro r hr
    have : r ∈ t.pre.filter (fun r => (s.heap.get r).cls = .Contents) := by rw [hc]; simp [hr]
    simpa using (List.mem_filter.mp this).2
  rw [b, filter_without] at this
  · exact this
  · intro r hr h
    unfold IsSec at h
    rw [hrest r hr] at h
    revert h; decide
  · intro i ks hi hr
    exact he i ks hi (hrest i hr)

/-- C26: nothing else changes: attributes of the old nodes, nodes outside the document, labels. -/
theorem C26_rest_unchanged (s s' : TState) (root : Ref) (t : Tree) (fuel : Nat) (toc : Ref)
    (rest : List Ref) (hd : Doc s.heap root t) (hw : WellNested s.heap t)
    (he : ContentsEmpty s.heap t) (hf : 4 * t.size < fuel)
    (hc : t.pre.filter (fun r => (s.heap.get r).cls = .Contents) = toc :: rest)
    (hok : makeToc fuel root s = .ok () s') :
    (∀ z < s.heap.next, { s'.heap.get z with parent := none, kids := [] } =
      { s.heap.get z with parent := none, kids := [] }) ∧
    (∀ z < s.heap.next, z ∉ t.pre → s'.heap.children z = s.heap.children z ∧
      s'.heap.parent z = s.heap.parent z) ∧
    s'.labels = s.labels := by
  obtain ⟨s2, items, h1, -, -, h3, h4, h5, -⟩ := makeToc_spec hd hw he hf hc
  rw [hok] at h1
  injection h1 with _ h1
  subst h1
  exact ⟨h3, h4, h5⟩

/-- C26: without a table of contents nothing happens. -/
theorem C26_none (s : TState) (root : Ref) (t : Tree) (fuel : Nat) (hd : Doc s.heap root t)
    (hf : 4 * t.size < fuel) (hc : ∀ r ∈ t.pre, (s.heap.get r).cls ≠ .Contents) :
    makeToc fuel root s = .ok () s := makeToc_none hd hf hc

/-! ### A document that meets the hypotheses -/

/-- A manuscript with a table of contents 1, a section 2 with subsections 3 and 4, of which 3 has the
subsubsections 5 and 6, a second table of contents 7 and a section 8. -/
def secHeap : Heap where
  next := 9
  get := fun r => match r with
    | 0 => { NodeRec.new .Manuscript with kids := [1, 2, 7, 8] }
    | 1 => { NodeRec.new .Contents with parent := some 0 }
    | 2 => { NodeRec.new .Section with parent := some 0, kids := [3, 4], number := .int 1, title := "One".toList }
    | 3 => { NodeRec.new .Subsection with parent := some 2, kids := [5, 6], number := .int 1 }
    | 4 => { NodeRec.new .Subsection with parent := some 2, number := .int 2, title := "Two".toList }
    | 5 => { NodeRec.new .Subsubsection with parent := some 3, number := .int 1 }
    | 6 => { NodeRec.new .Subsubsection with parent := some 3, number := .int 2, title := "Deep".toList }
    | 7 => { NodeRec.new .Contents with parent := some 0 }
    | 8 => { NodeRec.new .Section with parent := some 0, nonum := true, title := "Last".toList }
    | _ => NodeRec.new .Node

def secTree : Tree :=
  .node 0 [.node 1 [], .node 2 [.node 3 [.node 5 [], .node 6 []], .node 4 []], .node 7 [], .node 8 []]

theorem sec_doc : Doc secHeap 0 secTree where
  root_eq := rfl
  tree := ⟨rfl, rfl, ⟨rfl, rfl, trivial⟩, ⟨rfl, rfl, ⟨rfl, rfl, ⟨rfl, rfl, trivial⟩,
    ⟨rfl, rfl, trivial⟩, trivial⟩, ⟨rfl, rfl, trivial⟩, trivial⟩, ⟨rfl, rfl, trivial⟩,
    ⟨rfl, rfl, trivial⟩, trivial⟩
  nodup := by decide
  bound := by decide

/-- The predicates, as tests over the subtrees. -/
theorem wellNested_of {h : Heap} {t : Tree}
    (h1 : (h.get t.root).cls ≠ .Subsection ∧ (h.get t.root).cls ≠ .Subsubsection)
    (h2 : ∀ u ∈ t.subtrees, ∀ k ∈ u.kids, (h.get k.root).cls = .Subsection →
      (h.get u.root).cls = .Section)
    (h3 : ∀ u ∈ t.subtrees, ∀ k ∈ u.kids, (h.get k.root).cls = .Subsubsection →
      (h.get u.root).cls = .Subsection)
    (h4 : ∀ u ∈ t.subtrees, IsSec h u.root → ∀ j ∈ preL u.kids, (h.get j).cls ≠ .Section) :
    WellNested h t :=
  ⟨h1, fun i ks hm => h2 (.node i ks) hm, fun i ks hm => h3 (.node i ks) hm,
    fun i ks hm => h4 (.node i ks) hm⟩

theorem sec_wellNested : WellNested secHeap secTree := by
  apply wellNested_of <;> decide

theorem sec_empty : ContentsEmpty secHeap secTree := by
  have : ∀ u ∈ secTree.subtrees, (secHeap.get u.root).cls = .Contents → u.kids.map Tree.root = [] := by
    decide
  intro i ks hm hc
  simpa using this (.node i ks) hm hc

example : secTree.pre.filter (fun r => (secHeap.get r).cls = .Contents) = [1, 7] := by decide
example : (makeToc 50 0 { heap := secHeap }).raised = none := by decide +kernel
/-- The entries of the sections 2 and 8 are the items 9 and 20; 9 holds a list 11 with the entries 12
and 19 of the subsections, and so on. -/
example :
    let h := (makeToc 50 0 { heap := secHeap }).state.heap
    (h.children 0, h.children 1, h.children 9, h.children 11, h.children 12, h.children 14) =
      ([1, 2, 8], [9, 21], [10, 11], [12, 19], [13, 14], [15, 17]) ∧
    (h.get 18).overwriteReftext = "1.1.2. Deep".toList ∧ (h.get 18).target = .node 6 ∧
    (h.get 22).overwriteReftext = "Last".toList := by decide +kernel

/-! ### Documents that are not well nested -/

/-- C26: a subsubsection that does not lie in a subsection moves the cursor above the table of
contents, and the next entry makes the pass raise. -/
theorem C26_ill_nested_raises :
    let h : Heap := { next := 4, get := fun r => match r with
      | 0 => { NodeRec.new .Manuscript with kids := [1, 2, 3] }
      | 1 => { NodeRec.new .Contents with parent := some 0 }
      | 2 => { NodeRec.new .Subsubsection with parent := some 0 }
      | 3 => { NodeRec.new .Subsection with parent := some 0 }
      | _ => NodeRec.new .Node }
    (makeToc 50 0 { heap := h }).raised = some .attributeError := by decide +kernel

/-- C26: and a subsubsection directly in a section, before a subsection, is given an entry in the
list of the subsections, after which the subsection's entry lands beside the section's own one. -/
theorem C26_ill_nested_misplaced :
    let h : Heap := { next := 5, get := fun r => match r with
      | 0 => { NodeRec.new .Manuscript with kids := [1, 2] }
      | 1 => { NodeRec.new .Contents with parent := some 0 }
      | 2 => { NodeRec.new .Section with parent := some 0, kids := [3, 4] }
      | 3 => { NodeRec.new .Subsubsection with parent := some 2 }
      | 4 => { NodeRec.new .Subsection with parent := some 2 }
      | _ => NodeRec.new .Node }
    let r := makeToc 50 0 { heap := h }
    r.raised = none ∧ r.state.heap.children 1 = [5, 10] ∧ (r.state.heap.get 11).target = .node 4 := by
  decide +kernel

end RSM
