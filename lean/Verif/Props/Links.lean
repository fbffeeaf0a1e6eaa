import Verif.Lemmas.LinkRun
import Verif.Props.Transform
import Verif.Props.Translator

/-!
# C74: links lead to what they name
-/

namespace RSM
open Tr PyM Html

/-! ## What the translators write -/

/-- The classes whose nodes have an element of their own on the page. -/
def anchored : List Cls :=
  [.Manuscript, .Author, .Abstract, .Paragraph, .Step, .Section, .Subsection, .Subsubsection,
   .Enumerate, .Itemize, .Item, .Contents, .Note, .Math, .MathBlock, .Code, .CodeBlock, .Algorithm,
   .Error, .Span, .Keyword, .Construct, .ClaimBlock, .Theorem, .Lemma, .Corollary, .Example,
   .Exercise, .Proposition, .Problem, .Porism, .Remark, .Definition, .Statement, .Subproof, .Sketch,
   .Proof, .Cite, .Bibliography, .Bibitem, .UnknownBibitem, .Draft, .Figure, .Table, .TableHead,
   .TableBody, .TableRow, .TableDatum]

/-- **C74.** On the page of either translator there is an element with the label of every node of
these classes as its id. -/
theorem C74_anchor (k : Conf) (root : Ref) (t : Tree) (s s' : TrState) (out : Str)
    (hd : Doc s.heap root t) (hf : 2 * t.size ≤ k.fuel) (hok : translate k root s = .ok out s')
    (x : Ref) (hx : x ∈ t.pre) (hc : (s.heap.get x).cls ∈ anchored)
    (hl : (s.heap.get x).label ≠ []) : HasId out (s.heap.get x).label := by
  obtain ⟨s1, c, s2, h1, h2, h3⟩ := translate_wrote hd hf hok x hx
  refine hasId_mono ?_ h3
  rw [← h1.label] at hl ⊢
  rw [← h1.cls] at hc
  by_cases hci : (s1.heap.get x).cls = .Cite
  · exact cite_hasId hci rfl hl h2
  · have : ∃ d, methodClass visitNames (s1.heap.get x).cls = .ok d ∧ d ∈ anchorOwners := by
      revert hc hci
      generalize (s1.heap.get x).cls = cl
      cases cl <;> first
        | exact fun h => absurd h (by decide)
        | exact fun _ h => absurd rfl h
        | exact fun _ _ => ⟨_, rfl, by decide⟩
    obtain ⟨d, hd, ho⟩ := this
    exact visit_hasId hd ho rfl hl h2

/-- **C74.** For every reference to a node the page has a link to the label of that node; it shows
the author's text for the reference or, without one, the text that the node has for references to
it. -/
theorem C74_reference (k : Conf) (root : Ref) (t : Tree) (s s' : TrState) (out : Str)
    (hd : Doc s.heap root t) (hf : 2 * t.size ≤ k.fuel) (hok : translate k root s = .ok out s')
    (x y : Ref) (hx : x ∈ t.pre) (hc : (s.heap.get x).cls = .Reference)
    (ht : (s.heap.get x).target = .node y) :
    ∃ text classes, HasLink out [] classes (s.heap.get y).label text ∧ "reference".toList ∈ classes ∧
      if (s.heap.get x).overwriteReftext ≠ [] then text = (s.heap.get x).overwriteReftext
      else reftext k y s = .ok text s := by
  obtain ⟨s1, c, s2, h1, h2, h3⟩ := translate_wrote hd hf hok x hx
  have ht1 : (s1.heap.get x).target = .node y := by rw [h1.target]; exact ht
  obtain ⟨text, classes, g1, g2, g3, g4⟩ := reference_link (by rw [h1.cls]; exact hc) ht1 h2
  refine ⟨text, classes, ?_, g4, ?_⟩
  · rw [← h1.label]; exact hasLink_mono g2 h3
  · have g1 := g1.frame h1
    unfold LinkText at g1
    rw [hc] at g1
    have e : (Cls.Reference.isSub .BaseReference) = true := by decide
    rw [e] at g1
    simpa using g1

/-- **C74.** For every entry that a citation cites the page has a link to the label of that
entry. -/
theorem C74_cite (k : Conf) (root : Ref) (t : Tree) (s s' : TrState) (out : Str)
    (hd : Doc s.heap root t) (hf : 2 * t.size ≤ k.fuel) (hok : translate k root s = .ok out s')
    (x y : Ref) (hx : x ∈ t.pre) (hc : (s.heap.get x).cls = .Cite)
    (ht : y ∈ (s.heap.get x).targets) :
    ∃ text id classes, HasLink out id classes (s.heap.get y).label text ∧
      "reference".toList ∈ classes ∧ "cite".toList ∈ classes ∧ reftext k y s = .ok text s := by
  obtain ⟨s1, c, s2, h1, h2, h3⟩ := translate_wrote hd hf hok x hx
  have ht1 : y ∈ (s1.heap.get x).targets := by rw [h1.targets]; exact ht
  obtain ⟨text, id, classes, g1, g2, g3, g4⟩ := cite_link (by rw [h1.cls]; exact hc) ht1 h2
  refine ⟨text, id, classes, ?_, g3, g4, reftext_frame h1 g1⟩
  rw [← h1.label]
  exact hasLink_mono g2 h3

/-- **C74.** The plain translator writes, for every link back of an entry of a bibliography, a link
to it, with an arrow and the number of the link back. -/
theorem C74_backlink (k : Conf) (root : Ref) (t : Tree) (s s' : TrState) (out : Str)
    (hk : k.handrails = false)
    (hd : Doc s.heap root t) (hf : 2 * t.size ≤ k.fuel) (hok : translate k root s = .ok out s')
    (x : Ref) (hx : x ∈ t.pre) (hc : (s.heap.get x).cls ∈ [.Bibitem, .UnknownBibitem]) (n : Nat)
    (l : Str) (hn : (s.heap.get x).backlinks[n]? = some l) :
    HasLink out [] ["reference".toList, "backlink".toList] l ('↖' :: natStr (n + 1)) := by
  obtain ⟨s1, c, s2, h1, h2, h3⟩ := translate_wrote hd hf hok x hx
  rw [← h1.backlinks] at hn
  rw [← h1.cls] at hc
  refine hasLink_mono (bibitem_backlink hk ?_ hn h2) h3
  simp only [List.mem_cons, List.not_mem_nil, or_false] at hc
  rcases hc with h | h <;> (rw [h]; rfl)

/-! ## From the source tree to the page -/

section
variable (h : Heap) (root : Ref) (t : Tree) (fuel : Nat) (log : List TWarning) (s' : TState)
  (k : Conf) (s s2 : TrState) (out : Str)

theorem not_pending_of_anchored {h : Heap} {r : Ref} (hc : (h.get r).cls ∈ anchored) :
    ¬ Pending h r := by
  rintro (e | e | e) <;> (rw [e] at hc; exact absurd hc (by decide))

/-- **C74.** After `transform` and `translate`, the page has for a reference of the author to a
label a link to that label and an element with it as its id, if the first node with that label has
an element of its own and is not a table of contents after the first. -/
theorem C74_reference_leads (hr : ResolveInput h root t) (ha : StepKidsAllowed h t)
    (hi : TocInput h t) (hf : 12 * t.size < fuel)
    (hok : Transformer.transform fuel root { heap := h, log := log } = .ok () s')
    (hs : s.heap = s'.heap) (hk : ∀ t', Doc s'.heap root t' → 2 * t'.size ≤ k.fuel)
    (hout : translate k root s = .ok out s2)
    (x r : Ref) (l : Str) (hx : x ∈ t.pre) (hc : (h.get x).cls = .PendingReference)
    (hl : (h.get x).target = .str l) (hcar : Carries h t l r) (hcr : (h.get r).cls ∈ anchored)
    (hlc : r ∉ laterContents h t) :
    HasId out l ∧ ∃ text classes, HasLink out [] classes l text ∧ "reference".toList ∈ classes ∧
      if (h.get x).overwriteReftext ≠ [] then text = (h.get x).overwriteReftext
      else reftext k r s = .ok text s := by
  obtain ⟨s1, σ, t', R⟩ := passed hr ha hi hf hok
  obtain ⟨c1, c2, c3, c4⟩ := C17_known hr (by omega) R.run R.doc1 hx hc hl hcar
  have hrm := (carries_mem hcar).1
  have hrn := hr.doc.bound r hrm
  have hrn1 : r < s1.heap.next := Nat.lt_of_lt_of_le hrn R.next
  have hr' : r ∈ t'.pre := R.old r hrm (not_pending_of_anchored hcr) hlc
  obtain ⟨hσ', hσn⟩ := R.new x hx (.inl hc)
  have hd : Doc s.heap root t' := by rw [hs]; exact R.doc
  have hkf := hk t' R.doc
  have hlab : (s.heap.get r).label = l := by
    rw [hs, R.keeps.label r hrn1]; exact R.label l r hcar
  refine ⟨?_, ?_⟩
  · rw [← hlab]
    exact C74_anchor k root t' s s2 out hd hkf hout r hr' (by rw [hs, R.cls r hrn]; exact hcr)
      (by rw [hlab]; exact hcar.1)
  · have ha := R.keeps.authored _ hσn
    have e1 : (s.heap.get (σ x)).cls = .Reference := by rw [hs, R.keeps.cls hσn]; exact c1
    have e2 : (s.heap.get (σ x)).target = .node r := by
      rw [hs, show (s'.heap.get (σ x)).target = _ from (congrArg NodeRec.target ha :)]; exact c2
    have e3 : (s.heap.get (σ x)).overwriteReftext = (h.get x).overwriteReftext := by
      rw [hs, show (s'.heap.get (σ x)).overwriteReftext = _ from
        (congrArg NodeRec.overwriteReftext ha :)]
      exact c3
    obtain ⟨text, classes, g1, g2, g3⟩ := C74_reference k root t' s s2 out hd hkf hout (σ x) r hσ' e1 e2
    rw [hlab] at g1
    rw [e3] at g3
    exact ⟨text, classes, g1, g2, g3⟩

/-- **C74.** After `transform` and `translate`, the page has for every label of the `n`-th citation
that the document knows a link to that label and an element with it as its id; and the citation has
the id `cite-n`.  The plain translator writes a link back from the entry to the citation. -/
theorem C74_citation_leads (hr : ResolveInput h root t) (ha : StepKidsAllowed h t)
    (hi : TocInput h t) (hf : 12 * t.size < fuel)
    (hok : Transformer.transform fuel root { heap := h, log := log } = .ok () s')
    (hs : s.heap = s'.heap) (hk : ∀ t', Doc s'.heap root t' → 2 * t'.size ≤ k.fuel)
    (hout : translate k root s = .ok out s2)
    (x b : Ref) (n : Nat) (l : Str) (hx : (citations h t.pre)[n]? = some x)
    (hl : l ∈ (h.get x).targetlabels) (hcar : Carries h t l b) :
    HasId out l ∧ HasId out ("cite-".toList ++ natStr n) ∧
      (∃ text id classes, HasLink out id classes l text ∧ "reference".toList ∈ classes ∧
        "cite".toList ∈ classes ∧ reftext k b s = .ok text s) ∧
      (k.handrails = false → ∃ i, HasLink out [] ["reference".toList, "backlink".toList]
        ("cite-".toList ++ natStr n) ('↖' :: natStr i)) := by
  obtain ⟨s1, σ, t', R⟩ := passed hr ha hi hf hok
  have hxc : x ∈ citations h t.pre := List.mem_of_getElem? hx
  have hxm : x ∈ t.pre ∧ (h.get x).cls = .PendingCite := by
    have := List.mem_filter.mp hxc
    exact ⟨this.1, by simpa using this.2⟩
  obtain ⟨c1, c2, c3⟩ := C18_cites hr (by omega) R.run R.doc1 hx
  have hbm := (carries_mem hcar).1
  have hbn := hr.doc.bound b hbm
  have hbn1 : b < s1.heap.next := Nat.lt_of_lt_of_le hbn R.next
  have hbc : .Bibitem ∈ (h.get b).cls.mro := by
    have H := C16_outcome (log := log) hr (show t.size < fuel by omega)
    rw [R.run] at H
    exact Decidable.byContradiction fun hn => H x hxm.1 _ (Fails.cite hxm.2 hl hcar hn)
  have hbc : (h.get b).cls ∈ [.Bibitem, .UnknownBibitem] := by
    revert hbc
    generalize (h.get b).cls = c
    cases c <;> decide
  have hanch : (h.get b).cls ∈ anchored := by
    revert hbc
    generalize (h.get b).cls = c
    cases c <;> decide
  have hlc : b ∉ laterContents h t := by
    intro hlt
    have h2 := (List.mem_filter.mp (List.mem_of_mem_tail hlt)).2
    rw [decide_eq_true_eq] at h2
    rw [h2] at hbc
    exact absurd hbc (by decide)
  have hb' : b ∈ t'.pre := R.old b hbm (not_pending_of_anchored hanch) hlc
  obtain ⟨hσ', hσn⟩ := R.new x hxm.1 (.inr (.inl hxm.2))
  have hd : Doc s.heap root t' := by rw [hs]; exact R.doc
  have hkf := hk t' R.doc
  have hlab : (s.heap.get b).label = l := by
    rw [hs, R.keeps.label b hbn1]; exact R.label l b hcar
  have e1 : (s.heap.get (σ x)).cls = .Cite := by rw [hs, R.keeps.cls hσn]; exact c1
  have e2 : (s.heap.get (σ x)).label = "cite-".toList ++ natStr n := by
    rw [hs, R.keeps.label _ hσn]; exact c2
  refine ⟨?_, ?_, ?_, ?_⟩
  · rw [← hlab]
    exact C74_anchor k root t' s s2 out hd hkf hout b hb' (by rw [hs, R.cls b hbn]; exact hanch)
      (by rw [hlab]; exact hcar.1)
  · rw [← e2]
    exact C74_anchor k root t' s s2 out hd hkf hout (σ x) hσ' (by rw [e1]; decide)
      (by rw [e2]; simp)
  · have hmem : b ∈ (s1.heap.get (σ x)).targets := by
      obtain ⟨i, hi⟩ := List.mem_iff_getElem?.mp hl
      obtain ⟨h1, h2⟩ := List.getElem?_eq_some_iff.mp hi
      have hP := (List.forall₂_iff_get.mp c3).2 i h1 (by rw [← c3.length_eq]; exact h1)
      simp only [List.get_eq_getElem, h2] at hP
      rcases hP with hP | hP
      · have : some _ = some b := IsFirstWith.unique hP.2 hcar.2
        rw [← Option.some.inj this]; exact List.getElem_mem _
      · exact absurd (carried_iff.mpr ⟨b, hcar⟩) hP.1
    have ha := R.keeps.authored _ hσn
    have e3 : b ∈ (s.heap.get (σ x)).targets := by
      rw [hs, show (s'.heap.get (σ x)).targets = _ from (congrArg NodeRec.targets ha :)]; exact hmem
    obtain ⟨text, id, classes, g⟩ := C74_cite k root t' s s2 out hd hkf hout (σ x) b hσ' e1 e3
    rw [hlab] at g
    exact ⟨text, id, classes, g⟩
  · intro hk0
    have hbl : "cite-".toList ++ natStr n ∈ (s.heap.get b).backlinks := by
      rw [hs, R.keeps.backlinks b hbn1, C18_backlinks hr (by omega) R.run hbn]
      refine List.mem_append_right _ (List.mem_flatMap.mpr ⟨(x, n), ?_, ?_⟩)
      · exact List.mem_zipIdx_iff_getElem?.mpr hx
      · refine List.mem_replicate.mpr ⟨?_, rfl⟩
        exact Nat.pos_iff_ne_zero.mp (List.length_pos_of_mem (List.mem_filter.mpr ⟨hl, by simpa using hcar⟩))
    obtain ⟨i, hi⟩ := List.mem_iff_getElem?.mp hbl
    exact ⟨i + 1, C74_backlink k root t' s s2 out hk0 hd hkf hout b hb'
      (by rw [hs, R.cls b hbn]; exact hbc) i _ hi⟩

end

/-! ## A document that meets the hypotheses -/

/-- A manuscript with a labelled paragraph 1 that holds a reference 2 to itself and a citation 3 of
the entry 5. -/
def linkHeap : Heap where
  next := 6
  get := fun r => match r with
    | 0 => { NodeRec.new .Manuscript with kids := [1, 4] }
    | 1 => { NodeRec.new .Paragraph with parent := some 0, label := ['p'], kids := [2, 3] }
    | 2 => { NodeRec.new .PendingReference with parent := some 1, target := .str ['p'] }
    | 3 => { NodeRec.new .PendingCite with parent := some 1, targetlabels := [['b']] }
    | 4 => { NodeRec.new .Bibliography with parent := some 0, kids := [5] }
    | 5 => { NodeRec.new .Bibitem with
        parent := some 4, label := ['b'], year := .str "1999".toList }
    | _ => NodeRec.new .Node

def linkTree : Tree := .node 0 [.node 1 [.node 2 [], .node 3 []], .node 4 [.node 5 []]]

theorem link_input : ResolveInput linkHeap 0 linkTree where
  doc := {
    root_eq := rfl
    tree := by simp only [linkTree, IsTree, IsForest]; decide
    nodup := by decide
    bound := by decide }
  root_ok := by decide
  errors := by decide

theorem link_steps : StepKidsAllowed linkHeap linkTree := by
  have : ∀ u ∈ linkTree.subtrees, (linkHeap.get u.root).cls = .Step → ∀ k ∈ u.kids,
      (linkHeap.get k.root).cls.possibleParents = [] ∨
        .Step ∈ (linkHeap.get k.root).cls.possibleParents := by decide
  intro i ks hm
  exact this (.node i ks) hm

theorem link_toc : TocInput linkHeap linkTree := by
  have : ∀ r ∈ linkTree.pre, (linkHeap.get r).cls ≠ .Contents := by decide
  rintro ⟨r, hr, hc⟩
  exact absurd hc (this r hr)

/-- The tree after `transform`. -/
def linkTree' : Tree := .node 0 [.node 1 [.node 6 [], .node 7 []], .node 4 [.node 5 []]]

/-- The state of the transformer after the run. -/
def linked : TState := (Transformer.transform 80 0 { heap := linkHeap }).state

theorem linked_ok : Transformer.transform 80 0 { heap := linkHeap } = .ok () linked := by
  have : (Transformer.transform 80 0 { heap := linkHeap }).raised = none := by decide +kernel
  unfold linked
  cases e : Transformer.transform 80 0 { heap := linkHeap } with
  | ok a s => rfl
  | err x s => rw [e] at this; cases this

theorem linked_doc : Doc linked.heap 0 linkTree' where
  root_eq := rfl
  tree := by simp only [linkTree', IsTree, IsForest]; decide +kernel
  nodup := by decide
  bound := by decide +kernel

theorem linked_size (t' : Tree) (h : Doc linked.heap 0 t') : 2 * t'.size ≤ plainConf.fuel := by
  rw [h.unique linked_doc]; decide

/-- The page. -/
def linkPage : Str := match translate plainConf 0 { heap := linked.heap } with
  | .ok out _ => out
  | .err _ _ => []

theorem linkPage_ok : ∃ s2, translate plainConf 0 { heap := linked.heap } = .ok linkPage s2 := by
  have : (translate plainConf 0 { heap := linked.heap }).raised = none := by decide +kernel
  unfold linkPage
  cases e : translate plainConf 0 { heap := linked.heap } with
  | ok a s => exact ⟨s, rfl⟩
  | err x s => rw [e] at this; cases this

attribute [local irreducible] linked linkPage

theorem linkPage_paragraph : HasId linkPage ['p'] ∧ ∃ text classes,
    HasLink linkPage [] classes ['p'] text ∧ "reference".toList ∈ classes ∧
      reftext plainConf 1 { heap := linked.heap } = .ok text { heap := linked.heap } := by
  obtain ⟨s2, h⟩ := linkPage_ok
  obtain ⟨h1, text, classes, h2, h3, h4⟩ := C74_reference_leads linkHeap 0 linkTree 80 [] linked plainConf
    { heap := linked.heap } s2 linkPage link_input link_steps
    link_toc (by decide) linked_ok rfl linked_size h 2 1 ['p'] (by decide) rfl rfl
    ⟨by decide, rfl, [0], [2, 3, 4, 5], rfl, by decide⟩ (by decide) (by decide)
  have e : ¬ (linkHeap.get 2).overwriteReftext ≠ [] := by decide
  rw [if_neg e] at h4
  exact ⟨h1, text, classes, h2, h3, h4⟩

theorem linkPage_bibitem : HasId linkPage ['b'] ∧ HasId linkPage ("cite-".toList ++ natStr 0) ∧
    ∃ i, HasLink linkPage [] ["reference".toList, "backlink".toList] ("cite-".toList ++ natStr 0)
      ('↖' :: natStr i) := by
  obtain ⟨s2, h⟩ := linkPage_ok
  obtain ⟨h1, h2, h3, h4⟩ := C74_citation_leads linkHeap 0 linkTree 80 [] linked plainConf
    { heap := linked.heap } s2 linkPage
    link_input link_steps link_toc (by decide) linked_ok rfl linked_size h 3 5 0 ['b'] rfl
    (by decide) ⟨by decide, rfl, [0, 1, 2, 3, 4], [], rfl, by decide⟩
  exact ⟨h1, h2, h4 rfl⟩

/-- A paragraph with a reference to the caption of a figure, after `transform`. -/
def capHeap : Heap where
  next := 5
  get := fun r => match r with
    | 0 => { NodeRec.new .Manuscript with kids := [1, 3] }
    | 1 => { NodeRec.new .Paragraph with parent := some 0, kids := [2] }
    | 2 => { NodeRec.new .Reference with
        parent := some 1, target := .node 4, overwriteReftext := "here".toList }
    | 3 => { NodeRec.new .Figure with parent := some 0, kids := [4] }
    | 4 => { NodeRec.new .Caption with parent := some 3, label := "cap".toList }
    | _ => NodeRec.new .Node

/-- Whether the word occurs in the text. -/
def occurs (w : Str) : Str → Bool
  | [] => w.isEmpty
  | c :: cs => w.isPrefixOf (c :: cs) || occurs w cs

theorem occurs_of_infix {w : Str} : ∀ {s : Str}, w <:+: s → occurs w s = true
  | [], h => by rw [List.eq_nil_of_infix_nil h]; simp [occurs]
  | c :: cs, h => by
    rw [occurs, Bool.or_eq_true]
    rcases List.infix_cons_iff.mp h with h | h
    · exact .inl (List.isPrefixOf_iff_prefix.mpr h)
    · exact .inr (occurs_of_infix h)

theorem infix_of_occurs {w : Str} : ∀ {s : Str}, occurs w s = true → w <:+: s
  | [], h => by rw [List.isEmpty_iff.mp h]
  | c :: cs, h => by
    rw [occurs, Bool.or_eq_true] at h
    rcases h with h | h
    · exact (List.isPrefixOf_iff_prefix.mp h).isInfix
    · exact (infix_of_occurs h).trans (List.suffix_cons c cs).isInfix

/-- **C74.** The hypothesis on the class is needed: a caption has no element with its label as id,
so here the link to it leads nowhere. -/
theorem C74_caption_dangles : ∃ out s2, translate plainConf 0 { heap := capHeap } = .ok out s2 ∧
    HasLink out [] ["reference".toList] "cap".toList "here".toList ∧ ¬ HasId out "cap".toList := by
  have h : (match translate plainConf 0 { heap := capHeap } with
      | .ok out _ => occurs "<a class=\"reference\" href=\"#cap\">here</a>".toList out &&
          !occurs " id=\"cap\"".toList out
      | .err _ _ => false) = true := by decide +kernel
  generalize translate plainConf 0 { heap := capHeap } = res at h ⊢
  cases res with
  | err x s => cases h
  | ok out s =>
    simp only [Bool.and_eq_true, Bool.not_eq_true'] at h
    refine ⟨_, s, rfl, ?_, ?_⟩
    · unfold HasLink
      have e : "<a".toList ++ (if ([] : Str) ≠ [] then " id=\"".toList ++ [] ++ "\"".toList else [])
          ++ " class=\"".toList ++ spaced ["reference".toList] ++ "\" href=\"#".toList ++ "cap".toList
          ++ "\">".toList ++ "here".toList ++ "</a>".toList =
          "<a class=\"reference\" href=\"#cap\">here</a>".toList := by decide +kernel
      rw [e]
      exact infix_of_occurs h.1
    · rintro ⟨name, -, -, h1⟩
      refine absurd (occurs_of_infix (List.IsInfix.trans ⟨'<' :: name, [], ?_⟩ h1)) (by rw [h.2]; decide)
      simp

end RSM
