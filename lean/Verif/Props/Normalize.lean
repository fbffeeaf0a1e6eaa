import Verif.Lemmas.NormRun

/-!
# C51, C52, C57-C62: text normalisation

`normalizeText fuel root h` is `_normalize_text` on the tree below `root`.  `4 * t.size` bounds the
number of nodes the loop visits, new ones included.
-/

namespace RSM
namespace Normalize
open PyM Nodes Heap LTree Transformer

/-- The document of the examples: a manuscript 0 with a paragraph 1 that holds the texts 2 and 3, a
span 4 around the text 5, a construct 6 of kind `let` around the text 7, and the text 8. -/
def normHeap : Heap where
  next := 9
  get := fun r => match r with
    | 0 => { NodeRec.new .Manuscript with kids := [1], title := "A\\:b".toList }
    | 1 => { NodeRec.new .Paragraph with parent := some 0, kids := [2, 3, 4, 6, 8] }
    | 2 => { NodeRec.new .Text with parent := some 1, text := "  Hi \n".toList }
    | 3 => { NodeRec.new .Text with parent := some 1, text := " w\\:x  ".toList }
    | 4 => { NodeRec.new .Span with parent := some 1, kids := [5] }
    | 5 => { NodeRec.new .Text with parent := some 4, text := " s ".toList }
    | 6 => { NodeRec.new .Construct with parent := some 1, kids := [7], kind := "let".toList }
    | 7 => { NodeRec.new .Text with parent := some 6, text := "y".toList }
    | 8 => { NodeRec.new .Text with parent := some 1, text := "end ".toList }
    | _ => NodeRec.new .Node

def normTree : Tree :=
  .node 0 [.node 1 [.node 2 [], .node 3 [], .node 4 [.node 5 []], .node 6 [.node 7 []], .node 8 []]]

theorem norm_doc : Doc normHeap 0 normTree where
  root_eq := rfl
  tree := ⟨rfl, rfl, ⟨rfl, rfl, ⟨rfl, rfl, trivial⟩, ⟨rfl, rfl, trivial⟩,
    ⟨rfl, rfl, ⟨rfl, rfl, trivial⟩, trivial⟩, ⟨rfl, rfl, ⟨rfl, rfl, trivial⟩, trivial⟩,
    ⟨rfl, rfl, trivial⟩, trivial⟩, trivial⟩
  nodup := by decide
  bound := by decide

theorem norm_known : KnownKinds normHeap normTree := by
  intro x hx hc
  have : x = 6 := by
    have : ∀ x ∈ normTree.pre, normHeap.isInst x .Construct = true → x = 6 := by decide
    exact this x hx hc
  subst this
  exact ⟨"LET".toList, by decide⟩

theorem norm_uniform : UniformRuns normHeap normTree := by
  intro p _ a b ⟨l, r, h⟩ ha hb
  have hasis : ∀ x, normHeap.isInst x .Text = true → (normHeap.get x).asis = false := by
    intro x _
    match x with
    | 0 | 1 | 2 | 3 | 4 | 5 | 6 | 7 | 8 => rfl
    | _ + 9 => rfl
  rw [hasis a ha, hasis b hb]

/-! ## C62: the outcome -/

/-- **C62.** Normalisation of a document always ends: it succeeds, leaving a document with the same
root, if every construct has one of the known kinds, and raises `KeyError` otherwise. -/
theorem C62_outcome {h : Heap} {root : Ref} {t : Tree} (D : Doc h root t) {fuel : Nat}
    (hfuel : 4 * t.size < fuel) :
    (KnownKinds h t → ∃ h' t', normalizeText fuel root h = .ok () h' ∧ Doc h' root t') ∧
    (¬ KnownKinds h t → ∃ h', normalizeText fuel root h = .err .keyError h') := by
  obtain ⟨ok, err⟩ := normalize_run D hfuel
  refine ⟨fun hK => ?_, err⟩
  obtain ⟨h', t5, e, _, G, hr, _⟩ := ok hK
  exact ⟨h', t5.tree, e, doc_of_good G hr⟩

/-- Not vacuous, both ways: the sample document is normalised, and it is not when the kind of its
construct is unknown. -/
example : (∃ h', normalizeText 40 0 normHeap = .ok () h') ∧
    ∃ h', normalizeText 40 0 (normHeap.update 6 fun n => { n with kind := "lett".toList }) =
      .err .keyError h' := by
  constructor
  · obtain ⟨h', _, e, _⟩ := (C62_outcome norm_doc (fuel := 40) (by decide)).1 norm_known
    exact ⟨h', e⟩
  · exact ⟨_, rfl⟩

/-- What is known of a successful run. -/
theorem run_inv {h h' : Heap} {root : Ref} {t : Tree} (D : Doc h root t) {fuel : Nat}
    (hfuel : 4 * t.size < fuel) (hrun : normalizeText fuel root h = .ok () h') :
    ∃ t5, Norm h.next [label h t] [t5] ∧ Holds h' none t5 ∧ Doc h' root t5.tree ∧
      Frame h h' none t.pre := by
  obtain ⟨ok, err⟩ := normalize_run D hfuel
  by_cases hK : KnownKinds h t
  · obtain ⟨h1, t5, e, N, G, hr, F⟩ := ok hK
    rw [e] at hrun
    cases hrun
    exact ⟨t5, N, G.holds t5 (by simp), doc_of_good G hr, F⟩
  · obtain ⟨h1, e⟩ := err hK
    rw [e] at hrun; cases hrun

theorem adjacent_of_classes {P : Cls → Bool} {h : Heap} {x : Ref}
    (hn : NoAdj P ((h.children x).map fun y => (h.get y).cls)) {a b : Ref} (hab : Adjacent h x a b)
    (ha : P (h.get a).cls = true) : P (h.get b).cls = false := by
  obtain ⟨l, r, e⟩ := hab
  exact hn.mid (by rw [e, List.map_append, List.map_cons, List.map_cons]) ha

/-! ## C51: no adjacent texts -/

/-- **C51.** In a normalised document no two consecutive siblings are both text nodes. -/
theorem C51_no_adjacent_texts {h h' : Heap} {root : Ref} {t : Tree} (D : Doc h root t) {fuel : Nat}
    (hfuel : 4 * t.size < fuel) (hrun : normalizeText fuel root h = .ok () h') :
    ∃ t', Doc h' root t' ∧ ∀ p ∈ t'.pre, ∀ a b, Adjacent h' p a b →
      ¬ (h'.isInst a .Text = true ∧ h'.isInst b .Text = true) := by
  obtain ⟨t5, N, H, D', _⟩ := run_inv D hfuel hrun
  refine ⟨t5.tree, D', fun p hp a b hab ⟨ha, hb⟩ => ?_⟩
  obtain ⟨s, hs, q, rfl, Hs⟩ := mem_pre_subs H hp
  have hcl := classes_of_holds Hs
  have hno : NoAdj isTextCls (classes s.kids) := by
    rcases N.inv s (by simpa [subsL] using hs) with ⟨e, rfl⟩ | ⟨i, a, ks, ks4, ks5, rfl, sh, N4⟩
    · trivial
    · rw [kids_mk, N4.classes]
      exact noAdj_text_weave sh.noAdj
  rw [← hcl] at hno
  have := adjacent_of_classes hno hab ha
  rw [show isTextCls (h'.get b).cls = h'.isInst b .Text from rfl, hb] at this
  cases this

/-- Not vacuous: the sample document has adjacent texts, and has a normal form. -/
example : Adjacent normHeap 1 2 3 ∧ normHeap.isInst 2 .Text = true ∧ normHeap.isInst 3 .Text = true ∧
    ∃ h', normalizeText 40 0 normHeap = .ok () h' ∧ h'.children 1 = [2, 4, 9, 6, 8] :=
  ⟨⟨[], [4, 6, 8], rfl⟩, by decide, by decide, _, rfl, by decide +kernel⟩

/-! ## C59: inline nodes are set apart -/

/-- **C59.** In a normalised document no two consecutive siblings are both a span, a construct or a
piece of mathematics: there is a text between them. -/
theorem C59_inline_apart {h h' : Heap} {root : Ref} {t : Tree} (D : Doc h root t) {fuel : Nat}
    (hfuel : 4 * t.size < fuel) (hrun : normalizeText fuel root h = .ok () h') :
    ∃ t', Doc h' root t' ∧ ∀ p ∈ t'.pre, ∀ a b, Adjacent h' p a b →
      ¬ ((h'.get a).cls ∈ [Cls.Span, .Construct, .Math] ∧ (h'.get b).cls ∈ [Cls.Span, .Construct, .Math]) := by
  obtain ⟨t5, N, H, D', _⟩ := run_inv D hfuel hrun
  refine ⟨t5.tree, D', fun p hp a b hab ⟨ha, hb⟩ => ?_⟩
  obtain ⟨s, hs, q, rfl, Hs⟩ := mem_pre_subs H hp
  have hcl := classes_of_holds Hs
  have hno : NoAdj isSpacedCls (classes s.kids) := by
    rcases N.inv s (by simpa [subsL] using hs) with ⟨e, rfl⟩ | ⟨i, a, ks, ks4, ks5, rfl, sh, N4⟩
    · trivial
    · rw [kids_mk, N4.classes]
      exact noAdj_spaced_weave _
  rw [← hcl] at hno
  have hiff : ∀ c, c ∈ [Cls.Span, .Construct, .Math] → isSpacedCls c = true := by
    intro c hc
    simp only [List.mem_cons, List.not_mem_nil, or_false] at hc
    rcases hc with rfl | rfl | rfl <;> decide
  have := adjacent_of_classes hno hab (hiff _ ha)
  rw [hiff _ hb] at this
  cases this

/-- Not vacuous: in the sample document a span is followed by a construct; the blank 9 gets between
them. -/
example : Adjacent normHeap 1 4 6 ∧ (normHeap.get 4).cls = .Span ∧ (normHeap.get 6).cls = .Construct ∧
    ∃ h', normalizeText 40 0 normHeap = .ok () h' ∧ (h'.get 9).cls = .Text ∧ (h'.get 9).text = [' '] :=
  ⟨⟨[2, 3], [8], rfl⟩, rfl, rfl, _, rfl, by decide +kernel, by decide +kernel⟩

/-! ## C60: white space at the ends of texts -/

/-- **C60.** In a normalised document the white space at either end of every child text is at most
one blank; the first child of a node that is not a construct has none at its beginning and the last
child none at its end. -/
theorem C60_trimmed {h h' : Heap} {root : Ref} {t : Tree} (D : Doc h root t) {fuel : Nat}
    (hfuel : 4 * t.size < fuel) (hrun : normalizeText fuel root h = .ok () h') :
    ∃ t', Doc h' root t' ∧ ∀ p ∈ t'.pre,
      (∀ c ∈ h'.children p, h'.isInst c .Text = true → OneBlank (h'.get c).text) ∧
      (h'.isInst p .Construct = false → ∀ c, h'.isInst c .Text = true →
        ((h'.children p).head? = some c → NoLead (h'.get c).text) ∧
        ((h'.children p).getLast? = some c → NoTrail (h'.get c).text)) := by
  obtain ⟨t5, N, H, D', _⟩ := run_inv D hfuel hrun
  refine ⟨t5.tree, D', fun p hp => ?_⟩
  obtain ⟨s, hs, q, rfl, Hs⟩ := mem_pre_subs H hp
  have hch := Hs.children
  rcases N.inv s (by simpa [subsL] using hs) with ⟨e, rfl⟩ | ⟨i, a, ks, ks4, ks5, rfl, sh, N4⟩
  · simp only [root_mk, kids_mk, List.map_nil] at hch ⊢
    rw [hch]
    exact ⟨by simp, fun _ c _ => ⟨by simp, by simp⟩⟩
  · simp only [root_mk, kids_mk] at hch ⊢
    have htext : ∀ k ∈ ks5, (h'.get k.root).text = k.attrs.text ∧ h'.isInst k.root .Text = k.isT := by
      intro k hk
      have Hk := Hs.kids k hk
      have := congrArg NodeRec.text Hk.attrs
      exact ⟨this, Hk.isInst .Text⟩
    constructor
    · intro c hc ht
      rw [hch] at hc
      obtain ⟨k, hk, rfl⟩ := List.mem_map.mp hc
      obtain ⟨h1, h2⟩ := htext k hk
      rw [h1]
      exact Norm.oneBlank sh N4 k hk (h2 ▸ ht)
    · intro hnc c ht
      have hac : a.cls.isSub .Construct = false := by
        have := Hs.isInst .Construct
        rw [root_mk, hnc] at this
        exact this.symm
      constructor
      · intro hc
        rw [hch, List.head?_map] at hc
        obtain ⟨k, hk, rfl⟩ := Option.map_eq_some_iff.mp hc
        obtain ⟨h1, h2⟩ := htext k (List.mem_of_head? hk)
        rw [h1]
        exact Norm.noLead hac sh N4 hk (h2 ▸ ht)
      · intro hc
        rw [hch, List.getLast?_map] at hc
        obtain ⟨k, hk, rfl⟩ := Option.map_eq_some_iff.mp hc
        obtain ⟨h1, h2⟩ := htext k (List.mem_of_getLast? hk)
        rw [h1]
        exact Norm.noTrail hac sh N4 hk (h2 ▸ ht)

/-- Not vacuous: the texts of the sample document before and after. -/
example : ∃ h', normalizeText 40 0 normHeap = .ok () h' ∧ (h'.get 2).text = "Hi w:x ".toList ∧
    (h'.get 5).text = "s".toList ∧ (h'.get 8).text = "end".toList ∧
    (normHeap.get 8).text = "end ".toList :=
  ⟨_, rfl, by decide +kernel, by decide +kernel, by decide +kernel, rfl⟩

/-! ## C61: constructs open with their keyword -/

/-- **C61.** In a normalised document the first child of every construct is a new keyword node whose
only child is a text, the keyword of the kind of the construct.  If a text follows, it begins with a
blank. -/
theorem C61_keyword {h h' : Heap} {root : Ref} {t : Tree} (D : Doc h root t) {fuel : Nat}
    (hfuel : 4 * t.size < fuel) (hrun : normalizeText fuel root h = .ok () h') :
    ∃ t', Doc h' root t' ∧ ∀ p ∈ t'.pre, h'.isInst p .Construct = true →
      ∃ k c w rest, h'.children p = k :: rest ∧ h.next ≤ k ∧ (h'.get k).cls = .Keyword ∧
        h'.children k = [c] ∧ (h'.get c).cls = .Text ∧ (h'.get c).text = w ∧
        keywordTable.lookup (h'.get p).kind = some w ∧
        ∀ d ∈ rest.head?, h'.isInst d .Text = true → (h'.get d).text.head? = some ' ' := by
  obtain ⟨t5, N, H, D', _⟩ := run_inv D hfuel hrun
  refine ⟨t5.tree, D', fun p hp hc => ?_⟩
  obtain ⟨s, hs, q, rfl, Hs⟩ := mem_pre_subs H hp
  rcases N.inv s (by simpa [subsL] using hs) with ⟨e, rfl⟩ | ⟨i, a, ks, ks4, ks5, rfl, sh, N4⟩
  · exfalso
    have := Hs.isInst .Construct
    rw [hc] at this
    have h2 : Cls.isSub .Text .Construct = false := by decide
    rw [show (LTree.node e (textAttrs [' ']) []).attrs.cls = .Text from rfl, h2] at this
    cases this
  · have hac : a.cls.isSub .Construct = true := by
      have := Hs.isInst .Construct
      rw [hc] at this
      exact this.symm
    obtain ⟨w, n, rest, hw, hn, rfl, hb⟩ := Norm.construct hac sh N4
    have Hk := Hs.kids (kwTree n w) (by simp)
    have Hc := Hk.kids (.node (n + 1) (textAttrs w) []) (by simp [kwTree])
    have h1 := congrArg NodeRec.cls Hk.attrs
    have h2 := congrArg NodeRec.cls Hc.attrs
    have h3 := congrArg NodeRec.text Hc.attrs
    have h4 := congrArg NodeRec.kind Hs.attrs
    refine ⟨n, n + 1, w, rest.map LTree.root, Hs.children, hn, h1, Hk.children, h2, h3, ?_, ?_⟩
    · exact (congrArg (keywordTable.lookup ·) (show (h'.get i).kind = a.kind from h4)).trans hw
    · intro d hd ht
      rw [List.head?_map] at hd
      obtain ⟨k, hk, rfl⟩ := Option.map_eq_some_iff.mp hd
      have Hd := Hs.kids k (List.mem_cons_of_mem _ (List.mem_of_head? hk))
      have h5 := congrArg NodeRec.text Hd.attrs
      rw [show (h'.get k.root).text = k.attrs.text from h5]
      exact hb k hk (by rw [← ht]; exact (Hd.isInst .Text).symm)

/-- Not vacuous: the construct of the sample document. -/
example : ∃ h', normalizeText 40 0 normHeap = .ok () h' ∧ h'.children 6 = [10, 7] ∧
    h'.children 10 = [11] ∧ (h'.get 11).text = "LET".toList ∧ (h'.get 7).text = " y".toList :=
  ⟨_, rfl, by decide +kernel, by decide +kernel, by decide +kernel, by decide +kernel⟩

/-! ## C57: what stays -/

theorem restore {m n : NodeRec} (e : dropText (bare m) = dropText (unescAttrs (bare n)))
    (hp : m.parent = n.parent) :
    m = { n with kids := m.kids, text := m.text, title := m.title } ∧
    (n.cls.isSub .Text = false → m.text = n.text) ∧
    m.title = if n.cls.isSub .Section || n.cls.isSub .Manuscript then readAs false n.title
      else n.title := by
  have hc : m.cls = n.cls := by have := congrArg NodeRec.cls e; exact this
  have ht : m.title = (unescAttrs n).title := by have := congrArg NodeRec.title e; exact this
  have hx : (dropText m).text = (dropText (unescAttrs n)).text := by
    have := congrArg NodeRec.text e; exact this
  refine ⟨?_, ?_, ?_⟩
  · have e' := congrArg (fun a : NodeRec =>
      { a with text := m.text, title := m.title, kids := m.kids, parent := m.parent }) e
    have e2 : m = { n with text := m.text, title := m.title, kids := m.kids, parent := m.parent } := e'
    rw [hp] at e2
    exact e2
  · intro hn
    simpa [dropText, unescAttrs, hc, hn] using hx
  · rw [ht]
    simp only [unescAttrs, unesc_eq]
    rfl

/-- **C57.** Normalisation removes exactly the texts that directly follow a text.  All other nodes
stay, in the same order and under the same parent, with all their attributes, except that texts may
change and that the titles of sections and of the manuscript are unescaped. -/
theorem C57_nodes_kept {h h' : Heap} {root : Ref} {t : Tree} (D : Doc h root t) {fuel : Nat}
    (hfuel : 4 * t.size < fuel) (hrun : normalizeText fuel root h = .ok () h') :
    ∃ t', Doc h' root t' ∧
      (∀ x, (x ∈ t'.pre ∧ x < h.next) ↔ (x ∈ t.pre ∧ ¬ FollowsText h x)) ∧
      (t'.pre.filter (· < h.next)).Sublist t.pre ∧
      (∀ x ∈ t'.pre, x < h.next → h'.parent x = h.parent x ∧ ∃ ks text title,
        h'.get x = { h.get x with kids := ks, text := text, title := title } ∧
        (h.isInst x .Text = false → text = (h.get x).text) ∧
        title = if h.isInst x .Section || h.isInst x .Manuscript then readAs false (h.get x).title
          else (h.get x).title) ∧
      (∀ x, x < h.next → x ∉ t.pre → h'.children x = h.children x ∧
        ∃ ks, h'.get x = { h.get x with kids := ks }) := by
  obtain ⟨t5, N, H, D', F⟩ := run_inv D hfuel hrun
  have hk := N.kept none
  simp only [recsL, List.append_nil, List.flatMap_cons, List.flatMap_nil] at hk
  have hrefs : (label h t).refs = t.pre := by rw [← pre_tree, tree_label]
  have hall : old h.next (kept none (label h t)) = kept none (label h t) := by
    rw [old, List.filter_eq_self]
    intro r hr
    have hm : r.1 ∈ (kept none (label h t)).map (·.1) := List.mem_map.mpr ⟨r, hr, rfl⟩
    have := (kept_sublist none (label h t)).subset hm
    rw [hrefs] at this
    simpa using D.bound _ this
  rw [hall] at hk
  have hfst : t5.tree.pre.filter (· < h.next) = (kept none (label h t)).map (·.1) := by
    rw [← hk, old, pre_tree, ← recs_fst none t5, List.filter_map]
    rfl
  have G := good_label D
  have Hl : Holds h none (label h t) := G.holds _ (by simp)
  have hmem : ∀ x, (x ∈ t5.tree.pre ∧ x < h.next) ↔ x ∈ (kept none (label h t)).map (·.1) := by
    intro x
    rw [← hfst]; simp
  refine ⟨t5.tree, D', ?_, ?_, ?_, ?_⟩
  · intro x
    rw [hmem, kept_iff (label h t) Hl G.head x, ← hrefs]
    have hr : (label h t).refs = (label h t).root :: refsL (label h t).kids := by
      cases label h t; rfl
    rw [hr, List.mem_cons]
    have hroot : ¬ FollowsText h (label h t).root := by
      rintro ⟨p, a, h1, _⟩
      rw [Hl.parent] at h1; cases h1
    constructor
    · rintro (rfl | ⟨a, b⟩)
      · exact ⟨.inl rfl, hroot⟩
      · exact ⟨.inr a, b⟩
    · rintro ⟨rfl | a, b⟩
      · exact .inl rfl
      · exact .inr ⟨a, b⟩
  · rw [hfst, ← hrefs]; exact kept_sublist _ _
  · intro x hx hn
    obtain ⟨r, hr, rfl⟩ := List.mem_map.mp ((hmem x).mp ⟨hx, hn⟩)
    have hr' : r ∈ recs none t5 := by
      rw [← hk, old] at hr
      exact (List.mem_filter.mp hr).1
    obtain ⟨a1, a2⟩ := kept_mem (label h t) Hl r hr
    obtain ⟨b1, b2⟩ := recs_mem t5 H r hr'
    refine ⟨by rw [b1, a1], (h'.get r.1).kids, (h'.get r.1).text, (h'.get r.1).title, ?_⟩
    have e : dropText (bare (h'.get r.1)) = dropText (unescAttrs (bare (h.get r.1))) := b2.symm.trans a2
    have hp : (h'.get r.1).parent = (h.get r.1).parent := b1.trans a1.symm
    exact restore e hp
  · intro x hx hn
    have s := F.same x hx hn (by simp)
    have e := congrArg (fun a : NodeRec =>
      { a with kids := (h'.get x).kids, parent := (h'.get x).parent }) s.attrs
    have e2 : h'.get x = { h.get x with kids := (h'.get x).kids, parent := (h'.get x).parent } := e
    rw [show (h'.get x).parent = (h.get x).parent from s.parent] at e2
    exact ⟨s.children, _, e2⟩

/-- Not vacuous: the sample document before and after. -/
example : FollowsText normHeap 3 ∧ normTree.pre = [0, 1, 2, 3, 4, 5, 6, 7, 8] ∧
    ∃ h', normalizeText 40 0 normHeap = .ok () h' ∧
      h'.children 0 = [1] ∧ h'.children 1 = [2, 4, 9, 6, 8] ∧ (h'.get 0).title = "A:b".toList :=
  ⟨⟨1, 2, rfl, ⟨[], [4, 6, 8], rfl⟩, by decide, by decide⟩, by decide, _, rfl, by decide +kernel,
    by decide +kernel, by decide +kernel⟩

/-! ## C58: what is new -/

/-- The nodes that normalisation adds, and their records. -/
theorem new_nodes {h h' : Heap} {root : Ref} {t : Tree} (D : Doc h root t) {fuel : Nat}
    (hfuel : 4 * t.size < fuel) (hrun : normalizeText fuel root h = .ok () h') :
    ∃ t', Doc h' root t' ∧ ∀ x ∈ t'.pre, h.next ≤ x →
      (((h'.get x).cls = .Text ∧ (h'.get x).text = [' ']) ∨ (h'.get x).cls = .Keyword ∨
      ((h'.get x).cls = .Text ∧ ∃ k, h'.parent x = some k ∧ h.next ≤ k ∧ (h'.get k).cls = .Keyword)) ∧
      ∃ w, bare (h'.get x) = bare { NodeRec.new (h'.get x).cls with text := w } := by
  obtain ⟨t5, N, H, D', _⟩ := run_inv D hfuel hrun
  refine ⟨t5.tree, D', fun x hx hn => ?_⟩
  rw [pre_tree] at hx
  have hin : ∀ s ∈ [label h t], In h.next s := by
    intro s hs
    simp only [List.mem_singleton] at hs
    subst hs
    refine .old fun x hx => ?_
    rw [← pre_tree, tree_label] at hx
    exact D.bound x hx
  exact out_new t5 H (N.allOut hin t5 (by simp)) x hx hn

/-- **C58.** The only nodes that normalisation adds are blanks, keywords, and the texts of these
keywords. -/
theorem C58_new_nodes {h h' : Heap} {root : Ref} {t : Tree} (D : Doc h root t) {fuel : Nat}
    (hfuel : 4 * t.size < fuel) (hrun : normalizeText fuel root h = .ok () h') :
    ∃ t', Doc h' root t' ∧ ∀ x ∈ t'.pre, h.next ≤ x →
      ((h'.get x).cls = .Text ∧ (h'.get x).text = [' ']) ∨ (h'.get x).cls = .Keyword ∨
      ((h'.get x).cls = .Text ∧ ∃ k, h'.parent x = some k ∧ h.next ≤ k ∧ (h'.get k).cls = .Keyword) := by
  obtain ⟨t', D', hn⟩ := new_nodes D hfuel hrun
  exact ⟨t', D', fun x hx h => (hn x hx h).1⟩

/-- Not vacuous: the sample document gets the blank 9, the keyword 10 and its text 11. -/
example : ∃ h', normalizeText 40 0 normHeap = .ok () h' ∧ h'.next = 12 ∧ (h'.get 9).text = [' '] ∧
    (h'.get 10).cls = .Keyword ∧ h'.parent 11 = some 10 :=
  ⟨_, rfl, by decide +kernel, by decide +kernel, by decide +kernel, by decide +kernel⟩

/-! ## C52: the visible text -/

/-- **C52, for every document.** The non-blank characters that the old texts show after
normalisation, in document order, are those of the texts before, each run of consecutive texts read
as its first text says. -/
theorem C52_ink_by_runs {h h' : Heap} {root : Ref} {t : Tree} (D : Doc h root t) {fuel : Nat}
    (hfuel : 4 * t.size < fuel) (hrun : normalizeText fuel root h = .ok () h') :
    ∃ t', Doc h' root t' ∧
      (t'.pre.filter (· < h.next)).flatMap (shownInk h') = readTree h t := by
  obtain ⟨t5, N, H, D', _⟩ := run_inv D hfuel hrun
  refine ⟨t5.tree, D', ?_⟩
  have := N.read
  simp only [shownL, List.append_nil, List.flatMap_cons, List.flatMap_nil] at this
  rw [shownT_eq t5 H, readT_label t D.bound] at this
  rw [pre_tree]
  exact this

/-- **C52.** If no verbatim text stands directly beside a text that is not verbatim, the non-blank
characters of the texts, in document order, are the same after normalisation as before, but for the
backslashes that escape and for the new nodes (which are blanks and keywords, C58). -/
theorem C52_visible_text {h h' : Heap} {root : Ref} {t : Tree} (D : Doc h root t) {fuel : Nat}
    (hfuel : 4 * t.size < fuel) (hrun : normalizeText fuel root h = .ok () h') (hu : UniformRuns h t) :
    ∃ t', Doc h' root t' ∧
      (t'.pre.filter (· < h.next)).flatMap (shownInk h') = t.pre.flatMap (readInk h) := by
  obtain ⟨t', D', e⟩ := C52_ink_by_runs D hfuel hrun
  exact ⟨t', D', by rw [e, readTree_uniform t D.tree hu]⟩

/-- Not vacuous: what the sample document reads. -/
example : UniformRuns normHeap normTree ∧ normTree.pre.flatMap (readInk normHeap) = "Hiw:xsyend".toList :=
  ⟨norm_uniform, by decide +kernel⟩

/-- A paragraph 0 with a text 1 and a verbatim text 2. -/
def verbatimHeap : Heap where
  next := 3
  get := fun r => match r with
    | 0 => { NodeRec.new .Paragraph with kids := [1, 2] }
    | 1 => { NodeRec.new .Text with parent := some 0, text := "a".toList }
    | 2 => { NodeRec.new .Text with parent := some 0, text := "b\\:c".toList, asis := true }
    | _ => NodeRec.new .Node

/-- The code does not meet the plain statement: a verbatim text after a text that is not verbatim
loses its backslashes, although it would keep them if it stood alone. -/
theorem C52_verbatim_unescaped :
    (∃ h', normalizeText 20 0 verbatimHeap = .ok () h' ∧ h'.children 0 = [1] ∧
      (h'.get 1).text = "a b:c".toList) ∧
    [0, 1, 2].flatMap (readInk verbatimHeap) = "ab\\:c".toList :=
  ⟨⟨_, rfl, by decide +kernel, by decide +kernel⟩, by decide +kernel⟩

/-- A construct 0 of kind `let` that begins with a span 1 around a text 2. -/
def spanHeap : Heap where
  next := 3
  get := fun r => match r with
    | 0 => { NodeRec.new .Construct with kids := [1], kind := "let".toList }
    | 1 => { NodeRec.new .Span with parent := some 0, kids := [2] }
    | 2 => { NodeRec.new .Text with parent := some 1, text := "b".toList }
    | _ => NodeRec.new .Node

/-- A span directly after the keyword of a construct is not set apart from it. -/
theorem C61_no_blank_before_span :
    ∃ h', normalizeText 20 0 spanHeap = .ok () h' ∧ h'.children 0 = [3, 1] ∧
      (h'.get 3).cls = .Keyword ∧ (h'.get 2).text = "b".toList :=
  ⟨_, rfl, by decide +kernel, by decide +kernel, by decide +kernel⟩

end Normalize
end RSM
