import Verif.Lemmas.ParserInput
import Verif.Lemmas.Presentable

/-! Manuscripts of which a page can be made (helper lemmas). -/

namespace RSM
namespace Parser
open PyM Nodes Heap Tr

theorem core_template {a b : NodeRec} (h : core a = core b) : a.reftextTemplate = b.reftextTemplate := by
  have : (core a).reftextTemplate = (core b).reftextTemplate := by rw [h]
  exact this

theorem classOf_of_table {kind : Str} {k : Str} {cl : Cls} (h : classOf kind = cl) (h1 : cl ≠ .Error) (h2 : cl ≠ .Bibitem)
    (h3 : cl ≠ .Node) (ht : ∀ q ∈ classTable, q.2 = cl → q.1 = k) : kind = k := by
  unfold classOf at h
  split at h
  · exact absurd h.symm h1
  split at h
  · exact absurd h.symm h2
  cases hl : classTable.lookup kind with
  | none => rw [hl] at h; exact absurd h.symm h3
  | some c =>
    rw [hl] at h
    exact ht _ (mem_of_lookup hl) h

theorem classOf_none {kind : Str} {cl : Cls} (h1 : cl ≠ .Error) (h2 : cl ≠ .Bibitem)
    (h3 : cl ≠ .Node) (ht : ∀ q ∈ classTable, q.2 ≠ cl) : classOf kind ≠ cl := by
  intro h
  unfold classOf at h
  split at h
  · exact absurd h.symm h1
  split at h
  · exact absurd h.symm h2
  cases hl : classTable.lookup kind with
  | none => rw [hl] at h; exact absurd h.symm h3
  | some c =>
    rw [hl] at h
    exact ht _ (mem_of_lookup hl) h

theorem entry_facts {d : Cst} {n : NodeRec} (h : bibRecord d = .ok n) (hd : EntryFine d) :
    (∃ y, n.year = .str y) ∧ FineTemplate n.reftextTemplate := by
  constructor
  · have he := bibRecord_entry h
    have : (entryR n).year = (entryLook d).year := by rw [he]
    have : n.year = ((entryField d "year".toList).map PyNum.str).getD (.int (-1)) := this
    cases hy : entryField d "year".toList with
    | none => exact absurd hy hd.1
    | some y => rw [hy] at this; exact ⟨y, this⟩
  · have he := bibRecord_look h
    have : (lookR (Normalize.unescAttrs n)).template = (lookOf "bibitem".toList d).template := by rw [he]
    rw [show n.reftextTemplate = _ from this]
    exact hd.2

variable {hr : Bool} {c : Cst}

/-- What is known of a node of the manuscript. -/
def PageFacts (hr : Bool) (a : NodeRec) : Prop :=
  FineTemplate a.reftextTemplate ∧ (a.cls = .URL → ∃ ch l, a.target = .str (ch :: l)) ∧
    (hr = true → a.cls = .Author → a.name ≠ [] ∨ a.affiliation ≠ [] ∨ a.email ≠ []) ∧
    (a.cls.isSub .Bibitem = true → ∃ y, a.year = .str y) ∧
    a.cls ≠ .Reference ∧ a.cls ≠ .Cite ∧ (a.cls = .Step → a.mustCloseP = false)

theorem pageFacts_plain {a b : NodeRec} {cl : Cls} (h1 : a.cls = cl) (h2 : core a = core b) (h3 : b.reftextTemplate = cl.classreftext)
    (h4 : cl ∉ [.URL, .Author, .Reference, .Cite, .Step, .Bibitem, .UnknownBibitem]) : PageFacts hr a := by
  unfold PageFacts
  rw [h1]
  refine ⟨by rw [core_template h2, h3]; exact classreftext_fine cl, ?_⟩
  have hb : cl.isSub .Bibitem = true → False := by
    intro hs
    revert h4 hs
    cases cl <;> decide
  simp only [List.mem_cons, List.not_mem_nil, or_false, not_or] at h4
  obtain ⟨c1, c2, c3, c4, c5, _⟩ := h4
  exact ⟨fun e => absurd e c1, fun _ e => absurd e c2, fun e => (hb e).elim, c3, c4, fun e => absurd e c5⟩

theorem pageFacts_entry {a n : NodeRec} {d : Cst} (h1 : core a = core n) (h2 : bibRecord d = .ok n) (h3 : EntryFine d) :
    PageFacts hr a := by
  have hc : a.cls = .Bibitem := (core_cls h1).trans (bibRecord_ok h2).2
  obtain ⟨⟨y, hy⟩, ht⟩ := entry_facts h2 h3
  unfold PageFacts
  rw [hc]
  refine ⟨by rw [core_template h1]; exact ht, nofun, fun _ => nofun, fun _ => ⟨y, ?_⟩, nofun, nofun, nofun⟩
  have : (core a).year = (core n).year := by rw [h1]
  exact (show a.year = n.year from this).trans hy

theorem given_page {p : Cls} {a : NodeRec} (P : PageSource hr c) (g : Given (walks (sourceParts c)) p a) : PageFacts hr a := by
  cases g with
  | added h1 h2 =>
    refine pageFacts_plain rfl h2 rfl ?_
    rcases h1 with h1 | h1 <;> rw [h1] <;> decide
  | bibliography h1 => exact pageFacts_plain (core_cls h1) h1 rfl (by decide)
  | entry _ h1 h2 h3 =>
    obtain ⟨l, hl, hd⟩ := h1
    exact pageFacts_entry h3 h2 (P.entries l hl _ hd)
  | @made n ks _ _ h3 _ h5 =>
    cases h3 with
    | @part kind d ps _ _ g1 g2 g3 g4 _ =>
      have hc : a.cls = classOf kind := (core_cls h5).trans g2
      have hl : ∀ {β : Type} (f : Look → β), f (lookR (Normalize.unescAttrs n)) = f (lookOf kind d) := fun f => by rw [g3]
      have ht : n.reftextTemplate = _ := hl Look.template
      have hg : n.target = _ := hl Look.target
      have hn : n.name = _ := hl Look.name
      have ha : n.affiliation = _ := hl Look.affiliation
      have he : n.email = _ := hl Look.email
      have e1 : a.name = n.name := by
        have : (core a).name = (core n).name := by rw [h5]
        exact this
      have e2 : a.affiliation = n.affiliation := by
        have : (core a).affiliation = (core n).affiliation := by rw [h5]
        exact this
      have e3 : a.email = n.email := by
        have : (core a).email = (core n).email := by rw [h5]
        exact this
      have e4 : a.mustCloseP = n.mustCloseP := by
        have : (core a).mustCloseP = (core n).mustCloseP := by rw [h5]
        exact this
      have n4 := (Bool.or_eq_false_iff.mp g4.1.1).1
      refine ⟨?_, ?_, ?_, ?_, ?_, ?_, ?_⟩
      · rw [core_template h5, ht]
        exact P.templates kind d ps g1
      · intro hu
        have hk : kind = "url".toList := classOf_of_table (hc.symm.trans hu) (by decide) (by decide) (by decide) (by decide +kernel)
        obtain ⟨ch, l, e⟩ := P.links kind d ps g1 hk
        refine ⟨ch, l, ?_⟩
        rw [core_target h5, hg]
        unfold lookOf
        rw [if_neg g4.2.1]
        exact e
      · intro hh hu
        have hk : kind = "author".toList := classOf_of_table (hc.symm.trans hu) (by decide) (by decide) (by decide) (by decide +kernel)
        rw [e1, e2, e3, hn, ha, he]
        exact P.authors hh kind d ps g1 hk
      · intro hb
        exfalso
        rw [hc] at hb
        unfold classOf at hb
        split at hb
        · exact absurd hb (by decide)
        rw [if_neg g4.2.1] at hb
        cases hl : classTable.lookup kind with
        | none => rw [hl] at hb; exact absurd hb (by decide)
        | some cl =>
          rw [hl] at hb
          have : ∀ q ∈ classTable, q.2.isSub .Bibitem = false := by decide +kernel
          rw [show (some cl).getD Cls.Node = cl from rfl, this _ (mem_of_lookup hl)] at hb
          cases hb
      · rw [hc]; exact classOf_none (by decide) (by decide) (by decide) (by decide +kernel)
      · rw [hc]; exact classOf_none (by decide) (by decide) (by decide) (by decide +kernel)
      · intro _; rw [e4]; exact n4
    | claim => exact pageFacts_plain (cl := .ClaimBlock) (core_cls h5) h5 rfl (by decide)
    | asis h _ ht => exact pageFacts_plain ((core_cls h5).trans h) h5 ht (by decide)
    | code _ _ h ht => exact pageFacts_plain ((core_cls h5).trans h) h5 ht.1 (by decide)
    | entry h1 h2 => exact pageFacts_entry h5 h2 (P.strays _ _ _ h1 rfl)

/-! ## Where display formulas stand -/

section
variable {h : Heap} {src : List Part}

theorem formulasInL_append {p : Cls} : ∀ {xs ys : List Outline},
    formulasInL p (xs ++ ys) = (formulasInL p xs && formulasInL p ys)
  | [], ys => by rw [formulasInL]; simp
  | x :: xs, ys => by rw [List.cons_append, formulasInL, formulasInL, formulasInL_append, Bool.and_assoc]

/-- The node is no display formula, or stands where it should. -/
def Stands (h : Heap) (pc : Cls) (p : Option Ref) (x : Ref) : Prop :=
  (h.get x).cls = .MathBlock →
    (h.parent x = p ∧ pc.isSub .Paragraph = true ∧ pc ≠ .Step) ∨
    ∃ q, h.parent x = some q ∧ h.isInst q .Paragraph = true ∧ (h.get q).cls ≠ .Step

mutual
theorem stands_tree : ∀ {t : Tree} {p : Option Ref} {pc : Cls}, IsTree h p t → AllGiven h src t.pre →
    formulasInL pc (outlineOf h t) = true → ∀ x ∈ t.pre, Stands h pc p x
  | .node i ks, p, pc, T, G, hn, x, hx => by
    have T' := T
    rw [IsTree] at T'
    have Gk : AllGiven h src (Tree.preL ks) := fun y hy => G y (by rw [Tree.pre]; exact List.mem_cons_of_mem _ hy)
    rw [outlineOf] at hn
    by_cases hl : h.isInst i .Text = true ∨ (h.get i).cls = .Keyword ∨ (h.get i).cls = .Bibliography
    · have hu := unseen_tree T G (by
        show Unseen (h.get i).cls
        rcases hl with hl | hl | hl
        · exact .inl hl
        · exact .inr (.inl hl)
        · exact .inr (.inr (.inl hl))) x hx
      intro hc
      rw [hc] at hu
      exact absurd hu (by decide)
    rw [if_neg hl, formulasInL, formulasInL, Bool.and_true, formulasIn] at hn
    simp only [Bool.and_eq_true] at hn
    obtain ⟨h1, h2⟩ := hn
    rw [Tree.pre, List.mem_cons] at hx
    rcases hx with rfl | hx
    · intro hc
      have e : (look h x).cls = (h.get x).cls := rfl
      rw [e, hc] at h1
      simp only [ne_eq, not_true_eq_false, decide_false, Bool.false_or, Bool.and_eq_true, decide_eq_true_eq] at h1
      exact .inl ⟨T'.1, h1⟩
    · intro hc
      rcases stands_forest T'.2.2 Gk h2 x hx hc with ⟨g1, g2, g3⟩ | g
      · exact .inr ⟨i, g1, g2, g3⟩
      · exact .inr g
theorem stands_forest : ∀ {ts : List Tree} {p : Option Ref} {pc : Cls}, IsForest h p ts → AllGiven h src (Tree.preL ts) →
    formulasInL pc (outlinesOf h ts) = true → ∀ x ∈ Tree.preL ts, Stands h pc p x
  | [], p, pc, T, G, hn, x, hx => by rw [Tree.preL] at hx; cases hx
  | t :: ts, p, pc, T, G, hn, x, hx => by
    rw [IsForest] at T
    rw [Tree.preL] at G hx
    rw [outlinesOf, formulasInL_append, Bool.and_eq_true] at hn
    rcases List.mem_append.mp hx with hx | hx
    · exact stands_tree T.1 (fun y hy => G y (List.mem_append_left _ hy)) hn.1 x hx
    · exact stands_forest T.2 (fun y hy => G y (List.mem_append_right _ hy)) hn.2 x hx
end
end

theorem root_look {h : Heap} {r : Ref} {t : Tree} (D : Doc h r t) (hM : (h.get r).cls = .Manuscript)
    (ho : outlineOf h t = [sourceOutline c]) : look h r = lookOf "source_file".toList c := by
  obtain ⟨i, ks⟩ := t
  have hi : i = r := D.root_eq
  subst hi
  rw [outlineOf, if_neg (by unfold Heap.isInst; rw [hM]; decide)] at ho
  unfold sourceOutline at ho
  injection ho with ho _
  injection ho

/-- Where labels come from. -/
theorem given_label {src : List Part} {p : Cls} {a : NodeRec} (g : Given src p a) :
    a.cls = .Bibitem ∨ a.label = [] ∨
    ∃ kind d ps, .node kind d ps ∈ src ∧ kind ≠ "bibitem".toList ∧ a.label = (lookOf kind d).label := by
  cases g with
  | added _ h => exact .inr (.inl ((core_label h).trans rfl))
  | bibliography h => exact .inr (.inl ((core_label h).trans rfl))
  | entry _ _ h2 h3 => exact .inl ((core_cls h3).trans (bibRecord_ok h2).2)
  | @made n ks _ _ h3 _ h5 =>
    cases h3 with
    | @part kind d ps _ _ g1 g2 g3 g4 _ =>
      have e1 : n.label = (lookOf kind d).label := by rw [← g3]; rfl
      exact .inr (.inr ⟨kind, d, ps, g1, g4.2.1, (core_label h5).trans e1⟩)
    | claim => exact .inr (.inl ((core_label h5).trans rfl))
    | asis _ h => exact .inr (.inl ((core_label h5).trans h))
    | code _ _ _ h => exact .inr (.inl ((core_label h5).trans h.2))
    | entry _ h2 => exact .inl ((core_cls h5).trans (bibRecord_ok h2).2)

/-- Where citations come from. -/
theorem given_cites {src : List Part} {p : Cls} {a : NodeRec} (g : Given src p a) (hc : a.cls = .PendingCite) :
    ∃ d ps, .node "cite".toList d ps ∈ src ∧ a.targetlabels = citesOf "cite".toList d := by
  cases g with
  | added h => rcases h with h | h <;> rw [hc] at h <;> cases h
  | bibliography h => have := core_cls h; rw [hc] at this; cases this
  | entry _ _ h2 h3 => have := (core_cls h3).trans (bibRecord_ok h2).2; rw [hc] at this; cases this
  | @made n ks _ _ h3 _ h5 =>
    have hn := core_cls h5
    rw [hc] at hn
    cases h3 with
    | @part kind d ps _ _ g1 g2 g3 g4 _ =>
      have hk : kind = "cite".toList :=
        classOf_of_table (g2.symm.trans hn.symm) (by decide) (by decide) (by decide) (by decide +kernel)
      have e1 : n.targetlabels = (lookOf kind d).cites := by rw [← g3]; rfl
      have e2 : a.targetlabels = n.targetlabels := by
        have : (core a).targetlabels = (core n).targetlabels := by rw [h5]
        exact this
      have e3 : (lookOf kind d).cites = citesOf kind d := by unfold lookOf; rw [if_neg g4.2.1]
      subst hk
      exact ⟨d, ps, g1, e2.trans (e1.trans e3)⟩
    | claim => cases hn
    | asis h => rw [← hn] at h; cases h
    | code _ _ h _ => rw [← hn] at h; cases h
    | entry _ h2 => rw [(bibRecord_ok h2).2] at hn; cases hn

/-- If what is cited are entries, then what carries a cited label is an entry. -/
theorem parse_cites {fuel : Nat} {s s' : ParserState} {r : Ref} {t : Tree} (S : Source c) (F : Forest s.heap)
    (hf : 12 * c.size < fuel) (h : parse fuel c s = .ok r s') (D : Doc s'.heap r t)
    (ho : outlineOf s'.heap t = [sourceOutline c]) (hC : CitesEntries c) {x y : Ref} {l : Str} (hx : x ∈ t.pre)
    (hy : y ∈ t.pre) (hc : (s'.heap.get x).cls = .PendingCite) (hl : l ∈ (s'.heap.get x).targetlabels) (hn : l ≠ [])
    (hyl : (s'.heap.get y).label = l) : (s'.heap.get y).cls = .Bibitem := by
  obtain ⟨G, -, -, hM⟩ := parse_given S F hf h D
  have hxr : x ≠ r := fun e => by rw [e, hM] at hc; cases hc
  obtain ⟨q, _, hq, _⟩ := D.parent_mem hx hxr
  obtain ⟨d, ps, g1, g2⟩ := given_cites (G x hx q hq) hc
  obtain ⟨k1, k2⟩ := hC d ps g1 l (g2 ▸ hl)
  by_cases hyr : y = r
  · have : (look s'.heap r).label = _ := congrArg Look.label (root_look D hM ho)
    exact absurd ((show (s'.heap.get r).label = _ from this) ▸ hyr ▸ hyl).symm k1
  · obtain ⟨q', _, hq', _⟩ := D.parent_mem hy hyr
    rcases given_label (G y hy q' hq') with g | g | ⟨kind, e, qs, g3, g4, g5⟩
    · exact g
    · exact absurd (hyl.symm.trans g) hn
    · exact absurd (hyl.symm.trans g5) (k2 kind e qs g3 g4)


/-- Where the nodes of the manuscript come from tells what they are not. -/
theorem given_asParsed {src : List Part} {p : Cls} {a : NodeRec} (g : Given src p a) :
    a.cls ∉ [.Node, .NodeWithChildren, .Heading, .BaseParagraph, .BaseReference, .Reference, .Cite, .UnknownBibitem] ∧
    (a.cls = .URL → ∀ y, a.target ≠ .node y) ∧ (a.cls.isSub .Paragraph = true → a.mustCloseP = false) ∧
    (a.cls = .Math → a.followedByDot = false) := by
  by_cases hc : a.cls ∈ [.Text, .Keyword, .Bibliography, .Bibitem, .SourceCode, .ClaimBlock]
  · simp only [List.mem_cons, List.not_mem_nil, or_false] at hc
    rcases hc with hc | hc | hc | hc | hc | hc <;> rw [hc] <;> exact ⟨by decide, nofun, fun h => absurd h (by decide), nofun⟩
  · obtain ⟨kind, d, ps, -, h2, -, h4, h5, h6⟩ := g.of_part hc
    refine ⟨fun h => ?_, fun _ y hy => ?_, fun _ => h5.1, fun _ => h5.2⟩
    · have key : ∀ cl, cl ∈ [Cls.NodeWithChildren, .Heading, .BaseParagraph, .BaseReference, .Reference, .Cite, .UnknownBibitem] →
          a.cls ≠ cl := by
        intro cl hcl e
        rw [h2] at e
        have ht : ∀ cl ∈ [Cls.NodeWithChildren, .Heading, .BaseParagraph, .BaseReference, .Reference, .Cite, .UnknownBibitem],
          cl ≠ .Error ∧ cl ≠ .Bibitem ∧ cl ≠ .Node ∧ ∀ q ∈ classTable, q.2 ≠ cl := by decide +kernel
        obtain ⟨t1, t2, t3, t4⟩ := ht cl hcl
        exact classOf_none t1 t2 t3 t4 e
      rcases List.mem_cons.mp h with h | h
      · exact h6 h
      · exact key _ h rfl
    · rw [h4] at hy
      unfold lookOf at hy
      split at hy
      · cases hy
      · have : targetOf kind d = .node y := hy
        unfold targetOf at this
        repeat' split at this
        · cases h : d.namedChildren[1]? with
          | none => rw [h] at this; cases this
          | some v => rw [h] at this; cases this
        all_goals cases this

/-- The parser leaves the manuscript as the parser leaves manuscripts. -/
theorem parse_asParsed {fuel : Nat} {s s' : ParserState} {r : Ref} {t : Tree} (S : Source c) (F : Forest s.heap)
    (hf : 12 * c.size < fuel) (h : parse fuel c s = .ok r s') (D : Doc s'.heap r t) : AsParsed s'.heap t := by
  obtain ⟨G, -, -, hM⟩ := parse_given S F hf h D
  intro x hx
  by_cases hxr : x = r
  · rw [hxr, hM]; exact ⟨by decide, nofun, fun h => absurd h (by decide), nofun⟩
  · obtain ⟨q, _, hq, _⟩ := D.parent_mem hx hxr
    exact given_asParsed (G x hx q hq)

/-- The manuscript of a source that is as it should be, is as it should be. -/
theorem parse_presentable {fuel : Nat} {s s' : ParserState} {r : Ref} {t : Tree} (S : Source c) (F : Forest s.heap)
    (hf : 12 * c.size < fuel) (h : parse fuel c s = .ok r s') (D : Doc s'.heap r t)
    (ho : outlineOf s'.heap t = [sourceOutline c]) (P : PageSource hr c) :
    Presentable hr s'.heap t ∧ AsParsed s'.heap t := by
  obtain ⟨G, -, -, hM⟩ := parse_given S F hf h D
  have G : AllGiven s'.heap (walks (sourceParts c)) t.pre := G
  have up : ∀ x ∈ t.pre, (s'.heap.get x).cls ≠ .Manuscript → ∃ q, Given (walks (sourceParts c)) q (s'.heap.get x) := by
    intro x hx hc
    by_cases hr : x = r
    · rw [hr] at hc; exact absurd hM hc
    · obtain ⟨q, _, hq, _⟩ := D.parent_mem hx hr
      exact ⟨_, G x hx q hq⟩
  refine ⟨⟨?_, ?_, ?_, ?_, ?_, ?_⟩, parse_asParsed S F hf h D⟩
  · intro hh x hx hc
    have hs := stands_tree (pc := .Node) D.tree G (by rw [ho, formulasInL, formulasInL, Bool.and_true]; exact P.formulas hh) x hx hc
    rcases hs with ⟨_, hs, _⟩ | hs
    · exact absurd hs (by decide)
    · exact hs
  · intro x hx hc
    obtain ⟨q, g⟩ := up x hx (by rw [hc]; decide)
    exact (given_page P g).2.1 hc
  · intro x hx hc
    obtain ⟨q, g⟩ := up x hx (fun e => by rw [e] at hc; exact absurd hc (by decide))
    exact (given_page P g).2.2.2.1 hc
  · intro hh x hx hc
    obtain ⟨q, g⟩ := up x hx (by rw [hc]; decide)
    exact (given_page P g).2.2.1 hh hc
  · intro x hx hc
    have hne : x ≠ r := fun e => by rw [e, hM] at hc; cases hc
    obtain ⟨q, _, hq, _⟩ := D.parent_mem hx hne
    rw [hq]; exact nofun
  · intro x hx
    by_cases hxr : x = r
    · have hl : look s'.heap r = lookOf "source_file".toList c := root_look D hM ho
      have : (look s'.heap r).template = _ := congrArg Look.template hl
      rw [hxr, show (s'.heap.get r).reftextTemplate = _ from this]
      exact P.template
    · obtain ⟨q, _, hq, _⟩ := D.parent_mem hx hxr
      exact (given_page P (G x hx q hq)).1

end Parser
end RSM
