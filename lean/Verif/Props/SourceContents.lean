import Verif.Lemmas.ContentsRun
import Verif.Lemmas.ContentsPage
import Verif.Props.SourceSteps

/-!
# C93: the table of contents of a page has the sections of the source
-/

namespace RSM
namespace Parser
open PyM Tr Html Transformer

variable {c : Cst} {fuel fuel' : Nat} {s s1 : ParserState} {r : Ref} {t : Tree} {log : List TWarning} {s2 : TState}
  {k : Conf} {s3 : TrState} {page l : Str}

/-- The places of a source are the nodes of the manuscript that show in the source, in this order. -/
theorem placed_all (S : Source c) (F : Forest s.heap) (hf : 12 * c.size < fuel) (h : parse fuel c s = .ok r s1)
    (hU : ErrorsUnlabelled c) (hT : TocFine c) (D : Doc s1.heap r t) (hf' : 12 * t.size < fuel')
    (h2 : transform fuel' r { heap := s1.heap, log := log } = .ok () s2) :
    List.Forall₂ (fun p x => x ∈ t.pre ∧ Seat s1.heap (seen s1.heap t) x (p.look, p.before) ∧
      (counted p.look = true → p.look.cls.numberAs ≠ .Bibitem → FullNumber s2.heap x (some p.number) ∧
        (s2.heap.get x).number.truthy = true))
      (sourcePlaces c) (seen s1.heap t) := by
  have hlooks : sourceLooks c = (seen s1.heap t).map (look s1.heap) := by
    obtain ⟨_, _, _, _, _, t1, d⟩ := parse_ok S F hf h
    have e := D.unique d.doc
    subst e
    have := looks_seen s1.heap t
    rw [d.outl, looksL, looksL, List.append_nil] at this
    exact this
  have hb := places_before [] [] (sourceOutline c)
  have hlen : (sourceOutline c).looks.length = (seen s1.heap t).length := by
    show (sourceLooks c).length = _
    rw [hlooks, List.length_map]
  refine List.forall₂_iff_get.mpr ⟨?_, ?_⟩
  · have := congrArg List.length hb
    rw [List.length_map, List.length_range', hlen] at this
    exact this
  · intro i h1 h3
    obtain ⟨x, hx, hs, hn⟩ := placed S F hf h hU hT D hf' h2 (List.get_mem (sourcePlaces c) ⟨i, h1⟩)
    have hi : ((sourcePlaces c).get ⟨i, h1⟩).before.length = i := by
      have : ((sourcePlaces c).map (fun p => p.before.length))[i]? = some i := by
        show (((sourceOutline c).places [] []).map _)[i]? = _
        rw [hb, List.getElem?_range' (by rw [hlen]; exact h3)]
        simp
      rw [List.getElem?_map, List.getElem?_eq_getElem h1] at this
      exact Option.some.inj this
    have e : (seen s1.heap t).get ⟨i, h3⟩ = x := by
      obtain ⟨-, B, A, e, hB⟩ := hs
      have hB := congrArg List.length hB
      rw [List.length_map] at hB
      have hB : B.length = i := hB.symm.trans hi
      have : (seen s1.heap t)[i]? = some x := by rw [e, ← hB]; simp
      rw [List.getElem?_eq_getElem h3] at this
      exact Option.some.inj this
    rw [e]
    exact ⟨hx, hs, fun g1 g2 => ⟨(hn g1 g2).1, (hn g1 g2).2.2⟩⟩

/-- What the entry of a section is. -/
def ShownEntry (c : Cst) (p : Place) (piece : Str) : Prop :=
  ∃ l classes text, piece = Html.link classes l text ∧ "reference".toList ∈ classes ∧ (l = p.look.label ∨ l = []) ∧
    ((∀ b ∈ p.before, b.label ≠ p.look.label) → p.look.label ∉ entryLabels c → l = p.look.label) ∧
    (headingText p ≠ [] → text = headingText p)

theorem heading_sec : ∀ c : Cls, (headingLevel c).isSome = true ↔ (c = .Section ∨ c = .Subsection ∨ c = .Subsubsection) := by
  intro c
  cases c <;> decide

/-- The sections have entries, in order. -/
theorem stage_entries (S : Source c) (F : Forest s.heap) (hf : 12 * c.size < fuel) (h : parse fuel c s = .ok r s1)
    (hU : TextsUnlabelled c) (hT : TocFine c) (D : Doc s1.heap r t) (hf' : 12 * t.size < fuel')
    (h2 : transform fuel' r { heap := s1.heap, log := log } = .ok () s2)
    (hk : ∀ t', Doc s2.heap r t' → 2 * t'.size ≤ k.fuel) (h3 : translate k r { heap := s2.heap } = .ok page s3)
    {a : Look} (ha : a ∈ sourceLooks c) (hac : a.cls = .Contents) :
    ∃ pieces, List.Forall₂ (ShownEntry c) (sourceSections c) pieces ∧ InOrder (contentsHeading :: pieces) page := by
  obtain ⟨hS, -, -, hR, hI⟩ := C76_input S F hf h D
  obtain ⟨-, g2, -, -⟩ := parse_labels S F hf h D hU
  obtain ⟨toc, htoc, rfl⟩ := g2 a ha
  obtain ⟨t2, top, zs, D2, hzs, htop, hent⟩ := contents_run (hR hU.errors) hS (hI hT) hf' h2 htoc hac
  obtain ⟨s4, σ, t', R⟩ := passed (hR hU.errors) hS (hI hT) hf' h2
  have N := numbers_run (hR hU.errors) hS (hI hT) hf' h2
  obtain ⟨texts, hv, ord⟩ := translate_ordered (s := { heap := s2.heap }) D2 (hk t2 D2) h3
  obtain ⟨_, hsub, _ | ⟨hv0, hv⟩⟩ := exists_sublist hzs hv
  obtain ⟨v1, vc, v2, w1, w2, rfl⟩ := hv0
  have hshow : contentsHeading <:+: vc.text := contents_shows (by rw [w1.cls]; exact htop) w2
  have hfil := filter_seen (h := s1.heap) (H := Off c s1.heap) (p := fun y => decide (IsSec s1.heap y)) (fun x hx => .inl hx)
    (fun y hy => by
      apply decide_eq_false
      intro hs
      unfold IsSec at hs
      rcases hy with (hy | hy | hy) | ⟨hy, -⟩
      · unfold Heap.isInst at hy
        rcases hs with hs | hs | hs <;> rw [hs] at hy <;> revert hy <;> decide
      all_goals
        rw [hy] at hs
        revert hs; decide) t (off_closed S F hf h D)
  have hpl := List.rel_filter (p := fun p : Place => (headingLevel p.look.cls).isSome) (q := fun y => decide (IsSec s1.heap y))
    (by
      rintro p x ⟨-, hs, -⟩
      have hs1 : p.look = look s1.heap x := hs.1
      show (_ = true) ↔ (_ = true)
      rw [hs1, heading_sec, decide_eq_true_eq]
      exact Iff.rfl) (placed_all S F hf h hU.errors hT D hf' h2)
  rw [← hfil] at hpl
  have hsec := (List.forall₂_and_left (p := fun p : Place => (headingLevel p.look.cls).isSome = true) _ _).mpr
    ⟨fun p hp => (List.mem_filter.mp hp).2, hpl⟩
  have hall := rel_comp hsec (rel_comp hent hv)
  obtain ⟨pieces, g1, g2⟩ := rel_choose (R := ShownEntry c) (S := fun a b => a <:+: b) (hall.imp (by
    rintro p text ⟨x, ⟨hc, hx, hs, hnum⟩, z, ⟨e1, e2, e3⟩, s5, cmd, s6, w1, w2, rfl⟩
    have hs1 : p.look = look s1.heap x := hs.1
    have w : p.look.cls ∈ withNumber := by
      rcases (heading_sec _).mp hc with e | e | e <;> rw [e] <;> decide
    obtain ⟨k1, k2, k3⟩ := N.same x (D.bound x hx)
    have e4 : (s2.heap.get z).overwriteReftext = headingText p := by
      unfold TocText at e3
      unfold headingText
      have q1 : (s2.heap.get x).nonum = p.look.nonum := by rw [k2, hs1]; rfl
      have q2 : (s2.heap.get x).title = p.look.title := by rw [k3, hs1]; rfl
      rw [q1, q2] at e3
      split
      · rename_i hn
        rw [if_pos hn] at e3
        exact e3
      · rename_i hn
        rw [if_neg hn] at e3
        obtain ⟨full, f1, f2⟩ := e3
        obtain ⟨g1, g2⟩ := counted_of w (by simpa using hn)
        have := full_unique f1 (hnum g1 g2).1
        injection this with this
        rw [f2, this]
    obtain ⟨text, classes, l1, l2, -, l4⟩ := reference_link (by rw [w1.cls]; exact e1) (by rw [w1.target]; exact e2) w2
    have l1 := l1.frame w1
    unfold LinkText at l1
    have hxn : x < s4.heap.next := Nat.lt_of_lt_of_le (D.bound x hx) R.next
    have hlab : (s2.heap.get x).label = (s4.heap.get x).label := R.keeps.label x hxn
    have hl1 : (s1.heap.get x).label = p.look.label := by rw [hs1]; rfl
    have hl : (s5.heap.get x).label = (s2.heap.get x).label := w1.label x
    refine ⟨_, ⟨(s5.heap.get x).label, classes, text, rfl, l4, ?_, ?_, ?_⟩, l2.link⟩
    · rw [hl, hlab, ← hl1]
      exact label_after (hR hU.errors) (by omega) R.run hx
    · intro hb he
      rw [hl, hlab]
      by_cases hne : p.look.label = []
      · rcases label_after (hR hU.errors) (by omega) R.run hx with e | e
        · exact e.trans hl1
        · exact e.trans hne.symm
      · exact R.label _ x (first_carries S F hf h D hU hs hx rfl hne hb he)
    · intro hne
      rw [if_pos ⟨by show (s2.heap.get z).cls.isSub _ = true; rw [e1]; decide, by
        show (s2.heap.get z).overwriteReftext ≠ []
        rw [e4]; exact hne⟩] at l1
      exact l1.trans e4))
  exact ⟨pieces, g1, (ord.sublist hsub).parts (.cons hshow g2)⟩

end Parser

namespace Html

theorem hasLink_link {out l text : Str} {classes : List Str} (h : Html.link classes l text <:+: out) : HasLink out [] classes l text := by
  unfold HasLink
  rw [if_neg (by simp), List.append_nil]
  exact h

theorem InOrder.mem : ∀ {ps : List Str} {a p : Str}, InOrder ps a → p ∈ ps → p <:+: a
  | q :: qs, a, p, ⟨u, v, e, h⟩, hp => by
    rcases List.mem_cons.mp hp with rfl | hp
    · exact ⟨u, v, e.symm⟩
    · rw [e]
      exact (h.mem hp).trans (List.suffix_append _ _).isInfix

/-- Pieces without blanks at their ends are on the page in the order of the body. -/
theorem inOrder_page {body : Str} {ps : List Str} (hl : ∀ p ∈ ps, p ≠ [] ∧ (∀ c ∈ p.head?, isSpace c = false) ∧
    ∀ c ∈ p.getLast?, isSpace c = false) (h : InOrder ps body) : InOrder ps (Build.page body) := by
  cases ps with
  | nil => trivial
  | cons p ps =>
    obtain ⟨x, h1, h2, ⟨y, h3⟩, ⟨z, h4⟩⟩ := h.span
    obtain ⟨g1, g2, -⟩ := hl p (by simp)
    obtain ⟨g3, -, g4⟩ := hl _ (List.getLast_mem (l := p :: ps) (by simp))
    refine h2.infix (page_infix ?_ ?_ ?_ h1)
    · rw [← h3, List.head?_append_of_ne_nil _ g1]
      exact g2
    · rw [← h4, List.getLast?_append_of_ne_nil _ g3]
      exact g4
    · rw [← h3]
      exact List.append_ne_nil_of_left_ne_nil g1 _

theorem link_ends (classes : List Str) (l text : Str) : Html.link classes l text ≠ [] ∧
    (∀ c ∈ (Html.link classes l text).head?, isSpace c = false) ∧ ∀ c ∈ (Html.link classes l text).getLast?, isSpace c = false := by
  refine ⟨List.append_ne_nil_of_right_ne_nil _ (by decide), ?_, ?_⟩
  · intro c hc; cases hc; rfl
  · intro c hc
    unfold Html.link at hc
    rw [List.getLast?_append] at hc
    cases hc; rfl

end Html

namespace Program
open PyM LogState Transformer Tree RSM.Parser Tr Html History

variable {o : Outer} {src page l : Str} {hr : Bool} (S : Source (o.sitter src)) (hU : TextsUnlabelled (o.sitter src))
  (hT : TocFine (o.sitter src)) (P : Published o src hr page)
include S hU hT P

/-- **C93.** If the source has a table of contents, then all its sections, subsections and subsubsections have entries on
the page, below the heading of the table, in the order of the source: links with the text of the heading (unless that is empty) to the label of the section;
to nothing, if an earlier thing of the source has the same label, too. -/
theorem C93_entries {a : Look} (ha : a ∈ sourceLooks (o.sitter src)) (hac : a.cls = .Contents) :
    ∃ pieces, InOrder (contentsHeading :: pieces) page ∧ List.Forall₂ (fun p piece => ∃ l classes text, piece = link classes l text ∧
      "reference".toList ∈ classes ∧ (l = p.look.label ∨ l = []) ∧
      ((∀ b ∈ p.before, b.label ≠ p.look.label) → p.look.label ∉ entryLabels (o.sitter src) → l = p.look.label) ∧
      (headingText p ≠ [] → text = headingText p)) (sourceSections (o.sitter src)) pieces := by
  obtain ⟨body, ⟨r, s1, s2, s3, as, p1, p2, p3⟩, hb⟩ := published_staged S hU.errors hT P
  obtain ⟨t, D, hf, hk⟩ := stage (s2 := s2) (hr := hr) (as := as) S p1
  obtain ⟨pieces, h1, h2⟩ := stage_entries (s := { heap := Heap.empty }) S Forest.empty (Nat.lt_succ_self _) p1 hU hT D hf p2 hk p3
    ha hac
  refine ⟨pieces, ?_, h1⟩
  rcases hb with rfl | rfl
  · exact h2
  · refine inOrder_page (fun q hq => ?_) h2
    rcases List.mem_cons.mp hq with rfl | hq
    · refine ⟨by decide, ?_, ?_⟩ <;> (intro c hc; cases hc; rfl)
    · obtain ⟨p, -, l, classes, text, e, -⟩ := Parser.forall₂_right h1 q hq
      rw [e]
      exact link_ends classes l text

/-- **C93.** Hence every section has an entry on the page. -/
theorem C93_entry {a : Look} (ha : a ∈ sourceLooks (o.sitter src)) (hac : a.cls = .Contents) {p : Place} {level : Str}
    (hp : p ∈ sourcePlaces (o.sitter src)) (hc : headingLevel p.look.cls = some level) (hne : headingText p ≠ []) :
    ∃ l classes, HasLink page [] classes l (headingText p) ∧ "reference".toList ∈ classes ∧
      (l = p.look.label ∨ l = []) ∧
      ((∀ b ∈ p.before, b.label ≠ p.look.label) → p.look.label ∉ entryLabels (o.sitter src) → l = p.look.label) := by
  obtain ⟨pieces, h1, h2⟩ := C93_entries S hU hT P ha hac
  obtain ⟨q, hq, l, classes, text, rfl, h4, h5, h6, h7⟩ := Parser.forall₂_right h2.flip p
    (List.mem_filter.mpr ⟨hp, by rw [hc]; rfl⟩)
  exact ⟨l, classes, h7 hne ▸ hasLink_link (h1.mem (.tail _ hq)), h4, h5, h6⟩

omit S hU hT P

/-!
The source of the example:

```
# Title
:toc:
## One {:label: one}
### Inner
## Two {:nonum:}
:appendix:
## More {:label: one}
```
-/

/-- A source with a table of contents, a section without a number, an appendix and a label that is given twice. -/
def outlined : Cst :=
  br 0 "source_file" (text := "the source") [
    br 1 "text" (field := "title") (text := "Title") [],
    br 2 "specialblock" [br 3 "toc" []],
    br 4 "section" [
      br 5 "text" (field := "title") (text := "One") [],
      br 6 "blockmeta" (field := "meta") [
        br 7 "blockmetapair" [br 8 "metakey_text" [br 9 "label" []], br 10 "metaval_text" [] (text := "one")]],
      br 11 "subsection" [br 12 "text" (field := "title") (text := "Inner") []]],
    br 13 "section" [
      br 14 "text" (field := "title") (text := "Two") [],
      br 15 "blockmeta" (field := "meta") [br 16 "blockmetapair" [br 17 "metakey_bool" [br 18 "nonum" []]]]],
    br 19 "specialblock" [br 20 "appendix" []],
    br 21 "section" [
      br 22 "text" (field := "title") (text := "More") [],
      br 23 "blockmeta" (field := "meta") [
        br 24 "blockmetapair" [br 25 "metakey_text" [br 26 "label" []], br 27 "metaval_text" [] (text := "one")]]]]

theorem outlined_wellFormed : WellFormed outlined where
  source := by
    refine ⟨by decide, ?_⟩
    intro x hx y hy
    have : ∀ x ∈ outlined.children, ∀ y ∈ x.nodes, y.type ≠ "source_file".toList := by decide +kernel
    exact this x hx y hy
  metaok := by decide +kernel
  tidy := by decide +kernel
  parts := by decide +kernel
  nesting := by decide +kernel

theorem outlined_texts : TextsUnlabelled outlined := fun kind d ps hm hk => by
  have := parts_all (c := outlined) (f := fun kind d _ => !(classOf kind).isSub .Text || metaText d "label".toList = none)
    (by decide +kernel) kind d ps hm
  rw [hk] at this
  exact of_decide_eq_true this

theorem outlined_tocFine : TocFine outlined := by
  refine fun _ => ⟨?_, by decide +kernel⟩
  intro kind d ps hp hk
  have := parts_all (c := outlined) (f := fun kind _ kids => kind ≠ "toc".toList || kids.isEmpty) (by decide +kernel) kind d ps hp
  simpa [hk] using this

theorem outlined_structured : Structured outlined :=
  structured_of (fun d ps hp => absurd rfl (of_decide_eq_true (parts_all (c := outlined)
    (f := fun kind _ _ => kind ≠ "cite".toList) (by decide +kernel) _ d ps hp))) (by decide +kernel)
    (by decide +kernel) (by decide +kernel) (by decide +kernel)

theorem outlined_page (handrails : Bool) : PageSource handrails outlined := by
  have kind := parts_all (c := outlined) (f := fun kind _ _ => kind ∉ ["url".toList, "author".toList, "bibitem".toList])
    (by decide +kernel)
  exact {
    formulas := fun _ => by decide +kernel
    links := fun _ _ _ hp hk => absurd (hk ▸ .head _) (of_decide_eq_true (kind _ _ _ hp))
    authors := fun _ _ _ _ hp hk => absurd (hk ▸ .tail _ (.head _)) (of_decide_eq_true (kind _ _ _ hp))
    template := fineTemplate_ok (by decide +kernel)
    templates := fun _ _ _ hp => fineTemplate_ok (parts_all (c := outlined)
      (f := fun kind d _ => fineTemplate (lookOf kind d).template) (by decide +kernel) _ _ _ hp)
    entries := by
      have : (bibliographies outlined).isEmpty = true := by decide +kernel
      intro l hl
      rw [List.isEmpty_iff.mp this] at hl
      cases hl
    strays := fun _ _ _ hp hk => absurd (hk ▸ .tail _ (.tail _ (.head _))) (of_decide_eq_true (kind _ _ _ hp)) }

/-- Not vacuous: what the page of this source shows. -/
example (hr : Bool) : ∃ page, Published { sampleOuter with sitter := fun _ => outlined } "source".toList hr page ∧
    (∃ classes, HasLink page [] classes "one".toList "1. One".toList ∧ "reference".toList ∈ classes) ∧
    (∀ text ∈ ["1.1. Inner", "Two"], ∃ classes, HasLink page [] classes [] text.toList ∧ "reference".toList ∈ classes) ∧
    ∃ l classes, HasLink page [] classes l "A. More".toList ∧ "reference".toList ∈ classes := by
  obtain ⟨page, hb, -, H⟩ := C87_page (o := { sampleOuter with sitter := fun _ => outlined }) (src := "source".toList) (hr := hr)
    (as := false) outlined_wellFormed outlined_texts.errors outlined_tocFine outlined_structured (outlined_page hr)
  obtain ⟨w1, h1, -⟩ := H _ _ {} sampleWorld (by decide) sampleText
  have P := published_of_page (o := { sampleOuter with sitter := fun _ => outlined }) (hr := hr) sampleText hb ⟨w1, h1⟩
  have toc : ∃ a ∈ sourceLooks outlined, a.cls = .Contents := by decide +kernel
  obtain ⟨a, ha, hac⟩ := toc
  have entry := fun {p : Place} {level : Str} => C93_entry (p := p) (level := level)
    (o := { sampleOuter with sitter := fun _ => outlined }) outlined_wellFormed.source outlined_texts outlined_tocFine P ha hac
  have h2 : ∀ l text, text ≠ [] → (∃ p ∈ sourcePlaces outlined, (headingLevel p.look.cls).isSome ∧ headingText p = text ∧ p.look.label = l ∧
      ((∀ b ∈ p.before, b.label ≠ l) ∨ l = [])) →
      l ∉ entryLabels outlined → ∃ classes, HasLink page [] classes l text ∧ "reference".toList ∈ classes := by
    rintro l text hne ⟨p, hp, hc, rfl, rfl, hb⟩ he
    obtain ⟨level, hc⟩ := Option.isSome_iff_exists.mp hc
    obtain ⟨l, classes, g1, g2, g3, g4⟩ := entry hp hc hne
    have : l = p.look.label := by
      rcases hb with hb | hb
      · exact g4 hb he
      · exact g3.elim id fun e => e.trans hb.symm
    rw [this] at g1
    exact ⟨classes, g1, g2⟩
  refine ⟨page, P, h2 _ _ (by decide) (by decide +kernel) (by decide +kernel), fun text ht => h2 _ _ ?_ ?_ (by decide +kernel), ?_⟩
  · have : ∀ text ∈ ["1.1. Inner", "Two"], text.toList ≠ [] := by decide
    exact this text ht
  · have : ∀ text ∈ ["1.1. Inner", "Two"], ∃ p ∈ sourcePlaces outlined, (headingLevel p.look.cls).isSome ∧
      headingText p = text.toList ∧ p.look.label = [] ∧ ((∀ b ∈ p.before, b.label ≠ []) ∨ ([] : Str) = []) := by decide +kernel
    exact this text ht
  · have : ∃ p ∈ sourcePlaces outlined, (headingLevel p.look.cls).isSome ∧ headingText p = "A. More".toList := by decide +kernel
    obtain ⟨p, hp, hc, e⟩ := this
    obtain ⟨level, hc⟩ := Option.isSome_iff_exists.mp hc
    obtain ⟨l, classes, g1, g2, -⟩ := entry hp hc (by rw [e]; decide)
    rw [e] at g1
    exact ⟨l, classes, g1, g2⟩

/-- The sections of this source, in order. -/
example : (sourceSections outlined).map headingText = ["1. One".toList, "1.1. Inner".toList, "Two".toList, "A. More".toList] := by
  decide +kernel

end Program
end RSM
