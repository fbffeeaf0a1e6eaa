import Verif.Props.SourceLinks
import Verif.Lemmas.EntryNumbers

/-!
# C88: what citations show
-/

namespace RSM
namespace Parser
open PyM Tr Html Transformer

variable {c : Cst} {fuel fuel' : Nat} {s s1 : ParserState} {r : Ref} {t : Tree} {log : List TWarning} {s2 : TState}
  {k : Conf} {s3 : TrState} {page l : Str}

/-- A citation of a label that nothing has. -/
theorem stage_unknown_citation (S : Source c) (F : Forest s.heap) (hf : 12 * c.size < fuel) (h : parse fuel c s = .ok r s1)
    (hU : TextsUnlabelled c) (hT : TocFine c) (D : Doc s1.heap r t) (hf' : 12 * t.size < fuel')
    (h2 : transform fuel' r { heap := s1.heap, log := log } = .ok () s2)
    (hk : ∀ t', Doc s2.heap r t' → 2 * t'.size ≤ k.fuel) (h3 : translate k r { heap := s2.heap } = .ok page s3)
    {a : Look} (ha : a ∈ sourceLooks c) (hac : a.cls = .PendingCite) (hl : l ∈ a.cites) (hn : ¬ Labelled c l) :
    ∃ id classes, HasLink page id classes [] ("[unknown label \"".toList ++ l ++ "\"]".toList) ∧
      "reference".toList ∈ classes ∧ "cite".toList ∈ classes := by
  obtain ⟨hS, -, -, hR, hI⟩ := C76_input S F hf h D
  obtain ⟨-, g2, -, -⟩ := parse_labels S F hf h D hU
  obtain ⟨y, hy, rfl⟩ := g2 a ha
  have hn : ¬ Carried s1.heap t l := fun H => hn ((labelled_iff S F hf h D hU).mp H)
  obtain ⟨t', z, b, D', hz, e1, e2, e3, e4, e5, e6, e7, e8⟩ := unknown_run (hR hU.errors) hS (hI hT) hf' h2 hy hac hl hn
  obtain ⟨text, id, classes, w1, w2, w3, w4⟩ := C74_cite k r t' { heap := s2.heap } s3 page D' (hk t' D') h3 z b hz e1 e2
  have pos := t'.size_pos
  have hk' := hk t' D'
  rw [unknown_reftext (s := { heap := s2.heap }) (by omega) e3 e4 e5 e7 e8] at w4
  cases w4
  rw [show (({ heap := s2.heap } : TrState).heap.get b).label = [] from e6] at w1
  exact ⟨id, classes, w1, w2, w3⟩

/-- A citation of an entry. -/
theorem stage_citation_number (S : Source c) (F : Forest s.heap) (hf : 12 * c.size < fuel) (h : parse fuel c s = .ok r s1)
    (hU : TextsUnlabelled c) (hT : TocFine c) (H : PlainEntries c) (D : Doc s1.heap r t) (hf' : 12 * t.size < fuel')
    (h2 : transform fuel' r { heap := s1.heap, log := log } = .ok () s2)
    (hk : ∀ t', Doc s2.heap r t' → 2 * t'.size ≤ k.fuel) (h3 : translate k r { heap := s2.heap } = .ok page s3)
    {a : Look} (ha : a ∈ sourceLooks c) (hac : a.cls = .PendingCite) (hc : l ∈ a.cites) (hl : l ≠ []) (he : l ∈ entryLabels c)
    (hn : l ∉ (sourceLooks c).map Look.label) :
    ∃ id classes, HasLink page id classes l (natStr (entryPosition c l)) ∧ "reference".toList ∈ classes ∧
      "cite".toList ∈ classes := by
  obtain ⟨hS, -, -, hR, hI⟩ := C76_input S F hf h D
  obtain ⟨b, hb⟩ := carried_iff.mp ((labelled_iff S F hf h D hU).mpr ⟨hl, .inr he⟩)
  obtain ⟨g1, -, -, g4⟩ := parse_labels S F hf h D hU
  obtain ⟨n, ha⟩ := List.mem_iff_getElem?.mp
    (List.mem_filter.mpr ⟨ha, decide_eq_true hac⟩ : a ∈ (sourceLooks c).filter fun a => decide (a.cls = .PendingCite))
  rw [← g4, List.getElem?_map] at ha
  obtain ⟨y, hy, rfl⟩ := Option.map_eq_some_iff.mp ha
  obtain ⟨-, -, ⟨text, id, classes, h6, h7, h8, h9⟩, -⟩ := C74_citation_leads s1.heap r t fuel' log s2 k
    { heap := s2.heap } s3 page (hR hU.errors) hS (hI hT) hf' h2 rfl hk h3 y b n l hy hc hb
  obtain ⟨-, hbl, B, A, e, hB⟩ := hb
  have hbt : b ∈ t.pre := by rw [e]; simp
  have hbc : (s1.heap.get b).cls = .Bibitem := by
    rcases g1 b hbt with g | g | g
    · exact absurd (List.mem_map.mpr ⟨_, g, hbl⟩) hn
    · exact absurd (hbl.symm.trans g) hl
    · exact g.1
  have hbp : ¬ Pending s1.heap b := by
    rintro (g | g | g) <;> rw [hbc] at g <;> cases g
  have hbo : b ∉ laterContents s1.heap t := fun g => by
    have := of_decide_eq_true (List.mem_filter.mp (List.mem_of_mem_tail g)).2
    rw [hbc] at this
    cases this
  obtain ⟨p1, p2⟩ := parse_entries_plain S F hf h D H hbt hbc
  have hnum : Numbered s1.heap b := ⟨by rw [hbc]; decide, p1, by rw [hbc]; decide⟩
  obtain ⟨s4, σ, t', R⟩ := passed (hR hU.errors) hS (hI hT) hf' h2
  have N := numbers_run (hR hU.errors) hS (hI hT) hf' h2
  obtain ⟨k1, k2, -⟩ := N.same b (D.bound b hbt)
  have n1 := N.number B b A e hnum
  rw [entry_expected S F hf h D H e hB hbl hbc] at n1
  have n2 := N.template B b A e hnum
  rw [if_neg (by rw [hbc]; rintro ⟨g, -⟩; revert g; decide), p2] at n2
  rw [entry_reftext (s := { heap := s2.heap }) R.doc (R.old b hbt hbp hbo) (hk t' R.doc) (k1.trans hbc) (k2.trans p1)
    (Option.some.inj n1) n2] at h9
  cases h9
  exact ⟨id, classes, h6, h7, h8⟩

/-- The links back of an entry. -/
theorem stage_backlinks (S : Source c) (F : Forest s.heap) (hf : 12 * c.size < fuel) (h : parse fuel c s = .ok r s1)
    (hU : TextsUnlabelled c) (hT : TocFine c) (D : Doc s1.heap r t) (hf' : 12 * t.size < fuel')
    (h2 : transform fuel' r { heap := s1.heap, log := log } = .ok () s2)
    (hk : ∀ t', Doc s2.heap r t' → 2 * t'.size ≤ k.fuel) (h3 : translate k r { heap := s2.heap } = .ok page s3)
    (hk0 : k.handrails = false) (hl : l ≠ []) (he : l ∈ entryLabels c) (hn : l ∉ (sourceLooks c).map Look.label)
    {j : Nat} {id : Str} (hj : (citedBy c l)[j]? = some id) :
    HasLink page [] ["reference".toList, "backlink".toList] id ('↖' :: natStr (j + 1)) := by
  obtain ⟨hS, -, -, hR, hI⟩ := C76_input S F hf h D
  obtain ⟨b, hb⟩ := carried_iff.mp ((labelled_iff S F hf h D hU).mpr ⟨hl, .inr he⟩)
  obtain ⟨g1, -, -, g4⟩ := parse_labels S F hf h D hU
  have hbt := (carries_mem hb).1
  have hbl : (s1.heap.get b).label = l := hb.2.1
  have hbc : (s1.heap.get b).cls = .Bibitem := by
    rcases g1 b hbt with g | g | g
    · exact absurd (List.mem_map.mpr ⟨_, g, hbl⟩) hn
    · exact absurd (hbl.symm.trans g) hl
    · exact g.1
  have hbp : ¬ Pending s1.heap b := by
    rintro (g | g | g) <;> rw [hbc] at g <;> cases g
  have hbo : b ∉ laterContents s1.heap t := fun g => by
    have := of_decide_eq_true (List.mem_filter.mp (List.mem_of_mem_tail g)).2
    rw [hbc] at this
    cases this
  obtain ⟨s4, σ, t', R⟩ := passed (hR hU.errors) hS (hI hT) hf' h2
  have hbn := D.bound b hbt
  have e : (s2.heap.get b).backlinks = citedBy c l := by
    rw [R.keeps.backlinks b (Nat.lt_of_lt_of_le hbn R.next), C18_backlinks (hR hU.errors) (by omega) R.run hbn,
      entry_of_label S F hf h D hbt hbc (by rw [hbl]; exact hn), List.nil_append]
    unfold citedBy
    rw [← g4, List.zipIdx_map, List.flatMap_map]
    refine List.flatMap_congr fun ⟨x, n⟩ _ => ?_
    simp only [Prod.map, id_eq]
    congr 1
    rw [List.count_eq_length_filter]
    congr 1
    refine List.filter_congr fun l' _ => ?_
    classical
    rw [Bool.eq_iff_iff, beq_iff_eq]
    constructor
    · intro g
      exact (of_decide_eq_true g).2.1.symm.trans hbl
    · rintro rfl
      exact decide_eq_true hb
  exact C74_backlink k r t' { heap := s2.heap } s3 page hk0 R.doc (hk t' R.doc) h3 b (R.old b hbt hbp hbo)
    (by rw [show (({ heap := s2.heap } : TrState).heap.get b).cls = _ from R.cls b hbn, hbc]; decide) j id
    (by rw [show (({ heap := s2.heap } : TrState).heap.get b).backlinks = _ from e]; exact hj)

end Parser

namespace Program
open PyM LogState Transformer Tree RSM.Parser Tr Html History

variable {o : Outer} {src page l : Str} {hr : Bool}

/-- **C88.** For each label of a citation that nothing in the source has, the page says so, in a link that leads to
nothing. -/
theorem C88_unknown_citation (S : Source (o.sitter src)) (hU : TextsUnlabelled (o.sitter src)) (hT : TocFine (o.sitter src))
    (P : Published o src hr page) {a : Look} (ha : a ∈ sourceLooks (o.sitter src)) (hc : a.cls = .PendingCite)
    (hl : l ∈ a.cites) (hn : ¬ Labelled (o.sitter src) l) :
    ∃ id classes, HasLink page id classes [] ("[unknown label \"".toList ++ l ++ "\"]".toList) ∧
      "reference".toList ∈ classes ∧ "cite".toList ∈ classes := by
  obtain ⟨body, ⟨r, s1, s2, s3, as, p1, p2, p3⟩, hb⟩ := published_staged S hU.errors hT P
  obtain ⟨t, D, hf, hk⟩ := stage (s2 := s2) (hr := hr) (as := as) S p1
  obtain ⟨id, classes, h1, h2⟩ := stage_unknown_citation (s := { heap := Heap.empty }) S Forest.empty (Nat.lt_succ_self _) p1 hU hT D
    hf p2 hk p3 ha hc hl hn
  rcases hb with rfl | rfl
  · exact ⟨id, classes, h1, h2⟩
  · exact ⟨id, classes, hasLink_page h1, h2⟩

/-- **C88.** For each label of a citation that is that of an entry, and of nothing else but entries, the page has a
link to it that shows the position of the first entry with that label among all entries of the source. -/
theorem C88_citation_number (S : Source (o.sitter src)) (hU : TextsUnlabelled (o.sitter src)) (hT : TocFine (o.sitter src))
    (H : PlainEntries (o.sitter src)) (P : Published o src hr page) {a : Look} (ha : a ∈ sourceLooks (o.sitter src))
    (hc : a.cls = .PendingCite) (hl : l ∈ a.cites) (hne : l ≠ []) (he : l ∈ entryLabels (o.sitter src))
    (hn : l ∉ (sourceLooks (o.sitter src)).map Look.label) :
    ∃ id classes, HasLink page id classes l (natStr (entryPosition (o.sitter src) l)) ∧ "reference".toList ∈ classes ∧
      "cite".toList ∈ classes := by
  obtain ⟨body, ⟨r, s1, s2, s3, as, p1, p2, p3⟩, hb⟩ := published_staged S hU.errors hT P
  obtain ⟨t, D, hf, hk⟩ := stage (s2 := s2) (hr := hr) (as := as) S p1
  obtain ⟨id, classes, h1, h2⟩ := stage_citation_number (s := { heap := Heap.empty }) S Forest.empty (Nat.lt_succ_self _) p1 hU
    hT H D hf p2 hk p3 ha hc hl hne he hn
  rcases hb with rfl | rfl
  · exact ⟨id, classes, h1, h2⟩
  · exact ⟨id, classes, hasLink_page h1, h2⟩

/-- **C88.** Without handrails, the page has for an entry with a label that nothing else but entries has a link back to
each citation of that label; these links are numbered from 1 in the order of the source. -/
theorem C88_backlinks (S : Source (o.sitter src)) (hU : TextsUnlabelled (o.sitter src)) (hT : TocFine (o.sitter src))
    (P : Published o src false page) (hne : l ≠ []) (he : l ∈ entryLabels (o.sitter src))
    (hn : l ∉ (sourceLooks (o.sitter src)).map Look.label) {j : Nat} {id : Str}
    (hj : (citedBy (o.sitter src) l)[j]? = some id) :
    HasLink page [] ["reference".toList, "backlink".toList] id ('↖' :: natStr (j + 1)) := by
  obtain ⟨body, ⟨r, s1, s2, s3, as, p1, p2, p3⟩, hb⟩ := published_staged S hU.errors hT P
  obtain ⟨t, D, hf, hk⟩ := stage (s2 := s2) (hr := false) (as := as) S p1
  have h1 := stage_backlinks (s := { heap := Heap.empty }) S Forest.empty (Nat.lt_succ_self _) p1 hU
    hT D hf p2 hk p3 rfl hne he hn hj
  rcases hb with rfl | rfl
  · exact h1
  · exact hasLink_page h1

/-- Not vacuous: the sample cites a label that nothing has. -/
example (hr : Bool) : ∃ page, Published sampleOuter "source".toList hr page ∧
    ∃ id classes, HasLink page id classes [] "[unknown label \"gauss\"]".toList ∧ "cite".toList ∈ classes := by
  obtain ⟨page, hb, -, H⟩ := C87_page (o := sampleOuter) (src := "source".toList) (hr := hr) (as := false) sample_wellFormed
    sample_errors sample_tocFine sample_structured (sample_page hr)
  obtain ⟨w1, h1, -⟩ := H _ _ {} sampleWorld (by decide) sampleText
  have P := published_of_page (hr := hr) sampleText hb ⟨w1, h1⟩
  have hS : Source (sampleOuter.sitter "source".toList) := sample_source
  have hU : TextsUnlabelled (sampleOuter.sitter "source".toList) := sample_texts
  have hT : TocFine (sampleOuter.sitter "source".toList) := sample_tocFine
  have t1 : ∃ a ∈ sourceLooks sample, a.cls = .PendingCite ∧ "gauss".toList ∈ a.cites := by decide +kernel
  have t2 : "gauss".toList ∉ (sourceLooks sample).map Look.label ∧ "gauss".toList ∉ entryLabels sample := by decide +kernel
  obtain ⟨a, ha, hc, hl⟩ := t1
  obtain ⟨id, classes, g1, -, g2⟩ := C88_unknown_citation hS hU hT P ha hc hl fun h => h.2.elim t2.1 t2.2
  exact ⟨page, P, id, classes, g1, g2⟩

/-- A source that cites the second of two entries. -/
def library : Cst :=
  br 0 "source_file" (text := "the source") [
    br 1 "paragraph" [
      br 2 "text" [] (text := "See "),
      br 3 "specialinline" [br 4 "cite" [], br 5 "text" [] (text := "gauss")]],
    br 18 "specialblock" [br 19 "bibliography" []],
    br 21 "bibtex" [
      br 22 "bibitem" [
        br 23 "kind" [] (field := "kind") (text := "book"),
        br 24 "label" [] (field := "label") (text := "euler"),
        br 28 "bibitempair" [br 29 "key" [] (text := "year"), br 30 "value" [] (text := "1748")]],
      br 32 "bibitem" [
        br 33 "kind" [] (field := "kind") (text := "book"),
        br 34 "label" [] (field := "label") (text := "gauss"),
        br 38 "bibitempair" [br 39 "key" [] (text := "year"), br 40 "value" [] (text := "1801")]]]]

theorem library_wellFormed : WellFormed library where
  source := by
    refine ⟨by decide, ?_⟩
    intro x hx y hy
    have : ∀ x ∈ library.children, ∀ y ∈ x.nodes, y.type ≠ "source_file".toList := by decide +kernel
    exact this x hx y hy
  metaok := by decide +kernel
  tidy := by decide +kernel
  parts := by decide +kernel
  nesting := by decide +kernel

theorem library_texts : TextsUnlabelled library := fun kind d ps hm hk => by
  have := parts_all (c := library) (f := fun kind d _ => !(classOf kind).isSub .Text || metaText d "label".toList = none)
    (by decide +kernel) kind d ps hm
  rw [hk] at this
  exact of_decide_eq_true this

theorem library_tocFine : TocFine library := by
  rintro ⟨kind, d, ps, hp, hk⟩
  have := parts_all (c := library) (f := fun kind _ _ => kind ≠ "toc".toList) (by decide +kernel) kind d ps hp
  exact absurd hk (of_decide_eq_true this)

theorem library_cites : CitesEntries library := by
  intro d ps hp l hl
  have := parts_all (c := library) (f := fun kind d _ => kind ≠ "cite".toList || (citesOf "cite".toList d).all fun l =>
    l ≠ (lookOf "source_file".toList library).label && (walks (sourceParts library)).all fun p => match p with
      | .node kind e _ => kind = "bibitem".toList || l ≠ (lookOf kind e).label) (by decide +kernel) _ d ps hp
  rw [Bool.or_eq_true_iff] at this
  have := this.resolve_left (by decide)
  have := Bool.and_eq_true_iff.mp (List.all_eq_true.mp this l hl)
  refine ⟨of_decide_eq_true this.1, fun kind e qs hq hk => ?_⟩
  have := parts_all (c := library) (f := fun kind e _ => kind = "bibitem".toList || l ≠ (lookOf kind e).label) this.2 kind e qs hq
  rw [Bool.or_eq_true_iff] at this
  exact of_decide_eq_true (this.resolve_left fun h => hk (of_decide_eq_true h))

theorem library_structured : Structured library :=
  structured_of library_cites (by decide +kernel) (by decide +kernel) (by decide +kernel) (by decide +kernel)

theorem library_page (handrails : Bool) : PageSource handrails library := by
  have kind := parts_all (c := library) (f := fun kind _ _ => kind ∉ ["url".toList, "author".toList])
    (by decide +kernel)
  exact {
    formulas := fun _ => by decide +kernel
    links := fun _ _ _ hp hk => absurd (hk ▸ .head _) (of_decide_eq_true (kind _ _ _ hp))
    authors := fun _ _ _ _ hp hk => absurd (hk ▸ .tail _ (.head _)) (of_decide_eq_true (kind _ _ _ hp))
    template := fineTemplate_ok (by decide +kernel)
    templates := fun _ _ _ hp => fineTemplate_ok (parts_all (c := library)
      (f := fun kind d _ => fineTemplate (lookOf kind d).template) (by decide +kernel) _ _ _ hp)
    entries := by
      have : ((bibliographies library).all fun l => l.all fun d => entryField d "year".toList ≠ none &&
        fineTemplate (lookOf "bibitem".toList d).template) = true := by decide +kernel
      intro l hl d hd
      have := Bool.and_eq_true_iff.mp (List.all_eq_true.mp (List.all_eq_true.mp this l hl) d hd)
      exact ⟨of_decide_eq_true this.1, fineTemplate_ok this.2⟩
    strays := fun _ d ps hp hk => by
      subst hk
      have := parts_all (c := library) (f := fun kind d _ => kind ≠ "bibitem".toList || entryField d "year".toList ≠ none &&
        fineTemplate (lookOf "bibitem".toList d).template) (by decide +kernel) _ d ps hp
      rw [Bool.or_eq_true_iff] at this
      have := Bool.and_eq_true_iff.mp (this.resolve_left (by decide))
      exact ⟨of_decide_eq_true this.1, fineTemplate_ok this.2⟩ }

theorem library_plain : PlainEntries library where
  inside := by decide +kernel
  body := by decide +kernel
  plain := by decide +kernel

/-- Not vacuous: the page of this source has a link to the second entry that shows `2`. -/
example (hr : Bool) : ∃ page, Published { sampleOuter with sitter := fun _ => library } "source".toList hr page ∧
    ∃ id classes, HasLink page id classes "gauss".toList "2".toList ∧ "cite".toList ∈ classes := by
  obtain ⟨page, hb, -, H⟩ := C87_page (o := { sampleOuter with sitter := fun _ => library }) (src := "source".toList) (hr := hr)
    (as := false) library_wellFormed library_texts.errors library_tocFine library_structured (library_page hr)
  obtain ⟨w1, h1, -⟩ := H _ _ {} sampleWorld (by decide) sampleText
  have P := published_of_page (o := { sampleOuter with sitter := fun _ => library }) (hr := hr) sampleText hb ⟨w1, h1⟩
  have t1 : ∃ a ∈ sourceLooks library, a.cls = .PendingCite ∧ "gauss".toList ∈ a.cites := by decide +kernel
  have t2 : "gauss".toList ∈ entryLabels library ∧ "gauss".toList ∉ (sourceLooks library).map Look.label := by decide +kernel
  have t3 : entryPosition library "gauss".toList = 2 := by decide +kernel
  obtain ⟨a, ha, hc, hl⟩ := t1
  obtain ⟨id, classes, g1, -, g2⟩ := C88_citation_number (o := { sampleOuter with sitter := fun _ => library })
    library_wellFormed.source library_texts library_tocFine library_plain P ha hc hl (by decide) t2.1 t2.2
  rw [show entryPosition _ _ = 2 from t3] at g1
  exact ⟨page, P, id, classes, g1, g2⟩

/-- Not vacuous: the page of this source has a link back to its citation. -/
example : ∃ page, Published { sampleOuter with sitter := fun _ => library } "source".toList false page ∧
    HasLink page [] ["reference".toList, "backlink".toList] "cite-0".toList "↖1".toList := by
  obtain ⟨page, hb, -, H⟩ := C87_page (o := { sampleOuter with sitter := fun _ => library }) (src := "source".toList)
    (hr := false) (as := false) library_wellFormed library_texts.errors library_tocFine library_structured (library_page false)
  obtain ⟨w1, h1, -⟩ := H _ _ {} sampleWorld (by decide) sampleText
  have P := published_of_page (o := { sampleOuter with sitter := fun _ => library }) (hr := false) sampleText hb ⟨w1, h1⟩
  have t2 : "gauss".toList ∈ entryLabels library ∧ "gauss".toList ∉ (sourceLooks library).map Look.label := by decide +kernel
  have t3 : (citedBy library "gauss".toList)[0]? = some "cite-0".toList := by decide +kernel
  have g := C88_backlinks (o := { sampleOuter with sitter := fun _ => library }) (l := "gauss".toList) (j := 0)
    (id := "cite-0".toList) library_wellFormed.source library_texts library_tocFine P (by decide) t2.1 t2.2 t3
  rw [show '↖' :: natStr (0 + 1) = "↖1".toList by decide +kernel] at g
  exact ⟨page, P, g⟩

end Program
end RSM
