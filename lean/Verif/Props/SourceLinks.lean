import Verif.Lemmas.SourceLinks
import Verif.Lemmas.TrTexts
import Verif.Props.Links
import Verif.Props.History

/-!
# C88: the links of a source lead to what they name
-/

namespace RSM
namespace Parser
open PyM Tr Html Transformer

variable {c : Cst} {fuel fuel' : Nat} {s s1 : ParserState} {r : Ref} {t : Tree} {log : List TWarning} {s2 : TState}
  {k : Conf} {s3 : TrState} {page l : Str}

/-- The classes whose nodes have an element of their own on the page, without tables of contents, of which the
manuscript keeps only one. -/
def linkable : List Cls := anchored.filter (· ≠ .Contents)

theorem bibitem_linkable : Cls.Bibitem ∈ linkable := by decide

theorem labelled_iff (S : Source c) (F : Forest s.heap) (hf : 12 * c.size < fuel) (h : parse fuel c s = .ok r s1)
    (D : Doc s1.heap r t) (hU : TextsUnlabelled c) : Carried s1.heap t l ↔ Labelled c l := by
  obtain ⟨h1, h2, h3, -⟩ := parse_labels S F hf h D hU
  refine and_congr_right fun hl => ⟨?_, ?_⟩
  · rintro ⟨y, hy, rfl⟩
    rcases h1 y hy with g | g | ⟨-, g⟩
    · exact .inl (List.mem_map.mpr ⟨_, g, rfl⟩)
    · exact absurd g hl
    · exact .inr g
  · rintro (g | g)
    · obtain ⟨a, ha, rfl⟩ := List.mem_map.mp g
      obtain ⟨x, hx, rfl⟩ := h2 a ha
      exact ⟨x, hx, rfl⟩
    · exact h3 l g

theorem carries_class (S : Source c) (F : Forest s.heap) (hf : 12 * c.size < fuel) (h : parse fuel c s = .ok r s1)
    (D : Doc s1.heap r t) (hU : TextsUnlabelled c) (ho : LabelsOnly c l linkable) {x : Ref} (hx : Carries s1.heap t l x) :
    (s1.heap.get x).cls ∈ linkable := by
  obtain ⟨h1, -, -, -⟩ := parse_labels S F hf h D hU
  obtain ⟨hm, hl⟩ := carries_mem hx
  rcases h1 x hm with g | g | ⟨g, -⟩
  · exact ho _ g hl
  · exact absurd (hl.symm.trans g) hx.1
  · rw [g]; exact bibitem_linkable

theorem linkable_later {h : Heap} {x : Ref} (hx : (h.get x).cls ∈ linkable) : x ∉ laterContents h t := by
  intro hlt
  have h2 := (List.mem_filter.mp (List.mem_of_mem_tail hlt)).2
  rw [decide_eq_true_eq] at h2
  rw [h2] at hx
  exact absurd hx (by decide)

/-- A label that the source gives to something with an element of its own is the id of an element of the
page. -/
theorem stage_anchor (S : Source c) (F : Forest s.heap) (hf : 12 * c.size < fuel) (h : parse fuel c s = .ok r s1)
    (hU : TextsUnlabelled c) (hT : TocFine c) (D : Doc s1.heap r t) (hf' : 12 * t.size < fuel')
    (h2 : transform fuel' r { heap := s1.heap, log := log } = .ok () s2)
    (hk : ∀ t', Doc s2.heap r t' → 2 * t'.size ≤ k.fuel) (h3 : translate k r { heap := s2.heap } = .ok page s3)
    (hl : Labelled c l) (ho : LabelsOnly c l linkable) : HasId page l := by
  obtain ⟨hS, -, -, hR, hI⟩ := C76_input S F hf h D
  obtain ⟨x, hx⟩ := carried_iff.mp ((labelled_iff S F hf h D hU).mpr hl)
  have hc := carries_class S F hf h D hU ho hx
  obtain ⟨s4, σ, t', R⟩ := passed (hR hU.errors) hS (hI hT) hf' h2
  have hxm := (carries_mem hx).1
  have hxn := D.bound x hxm
  have hca : (s1.heap.get x).cls ∈ anchored := (List.mem_filter.mp hc).1
  have hlab : (s2.heap.get x).label = l := by
    rw [R.keeps.label x (Nat.lt_of_lt_of_le hxn R.next)]; exact R.label l x hx
  rw [← hlab]
  exact C74_anchor k r t' { heap := s2.heap } s3 page R.doc (hk t' R.doc) h3 x
    (R.old x hxm (not_pending_of_anchored hca) (linkable_later hc)) (by
      show (s2.heap.get x).cls ∈ anchored
      rw [R.cls x hxn]; exact hca) (by
      show (s2.heap.get x).label ≠ []
      rw [hlab]; exact hl.1)

/-- For each reference in the source to such a label, the page has a link to the element with that label as
its id; it shows the text that the reference gives, if any. -/
theorem stage_reference (S : Source c) (F : Forest s.heap) (hf : 12 * c.size < fuel) (h : parse fuel c s = .ok r s1)
    (hU : TextsUnlabelled c) (hT : TocFine c) (D : Doc s1.heap r t) (hf' : 12 * t.size < fuel')
    (h2 : transform fuel' r { heap := s1.heap, log := log } = .ok () s2)
    (hk : ∀ t', Doc s2.heap r t' → 2 * t'.size ≤ k.fuel) (h3 : translate k r { heap := s2.heap } = .ok page s3)
    {a : Look} (ha : a ∈ sourceLooks c) (hc : a.cls = .PendingReference) (ht : a.target = .str l)
    (hl : Labelled c l) (ho : LabelsOnly c l linkable) :
    HasId page l ∧ ∃ text classes, HasLink page [] classes l text ∧ "reference".toList ∈ classes ∧
      (a.reftext ≠ [] → text = a.reftext) := by
  obtain ⟨hS, -, -, hR, hI⟩ := C76_input S F hf h D
  obtain ⟨x, hx⟩ := carried_iff.mp ((labelled_iff S F hf h D hU).mpr hl)
  have hcx := carries_class S F hf h D hU ho hx
  obtain ⟨-, g2, -, -⟩ := parse_labels S F hf h D hU
  obtain ⟨y, hy, rfl⟩ := g2 a ha
  obtain ⟨h4, text, classes, h5, h6, h7⟩ := C74_reference_leads s1.heap r t fuel' log s2 k { heap := s2.heap } s3 page
    (hR hU.errors) hS (hI hT) hf' h2 rfl hk h3 y x l hy hc ht hx (List.mem_filter.mp hcx).1 (linkable_later hcx)
  refine ⟨h4, text, classes, h5, h6, fun hne => ?_⟩
  have hne : (s1.heap.get y).overwriteReftext ≠ [] := hne
  rw [if_pos hne] at h7
  exact h7

/-- What the translators write for an error. -/
theorem visit_error {x : Ref} {s s' : TrState} {cmd : Cmd} (hc : (s.heap.get x).cls = .Error)
    (h : Tr.visit k x s = .ok cmd s') : (s.heap.get x).text <:+: cmd.text := by
  rw [visit_eq (d := .Error) (by rw [hc]; rfl)] at h
  cases h
  exact item_infix (i := .text (s.heap.get x).text) (.tail _ (.head _))

/-- Where the source refers to a label that it does not give to anything, the page says so. -/
theorem stage_unknown (S : Source c) (F : Forest s.heap) (hf : 12 * c.size < fuel) (h : parse fuel c s = .ok r s1)
    (hU : TextsUnlabelled c) (hT : TocFine c) (D : Doc s1.heap r t) (hf' : 12 * t.size < fuel')
    (h2 : transform fuel' r { heap := s1.heap, log := log } = .ok () s2)
    (hk : ∀ t', Doc s2.heap r t' → 2 * t'.size ≤ k.fuel) (h3 : translate k r { heap := s2.heap } = .ok page s3)
    {a : Look} (ha : a ∈ sourceLooks c) (hc : a.cls = .PendingReference) (ht : a.target = .str l)
    (hl : ¬ Labelled c l) : ShowsUnknown page l := by
  obtain ⟨hS, -, -, hR, hI⟩ := C76_input S F hf h D
  obtain ⟨-, g2, -, -⟩ := parse_labels S F hf h D hU
  obtain ⟨y, hy, rfl⟩ := g2 a ha
  obtain ⟨s4, σ, t', R⟩ := passed (hR hU.errors) hS (hI hT) hf' h2
  have hn : ¬ Carried s1.heap t l := fun hn => hl ((labelled_iff S F hf h D hU).mp hn)
  obtain ⟨c1, c2, -⟩ := C17_unknown (hR hU.errors) (by omega) R.run R.doc1 hy hc ht hn
  obtain ⟨hσ', hσn⟩ := R.new y hy (.inl hc)
  obtain ⟨s5, cmd, s6, w1, w2, w3, w4⟩ := translate_wroteTexts (s := { heap := s2.heap }) R.doc (hk t' R.doc) h3 (σ y) hσ'
  have e1 : (s2.heap.get (σ y)).text = "[unknown label \"".toList ++ l ++ "\"]".toList := by
    rw [← c2]; exact congrArg NodeRec.text (a₁ := NodeRec.authored _) (a₂ := NodeRec.authored _) (R.keeps.authored _ hσn)
  have e2 : (s5.heap.get (σ y)).text = (s2.heap.get (σ y)).text := w2 (σ y) (by
    show (s2.heap.get (σ y)).text.head? ≠ _
    rw [e1]; simp)
  have e3 : (s5.heap.get (σ y)).cls = .Error := by
    rw [w1.cls]
    show (s2.heap.get (σ y)).cls = _
    rw [R.keeps.cls hσn, c1]
  have e4 := visit_error e3 w3
  rw [e2, e1] at e4
  exact e4.trans w4

/-- For each label of the `n`-th citation of the source that the source gives to something, the page has a
link to the element with that label as its id.  The citation itself has the id `cite-n`, and without handrails there is a
link back to it. -/
theorem stage_citation (S : Source c) (F : Forest s.heap) (hf : 12 * c.size < fuel) (h : parse fuel c s = .ok r s1)
    (hU : TextsUnlabelled c) (hT : TocFine c) (D : Doc s1.heap r t) (hf' : 12 * t.size < fuel')
    (h2 : transform fuel' r { heap := s1.heap, log := log } = .ok () s2)
    (hk : ∀ t', Doc s2.heap r t' → 2 * t'.size ≤ k.fuel) (h3 : translate k r { heap := s2.heap } = .ok page s3)
    {a : Look} {n : Nat} (ha : ((sourceLooks c).filter fun a => decide (a.cls = .PendingCite))[n]? = some a)
    (hc : l ∈ a.cites) (hl : Labelled c l) :
    HasId page l ∧ HasId page ("cite-".toList ++ natStr n) ∧
      (∃ text id classes, HasLink page id classes l text ∧ "reference".toList ∈ classes ∧ "cite".toList ∈ classes) ∧
      (k.handrails = false → ∃ i, HasLink page [] ["reference".toList, "backlink".toList]
        ("cite-".toList ++ natStr n) ('↖' :: natStr i)) := by
  obtain ⟨hS, -, -, hR, hI⟩ := C76_input S F hf h D
  obtain ⟨b, hb⟩ := carried_iff.mp ((labelled_iff S F hf h D hU).mpr hl)
  obtain ⟨-, -, -, g4⟩ := parse_labels S F hf h D hU
  rw [← g4, List.getElem?_map] at ha
  obtain ⟨y, hy, rfl⟩ := Option.map_eq_some_iff.mp ha
  obtain ⟨h4, h5, ⟨text, id, classes, h6, h7, h8, -⟩, h9⟩ := C74_citation_leads s1.heap r t fuel' log s2 k
    { heap := s2.heap } s3 page (hR hU.errors) hS (hI hT) hf' h2 rfl hk h3 y b n l hy hc hb
  exact ⟨h4, h5, ⟨text, id, classes, h6, h7, h8⟩, h9⟩

end Parser

/-! ## Pages -/

namespace Html

theorem dropWhile_keeps {q : Char → Bool} {x : Str} (hx : ∀ c ∈ x.head?, q c = false) (hne : x ≠ []) :
    ∀ a b, ∃ a', (a ++ x ++ b).dropWhile q = a' ++ x ++ b
  | [], b => by
    obtain ⟨c, y, rfl⟩ := List.exists_cons_of_ne_nil hne
    refine ⟨[], ?_⟩
    simp only [List.nil_append, List.cons_append]
    rw [List.dropWhile_cons_of_neg]
    simp [hx c rfl]
  | d :: a, b => by
    simp only [List.cons_append]
    by_cases hd : q d = true
    · rw [List.dropWhile_cons_of_pos hd]
      exact dropWhile_keeps hx hne a b
    · rw [List.dropWhile_cons_of_neg hd]
      exact ⟨d :: a, rfl⟩

/-- What neither begins nor ends with a blank is not lost when blanks are removed at the ends. -/
theorem infix_strip {x out : Str} (h1 : ∀ c ∈ x.head?, isSpace c = false) (h2 : ∀ c ∈ x.getLast?, isSpace c = false)
    (hne : x ≠ []) (h : x <:+: out) : x <:+: strip out := by
  obtain ⟨a, b, rfl⟩ := h
  obtain ⟨a', e1⟩ := dropWhile_keeps h1 hne a b
  obtain ⟨b', e2⟩ := dropWhile_keeps (x := x.reverse) (q := isSpace) (by rwa [List.head?_reverse]) (by simpa using hne)
    b.reverse a'.reverse
  refine ⟨a', b'.reverse, ?_⟩
  unfold strip lstrip rstrip
  rw [e1, List.reverse_append, List.reverse_append, ← List.append_assoc, e2]
  simp

theorem strip_page (body : Str) : strip body <:+: Build.page body := by
  unfold Build.page
  exact ⟨"<html>\n\n".toList ++ Build.htmlHeader body ++ "\n".toList,
    "\n\n".toList ++ Build.htmlFooter ++ "</html>\n".toList, by simp only [List.append_assoc]⟩

theorem page_infix {x body : Str} (h1 : ∀ c ∈ x.head?, isSpace c = false) (h2 : ∀ c ∈ x.getLast?, isSpace c = false)
    (hne : x ≠ []) (h : x <:+: body) : x <:+: Build.page body :=
  (infix_strip h1 h2 hne h).trans (strip_page body)

theorem hasId_page {body l : Str} (h : HasId body l) : HasId (Build.page body) l := by
  obtain ⟨n, a, b, c⟩ := h
  refine ⟨n, a, b, page_infix ?_ ?_ (by simp) c⟩
  · intro c hc; cases hc; rfl
  · intro c hc
    rw [List.getLast?_append] at hc
    cases hc; rfl

theorem hasLink_page {body i l x : Str} {cl : List Str} (h : HasLink body i cl l x) : HasLink (Build.page body) i cl l x := by
  unfold HasLink at h ⊢
  refine page_infix ?_ ?_ (by simp) h
  · intro c hc; cases hc; rfl
  · intro c hc
    rw [List.getLast?_append] at hc
    cases hc; rfl

theorem showsUnknown_page {body l : Str} (h : ShowsUnknown body l) : ShowsUnknown (Build.page body) l := by
  unfold ShowsUnknown at h ⊢
  refine page_infix ?_ ?_ (by simp) h
  · intro c hc; cases hc; rfl
  · intro c hc
    rw [List.getLast?_append] at hc
    cases hc; rfl

end Html

namespace Program
open PyM LogState Transformer Tree RSM.Parser Tr Html History

variable {o : Outer} {src page l : Str} {hr : Bool}

/-- The page comes from a run of the parser, the transformer and a translator in a new process. -/
def Staged (o : Outer) (src : Str) (hr : Bool) (page : Str) : Prop :=
  ∃ r s1 s2 s3 as, Parser.parse (12 * (o.sitter src).size + 1) (o.sitter src) { heap := Heap.empty } = .ok r s1 ∧
    Transformer.transform (12 * s1.heap.next + 1) r { heap := s1.heap } = .ok () s2 ∧
    Tr.translate (conf o hr as s2.heap) r { heap := s2.heap } = .ok page s3

theorem published_staged (S : Source (o.sitter src)) (hE : ErrorsUnlabelled (o.sitter src)) (hT : TocFine (o.sitter src))
    (h : Published o src hr page) : ∃ body, Staged o src hr body ∧ (page = body ∨ page = Build.page body) := by
  cases h with
  | @rendered source path as a w w' hf hs h hne =>
    obtain ⟨out, H⟩ := C87_render_same (o := o) (src := src) (hr := hr) (as := as) S hE hT
    obtain ⟨lines, H⟩ := H source path a hf
    obtain ⟨w1, h1, -⟩ := H w hs
    obtain ⟨w2, h2, -⟩ := H (fresh w) hs
    rw [h] at h1
    have e : out = .ok (.str page) := by
      cases out with
      | error e => cases h1
      | ok v => cases h1; rfl
    rw [e] at h2
    obtain ⟨r, h3, rs, s, c, p⟩ := rendered_page (w := fresh w) hf hs hne h2
    cases c with
    | done p1 p2 => exact ⟨page, ⟨_, _, _, _, _, p1, p2, p⟩, .inl rfl⟩
  | @made source path b a w w' hf hs h hp =>
    obtain ⟨out, files', lines, H⟩ := C87_make_same (o := o) (lint := hr) hf S hE hT hs
    obtain ⟨w1, h1, g1, -⟩ := H b w rfl
    obtain ⟨w2, h2, g2, -⟩ := H b (fresh w) rfl
    rw [h] at h1
    have e : out = .ok .none := by
      cases out with
      | error e => cases h1
      | ok v => cases h1; rfl
    rw [e] at h2 h1
    cases h1
    obtain ⟨out', u', rs, w3, hb, h3, h4⟩ := make_cases (o := o) (w := fresh w) (handrails := b) (lint := hr) hf hs
    rw [h2] at h3
    cases hb with
    | @stopped e => exfalso; cases e <;> cases h3
    | @unbuilt _ _ _ e => exfalso; cases e <;> cases h3
    | @done body h' rs s c d =>
      cases h3
      cases c with
      | @done r h5 rs _ s3 c p =>
        cases c with
        | done p1 p2 =>
          refine ⟨body, ⟨_, _, _, _, _, p1, p2, p⟩, .inr ?_⟩
          rw [g1, ← g2, h4] at hp
          have hp : (s.web.files _).or _ = _ := hp
          rw [(C55_page _ body _ _ d).1] at hp
          cases hp; rfl

theorem stage {s1 : ParserState} {r : Ref} {s2 : TState} {as : Bool} (S : Source (o.sitter src))
    (p1 : Parser.parse (12 * (o.sitter src).size + 1) (o.sitter src) { heap := Heap.empty } = .ok r s1) :
    ∃ t, Doc s1.heap r t ∧ 12 * t.size < 12 * s1.heap.next + 1 ∧
      ∀ t', Doc s2.heap r t' → 2 * t'.size ≤ (conf o hr as s2.heap).fuel := by
  obtain ⟨t, D, -⟩ := C63_document (s := { heap := Heap.empty }) S Forest.empty (Nat.lt_succ_self _) p1
  exact ⟨t, D, by have := doc_size D; omega, fun t' D' => Nat.mul_le_mul_left 2 (doc_size D')⟩

variable (S : Source (o.sitter src)) (hU : TextsUnlabelled (o.sitter src)) (hT : TocFine (o.sitter src))
  (P : Published o src hr page)
include S hU hT P

/-- **C88.** A label that the source gives to something with an element of its own is the id of an element of the
page. -/
theorem C88_anchor (hl : Labelled (o.sitter src) l) (ho : LabelsOnly (o.sitter src) l linkable) : HasId page l := by
  obtain ⟨body, ⟨r, s1, s2, s3, as, p1, p2, p3⟩, hb⟩ := published_staged S hU.errors hT P
  obtain ⟨t, D, hf, hk⟩ := stage (s2 := s2) (hr := hr) (as := as) S p1
  have h := stage_anchor (s := { heap := Heap.empty }) S Forest.empty (Nat.lt_succ_self _) p1 hU hT D hf p2 hk p3 hl ho
  rcases hb with rfl | rfl
  · exact h
  · exact hasId_page h

/-- **C88.** For each reference in the source to such a label, the page has a link to the element with that label as
its id; it shows the text that the reference gives, if any. -/
theorem C88_reference {a : Look} (ha : a ∈ sourceLooks (o.sitter src)) (hc : a.cls = .PendingReference)
    (ht : a.target = .str l) (hl : Labelled (o.sitter src) l) (ho : LabelsOnly (o.sitter src) l linkable) :
    HasId page l ∧ ∃ text classes, HasLink page [] classes l text ∧ "reference".toList ∈ classes ∧
      (a.reftext ≠ [] → text = a.reftext) := by
  obtain ⟨body, ⟨r, s1, s2, s3, as, p1, p2, p3⟩, hb⟩ := published_staged S hU.errors hT P
  obtain ⟨t, D, hf, hk⟩ := stage (s2 := s2) (hr := hr) (as := as) S p1
  obtain ⟨h1, text, classes, h2, h3⟩ := stage_reference (s := { heap := Heap.empty }) S Forest.empty (Nat.lt_succ_self _) p1 hU hT D
    hf p2 hk p3 ha hc ht hl ho
  rcases hb with rfl | rfl
  · exact ⟨h1, text, classes, h2, h3⟩
  · exact ⟨hasId_page h1, text, classes, hasLink_page h2, h3⟩

/-- **C88.** Where the source refers to a label that it does not give to anything, the page says so. -/
theorem C88_unknown {a : Look} (ha : a ∈ sourceLooks (o.sitter src)) (hc : a.cls = .PendingReference)
    (ht : a.target = .str l) (hl : ¬ Labelled (o.sitter src) l) : ShowsUnknown page l := by
  obtain ⟨body, ⟨r, s1, s2, s3, as, p1, p2, p3⟩, hb⟩ := published_staged S hU.errors hT P
  obtain ⟨t, D, hf, hk⟩ := stage (s2 := s2) (hr := hr) (as := as) S p1
  have h := stage_unknown (s := { heap := Heap.empty }) S Forest.empty (Nat.lt_succ_self _) p1 hU hT D hf p2 hk p3 ha hc ht hl
  rcases hb with rfl | rfl
  · exact h
  · exact showsUnknown_page h

/-- **C88.** For each label of the `n`-th citation of the source that the source gives to something, the page has a
link to the element with that label as its id.  The citation itself has the id `cite-n`, and without handrails there is a
link back to it. -/
theorem C88_citation {a : Look} {n : Nat}
    (ha : ((sourceLooks (o.sitter src)).filter fun a => decide (a.cls = .PendingCite))[n]? = some a)
    (hc : l ∈ a.cites) (hl : Labelled (o.sitter src) l) :
    HasId page l ∧ HasId page ("cite-".toList ++ natStr n) ∧
      (∃ text id classes, HasLink page id classes l text ∧ "reference".toList ∈ classes ∧ "cite".toList ∈ classes) ∧
      (hr = false → ∃ i, HasLink page [] ["reference".toList, "backlink".toList]
        ("cite-".toList ++ natStr n) ('↖' :: natStr i)) := by
  obtain ⟨body, ⟨r, s1, s2, s3, as, p1, p2, p3⟩, hb⟩ := published_staged S hU.errors hT P
  obtain ⟨t, D, hf, hk⟩ := stage (s2 := s2) (hr := hr) (as := as) S p1
  obtain ⟨h1, h2, ⟨text, id, classes, h3, h4⟩, h5⟩ := stage_citation (s := { heap := Heap.empty }) S Forest.empty
    (Nat.lt_succ_self _) p1 hU hT D hf p2 hk p3 ha hc hl
  rcases hb with rfl | rfl
  · exact ⟨h1, h2, ⟨text, id, classes, h3, h4⟩, h5⟩
  · refine ⟨hasId_page h1, hasId_page h2, ⟨text, id, classes, hasLink_page h3, h4⟩, fun e => ?_⟩
    obtain ⟨i, hi⟩ := h5 e
    exact ⟨i, hasLink_page hi⟩

omit S hU hT P

/-! ## Cases -/

theorem published_of_page {w : World Sys} {p : Str} (hs : SourceText w.user.files src .none src)
    (hb : "\n<body>".toList <+: p) (h : ∃ w', render o src .none hr false {} w = .ok (.str p) w') : Published o src hr p := by
  obtain ⟨w', h⟩ := h
  refine .rendered (a := {}) (by decide) hs h ?_
  rintro rfl
  exact absurd (List.prefix_nil.1 hb) (by decide)

theorem sample_texts : TextsUnlabelled sample := fun kind d ps hm hk => by
  have := parts_all (c := sample) (f := fun kind d _ => !(classOf kind).isSub .Text || metaText d "label".toList = none)
    (by decide +kernel) kind d ps hm
  rw [hk] at this
  exact of_decide_eq_true this

/-- Not vacuous: the page of the sample has the theorem with its label as the id, a link to it with the text of the
reference, the citation, a link to the entry that it names, and without handrails a link back. -/
example (hr : Bool) : ∃ page, Published sampleOuter "source".toList hr page ∧ HasId page "thm".toList ∧
    (∃ classes, HasLink page [] classes "thm".toList "it".toList) ∧ HasId page "euler".toList ∧
    HasId page "cite-0".toList ∧ (∃ text id classes, HasLink page id classes "euler".toList text) := by
  obtain ⟨page, hb, -, H⟩ := C87_page (o := sampleOuter) (src := "source".toList) (hr := hr) (as := false) sample_wellFormed
    sample_errors sample_tocFine sample_structured (sample_page hr)
  obtain ⟨w1, h1, -⟩ := H _ _ {} sampleWorld (by decide) sampleText
  have P := published_of_page (hr := hr) sampleText hb ⟨w1, h1⟩
  have hS : Source (sampleOuter.sitter "source".toList) := sample_source
  have hU : TextsUnlabelled (sampleOuter.sitter "source".toList) := sample_texts
  have hT : TocFine (sampleOuter.sitter "source".toList) := sample_tocFine
  have t1 : ∃ a ∈ sourceLooks sample, a.cls = .PendingReference ∧ a.target = .str "thm".toList ∧ a.reftext = "it".toList := by
    decide +kernel
  have t2 : Labelled sample "thm".toList := ⟨by decide, .inl (by decide +kernel)⟩
  have t3 : LabelsOnly sample "thm".toList linkable := by unfold LabelsOnly; decide +kernel
  have t4 : Labelled sample "euler".toList := ⟨by decide, .inr (by decide +kernel)⟩
  obtain ⟨a, ha, hc, ht, hx⟩ := t1
  obtain ⟨g1, text, classes, g2, -, g3⟩ := C88_reference hS hU hT P ha hc ht t2 t3
  rw [hx] at g3
  rw [g3 (by decide)] at g2
  obtain ⟨b, hb⟩ : ∃ b, ((sourceLooks sample).filter fun a => decide (a.cls = .PendingCite))[0]? = some b ∧
      "euler".toList ∈ b.cites := by
    have : ((sourceLooks sample).filter fun a => decide (a.cls = .PendingCite))[0]?.any
      (fun b => decide ("euler".toList ∈ b.cites)) = true := by decide +kernel
    cases e : ((sourceLooks sample).filter fun a => decide (a.cls = .PendingCite))[0]? with
    | none => rw [e] at this; cases this
    | some b => rw [e] at this; exact ⟨b, rfl, of_decide_eq_true this⟩
  obtain ⟨k1, k2, ⟨text, id, cl, k3, -⟩, -⟩ := C88_citation hS hU hT P hb.1 hb.2 t4
  exact ⟨page, P, g1, ⟨classes, g2⟩, k1, k2, text, id, cl, k3⟩

/-- A source with a reference to a label that nothing has. -/
def stray : Cst :=
  br 0 "source_file" (text := "the source") [
    br 2 "block" [
      br 3 "theorem" [] (field := "tag"),
      br 12 "paragraph" [
        br 13 "text" [] (text := "See "),
        br 31 "specialinline" [br 32 "ref" [], br 33 "text" [] (text := "nowhere"), br 34 "text" [] (text := "it")]]]]

theorem stray_wellFormed : WellFormed stray where
  source := by
    refine ⟨by decide, ?_⟩
    intro x hx y hy
    have : ∀ x ∈ stray.children, ∀ y ∈ x.nodes, y.type ≠ "source_file".toList := by decide +kernel
    exact this x hx y hy
  metaok := by decide +kernel
  tidy := by decide +kernel
  parts := by decide +kernel
  nesting := by decide +kernel

theorem stray_texts : TextsUnlabelled stray := fun kind d ps hm hk => by
  have := parts_all (c := stray) (f := fun kind d _ => !(classOf kind).isSub .Text || metaText d "label".toList = none)
    (by decide +kernel) kind d ps hm
  rw [hk] at this
  exact of_decide_eq_true this

theorem stray_tocFine : TocFine stray := by
  rintro ⟨kind, d, ps, hp, hk⟩
  have := parts_all (c := stray) (f := fun kind _ _ => kind ≠ "toc".toList) (by decide +kernel) kind d ps hp
  exact absurd hk (of_decide_eq_true this)

theorem stray_structured : Structured stray :=
  structured_of (fun d ps hp => absurd rfl (of_decide_eq_true (parts_all (c := stray)
    (f := fun kind _ _ => kind ≠ "cite".toList) (by decide +kernel) _ d ps hp))) (by decide +kernel)
    (by decide +kernel) (by decide +kernel) (by decide +kernel)

theorem stray_page (handrails : Bool) : PageSource handrails stray := by
  have kind := parts_all (c := stray) (f := fun kind _ _ => kind ∉ ["url".toList, "author".toList, "bibitem".toList])
    (by decide +kernel)
  exact {
    formulas := fun _ => by decide +kernel
    links := fun _ _ _ hp hk => absurd (hk ▸ .head _) (of_decide_eq_true (kind _ _ _ hp))
    authors := fun _ _ _ _ hp hk => absurd (hk ▸ .tail _ (.head _)) (of_decide_eq_true (kind _ _ _ hp))
    template := fineTemplate_ok (by decide +kernel)
    templates := fun _ _ _ hp => fineTemplate_ok (parts_all (c := stray)
      (f := fun kind d _ => fineTemplate (lookOf kind d).template) (by decide +kernel) _ _ _ hp)
    entries := by
      have : (bibliographies stray).isEmpty = true := by decide +kernel
      intro l hl
      rw [List.isEmpty_iff.mp this] at hl
      cases hl
    strays := fun _ _ _ hp hk => absurd (hk ▸ .tail _ (.tail _ (.head _))) (of_decide_eq_true (kind _ _ _ hp)) }

/-- `C88_unknown` is not vacuous: the page of this source says that the label is unknown. -/
example (hr : Bool) : ∃ page, Published { sampleOuter with sitter := fun _ => stray } "source".toList hr page ∧
    ShowsUnknown page "nowhere".toList := by
  obtain ⟨page, hb, -, H⟩ := C87_page (o := { sampleOuter with sitter := fun _ => stray }) (src := "source".toList) (hr := hr)
    (as := false) stray_wellFormed stray_texts.errors stray_tocFine stray_structured (stray_page hr)
  obtain ⟨w1, h1, -⟩ := H _ _ {} sampleWorld (by decide) sampleText
  have P := published_of_page (o := { sampleOuter with sitter := fun _ => stray }) (hr := hr) sampleText hb ⟨w1, h1⟩
  have t1 : ∃ a ∈ sourceLooks stray, a.cls = .PendingReference ∧ a.target = .str "nowhere".toList := by decide +kernel
  have t2 : "nowhere".toList ∉ (sourceLooks stray).map Look.label ∧ "nowhere".toList ∉ entryLabels stray := by decide +kernel
  obtain ⟨a, ha, hc, ht⟩ := t1
  exact ⟨page, P, C88_unknown (o := { sampleOuter with sitter := fun _ => stray }) stray_wellFormed.source stray_texts
    stray_tocFine P ha hc ht fun h => h.2.elim t2.1 t2.2⟩

end Program
end RSM
