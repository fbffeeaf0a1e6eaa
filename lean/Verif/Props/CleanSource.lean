import Verif.Lemmas.CleanFit
import Verif.Props.Balance
import Verif.Props.Rails

/-! # A source without angle brackets gives a well-nested page (C82)

C37 says when the page of a document is well nested.  Here it is proved that the documents that come from the
parser and the transformer meet its conditions, if the source has no angle brackets, if its display formulas stand
in paragraphs, one in each, and if the labels and DOIs of its entries can be written in a tag (handrails only). -/

namespace RSM
open Transformer Tree PyM RSM.Parser Tr Html

section
variable {h h' : Heap} {root : Ref} {t t' : Tree} {fuel : Nat} {log : List TWarning} {s' : TState}

/-- Display formulas stand after `transform` where the translators want them. -/
theorem Transformed.formulasPlaced (T : Transformed h root t h' t') (D : Doc h root t) (hF : FormulasFit h t) :
    FormulasPlaced h' t' := by
  -- what is a display formula afterwards was one before, in the same paragraph
  have key : ∀ x ∈ t'.pre, (h'.get x).cls = .MathBlock → ∃ p, h'.parent x = some p ∧ (h.get p).cls = .Paragraph ∧
      p ∈ t.pre ∧ x ∈ h.children p ∧ (h.get x).cls = .MathBlock := by
    intro x hx hc
    obtain ⟨h1, _, h3⟩ := (T.found x hx).lost (by rw [hc]; decide)
    have hc' : (h.get x).cls = .MathBlock := (cls_of_authored h3).symm.trans hc
    obtain ⟨p, hp, hpc⟩ := hF.parent x h1 hc'
    have hxr : x ≠ root := fun e => by rw [e, D.parent_root_none] at hp; cases hp
    obtain ⟨q, hq, e1, e2⟩ := D.parent_mem h1 hxr
    rw [hp] at e1
    cases e1
    refine ⟨p, ?_, hpc, hq, e2, hc'⟩
    exact T.stay p hq (by unfold Pending; rw [hpc]; decide) (by rw [hpc]; decide) x e2
      (by unfold Pending; rw [hc']; decide) (by rw [hc']; decide)
  constructor
  · intro x hx hc
    obtain ⟨p, h1, h2, h3, _⟩ := key x hx ((isSub_mathBlock _).mp hc)
    exact ⟨p, h1, (T.cls p h3).trans h2⟩
  · intro p hp hpc l m e hm x hx
    cases hxc : h'.isInst x .MathBlock with
    | false => rfl
    | true =>
      exfalso
      have hmem : ∀ y ∈ l ++ [m], y ∈ t'.pre ∧ h'.parent y = some p := fun y hy => T.doc.children_mem hp (e ▸ hy)
      have hx' := hmem x (List.mem_append_left _ hx)
      have hm' := hmem m (List.mem_append_right _ (.head _))
      obtain ⟨q, a1, a2, a3, a4, a5⟩ := key x hx'.1 ((isSub_mathBlock _).mp hxc)
      rw [hx'.2] at a1
      cases a1
      obtain ⟨q, b1, b2, b3, b4, b5⟩ := key m hm'.1 ((isSub_mathBlock _).mp hm)
      rw [hm'.2] at b1
      cases b1
      have hne : x ≠ m := by
        intro h0
        subst h0
        have hnd := T.doc.children_nodup hp
        rw [e] at hnd
        exact (List.nodup_append.mp hnd).2.2 x hx x (.head _) rfl
      obtain ⟨l1, r1, e1⟩ := List.append_of_mem b4
      have step : ∀ y ∈ r1, (h.get y).cls ≠ .Contents → False := fun y hy hyc =>
        T.follow p b3 (by unfold Pending; rw [b2]; decide) (by rw [b2]; decide) l1 m r1 e1
          (by unfold Pending; rw [b5]; decide) (by rw [b5]; decide) y hy hyc l e
      rw [e1] at a4
      rcases List.mem_append.mp a4 with h0 | h0
      · obtain ⟨y, hy, hyc⟩ := hF.followed p b3 b2 l1 m r1 e1 b5 ⟨x, h0, a5⟩
        exact step y hy hyc
      · rcases List.mem_cons.mp h0 with h0 | h0
        · exact hne h0
        · exact step x h0 (by rw [a5]; decide)

/-- Links of entries stay such that they can be written in a tag. -/
theorem linkSafe_steady (t : Tree) : Steady fun x n => x ∈ t.pre → n.cls = .Bibitem → LinkSafe n where
  links x n p ks h hx hc := { h hx hc with }
  unlabel x n h hx hc := { h hx hc with quote := List.not_mem_nil, line := List.not_mem_nil }
  noTarget x _ hc := by cases hc
  error x a l _ _ y _ hc := by cases hc
  unknown x a l _ _ y _ hc := by cases hc
  reference x a z _ y _ hc := by cases hc
  cite ys k y _ hc := by cases hc
  backlink x n k h hx hc := { h hx hc with
    backlinks := fun l hl => by
      rcases List.mem_append.mp hl with hl | hl
      · exact (h hx hc).backlinks l hl
      · rw [List.mem_singleton.mp hl]; exact noQuote_citeLabel k }
  made c hm y _ hc := by
    have hc : c = .Bibitem := hc
    rw [hc] at hm
    exact absurd hm (by decide)
  depth x n k h hx hc := { h hx hc with }
  number x n k h hx hc := { h hx hc with }
  letter x n c hm h hx hc := { h hx hc with }
  template x n h hx hc := { h hx hc with }
  entry h _ fuel sec text _ y _ hc := by cases hc
  kind x n h hx hc := { h hx hc with }
  assumption x n h hx hc := { h hx hc with }
  id x n k h hx hc := { h hx hc with }

/-- **C82.** If no text of a document has angle brackets, its display formulas stand in paragraphs, and its entries
can be linked, then the page of what `transform` returns is well nested. -/
theorem C82_transformed (hr : ResolveInput h root t) (ha : StepKidsAllowed h t) (hi : TocInput h t)
    (A : AsParsed h t) (hC : ∀ x, CleanIn (h.get x)) (hF : FormulasFit h t) (hf : 12 * t.size < fuel)
    (hok : transform fuel root { heap := h, log := log } = .ok () s') :
    ∃ t', Doc s'.heap root t' ∧ ∀ (k : Conf), Outside k → 2 * t'.size ≤ k.fuel →
      (k.handrails = true → ∀ x ∈ t.pre, (h.get x).cls = .Bibitem → LinkSafe (h.get x)) → ∀ page s3,
      translate k root { heap := s'.heap } = .ok page s3 → Balanced page := by
  obtain ⟨t', T⟩ := transformed hr ha hi hf hok
  have hC' := transform_steady clean_steady fuel root (s := { heap := h, log := log }) hC
  rw [hok] at hC'
  refine ⟨t', T.doc, fun k ho hk hE page s3 h3 => ?_⟩
  refine C37_well_nested k ho T.doc hk (fun x => (hC' x).toClean) (T.formulasPlaced hr.doc hF)
    (fun x _ => (hC' x).notes) (fun hh x hx hc => ?_) h3
  have hE' := transform_steady (linkSafe_steady t) fuel root (s := { heap := h, log := log }) (fun x hx => hE hh x hx)
  rw [hok] at hE'
  have hc : (s'.heap.get x).cls.isSub .Bibitem = true := hc
  obtain ⟨h1, _, h3⟩ := (T.found x hx).lost (by
    revert hc
    generalize (s'.heap.get x).cls = cl
    cases cl <;> decide)
  suffices hb : (s'.heap.get x).cls = .Bibitem from hE' x h1 hb
  have hA := (A x h1).1
  rw [← cls_of_authored h3] at hA
  revert hA hc
  generalize (s'.heap.get x).cls = cl
  cases cl <;> decide
end

section
variable {c : Cst} {fuel : Nat} {s s' : ParserState} {r : Ref} {t : Tree}

/-- **C82.** A source without angle brackets, whose display formulas stand in paragraphs, one in each, and whose
entries can be linked, gives a well-nested page. -/
theorem C82_source (S : Source c) (F : Forest s.heap) (hf : 12 * c.size < fuel) (hs : AllClean s.heap)
    (h : parse fuel c s = .ok r s') (hE : ErrorsUnlabelled c) (hT : TocFine c)
    (hC : CleanCst c) (hD : formulasFit .Node (sourceOutline c) = true)
    (D : Doc s'.heap r t) {fuel' : Nat} (hf' : 12 * t.size < fuel') {log : List TWarning} {s2 : TState}
    (h2 : transform fuel' r { heap := s'.heap, log := log } = .ok () s2) :
    ∃ t', Doc s2.heap r t' ∧ ∀ (k : Conf), Outside k → 2 * t'.size ≤ k.fuel → (k.handrails = true → EntriesSafe c) →
      ∀ page s3, translate k r { heap := s2.heap } = .ok page s3 → Balanced page := by
  obtain ⟨hS, -, -, hR, hI⟩ := C76_input S F hf h D
  have hc := parse_clean (fuel := fuel) hC hs
  rw [h] at hc
  obtain ⟨t1, D1, ho⟩ := C68_outline S F hf h
  have e := D1.unique D
  subst e
  obtain ⟨t', D', H⟩ := C82_transformed (hR hE) hS (hI hT) (parse_asParsed S F hf h D) hc
    (parse_formulasFit S F hf h D ho hD) hf' h2
  exact ⟨t', D', fun k hk hfu hL page s3 h3 => H k hk hfu
    (fun hh => parse_entrySafe S F hf h D hc (hL hh)) page s3 h3⟩

/-- **C82.** If it is also as it should be, it does give a page, and that page is well nested. -/
theorem C82_always (W : WellFormed c) (F : Forest s.heap) (hf : 12 * c.size < fuel) (hs : AllClean s.heap)
    (hE : ErrorsUnlabelled c) (hT : TocFine c) (hm : Structured c) {handrails : Bool} (P : PageSource handrails c)
    (hC : CleanCst c) (hD : formulasFit .Node (sourceOutline c) = true) (hL : handrails = true → EntriesSafe c)
    (log : List TWarning) :
    ∃ s1 t1, parse fuel c s = .ok s.heap.next s1 ∧ Doc s1.heap s.heap.next t1 ∧ ∀ fuel', 12 * t1.size < fuel' →
      ∃ s2 t2, transform fuel' s.heap.next { heap := s1.heap, log := log } = .ok () s2 ∧
        Doc s2.heap s.heap.next t2 ∧ ∀ k : Conf, k.handrails = handrails → Outside k → 2 * t2.size ≤ k.fuel →
          ∃ page s3, translate k s.heap.next { heap := s2.heap } = .ok page s3 ∧ Balanced page := by
  obtain ⟨s1, t1, h1, D1, H⟩ := C79_always W F hf hE hT hm P log
  refine ⟨s1, t1, h1, D1, fun fuel' hf' => ?_⟩
  obtain ⟨s2, t2, h2, D2, H2⟩ := H fuel' hf'
  obtain ⟨t3, D3, H3⟩ := C82_source W.source F hf hs h1 hE hT hC hD D1 hf' h2
  have e := D3.unique D2
  subst e
  refine ⟨s2, t3, h2, D2, fun k hk ho hfu => ?_⟩
  obtain ⟨page, s3, h3⟩ := H2 k hk hfu
  exact ⟨page, s3, h3, H3 k ho hfu (fun hh => hL (hk ▸ hh)) page s3 h3⟩

theorem entryPlain_of {n : NodeRec} (hc : CleanIn n) (hl : LinkSafe n) : Rails.EntryPlain n where
  fields := ⟨(noAngle_fmt hc.number).1, hc.author.1, hc.title.1, hc.journal.1, hc.publisher.1, fun y e => by
    have := hc.year
    rw [e] at this
    exact this.1⟩
  label := ⟨hl.quote, hl.line⟩
  doi := ⟨hc.doi.2, hl.doi⟩
  backlinks := hl.backlinks

/-- **C81, C82.** The page with handrails of a source without angle brackets, whose entries can be linked, is the
one described in Spec/Rails: all that is asked is asked of the source. -/
theorem C82_rails (S : Source c) (F : Forest s.heap) (hf : 12 * c.size < fuel) (hs : AllClean s.heap)
    (h : parse fuel c s = .ok r s') (hE : ErrorsUnlabelled c) (hT : TocFine c) (hC : CleanCst c) (hL : EntriesSafe c)
    (D : Doc s'.heap r t) {fuel' : Nat} (hf' : 12 * t.size < fuel') {log : List TWarning} {s2 : TState}
    (h2 : transform fuel' r { heap := s'.heap, log := log } = .ok () s2) {num : Ref → Option Str} {ref : Ref → Str}
    (hnum : ∀ x o, FullNumber s2.heap x o → num x = o) (href : ∀ x a, Render.RefText s2.heap x a → ref x = a) :
    ∃ t', Doc s2.heap r t' ∧ ∀ (k : Conf), k.handrails = true → 2 * t'.size ≤ k.fuel → ∀ page s3,
      translate k r { heap := s2.heap } = .ok page s3 → page =
        Rails.page s2.heap num ref k.highlight (if k.addSource then some (s2.heap.get r).src else none) t' := by
  have hc := parse_clean (fuel := fuel) hC hs
  rw [h] at hc
  exact C81_source S F hf h hE hT D (fun x hx hb => entryPlain_of (hc x) (parse_entrySafe S F hf h D hc hL x hx hb))
    hf' h2 hnum href
end

/-! ### The sample source -/

theorem sample_clean : CleanCst sample := by
  unfold CleanCst
  decide +kernel

theorem sample_fit : formulasFit .Node (sourceOutline sample) = true := by decide +kernel

theorem sample_safe : EntriesSafe sample := by
  have h : ((bibliographies sample).all fun l => l.all fun d => decide ('"' ∉ (entryLook d).label) &&
      decide ('\n' ∉ (entryLook d).label) && decide ('\n' ∉ (entryLook d).doi)) = true := by decide +kernel
  refine ⟨fun l hl d hd => ?_, fun d ps hp => ?_⟩
  · have := List.all_eq_true.mp (List.all_eq_true.mp h l hl) d hd
    simp only [Bool.and_eq_true, decide_eq_true_eq] at this
    exact ⟨this.1.1, this.1.2, this.2⟩
  · have := parts_all (c := sample) (f := fun kind d _ => kind ≠ "bibitem".toList || decide ('"' ∉ (entryLook d).label) &&
      decide ('\n' ∉ (entryLook d).label) && decide ('\n' ∉ (entryLook d).doi)) (by decide +kernel) _ d ps hp
    rw [Bool.or_eq_true_iff] at this
    have := this.resolve_left (by decide)
    simp only [Bool.and_eq_true, decide_eq_true_eq] at this
    exact ⟨this.1.1, this.1.2, this.2⟩

theorem fresh_clean : AllClean fresh.heap := fun _ => cleanIn_new _

/-- Not vacuous: the sample source gives a well-nested page, with either translator. -/
example (k : Conf) (ho : Outside k) :
    ∃ s1 t1, parse 600 sample fresh = .ok 0 s1 ∧ Doc s1.heap 0 t1 ∧ ∀ fuel', 12 * t1.size < fuel' →
      ∃ s2 t2, transform fuel' 0 { heap := s1.heap } = .ok () s2 ∧ Doc s2.heap 0 t2 ∧
        (2 * t2.size ≤ k.fuel → ∃ page s3, translate k 0 { heap := s2.heap } = .ok page s3 ∧ Balanced page) := by
  obtain ⟨s1, t1, h1, D1, H⟩ := C82_always (s := fresh) sample_wellFormed Forest.empty sample_fuel fresh_clean
    sample_errors sample_tocFine sample_structured (sample_page k.handrails) sample_clean sample_fit (fun _ => sample_safe) []
  refine ⟨s1, t1, h1, D1, fun fuel' hf => ?_⟩
  obtain ⟨s2, t2, h2, D2, H2⟩ := H fuel' hf
  exact ⟨s2, t2, h2, D2, H2 k rfl ho⟩

/-- A source with a tag in a text. -/
def angleSource : Cst :=
  br 0 "source_file" (text := "the source") [br 1 "paragraph" [br 2 "text" [] (text := "a <b> c")]]

/-- **C82.** Angle brackets have to be excluded: the texts of the source are written as they are, so that a tag in
the source is one on the page. -/
theorem C82_angle : ∃ page ∈ (translate plainConf 0 { heap :=
    (transform 200 0 { heap := (parse 200 angleSource fresh).state.heap }).state.heap }).value, ¬ Balanced page := by
  decide +kernel

/-- A paragraph with display formulas: the formulas are the children given. -/
def formulaSource (l : List Cst) : Cst := br 0 "source_file" (text := "the source") [br 1 "paragraph" l]

def displayed (n : Nat) : Cst := br n "mathblock" [br (n + 1) "asis_text" [] (text := "x")]

/-- **C82.** So have two display formulas in one paragraph: the paragraph is closed by each of them, and not opened
again.  One is fine, at the end or not. -/
theorem C82_two_formulas : (∃ page ∈ (translate plainConf 0 { heap := (transform 200 0 { heap :=
      (parse 200 (formulaSource [displayed 2, displayed 4]) fresh).state.heap }).state.heap }).value, ¬ Balanced page) ∧
    formulasFit .Node (sourceOutline (formulaSource [displayed 2, displayed 4])) = false ∧
    formulasFit .Node (sourceOutline (formulaSource [displayed 2])) = true ∧
    ∃ page ∈ (translate plainConf 0 { heap := (transform 200 0 { heap :=
      (parse 200 (formulaSource [displayed 2]) fresh).state.heap }).state.heap }).value, Balanced page := by
  refine ⟨?_, ?_, ?_, ?_⟩ <;> decide +kernel

/-- Functions outside of the model that are as asked. -/
example : Outside plainConf ∧ Outside railsConf := ⟨outside_plain, outside_rails⟩

end RSM
