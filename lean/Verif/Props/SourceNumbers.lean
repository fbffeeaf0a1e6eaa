import Verif.Lemmas.NumberPage
import Verif.Props.SourceLinks

/-!
# C91: the numbers on a page are those of the source
-/

namespace RSM
namespace Parser
open PyM Tr Html Transformer

variable {c : Cst} {fuel fuel' : Nat} {s s1 : ParserState} {r : Ref} {t : Tree} {log : List TWarning} {s2 : TState}
  {k : Conf} {s3 : TrState} {page l : Str}

theorem counted_of {a : Look} (h : a.cls ∈ withNumber) (hn : a.nonum = false) :
    counted a = true ∧ a.cls.numberAs ≠ .Bibitem := by
  have h1 : ∀ c ∈ withNumber, c.autonumber = true ∧ c ≠ .Step ∧ c.numberAs ≠ .Bibitem := by decide
  obtain ⟨g1, g2, g3⟩ := h1 _ h
  exact ⟨counted_iff.mpr ⟨g1, hn, g2⟩, g3⟩

theorem withNumber_linkable : ∀ c ∈ withNumber, c ∈ linkable := by decide

/-- What a translator writes for what is at a place of the source, with what it reads there. -/
theorem stage_visited (S : Source c) (F : Forest s.heap) (hf : 12 * c.size < fuel) (h : parse fuel c s = .ok r s1)
    (hU : ErrorsUnlabelled c) (hT : TocFine c) (D : Doc s1.heap r t) (hf' : 12 * t.size < fuel')
    (h2 : transform fuel' r { heap := s1.heap, log := log } = .ok () s2)
    (hk : ∀ t', Doc s2.heap r t' → 2 * t'.size ≤ k.fuel) (h3 : translate k r { heap := s2.heap } = .ok page s3)
    {p : Place} (hp : p ∈ sourcePlaces c) (hc : p.look.cls ∈ withNumber) :
    ∃ x s4 cmd s5, Tr.visit k x s4 = .ok cmd s5 ∧ cmd.text <:+: page ∧ (s4.heap.get x).cls = p.look.cls ∧
      (s4.heap.get x).nonum = p.look.nonum ∧ (s4.heap.get x).title = p.look.title ∧
      (p.look.nonum = false → s4.heap.fullNumber k.fuel x = some (some p.number) ∧ (s4.heap.get x).number.truthy = true) := by
  obtain ⟨hS, -, -, hR, hI⟩ := C76_input S F hf h D
  obtain ⟨x, hx, hs, hn⟩ := placed S F hf h hU hT D hf' h2 hp
  have hs1 : p.look = look s1.heap x := hs.1
  have hxn := D.bound x hx
  have hcx : (s1.heap.get x).cls ∈ linkable := by
    have := withNumber_linkable _ hc
    rw [hs1] at this
    exact this
  obtain ⟨s4, σ, t', R⟩ := passed (hR hU) hS (hI hT) hf' h2
  have N := numbers_run (hR hU) hS (hI hT) hf' h2
  obtain ⟨k1, k2, k3⟩ := N.same x hxn
  have hx' := R.old x hx (not_pending_of_anchored (List.mem_filter.mp hcx).1) (linkable_later hcx)
  obtain ⟨s5, cmd, s6, w1, w2, w3⟩ := translate_wrote (s := { heap := s2.heap }) R.doc (hk t' R.doc) h3 x hx'
  refine ⟨x, s5, cmd, s6, w2, w3, ?_, ?_, ?_, fun hnn => ?_⟩
  · rw [w1.cls]
    show (s2.heap.get x).cls = _
    rw [k1, hs1]; rfl
  · rw [w1.nonum]
    show (s2.heap.get x).nonum = _
    rw [k2, hs1]; rfl
  · rw [w1.title]
    show (s2.heap.get x).title = _
    rw [k3, hs1]; rfl
  · obtain ⟨g1, g2⟩ := counted_of hc hnn
    obtain ⟨g3, -, g4⟩ := hn g1 g2
    refine ⟨?_, by rw [w1.number]; exact g4⟩
    rw [w1.fullNumber]
    exact number_read R.doc hx' (hk t' R.doc) g3

/-- A section has a heading with its number and its title. -/
theorem stage_heading (S : Source c) (F : Forest s.heap) (hf : 12 * c.size < fuel) (h : parse fuel c s = .ok r s1)
    (hU : ErrorsUnlabelled c) (hT : TocFine c) (D : Doc s1.heap r t) (hf' : 12 * t.size < fuel')
    (h2 : transform fuel' r { heap := s1.heap, log := log } = .ok () s2)
    (hk : ∀ t', Doc s2.heap r t' → 2 * t'.size ≤ k.fuel) (h3 : translate k r { heap := s2.heap } = .ok page s3)
    {p : Place} {level : Str} (hp : p ∈ sourcePlaces c) (hc : headingLevel p.look.cls = some level) :
    HasHeading page level (headingText p) := by
  have hw : ∀ c l, headingLevel c = some l → c ∈ withNumber ∧ methodClass visitNames c = .ok .Section ∧
      ∃ n, c.level = some n ∧ natStr n = l := by
    intro c l hc
    cases c <;> first
      | (cases hc; exact ⟨by decide, rfl, _, rfl, by decide⟩)
      | exact absurd hc (by simp [headingLevel])
  obtain ⟨w1, w2, n, w3, w4⟩ := hw _ _ hc
  obtain ⟨x, s4, cmd, s5, g1, g2, g3, g4, g5, g6⟩ := stage_visited S F hf h hU hT D hf' h2 hk h3 hp w1
  have := section_shows (l := n) (n := p.number) (by rw [g3]; exact w2) (by rw [g3]; exact w3)
    (fun e => (g6 (g4 ▸ e)).1) g1
  rw [g4, g5, w4] at this
  exact this.trans g2

/-- A theorem shows its number. -/
theorem stage_title (S : Source c) (F : Forest s.heap) (hf : 12 * c.size < fuel) (h : parse fuel c s = .ok r s1)
    (hU : ErrorsUnlabelled c) (hT : TocFine c) (D : Doc s1.heap r t) (hf' : 12 * t.size < fuel')
    (h2 : transform fuel' r { heap := s1.heap, log := log } = .ok () s2)
    (hk : ∀ t', Doc s2.heap r t' → 2 * t'.size ≤ k.fuel) (h3 : translate k r { heap := s2.heap } = .ok page s3)
    {p : Place} (hp : p ∈ sourcePlaces c) (hc : p.look.cls ∈ titled) : ShowsLabel page (titleLabel p) := by
  have hw : ∀ c ∈ titled, c ∈ withNumber ∧ methodClass visitNames c = .ok .Theorem ∧ capitalize (lower c.name) = c.name := by
    intro c hc
    cases c <;> first
      | exact absurd hc (by decide)
      | exact ⟨by decide, rfl, by decide⟩
  obtain ⟨w1, w2, w3⟩ := hw _ hc
  obtain ⟨x, s4, cmd, s5, g1, g2, g3, g4, g5, g6⟩ := stage_visited S F hf h hU hT D hf' h2 hk h3 hp w1
  have := theorem_shows (n := p.number) (by rw [g3]; exact w2) (fun e => g6 (g4 ▸ e)) g1
  rw [g3, g4, g5, w3] at this
  exact this.trans g2

theorem first_carries (S : Source c) (F : Forest s.heap) (hf : 12 * c.size < fuel) (h : parse fuel c s = .ok r s1)
    (D : Doc s1.heap r t) (hU : TextsUnlabelled c) {p : Place} {x : Ref}
    (hs : Seat s1.heap (seen s1.heap t) x (p.look, p.before)) (hx : x ∈ t.pre) (hl : p.look.label = l) (hne : l ≠ [])
    (hb : ∀ b ∈ p.before, b.label ≠ l) (he : l ∉ entryLabels c) : Carries s1.heap t l x := by
  have hs1 : p.look = look s1.heap x := hs.1
  have hxl : (s1.heap.get x).label = l := by rw [← hl, hs1]; rfl
  obtain ⟨-, B, A, e, hB⟩ := hs
  have hB : p.before = B.map (look s1.heap) := hB
  have hnil : B.filter (fun y => decide (y ∈ t.pre ∧ (s1.heap.get y).label = l)) = [] :=
    List.filter_eq_nil_iff.mpr fun y hy hd =>
      hb (look s1.heap y) (by rw [hB]; exact List.mem_map_of_mem hy) (of_decide_eq_true hd).2
  have hfil := filter_seen (h := s1.heap) (H := Off c s1.heap)
    (p := fun y => decide (y ∈ t.pre ∧ (s1.heap.get y).label = l)) (fun x hx => .inl hx) (fun y hy => by
      apply decide_eq_false
      rintro ⟨h1, h2⟩
      rcases off_label S F hf h D hU h1 hy with g | ⟨-, g⟩
      · exact hne (h2.symm.trans g)
      · exact he (h2 ▸ g)) t (off_closed S F hf h D)
  rw [e, List.filter_append, List.filter_cons_of_pos (by simp [hx, hxl]), hnil, List.nil_append] at hfil
  obtain ⟨b, a, e1, e2, -, -⟩ := List.filter_eq_cons_iff.mp hfil
  refine ⟨hne, hxl, b, a, e1, fun y hy hyl => e2 y hy ?_⟩
  simp only [decide_eq_true_eq]
  exact ⟨by rw [e1]; exact List.mem_append_left _ hy, hyl⟩

/-- A reference shows the number of what it refers to. -/
theorem stage_number (S : Source c) (F : Forest s.heap) (hf : 12 * c.size < fuel) (h : parse fuel c s = .ok r s1)
    (hU : TextsUnlabelled c) (hT : TocFine c) (D : Doc s1.heap r t) (hf' : 12 * t.size < fuel')
    (h2 : transform fuel' r { heap := s1.heap, log := log } = .ok () s2)
    (hk : ∀ t', Doc s2.heap r t' → 2 * t'.size ≤ k.fuel) (h3 : translate k r { heap := s2.heap } = .ok page s3)
    {a : Look} (ha : a ∈ sourceLooks c) (hac : a.cls = .PendingReference) (hat : a.target = .str l) (har : a.reftext = [])
    {p : Place} (hp : p ∈ sourcePlaces c) (hc : p.look.cls ∈ withNumber) (hn : p.look.nonum = false)
    (hl : p.look.label = l) (hne : l ≠ []) (hb : ∀ b ∈ p.before, b.label ≠ l) (he : l ∉ entryLabels c)
    (hd : p.look.template = p.look.cls.classreftext) :
    ∃ classes, HasLink page [] classes l p.refText ∧ "reference".toList ∈ classes := by
  obtain ⟨hS, -, -, hR, hI⟩ := C76_input S F hf h D
  obtain ⟨x, hx, hs, hnum⟩ := placed S F hf h hU.errors hT D hf' h2 hp
  have hs1 : p.look = look s1.heap x := hs.1
  have hcar := first_carries S F hf h D hU hs hx hl hne hb he
  have hcx : (s1.heap.get x).cls ∈ linkable := by
    have := withNumber_linkable _ hc
    rw [hs1] at this
    exact this
  obtain ⟨-, g2, -, -⟩ := parse_labels S F hf h D hU
  obtain ⟨y, hy, rfl⟩ := g2 a ha
  obtain ⟨-, text, classes, h5, h6, h7⟩ := C74_reference_leads s1.heap r t fuel' log s2 k { heap := s2.heap } s3 page
    (hR hU.errors) hS (hI hT) hf' h2 rfl hk h3 y x l hy hac hat hcar (List.mem_filter.mp hcx).1 (linkable_later hcx)
  have har : (s1.heap.get y).overwriteReftext = [] := har
  rw [if_neg (not_not.mpr har)] at h7
  obtain ⟨s4, σ, t', R⟩ := passed (hR hU.errors) hS (hI hT) hf' h2
  have N := numbers_run (hR hU.errors) hS (hI hT) hf' h2
  obtain ⟨k1, -, -⟩ := N.same x (D.bound x hx)
  have hx' := R.old x hx (not_pending_of_anchored (List.mem_filter.mp hcx).1) (linkable_later hcx)
  obtain ⟨g1, g2⟩ := counted_of hc hn
  obtain ⟨g3, g4, -⟩ := hnum g1 g2
  have h8 := reftext_shown (k := k) (x := x) (s := { heap := s2.heap }) (number_ne g1) (number_chars p) hc (by
    show (s2.heap.get x).cls = _
    rw [k1, hs1]; rfl) g4 hd (number_read R.doc hx' (hk t' R.doc) g3) rfl
  rw [h8] at h7
  cases h7
  exact ⟨classes, h5, h6⟩

/-- A reference to something that is not to be numbered. -/
theorem stage_unnumbered (S : Source c) (F : Forest s.heap) (hf : 12 * c.size < fuel) (h : parse fuel c s = .ok r s1)
    (hU : TextsUnlabelled c) (hT : TocFine c) (D : Doc s1.heap r t) (hf' : 12 * t.size < fuel')
    (h2 : transform fuel' r { heap := s1.heap, log := log } = .ok () s2)
    (hk : ∀ t', Doc s2.heap r t' → 2 * t'.size ≤ k.fuel) (h3 : translate k r { heap := s2.heap } = .ok page s3)
    {a : Look} (ha : a ∈ sourceLooks c) (hac : a.cls = .PendingReference) (hat : a.target = .str l) (har : a.reftext = [])
    {p : Place} (hp : p ∈ sourcePlaces c) (hc : p.look.cls ∈ withNumber) (hn : p.look.nonum = true)
    (hl : p.look.label = l) (hne : l ≠ []) (hb : ∀ b ∈ p.before, b.label ≠ l) (he : l ∉ entryLabels c)
    (hd : p.look.template = p.look.cls.classreftext) :
    ∃ classes, HasLink page [] classes l (refTextOf p.look.cls false "None".toList) ∧ "reference".toList ∈ classes := by
  obtain ⟨hS, -, -, hR, hI⟩ := C76_input S F hf h D
  obtain ⟨x, hx, hs, -⟩ := placed S F hf h hU.errors hT D hf' h2 hp
  have hs1 : p.look = look s1.heap x := hs.1
  have hcar := first_carries S F hf h D hU hs hx hl hne hb he
  have hcx : (s1.heap.get x).cls ∈ linkable := by
    have := withNumber_linkable _ hc
    rw [hs1] at this
    exact this
  obtain ⟨-, g2, -, -⟩ := parse_labels S F hf h D hU
  obtain ⟨y, hy, rfl⟩ := g2 a ha
  obtain ⟨-, text, classes, h5, h6, h7⟩ := C74_reference_leads s1.heap r t fuel' log s2 k { heap := s2.heap } s3 page
    (hR hU.errors) hS (hI hT) hf' h2 rfl hk h3 y x l hy hac hat hcar (List.mem_filter.mp hcx).1 (linkable_later hcx)
  have har : (s1.heap.get y).overwriteReftext = [] := har
  rw [if_neg (not_not.mpr har)] at h7
  obtain ⟨s4, σ, t', R⟩ := passed (hR hU.errors) hS (hI hT) hf' h2
  have N := numbers_run (hR hU.errors) hS (hI hT) hf' h2
  obtain ⟨k1, k2, -⟩ := N.same x (D.bound x hx)
  have hpend := not_pending_of_anchored (List.mem_filter.mp hcx).1
  have hx' := R.old x hx hpend (linkable_later hcx)
  have e1 : (s2.heap.get x).cls = p.look.cls := by rw [k1, hs1]; rfl
  have e2 : (s2.heap.get x).nonum = true := by rw [k2, ← hn, hs1]; rfl
  have e3 : (s2.heap.get x).reftextTemplate = p.look.template := by
    rw [N.templateSame x hx hpend (fun H => by
      have := H.2.1
      rw [← k2, e2] at this
      cases this), hs1]
    rfl
  have h8 := reftext_shown (k := k) (x := x) (s := { heap := s2.heap }) (n := "None".toList) (ap := false) (by decide)
    (by decide) hc e1 (by rw [if_neg (by simp)]; exact e3) hd
    (number_read R.doc hx' (hk t' R.doc) (.nonum (fun e => by
      rw [e1] at e
      rw [e] at hc
      exact absurd hc (by decide)) e2)) rfl
  rw [h8] at h7
  cases h7
  exact ⟨classes, h5, h6⟩

/-- The node of a place, after the run, and its number. -/
theorem stage_place (S : Source c) (F : Forest s.heap) (hf : 12 * c.size < fuel) (h : parse fuel c s = .ok r s1)
    (hU : ErrorsUnlabelled c) (hT : TocFine c) (D : Doc s1.heap r t) (hf' : 12 * t.size < fuel')
    (h2 : transform fuel' r { heap := s1.heap, log := log } = .ok () s2)
    {p : Place} (hp : p ∈ sourcePlaces c) (hc : p.look.cls ∈ .Caption :: withNumber) :
    ∃ t' x, Doc s2.heap r t' ∧ x ∈ t'.pre ∧ Seat s1.heap (seen s1.heap t) x (p.look, p.before) ∧
      (s2.heap.get x).cls = p.look.cls ∧ (s2.heap.get x).path = p.look.path ∧
      (p.look.cls ≠ .Caption → ∃ o, FullNumber s2.heap x o ∧ fmtOpt o = p.shown ∧
        (p.look.nonum = false → o = some p.number)) ∧
      ∀ a b rest, p.around = (a, b) :: rest → a.cls ∈ withNumber → ∃ y o, s2.heap.parent x = some y ∧ y ∈ t'.pre ∧
        (s2.heap.get y).cls = a.cls ∧ FullNumber s2.heap y o ∧ fmtOpt o = (⟨a, b, rest⟩ : Place).shown := by
  obtain ⟨hS, -, -, hR, hI⟩ := C76_input S F hf h D
  obtain ⟨s4, σ, t', R⟩ := passed (hR hU) hS (hI hT) hf' h2
  have N := numbers_run (hR hU) hS (hI hT) hf' h2
  obtain ⟨x, hx, anc, hanc, hs, hall⟩ := place_node S F hf h D hp
  have out : ∀ cl ∈ Cls.Caption :: withNumber, cl ≠ .PendingReference ∧ cl ≠ .PendingCite ∧ cl ≠ .PendingPrev ∧
      cl ≠ .Contents ∧ cl ≠ .Manuscript ∧ cl ≠ .Step := by decide
  have kept : ∀ z ∈ t.pre, (s1.heap.get z).cls ∈ Cls.Caption :: withNumber →
      ¬ Pending s1.heap z ∧ z ∉ laterContents s1.heap t ∧ z ∈ t'.pre := by
    intro z hz hzc
    obtain ⟨o1, o2, o3, o4, -⟩ := out _ hzc
    have g1 : ¬ Pending s1.heap z := by
      rintro (e | e | e)
      · exact o1 e
      · exact o2 e
      · exact o3 e
    have g2 : z ∉ laterContents s1.heap t := fun H => o4 (by simpa using (List.mem_filter.mp (List.mem_of_mem_tail H)).2)
    exact ⟨g1, g2, R.old z hz g1 g2⟩
  have num : ∀ {pl : Place} {z : Ref} {anc : List Ref}, z ∈ t.pre → Ancestors s1.heap z anc →
      Seat s1.heap (seen s1.heap t) z (pl.look, pl.before) →
      List.Forall₂ (Seat s1.heap (seen s1.heap t)) anc pl.around → pl.look.cls ∈ withNumber →
      (s2.heap.get z).cls = pl.look.cls ∧
      ∃ o, FullNumber s2.heap z o ∧ fmtOpt o = pl.shown ∧ (pl.look.nonum = false → o = some pl.number) := by
    intro pl z anc hz hza hzs hzall hzc
    have hzs1 : pl.look = look s1.heap z := hzs.1
    obtain ⟨k1, k2, -⟩ := N.same z (D.bound z hz)
    have e1 : (s2.heap.get z).cls = pl.look.cls := by rw [k1, hzs1]; rfl
    have e2 : (s2.heap.get z).nonum = pl.look.nonum := by rw [k2, hzs1]; rfl
    refine ⟨e1, ?_⟩
    unfold Place.shown
    cases hn : pl.look.nonum with
    | true =>
      refine ⟨none, .nonum (fun e => ?_) (e2.trans hn), rfl, fun e => by cases e⟩
      exact (out _ (List.mem_cons_of_mem _ hzc)).2.2.2.2.1 (e1.symm.trans e)
    | false =>
      obtain ⟨g1, g2⟩ := counted_of hzc hn
      exact ⟨_, (seated S F hf h D N hz hza hzs hzall g1 g2).1, rfl, fun _ => rfl⟩
  have hs1 : p.look = look s1.heap x := hs.1
  have hcx : (s1.heap.get x).cls ∈ Cls.Caption :: withNumber := by
    rw [hs1] at hc; exact hc
  obtain ⟨g1, g2, g3⟩ := kept x hx hcx
  have hxb := D.bound x hx
  refine ⟨t', x, R.doc, g3, hs, by rw [(N.same x hxb).1, hs1]; rfl, ?_, ?_, ?_⟩
  · have := congrArg NodeRec.path (a₁ := NodeRec.authored _) (a₂ := NodeRec.authored _) (N.authored x hxb)
    rw [hs1]
    exact this
  · intro hcap
    refine (num hx hanc hs hall ?_).2
    rcases List.mem_cons.mp hc with e | e
    · exact absurd e hcap
    · exact e
  · intro a b rest hard hac
    rw [hard] at hall
    cases hall with
    | @cons y q anc' _ hy hrest =>
      obtain ⟨hpar, hanc'⟩ := hanc
      have hyt : y ∈ t.pre := by
        obtain ⟨-, B, A, e, -⟩ := hy
        exact seen_pre t y (by rw [e]; simp)
      have hy1 : a = look s1.heap y := hy.1
      have hyc : (s1.heap.get y).cls ∈ Cls.Caption :: withNumber := by
        have := List.mem_cons_of_mem Cls.Caption hac
        rw [hy1] at this
        exact this
      obtain ⟨e1, o, ho, hsh, -⟩ := num (pl := ⟨a, b, rest⟩) hyt hanc' hy hrest hac
      exact ⟨y, o, N.up x hx g1 g2 y hpar (out _ hyc).2.2.2.2.2, (kept y hyt hyc).2.2, e1, ho, hsh⟩

/-- The image of a figure. -/
theorem stage_image (S : Source c) (F : Forest s.heap) (hf : 12 * c.size < fuel) (h : parse fuel c s = .ok r s1)
    (hU : ErrorsUnlabelled c) (hT : TocFine c) (D : Doc s1.heap r t) (hf' : 12 * t.size < fuel')
    (h2 : transform fuel' r { heap := s1.heap, log := log } = .ok () s2)
    (hk : ∀ t', Doc s2.heap r t' → 2 * t'.size ≤ k.fuel) (h3 : translate k r { heap := s2.heap } = .ok page s3)
    {p : Place} (hp : p ∈ sourcePlaces c) (hc : p.look.cls = .Figure) (hpath : p.look.path ≠ []) :
    HasImage page p.look.path ("Figure ".toList ++ p.shown ++ ".".toList) := by
  obtain ⟨t', x, R, hx, -, e1, e2, hn, -⟩ := stage_place S F hf h hU hT D hf' h2 hp (by rw [hc]; decide)
  obtain ⟨o, ho, hsh, -⟩ := hn (by rw [hc]; decide)
  obtain ⟨s5, cmd, s6, w1, w2, w3⟩ := translate_wrote (s := { heap := s2.heap }) R (hk t' R) h3 x hx
  have e2' : (s5.heap.get x).path = p.look.path := by rw [w1.path]; exact e2
  have := figure_shows (o := o) (by rw [w1.cls]; exact e1.trans hc)
    (by rw [w1.fullNumber]; exact number_read R hx (hk t' R) ho) (by rw [e2']; exact hpath) w2
  rw [hsh, e2'] at this
  exact this.trans w3

/-- The caption of a figure or a table. -/
theorem stage_caption (S : Source c) (F : Forest s.heap) (hf : 12 * c.size < fuel) (h : parse fuel c s = .ok r s1)
    (hU : ErrorsUnlabelled c) (hT : TocFine c) (D : Doc s1.heap r t) (hf' : 12 * t.size < fuel')
    (h2 : transform fuel' r { heap := s1.heap, log := log } = .ok () s2)
    (hk : ∀ t', Doc s2.heap r t' → 2 * t'.size ≤ k.fuel) (h3 : translate k r { heap := s2.heap } = .ok page s3)
    {p : Place} (hp : p ∈ sourcePlaces c) (hc : p.look.cls = .Caption) {q : Place}
    (hq : p.around = (q.look, q.before) :: q.around) (hqc : q.look.cls ∈ withNumber) :
    ShowsCaption page (q.look.cls.name ++ ' ' :: q.shown ++ ". ".toList) := by
  obtain ⟨t', x, R, hx, -, e1, -, -, hn⟩ := stage_place S F hf h hU hT D hf' h2 hp (by rw [hc]; decide)
  obtain ⟨y, o, hpar, hy, e3, ho, hsh⟩ := hn _ _ _ hq hqc
  obtain ⟨s5, cmd, s6, w1, w2, w3⟩ := translate_wrote (s := { heap := s2.heap }) R (hk t' R) h3 x hx
  have := caption_shows (p := y) (o := o) (by rw [w1.cls]; exact e1.trans hc) (by rw [w1.parent]; exact hpar)
    (by rw [w1.fullNumber]; exact number_read R hy (hk t' R) ho) w2
  rw [hsh, show (s5.heap.get y).cls = q.look.cls by rw [w1.cls]; exact e3] at this
  exact this.trans w3

/-- The number of a display formula. -/
theorem stage_formula (S : Source c) (F : Forest s.heap) (hf : 12 * c.size < fuel) (h : parse fuel c s = .ok r s1)
    (hU : ErrorsUnlabelled c) (hT : TocFine c) (D : Doc s1.heap r t) (hf' : 12 * t.size < fuel')
    (h2 : transform fuel' r { heap := s1.heap, log := log } = .ok () s2)
    (hk : ∀ t', Doc s2.heap r t' → 2 * t'.size ≤ k.fuel) (h3 : translate k r { heap := s2.heap } = .ok page s3)
    (hr : k.handrails = true) {p : Place} (hp : p ∈ sourcePlaces c) (hc : p.look.cls = .MathBlock)
    (hn : p.look.nonum = false) : ShowsFormulaNumber page p.number := by
  obtain ⟨t', x, R, hx, -, e1, -, hnum, -⟩ := stage_place S F hf h hU hT D hf' h2 hp (by rw [hc]; decide)
  obtain ⟨o, ho, -, e⟩ := hnum (by rw [hc]; decide)
  obtain ⟨s5, cmd, s6, w1, w2, w3⟩ := translate_ended (s := { heap := s2.heap }) R (hk t' R) h3 x hx
  obtain ⟨s7, d, s8, w4, w5, w6⟩ := w3 (formula_defers (by rw [w1.cls]; exact e1.trans hc) hr w2)
  have := formula_shows (n := p.number) (by rw [w4.cls]; exact e1.trans hc) hr
    (by rw [w4.fullNumber, ← e hn]; exact number_read R hx (hk t' R) ho) w5
  exact this.trans w6

end Parser

namespace Html

theorem hasHeading_page {body level text : Str} (h : HasHeading body level text) : HasHeading (Build.page body) level text := by
  unfold HasHeading at h ⊢
  refine page_infix ?_ ?_ (by simp) h
  · intro c hc
    simp only [List.append_assoc] at hc
    cases hc; rfl
  · intro c hc
    rw [List.getLast?_append] at hc
    cases hc; rfl

theorem showsLabel_page {body text : Str} (h : ShowsLabel body text) : ShowsLabel (Build.page body) text := by
  unfold ShowsLabel at h ⊢
  refine page_infix ?_ ?_ (by simp) h
  · intro c hc
    simp only [List.append_assoc] at hc
    cases hc; rfl
  · intro c hc
    rw [List.getLast?_append] at hc
    cases hc; rfl

theorem showsCaption_page {body text : Str} (h : ShowsCaption body text) : ShowsCaption (Build.page body) text := by
  unfold ShowsCaption at h ⊢
  refine page_infix ?_ ?_ (by simp) h
  · intro c hc; cases hc; rfl
  · intro c hc
    rw [List.getLast?_append] at hc
    cases hc; rfl

theorem hasImage_page {body path text : Str} (h : HasImage body path text) : HasImage (Build.page body) path text := by
  unfold HasImage at h ⊢
  refine page_infix ?_ ?_ (by simp) h
  · intro c hc; cases hc; rfl
  · intro c hc
    rw [List.getLast?_append] at hc
    cases hc; rfl

theorem showsFormulaNumber_page {body n : Str} (h : ShowsFormulaNumber body n) : ShowsFormulaNumber (Build.page body) n := by
  unfold ShowsFormulaNumber at h ⊢
  refine page_infix ?_ ?_ (by simp) h
  · intro c hc; cases hc; rfl
  · intro c hc
    rw [List.getLast?_append] at hc
    cases hc; rfl

end Html

namespace Program
open PyM LogState Transformer Tree RSM.Parser Tr Html History

variable {o : Outer} {src page l : Str} {hr : Bool} (S : Source (o.sitter src)) (hU : TextsUnlabelled (o.sitter src))
  (hT : TocFine (o.sitter src)) (P : Published o src hr page) {p : Place} (hp : p ∈ sourcePlaces (o.sitter src))
include S hU hT P hp

/-- **C91.** Every section, subsection and subsubsection of the source has a heading on the page, with the number that
it has in the source, unless it is without a number, and its title. -/
theorem C91_heading {level : Str} (hc : headingLevel p.look.cls = some level) : HasHeading page level (headingText p) := by
  obtain ⟨body, ⟨r, s1, s2, s3, as, p1, p2, p3⟩, hb⟩ := published_staged S hU.errors hT P
  obtain ⟨t, D, hf, hk⟩ := stage (s2 := s2) (hr := hr) (as := as) S p1
  have h := stage_heading (s := { heap := Heap.empty }) S Forest.empty (Nat.lt_succ_self _) p1 hU.errors hT D hf p2 hk p3 hp hc
  rcases hb with rfl | rfl
  · exact h
  · exact hasHeading_page h

/-- **C91.** Every theorem, lemma and so on shows on the page what it is and the number that it has in the source. -/
theorem C91_title (hc : p.look.cls ∈ titled) : ShowsLabel page (titleLabel p) := by
  obtain ⟨body, ⟨r, s1, s2, s3, as, p1, p2, p3⟩, hb⟩ := published_staged S hU.errors hT P
  obtain ⟨t, D, hf, hk⟩ := stage (s2 := s2) (hr := hr) (as := as) S p1
  have h := stage_title (s := { heap := Heap.empty }) S Forest.empty (Nat.lt_succ_self _) p1 hU.errors hT D hf p2 hk p3 hp hc
  rcases hb with rfl | rfl
  · exact h
  · exact showsLabel_page h

/-- **C91.** A reference without a text of its own, to something with a number and with the usual reference text, shows
what that is and the number that it has in the source. -/
theorem C91_reference {a : Look} (ha : a ∈ sourceLooks (o.sitter src)) (hac : a.cls = .PendingReference)
    (hat : a.target = .str l) (har : a.reftext = []) (hc : p.look.cls ∈ withNumber) (hn : p.look.nonum = false)
    (hl : p.look.label = l) (hne : l ≠ []) (hb : ∀ b ∈ p.before, b.label ≠ l) (he : l ∉ entryLabels (o.sitter src))
    (hd : p.look.template = p.look.cls.classreftext) :
    ∃ classes, HasLink page [] classes l p.refText ∧ "reference".toList ∈ classes := by
  obtain ⟨body, ⟨r, s1, s2, s3, as, p1, p2, p3⟩, hbody⟩ := published_staged S hU.errors hT P
  obtain ⟨t, D, hf, hk⟩ := stage (s2 := s2) (hr := hr) (as := as) S p1
  obtain ⟨cl, h1, h2⟩ := stage_number (s := { heap := Heap.empty }) S Forest.empty (Nat.lt_succ_self _) p1 hU hT D hf p2 hk p3
    ha hac hat har hp hc hn hl hne hb he hd
  rcases hbody with rfl | rfl
  · exact ⟨cl, h1, h2⟩
  · exact ⟨cl, hasLink_page h1, h2⟩

/-- **C91.** A figure shows its file, and its number as the text instead of the image. -/
theorem C91_image (hc : p.look.cls = .Figure) (hpath : p.look.path ≠ []) :
    HasImage page p.look.path ("Figure ".toList ++ p.shown ++ ".".toList) := by
  obtain ⟨body, ⟨r, s1, s2, s3, as, p1, p2, p3⟩, hb⟩ := published_staged S hU.errors hT P
  obtain ⟨t, D, hf, hk⟩ := stage (s2 := s2) (hr := hr) (as := as) S p1
  have h := stage_image (s := { heap := Heap.empty }) S Forest.empty (Nat.lt_succ_self _) p1 hU.errors hT D hf p2 hk p3 hp hc hpath
  rcases hb with rfl | rfl
  · exact h
  · exact hasImage_page h

/-- **C91.** A caption shows what it is a caption of (the place `q`) and the number that this has in the source. -/
theorem C91_caption (hc : p.look.cls = .Caption) {q : Place} (hq : p.around = (q.look, q.before) :: q.around)
    (hqc : q.look.cls ∈ withNumber) : ShowsCaption page (q.look.cls.name ++ ' ' :: q.shown ++ ". ".toList) := by
  obtain ⟨body, ⟨r, s1, s2, s3, as, p1, p2, p3⟩, hb⟩ := published_staged S hU.errors hT P
  obtain ⟨t, D, hf, hk⟩ := stage (s2 := s2) (hr := hr) (as := as) S p1
  have h := stage_caption (s := { heap := Heap.empty }) S Forest.empty (Nat.lt_succ_self _) p1 hU.errors hT D hf p2 hk p3 hp hc hq hqc
  rcases hb with rfl | rfl
  · exact h
  · exact showsCaption_page h

omit P in
/-- **C91.** With handrails a display formula shows the number that it has in the source. -/
theorem C91_formula (P : Published o src true page) (hc : p.look.cls = .MathBlock) (hn : p.look.nonum = false) :
    ShowsFormulaNumber page p.number := by
  obtain ⟨body, ⟨r, s1, s2, s3, as, p1, p2, p3⟩, hb⟩ := published_staged S hU.errors hT P
  obtain ⟨t, D, hf, hk⟩ := stage (s2 := s2) (hr := true) (as := as) S p1
  have h := stage_formula (s := { heap := Heap.empty }) S Forest.empty (Nat.lt_succ_self _) p1 hU.errors hT D hf p2 hk p3 rfl hp hc hn
  rcases hb with rfl | rfl
  · exact h
  · exact showsFormulaNumber_page h

/-- **C91.** A reference to something that is not to be numbered shows the word None as the number. -/
theorem C91_unnumbered {a : Look} (ha : a ∈ sourceLooks (o.sitter src)) (hac : a.cls = .PendingReference)
    (hat : a.target = .str l) (har : a.reftext = []) (hc : p.look.cls ∈ withNumber) (hn : p.look.nonum = true)
    (hl : p.look.label = l) (hne : l ≠ []) (hb : ∀ b ∈ p.before, b.label ≠ l) (he : l ∉ entryLabels (o.sitter src))
    (hd : p.look.template = p.look.cls.classreftext) :
    ∃ classes, HasLink page [] classes l (refTextOf p.look.cls false "None".toList) ∧ "reference".toList ∈ classes := by
  obtain ⟨body, ⟨r, s1, s2, s3, as, p1, p2, p3⟩, hbody⟩ := published_staged S hU.errors hT P
  obtain ⟨t, D, hf, hk⟩ := stage (s2 := s2) (hr := hr) (as := as) S p1
  obtain ⟨cl, h1, h2⟩ := stage_unnumbered (s := { heap := Heap.empty }) S Forest.empty (Nat.lt_succ_self _) p1 hU hT D hf p2 hk p3
    ha hac hat har hp hc hn hl hne hb he hd
  rcases hbody with rfl | rfl
  · exact ⟨cl, h1, h2⟩
  · exact ⟨cl, hasLink_page h1, h2⟩

omit S hU hT P hp

/-! ## A case -/

/-!
The tree of
```
# Title
## One
## Two
### Inner
:theorem: {:label: thm} See :ref:here:: and :ref:thm::. ::
:lemma: {:nonum:} ::
:appendix: ::
## More
### Last {:label: here}
```
-/

/-- A source with sections, theorems, references and an appendix. -/
def chapters : Cst :=
  br 0 "source_file" (text := "the source") [
    br 1 "text" (field := "title") (text := "Title") [],
    br 2 "section" [br 3 "text" (field := "title") (text := "One") []],
    br 4 "section" [
      br 5 "text" (field := "title") (text := "Two") [],
      br 6 "subsection" [
        br 7 "text" (field := "title") (text := "Inner") [],
        br 8 "block" [
          br 9 "theorem" [] (field := "tag"),
          br 10 "blockmeta" (field := "meta") [
            br 11 "blockmetapair" [br 12 "metakey_text" [br 13 "label" []], br 14 "metaval_text" [] (text := "thm")]],
          br 15 "paragraph" [
            br 16 "text" [] (text := "See "),
            br 17 "specialinline" [br 18 "ref" [], br 19 "text" [] (text := "here")],
            br 20 "text" [] (text := " and "),
            br 21 "specialinline" [br 22 "ref" [], br 23 "text" [] (text := "thm")],
            br 24 "text" [] (text := ".")]],
        br 25 "block" [
          br 26 "lemma" [] (field := "tag"),
          br 27 "blockmeta" (field := "meta") [br 28 "blockmetapair" [br 29 "metakey_bool" [br 30 "nonum" []]]]]]],
    br 31 "specialblock" [br 32 "appendix" []],
    br 33 "section" [
      br 34 "text" (field := "title") (text := "More") [],
      br 35 "subsection" [
        br 36 "text" (field := "title") (text := "Last") [],
        br 37 "blockmeta" (field := "meta") [
          br 38 "blockmetapair" [br 39 "metakey_text" [br 40 "label" []], br 41 "metaval_text" [] (text := "here")]]]]]

theorem chapters_wellFormed : WellFormed chapters where
  source := by
    refine ⟨by decide, ?_⟩
    intro x hx y hy
    have : ∀ x ∈ chapters.children, ∀ y ∈ x.nodes, y.type ≠ "source_file".toList := by decide +kernel
    exact this x hx y hy
  metaok := by decide +kernel
  tidy := by decide +kernel
  parts := by decide +kernel
  nesting := by decide +kernel

theorem chapters_texts : TextsUnlabelled chapters := fun kind d ps hm hk => by
  have := parts_all (c := chapters) (f := fun kind d _ => !(classOf kind).isSub .Text || metaText d "label".toList = none)
    (by decide +kernel) kind d ps hm
  rw [hk] at this
  exact of_decide_eq_true this

theorem chapters_tocFine : TocFine chapters := by
  rintro ⟨kind, d, ps, hp, hk⟩
  have := parts_all (c := chapters) (f := fun kind _ _ => kind ≠ "toc".toList) (by decide +kernel) kind d ps hp
  exact absurd hk (of_decide_eq_true this)

theorem chapters_structured : Structured chapters :=
  structured_of (fun d ps hp => absurd rfl (of_decide_eq_true (parts_all (c := chapters)
    (f := fun kind _ _ => kind ≠ "cite".toList) (by decide +kernel) _ d ps hp))) (by decide +kernel)
    (by decide +kernel) (by decide +kernel) (by decide +kernel)

theorem chapters_page (handrails : Bool) : PageSource handrails chapters := by
  have kind := parts_all (c := chapters) (f := fun kind _ _ => kind ∉ ["url".toList, "author".toList, "bibitem".toList])
    (by decide +kernel)
  exact {
    formulas := fun _ => by decide +kernel
    links := fun _ _ _ hp hk => absurd (hk ▸ .head _) (of_decide_eq_true (kind _ _ _ hp))
    authors := fun _ _ _ _ hp hk => absurd (hk ▸ .tail _ (.head _)) (of_decide_eq_true (kind _ _ _ hp))
    template := fineTemplate_ok (by decide +kernel)
    templates := fun _ _ _ hp => fineTemplate_ok (parts_all (c := chapters)
      (f := fun kind d _ => fineTemplate (lookOf kind d).template) (by decide +kernel) _ _ _ hp)
    entries := by
      have : (bibliographies chapters).isEmpty = true := by decide +kernel
      intro l hl
      rw [List.isEmpty_iff.mp this] at hl
      cases hl
    strays := fun _ _ _ hp hk => absurd (hk ▸ .tail _ (.tail _ (.head _))) (of_decide_eq_true (kind _ _ _ hp)) }

/-- Not vacuous: what the page of this source shows. -/
example (hr : Bool) : ∃ page, Published { sampleOuter with sitter := fun _ => chapters } "source".toList hr page ∧
    HasHeading page "2".toList "2. Two".toList ∧ HasHeading page "3".toList "2.1. Inner".toList ∧
    HasHeading page "2".toList "A. More".toList ∧ HasHeading page "3".toList "A.1. Last".toList ∧
    ShowsLabel page "Theorem 2.1.".toList ∧ ShowsLabel page "Lemma.".toList ∧
    (∃ classes, HasLink page [] classes "thm".toList "Theorem 2.1".toList) ∧
    (∃ classes, HasLink page [] classes "here".toList "Section A.1".toList) := by
  obtain ⟨page, hb, -, H⟩ := C87_page (o := { sampleOuter with sitter := fun _ => chapters }) (src := "source".toList) (hr := hr)
    (as := false) chapters_wellFormed chapters_texts.errors chapters_tocFine chapters_structured (chapters_page hr)
  obtain ⟨w1, h1, -⟩ := H _ _ {} sampleWorld (by decide) sampleText
  have P := published_of_page (o := { sampleOuter with sitter := fun _ => chapters }) (hr := hr) sampleText hb ⟨w1, h1⟩
  have head := fun {p : Place} (hp : p ∈ sourcePlaces chapters) {level : Str} => C91_heading
    (o := { sampleOuter with sitter := fun _ => chapters }) (level := level) chapters_wellFormed.source chapters_texts chapters_tocFine P hp
  have title := fun {p : Place} (hp : p ∈ sourcePlaces chapters) => C91_title
    (o := { sampleOuter with sitter := fun _ => chapters }) chapters_wellFormed.source chapters_texts chapters_tocFine P hp
  have ref := fun {p : Place} (hp : p ∈ sourcePlaces chapters) {l : Str} {a : Look} => C91_reference
    (o := { sampleOuter with sitter := fun _ => chapters }) (l := l) (a := a) chapters_wellFormed.source chapters_texts chapters_tocFine P hp
  have h1 : ∀ level text, (∃ p ∈ sourcePlaces chapters, headingLevel p.look.cls = some level ∧ headingText p = text) →
      HasHeading page level text := by
    rintro level text ⟨p, hp, hc, rfl⟩; exact head hp hc
  have h2 : ∀ text, (∃ p ∈ sourcePlaces chapters, p.look.cls ∈ titled ∧ titleLabel p = text) → ShowsLabel page text := by
    rintro text ⟨p, hp, hc, rfl⟩; exact title hp hc
  have h3 : ∀ l text, (∃ a ∈ sourceLooks chapters, a.cls = .PendingReference ∧ a.target = .str l ∧ a.reftext = []) →
      (∃ p ∈ sourcePlaces chapters, p.look.cls ∈ withNumber ∧ p.look.nonum = false ∧ p.look.label = l ∧
        (∀ b ∈ p.before, b.label ≠ l) ∧ p.look.template = p.look.cls.classreftext ∧ p.refText = text) → l ≠ [] →
      l ∉ entryLabels chapters → ∃ classes, HasLink page [] classes l text := by
    rintro l text ⟨a, ha, hac, hat, har⟩ ⟨p, hp, hc, hn, hl, hb, hd, rfl⟩ hne he
    obtain ⟨classes, h, -⟩ := ref hp ha hac hat har hc hn hl hne hb he hd
    exact ⟨classes, h⟩
  refine ⟨page, P, h1 _ _ ?_, h1 _ _ ?_, h1 _ _ ?_, h1 _ _ ?_, h2 _ ?_, h2 _ ?_, h3 _ _ ?_ ?_ (by decide) ?_,
    h3 _ _ ?_ ?_ (by decide) ?_⟩ <;> decide +kernel

/-!
The tree of
```
# Title
## One
:figure: {:path: a.png} :caption: Words. ::
Then $$x$$ as in :ref:thm::.
:theorem: {:nonum:, :label: thm} ::
```
-/

/-- A source with a figure, a display formula and a reference to a theorem without a number. -/
def gallery : Cst :=
  br 0 "source_file" (text := "the source") [
    br 1 "text" (field := "title") (text := "Title") [],
    br 2 "section" [
      br 3 "text" (field := "title") (text := "One") [],
      br 4 "block" [
        br 5 "figure" [] (field := "tag"),
        br 6 "blockmeta" (field := "meta") [
          br 7 "blockmetapair" [br 8 "metakey_text" [br 9 "path" []], br 10 "metaval_text" [] (text := "a.png")]],
        br 11 "paragraph" [br 12 "caption" [br 13 "text" [] (text := "Words.")]]],
      br 14 "paragraph" [
        br 15 "text" [] (text := "Then "),
        br 16 "mathblock" [br 17 "asis_text" [] (text := "x")],
        br 18 "text" [] (text := " as in "),
        br 19 "specialinline" [br 20 "ref" [], br 21 "text" [] (text := "thm")],
        br 22 "text" [] (text := ".")],
      br 23 "block" [
        br 24 "theorem" [] (field := "tag"),
        br 25 "blockmeta" (field := "meta") [
          br 26 "blockmetapair" [br 27 "metakey_bool" [br 28 "nonum" []]],
          br 29 "blockmetapair" [br 30 "metakey_text" [br 31 "label" []], br 32 "metaval_text" [] (text := "thm")]]]]]

theorem gallery_wellFormed : WellFormed gallery where
  source := by
    refine ⟨by decide, ?_⟩
    intro x hx y hy
    have : ∀ x ∈ gallery.children, ∀ y ∈ x.nodes, y.type ≠ "source_file".toList := by decide +kernel
    exact this x hx y hy
  metaok := by decide +kernel
  tidy := by decide +kernel
  parts := by decide +kernel
  nesting := by decide +kernel

theorem gallery_texts : TextsUnlabelled gallery := fun kind d ps hm hk => by
  have := parts_all (c := gallery) (f := fun kind d _ => !(classOf kind).isSub .Text || metaText d "label".toList = none)
    (by decide +kernel) kind d ps hm
  rw [hk] at this
  exact of_decide_eq_true this

theorem gallery_tocFine : TocFine gallery := by
  rintro ⟨kind, d, ps, hp, hk⟩
  have := parts_all (c := gallery) (f := fun kind _ _ => kind ≠ "toc".toList) (by decide +kernel) kind d ps hp
  exact absurd hk (of_decide_eq_true this)

theorem gallery_structured : Structured gallery :=
  structured_of (fun d ps hp => absurd rfl (of_decide_eq_true (parts_all (c := gallery)
    (f := fun kind _ _ => kind ≠ "cite".toList) (by decide +kernel) _ d ps hp))) (by decide +kernel)
    (by decide +kernel) (by decide +kernel) (by decide +kernel)

theorem gallery_page (handrails : Bool) : PageSource handrails gallery := by
  have kind := parts_all (c := gallery) (f := fun kind _ _ => kind ∉ ["url".toList, "author".toList, "bibitem".toList])
    (by decide +kernel)
  exact {
    formulas := fun _ => by decide +kernel
    links := fun _ _ _ hp hk => absurd (hk ▸ .head _) (of_decide_eq_true (kind _ _ _ hp))
    authors := fun _ _ _ _ hp hk => absurd (hk ▸ .tail _ (.head _)) (of_decide_eq_true (kind _ _ _ hp))
    template := fineTemplate_ok (by decide +kernel)
    templates := fun _ _ _ hp => fineTemplate_ok (parts_all (c := gallery)
      (f := fun kind d _ => fineTemplate (lookOf kind d).template) (by decide +kernel) _ _ _ hp)
    entries := by
      have : (bibliographies gallery).isEmpty = true := by decide +kernel
      intro l hl
      rw [List.isEmpty_iff.mp this] at hl
      cases hl
    strays := fun _ _ _ hp hk => absurd (hk ▸ .tail _ (.tail _ (.head _))) (of_decide_eq_true (kind _ _ _ hp)) }

/-- Not vacuous: what the page of this source shows. -/
example : ∃ page, Published { sampleOuter with sitter := fun _ => gallery } "source".toList true page ∧
    HasImage page "a.png".toList "Figure 1.1.".toList ∧ ShowsCaption page "Figure 1.1. ".toList ∧
    ShowsFormulaNumber page "1.1".toList ∧ ∃ classes, HasLink page [] classes "thm".toList "Theorem None".toList := by
  obtain ⟨page, hb, -, H⟩ := C87_page (o := { sampleOuter with sitter := fun _ => gallery }) (src := "source".toList) (hr := true)
    (as := false) gallery_wellFormed gallery_texts.errors gallery_tocFine gallery_structured (gallery_page true)
  obtain ⟨w1, h1, -⟩ := H _ _ {} sampleWorld (by decide) sampleText
  have P := published_of_page (o := { sampleOuter with sitter := fun _ => gallery }) (hr := true) sampleText hb ⟨w1, h1⟩
  have image := fun {p : Place} (hp : p ∈ sourcePlaces gallery) => C91_image
    (o := { sampleOuter with sitter := fun _ => gallery }) gallery_wellFormed.source gallery_texts gallery_tocFine P hp
  have caption := fun {p : Place} (hp : p ∈ sourcePlaces gallery) => C91_caption
    (o := { sampleOuter with sitter := fun _ => gallery }) gallery_wellFormed.source gallery_texts gallery_tocFine P hp
  have formula := fun {p : Place} (hp : p ∈ sourcePlaces gallery) => C91_formula
    (o := { sampleOuter with sitter := fun _ => gallery }) gallery_wellFormed.source gallery_texts gallery_tocFine hp P
  have ref := fun {p : Place} (hp : p ∈ sourcePlaces gallery) {l : Str} {a : Look} => C91_unnumbered
    (o := { sampleOuter with sitter := fun _ => gallery }) (l := l) (a := a) gallery_wellFormed.source gallery_texts gallery_tocFine P hp
  have h1 : ∀ path text, (∃ p ∈ sourcePlaces gallery, p.look.cls = .Figure ∧ p.look.path = path ∧ path ≠ [] ∧
      "Figure ".toList ++ p.shown ++ ".".toList = text) → HasImage page path text := by
    rintro path text ⟨p, hp, hc, rfl, hne, rfl⟩; exact image hp hc hne
  have h2 : ∀ text, (∃ p ∈ sourcePlaces gallery, p.look.cls = .Caption ∧ ∃ q ∈ p.around.head?, q.1.cls ∈ withNumber ∧
      q.1.cls.name ++ ' ' :: (⟨q.1, q.2, p.around.tail⟩ : Place).shown ++ ". ".toList = text) → ShowsCaption page text := by
    rintro text ⟨p, hp, hc, q, hq, hqc, rfl⟩
    refine caption hp hc (q := ⟨q.1, q.2, p.around.tail⟩) ?_ hqc
    exact List.eq_cons_of_mem_head? hq
  have h3 : ∀ n, (∃ p ∈ sourcePlaces gallery, p.look.cls = .MathBlock ∧ p.look.nonum = false ∧ p.number = n) →
      ShowsFormulaNumber page n := by
    rintro n ⟨p, hp, hc, hn, rfl⟩; exact formula hp hc hn
  have h4 : ∀ l text, (∃ a ∈ sourceLooks gallery, a.cls = .PendingReference ∧ a.target = .str l ∧ a.reftext = []) →
      (∃ p ∈ sourcePlaces gallery, p.look.cls ∈ withNumber ∧ p.look.nonum = true ∧ p.look.label = l ∧
        (∀ b ∈ p.before, b.label ≠ l) ∧ p.look.template = p.look.cls.classreftext ∧
        refTextOf p.look.cls false "None".toList = text) → l ≠ [] →
      l ∉ entryLabels gallery → ∃ classes, HasLink page [] classes l text := by
    rintro l text ⟨a, ha, hac, hat, har⟩ ⟨p, hp, hc, hn, hl, hb, hd, rfl⟩ hne he
    obtain ⟨classes, h, -⟩ := ref hp ha hac hat har hc hn hl hne hb he hd
    exact ⟨classes, h⟩
  refine ⟨page, P, h1 _ _ ?_, h2 _ ?_, h3 _ ?_, h4 _ _ ?_ ?_ (by decide) ?_⟩ <;> decide +kernel

end Program
end RSM
