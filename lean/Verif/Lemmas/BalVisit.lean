import Verif.Lemmas.BalBase
import Verif.Lemmas.Repr

/-! # Lemmas: what visiting a node writes and defers is well nested (plain translator) -/

namespace RSM
namespace Tr
open PyM Html

/-- The document has not changed but for what the translators change, and has no angle brackets. -/
def Good (h0 : Heap) (s : TrState) : Prop := SameFrame h0 s.heap ∧ CleanHeap s.heap

/-- Decides closed facts about the fields of literal records. -/
macro "lit" : tactic => `(tactic| ((try dsimp only); decide))

variable {h0 : Heap}

theorem assign_good {r : Ref} {f : NodeRec → NodeRec} (hf : ∀ nd, frame (f nd) = frame nd)
    (hc : ∀ nd, Clean nd → Clean (f nd)) : Gives (Good h0) (fun _ => True) (assign r f) := by
  refine Gives.of_keep fun s hs => ⟨hs.1.trans (SameFrame.update _ _ _ hf), fun x => ?_⟩
  show Clean ((s.heap.update r f).get x)
  rw [Heap.get_update]
  split
  · rename_i e; exact hc _ (hs.2 _)
  · exact hs.2 x

theorem clean_types {nd : NodeRec} (h : Clean nd) {ty : List Str} (ht : ∀ x ∈ ty, NoAngle x) :
    Clean { nd with types := ty } := { h with types := ht }

theorem node_good (r : Ref) : Gives (Good h0) Clean (node r) :=
  (Gives.node r).mono fun _ ⟨_, hs, e⟩ => e ▸ hs.2 r

theorem fullNumber_good (k r) : Gives (Good h0) (fun o => ∀ s, o = some s → NoAngle s)
    (fullNumber k r) := by
  unfold fullNumber
  refine Gives.bind Gives.get fun t ht => ?_
  split
  · rename_i x hx; exact Gives.pure (noAngle_fullNumber ht.2 _ _ hx)
  · exact Gives.throw _

theorem reftext_good (k r) : Gives (Good h0) NoAngle (reftext k r) := by
  unfold reftext
  refine Gives.bind (fullNumber_good k r) fun fn hfn => Gives.bind Gives.get fun t ht =>
    Gives.bind (Gives.lift _) fun s hs => Gives.pure (noAngle_strip ?_)
  exact noAngle_formatGo (noAngle_name _) (noAngle_fmtOpt hfn) _ _ (ht.2 r).reftextTemplate hs

/-- The items are well nested and close everything they open. -/
abbrev FairC (c : Cmd) : Prop := Fair c.allItems [] []

theorem fair_cons2 {i : Item} {l : List Item} (h : Fair [i] [] []) (hl : Fair l [] []) :
    Fair (i :: l) [] [] := h.append hl

theorem fair_nodeTag {nd : NodeRec} (hn : Clean nd) {tag : Str} (ht : GoodTag tag)
    {add : List Str} (ha : ∀ x ∈ add, NoAngle x) (ni no sel : Bool) :
    Fair [.openTag (nodeTag nd tag add ni no sel)] [] [] := fair_openTag (tagOk_nodeTag hn ht ha ni no sel)

theorem fair_lit {a : TagArgs} (h : GoodTag a.tag) (h2 : a.id = []) (h3 : ∀ x ∈ a.classes, NoAngle x)
    (h4 : a.content = []) : Fair [.openTag a] [] [] :=
  fair_openTag ⟨h, h2 ▸ NoAngle.nil, h3, h4 ▸ Nets.nil _⟩

theorem still_lit {s : Str} (h : Balanced s) : Still (.text s) := still_text h.inert

theorem inert_append_noAngle {a b : Str} (ha : Inert a) (hb : NoAngle b) : Inert (a ++ b) :=
  ha.append hb.inert

/-! ## Links -/

theorem inert_link {id href text : Str} {cs : List Str} {kw : List (Str × Str)}
    (hid : NoAngle id) (hc : ∀ x ∈ cs, NoAngle x) (hk : ∀ x ∈ kw, NoAngle x.1 ∧ NoAngle x.2)
    (ht : NoAngle text) :
    Inert (makeTag "a" id cs (kwargs := ("href".toList, href) :: kw) ++ text ++ "</a>".toList) ∨
      ¬ NoAngle href := by
  by_cases hh : NoAngle href
  · left
    refine ((nets_makeTag (tag := "a".toList) (by decide) hid hc ?_).append (ht.inert.any _)).append
      (nets_closeTag (by decide))
    intro x hx
    simp only [List.mem_cons] at hx
    rcases hx with rfl | hx
    · exact ⟨by lit, hh⟩
    · exact hk x hx
  · exact .inr hh

theorem nets_link {id href text : Str} {cs : List Str} {kw : List (Str × Str)}
    (hid : NoAngle id) (hc : ∀ x ∈ cs, NoAngle x) (hh : NoAngle href)
    (hk : ∀ x ∈ kw, NoAngle x.1 ∧ NoAngle x.2) (ht : NoAngle text) :
    Inert (makeTag "a" id cs (kwargs := ("href".toList, href) :: kw) ++ text ++ "</a>".toList) :=
  (inert_link hid hc hk ht).resolve_right (fun h => h hh)

/-- The target has no angle brackets. -/
def TgtOk : Tgt → Prop
  | .url s => NoAngle s
  | .node _ => True

theorem linkText_good (k r) {t : Tgt} (ht : TgtOk t) : Gives (Good h0) NoAngle (linkText k r t) := by
  unfold linkText
  refine Gives.bind (node_good r) fun nd hn => ?_
  split
  · exact Gives.pure hn.overwriteReftext
  · cases t with
    | url s => exact Gives.pure ht
    | node x => exact reftext_good k x

theorem addReferenceType_good (r) : Gives (Good h0) (fun _ => True) (addReferenceType r) := by
  unfold addReferenceType
  refine Gives.bind (node_good r) fun nd hn => ?_
  split
  · refine assign_good (fun _ => rfl) fun nd hn => clean_types hn fun x hx => ?_
    simp only [List.mem_cons] at hx
    rcases hx with rfl | hx
    · decide
    · exact hn.types x hx
  · exact Gives.pure trivial

theorem checkTarget_good (t) : Gives (Good h0) (fun _ => True) (checkTarget t) := by
  unfold checkTarget
  split
  · exact Gives.throw _
  · exact Gives.pure trivial

theorem ahref_good (k r) {t : Tgt} (ht : TgtOk t) {href id : Str} {add : List Str} (hh : NoAngle href)
    (hi : NoAngle id) (ha : ∀ x ∈ add, NoAngle x) :
    Gives (Good h0) Inert (ahref k r t href id add) := by
  unfold ahref
  refine Gives.bind (checkTarget_good t) fun _ _ => Gives.bind (linkText_good k r ht) fun text htx =>
    Gives.bind (addReferenceType_good r) fun _ _ => Gives.bind (node_good r) fun nd hn =>
    Gives.pure ?_
  refine nets_link hi ?_ hh (by simp) htx
  intro x hx
  simp only [List.mem_append] at hx
  exact hx.elim (hn.types x) (ha x)

theorem fairC_text {s : Str} (h : Inert s) : FairC (.item (.text s)) := fair_still (still_text h)

theorem noAngle_hash {s : Str} (h : NoAngle s) : NoAngle ('#' :: s) := noAngle_cons.mpr ⟨by decide, h⟩

theorem visitReference_good (k r) : Gives (Good h0) FairC (visitReference k r) := by
  unfold visitReference
  refine Gives.bind Gives.get fun t ht => ?_
  split
  · rename_i x _
    exact Gives.bind (ahref_good k r (t := .node x) trivial (noAngle_hash (ht.2 x).label) NoAngle.nil (by simp)) fun s hs =>
      Gives.pure (fairC_text hs)
  · exact Gives.throw _

theorem visitUrl_good {k} (ho : Outside k) (r) : Gives (Good h0) FairC (visitUrl k r) := by
  unfold visitUrl
  refine Gives.bind Gives.get fun t ht => ?_
  split
  · exact Gives.throw _
  · rename_i s e
    have hs : NoAngle s := by have := (ht.2 r).target; rw [e] at this; exact this
    exact Gives.bind (ahref_good k r (t := .url s) hs hs NoAngle.nil (by simp)) fun s hs =>
      Gives.pure (fairC_text hs)
  · rename_i x _
    exact Gives.bind (ahref_good k r (t := .node x) trivial (noAngle_repr ho.shorten _ ht.2 x) NoAngle.nil (by simp))
      fun s hs => Gives.pure (fairC_text hs)

theorem inert_join {sep : Str} (hsep : Inert sep) : ∀ {l : List Str}, (∀ x ∈ l, Inert x) →
    Inert (join sep l)
  | [], _ => Nets.nil _
  | [x], h => by simpa [join] using h x (by simp)
  | x :: y :: xs, h => by
    simp only [join]
    exact ((h x (by simp)).append hsep).append (inert_join hsep fun z hz => h z (by simp at hz ⊢; tauto))

theorem citeTags_good (k r) : ∀ i xs, Gives (Good h0) (fun l => ∀ x ∈ l, Inert x) (citeTags k r i xs)
  | _, [] => Gives.pure (by simp)
  | i, x :: xs => by
    unfold citeTags
    refine Gives.bind Gives.get fun t ht => Gives.bind (ahref_good k r (t := .node x) trivial
      (noAngle_hash (ht.2 x).label) ?_ (by decide)) fun s hs =>
      Gives.bind (citeTags_good k r (i + 1) xs) fun ss hss => Gives.pure ?_
    · exact noAngle_append.mpr ⟨(ht.2 r).label, noAngle_cons.mpr ⟨by decide, noAngle_digits i⟩⟩
    · intro y hy
      simp only [List.mem_cons] at hy
      rcases hy with rfl | hy
      · exact hs
      · exact hss y hy

theorem inert_bracket {s : Str} (h : Inert s) : Inert ('[' :: s ++ "]".toList) :=
  Inert.append (Inert.append (a := ['[']) (fun _ => rfl) h) (NoAngle.inert (by decide))

/-- An opening tag with one attribute, written literally. -/
theorem nets_lit {tag pre x post : Str} (ht : GoodTag tag) (hp : NoAngle pre) (hx : NoAngle x)
    (hq : NoAngle post) {m c} (hpost : post = m ++ [c]) (hc : c ≠ '/') :
    Nets ('<' :: (tag ++ (' ' :: pre ++ x ++ post)) ++ ['>']) [] [tag] := by
  refine nets_opening ht ⟨?_, .inr ⟨pre ++ x ++ m, c, by rw [hpost]; simp, hc⟩⟩
  simp only [noAngle_append, List.cons_append, noAngle_cons]
  exact ⟨by decide, ⟨hp, hx⟩, hq⟩

theorem visitCite_good (k r) : Gives (Good h0) FairC (visitCite k r) := by
  unfold visitCite
  refine Gives.bind Gives.get fun t ht => ?_
  dsimp only
  split
  · rename_i x _
    refine Gives.bind (ahref_good k r (t := .node x) trivial (noAngle_hash (ht.2 x).label)
      (ht.2 r).label ?_) fun s hs => Gives.pure (fairC_text (inert_bracket hs))
    split <;> decide
  · refine Gives.bind (citeTags_good k r _ _) fun ss hss => Gives.pure (fairC_text ?_)
    have h1 : Nets ('<' :: ("span".toList ++ (' ' :: "id=\"".toList ++ (t.heap.get r).label ++ "\"".toList))
        ++ ['>']) [] ["span".toList] :=
      nets_lit (by decide) (by decide) (ht.2 r).label (by decide) (m := []) (c := '"') rfl (by decide)
    have h2 := ((h1.append ((inert_join (sep := ", ".toList) (NoAngle.inert (by decide)) hss).any _)).append
      (nets_closeTag (tag := "span".toList) (by decide)))
    have := inert_bracket h2
    simpa [closeTag] using this

/-! ## Titles -/

theorem nets_titleSpan {c text : Str} (hc : Nets ("<span class=\"span ".toList ++ c ++ "\">".toList) []
    ["span".toList]) (ht : NoAngle text) : Inert (titleSpan c text) := by
  unfold titleSpan
  exact (hc.append (ht.inert.any _)).append (nets_closeTag (tag := "span".toList) (by decide))

theorem nets_decide {s : Str} {p q : List Str} (h : scan s ⟨p, none⟩ = some ⟨q, none⟩) : Nets s p q :=
  fun st => scan_frame s h st

theorem inert_titleText {label desc : Str} (hl : NoAngle label) (hd : NoAngle desc) :
    Inert (titleText label desc) := by
  unfold titleText
  have h1 : Inert (if label ≠ [] then titleSpan "label".toList label else []) := by
    split
    · exact nets_titleSpan (nets_decide (by decide +kernel)) hl
    · exact Nets.nil _
  have h2 : Inert (if desc ≠ [] then titleSpan "desc".toList desc else []) := by
    split
    · exact nets_titleSpan (nets_decide (by decide +kernel)) hd
    · exact Nets.nil _
  have h3 : Nets "\n<div class=\"paragraph hr-label\">\n\n<p>".toList [] ["p".toList, "div".toList] :=
    nets_decide (by decide +kernel)
  have h4 : Nets "</p>\n\n</div>\n".toList ["p".toList, "div".toList] [] := nets_decide (by decide +kernel)
  exact ((h3.append (h1.any _)).append (h2.any _)).append h4

theorem theoremItems_good (k r) : Gives (Good h0) (fun l => ∃ a rest, l = .openTag a :: rest ∧ TagOk a ∧
    ∀ i ∈ rest, Still i) (theoremItems k r) := by
  unfold theoremItems
  refine Gives.bind (node_good r) fun nd hn => Gives.bind (P := NoAngle) ?_ fun num hnum => Gives.pure ?_
  · unfold theoremNumber
    refine Gives.bind (node_good r) fun nd hn => ?_
    split
    · exact Gives.bind (fullNumber_good k r) fun fn hfn =>
        Gives.pure (noAngle_cons.mpr ⟨by decide, noAngle_fmtOpt hfn⟩)
    · exact Gives.pure NoAngle.nil
  · refine ⟨_, _, rfl, tagOk_nodeTag hn (by decide) (by decide) .., ?_⟩
    intro i hi
    simp only [List.mem_singleton] at hi
    subst hi
    refine still_text (inert_titleText ?_ hn.title)
    refine noAngle_append.mpr ⟨noAngle_append.mpr ⟨noAngle_cap_name _, hnum⟩, ?_⟩
    split <;> decide

theorem sketchItems_good {nd : NodeRec} (hn : Clean nd) : ∃ a rest, sketchItems nd = .openTag a :: rest ∧
    TagOk a ∧ ∀ i ∈ rest, Still i := by
  refine ⟨_, _, rfl, tagOk_nodeTag hn (by decide) (by decide) .., ?_⟩
  intro i hi
  simp only [List.mem_singleton] at hi
  subst hi
  exact still_text (inert_titleText (by decide) NoAngle.nil)

theorem markLast_good (r) : Gives (Good h0) (fun _ => True) (markLast r) := by
  unfold markLast
  refine Gives.bind Gives.get fun t ht => ?_
  split
  · refine assign_good (fun _ => rfl) fun nd hn => clean_types hn fun x hx => ?_
    simp only [List.mem_append, List.mem_singleton] at hx
    rcases hx with hx | rfl
    · exact hn.types x hx
    · decide
  · exact Gives.pure trivial

theorem proofItems_good (r) : Gives (Good h0) (fun l => ∃ a rest, l = .openTag a :: rest ∧ TagOk a ∧
    ∀ i ∈ rest, Still i) (proofItems r) := by
  unfold proofItems
  refine Gives.bind (markLast_good r) fun _ _ => Gives.bind (node_good r) fun nd hn => Gives.pure ?_
  refine ⟨_, _, rfl, tagOk_nodeTag hn (by decide) (by decide) .., ?_⟩
  intro i hi
  simp only [List.mem_singleton] at hi
  subst hi
  exact still_text (inert_titleText (noAngle_append.mpr ⟨noAngle_cap_name _, by decide⟩) NoAngle.nil)

theorem fair_labeled {l : List Item} (h : ∃ a rest, l = .openTag a :: rest ∧ TagOk a ∧
    ∀ i ∈ rest, Still i) : Fair l [] [] := by
  obtain ⟨a, rest, rfl, ha, hr⟩ := h
  exact fair_cons2 (fair_openTag ha) (fair_stills hr)

/-! ## Sections -/

theorem sectionHeading_good (k r) : Gives (Good h0) NoAngle (sectionHeading k r) := by
  unfold sectionHeading
  refine Gives.bind (node_good r) fun nd hn => ?_
  split
  · exact Gives.pure hn.title
  · exact Gives.bind (fullNumber_good k r) fun fn hfn => Gives.pure
      (noAngle_append.mpr ⟨noAngle_append.mpr ⟨noAngle_fmtOpt hfn, by decide⟩, hn.title⟩)

/-- An opening tag, a heading, and more that is well nested. -/
def Headed (l : List Item) : Prop :=
  ∃ a i rest, l = .openTag a :: i :: rest ∧ TagOk a ∧ Still i ∧ Fair rest [] []

theorem Headed.fair {l : List Item} (h : Headed l) : Fair l [] [] := by
  obtain ⟨a, i, rest, rfl, ha, hi, hr⟩ := h
  exact fair_cons2 (fair_openTag ha) (fair_cons2 (fair_still hi) hr)

theorem sectionItems_good (k r) : Gives (Good h0) Headed (sectionItems k r) := by
  unfold sectionItems
  refine Gives.bind (node_good r) fun nd hn => ?_
  split
  · exact Gives.throw _
  · rename_i lvl _
    refine Gives.bind (assign_good (fun _ => rfl) fun nd hn => clean_types hn fun x hx => ?_)
      fun _ _ => Gives.bind (node_good r) fun nd hn => Gives.bind (sectionHeading_good k r)
        fun text ht => Gives.pure ⟨_, _, _, rfl, tagOk_nodeTag hn (by decide) (by decide) ..,
          still_heading _ ht, Fair.nil⟩
    simp only [List.mem_cons] at hx
    rcases hx with rfl | hx
    · exact noAngle_append.mpr ⟨by decide, noAngle_digits _⟩
    · exact hn.types x hx

theorem abstractItems_good {nd : NodeRec} (hn : Clean nd) : Headed (abstractItems nd) :=
  ⟨_, _, _, rfl, tagOk_nodeTag hn (by decide) (by decide) .., still_heading _ (by decide), Fair.nil⟩

theorem contentsItems_good {nd : NodeRec} (hn : Clean nd) : Headed (contentsItems nd) :=
  ⟨_, _, _, rfl, ⟨(by decide : GoodTag "div".toList), NoAngle.nil, by decide, Nets.nil _⟩,
    still_heading _ (by decide), fair_cons2 (fair_lit (by decide) rfl (by decide) rfl)
      (fair_nodeTag hn (by decide) (by decide) ..)⟩

theorem bibliographyItems_good {nd : NodeRec} (hn : Clean nd) : Headed (bibliographyItems nd) :=
  ⟨_, _, _, rfl, ⟨(by decide : GoodTag "section".toList), NoAngle.nil, by decide, Nets.nil _⟩,
    still_heading _ (by decide), fair_nodeTag hn (by decide) (by decide) ..⟩

/-! ## Other nodes -/

theorem manuscriptItems_eq (nd : NodeRec) : ∃ t, manuscriptItems nd =
    [.openTag { tag := "body" }, .openTag { classes := ["manuscriptwrapper"] },
     .openTag (nodeTag nd), .openTag { tag := "section", classes := ["level-1"] }] ++ t := ⟨_, rfl⟩

theorem fair_manuscript {nd : NodeRec} (hn : Clean nd) : Fair (manuscriptItems nd) [] [] := by
  unfold manuscriptItems
  refine Fair.append ?_ ?_
  · exact fair_cons2 (fair_lit (by decide) rfl (by decide) rfl)
      (fair_cons2 (fair_lit (by decide) rfl (by decide) rfl)
        (fair_cons2 (fair_nodeTag hn (by decide) (by decide) ..)
          (fair_lit (by decide) rfl (by decide) rfl)))
  · split
    · exact fair_still (still_heading _ hn.title)
    · exact Fair.nil

theorem authorParagraphs_still {nd : NodeRec} (hn : Clean nd) : ∀ i ∈ authorParagraphs nd, Still i := by
  intro i hi
  simp only [authorParagraphs, List.mem_map, List.mem_filter] at hi
  obtain ⟨x, ⟨hx, _⟩, rfl⟩ := hi
  refine still_paragraphTag ?_ (by simp)
  simp only [List.mem_cons, List.not_mem_nil, or_false] at hx
  rcases hx with rfl | rfl | rfl
  · exact hn.name.inert
  · exact hn.affiliation.inert
  · split
    · exact nets_link NoAngle.nil (by simp) (noAngle_append.mpr ⟨by decide, hn.email⟩) (by simp) hn.email
    · exact Nets.nil _

theorem fair_author {nd : NodeRec} (hn : Clean nd) : FairC (authorCmd nd) := by
  unfold authorCmd
  split
  · exact fair_cons2 (fair_nodeTag hn (by decide) (by decide) ..)
      (fair_block (a := { classes := ["paragraph"] })
        ⟨by decide, NoAngle.nil, by decide, Nets.nil _⟩ (authorParagraphs_still hn)
        (nets_closeTag (tag := "div".toList) (by decide)))
  · exact fair_nodeTag hn (by decide) (by decide) ..

theorem visitNote_good (k r) : Gives (Good h0) FairC (visitNote k r) := by
  unfold visitNote
  refine Gives.bind (node_good r) fun nd hn => Gives.bind (fullNumber_good k r) fun fn hfn =>
    Gives.pure ?_
  refine fair_cons2 (fair_lit (by decide) rfl (by decide) rfl) (fair_cons2 (fair_still (still_openClose
    ⟨(by lit : GoodTag "sup".toList), NoAngle.nil, by lit, ?_⟩)) (fair_openTag
      ⟨(by lit : GoodTag "span".toList), hn.label, by lit, Nets.nil _⟩))
  have h1 : Nets "<a class=\"note__link\">".toList [] ["a".toList] := nets_decide (by decide +kernel)
  exact (h1.append ((noAngle_fmtOpt hfn).inert.any _)).append (nets_closeTag (tag := "a".toList) (by decide))

theorem fair_math {nd : NodeRec} (hn : Clean nd) : Fair (mathItems nd) [] [] :=
  fair_cons2 (fair_nodeTag hn (by decide) (by decide) ..)
    (fair_defer (NoAngle.inert (by decide)) (NoAngle.inert (by decide)))

theorem fair_sourceCode {k} (ho : Outside k) {nd : NodeRec} (hn : Clean nd) :
    FairC (sourceCodeCmd k nd) := by
  refine fair_cons2 (fair_lit (by lit) rfl ?_ rfl) (fair_still (still_text ?_))
  · intro x hx
    simp only at hx
    split at hx
    · simp only [List.mem_cons, List.not_mem_nil, or_false] at hx
      rcases hx with rfl | rfl
      · decide
      · exact hn.lang
    · simp at hx
  · split
    · exact (ho.highlight _ _ hn.text hn.lang).inert
    · exact hn.text.inert

theorem fair_openTags {l : List TagArgs} (h : ∀ a ∈ l, TagOk a) : Fair (l.map .openTag) [] [] := by
  induction l with
  | nil => exact Fair.nil
  | cons a l ih =>
    exact fair_cons2 (fair_openTag (h a (by simp))) (ih fun b hb => h b (by simp [hb]))

theorem fair_span {nd : NodeRec} (hn : Clean nd) : FairC (spanCmd nd) := by
  unfold spanCmd
  refine fair_cons2 (fair_nodeTag hn (by decide) (by decide) ..) ?_
  have := fair_openTags (l := ((([("strong", nd.strong), ("em", nd.emphas), ("small", nd.little),
    ("ins", nd.insert), ("del", nd.delete)] : List (String × Bool)).filter (·.2)).map fun p =>
      ({ tag := p.1, newlineInner := false, newlineOuter := false } : TagArgs))) ?_
  · rw [List.map_map] at this; exact this
  · intro a ha
    obtain ⟨p, hp, rfl⟩ := List.mem_map.mp ha
    have hp := (List.mem_filter.mp hp).1
    refine ⟨?_, NoAngle.nil, by simp, Nets.nil _⟩
    show GoodTag p.1.toList
    simp only [List.mem_cons, List.not_mem_nil, or_false] at hp
    rcases hp with rfl | rfl | rfl | rfl | rfl <;> lit

theorem visitNode_good {k} (ho : Outside k) (r) : Gives (Good h0) FairC (visitNode k r) := by
  unfold visitNode
  refine Gives.bind Gives.get fun t ht => Gives.pure ?_
  exact fair_cons2 (fair_lit (by decide) rfl (by decide) rfl) (fair_still (still_text
    (NoAngle.inert (noAngle_append.mpr ⟨noAngle_repr ho.shorten _ ht.2 r, by decide⟩))))

theorem visitFigure_good (k r) : Gives (Good h0) FairC (visitFigure k r) := by
  unfold visitFigure
  refine Gives.bind (node_good r) fun nd hn => Gives.bind (fullNumber_good k r) fun fn hfn =>
    Gives.pure ?_
  refine fair_cons2 (fair_nodeTag hn (by decide) (by decide) ..) (fair_still (still_text ?_))
  refine inert_void (by decide) (by decide) (by decide) (by decide) (by decide) hn.label (by simp) ?_
  intro x hx
  simp only [List.mem_cons, List.not_mem_nil, or_false] at hx
  rcases hx with rfl | rfl | rfl
  · exact ⟨by lit, hn.path⟩
  · refine ⟨by lit, ?_⟩
    exact noAngle_append.mpr ⟨noAngle_append.mpr ⟨noAngle_name _, noAngle_cons.mpr ⟨by decide, noAngle_fmtOpt hfn⟩⟩, by decide⟩
  · refine ⟨by lit, ?_⟩
    show NoAngle (if _ then _ else _)
    split
    · exact NoAngle.nil
    · exact noAngle_append.mpr ⟨noAngle_append.mpr ⟨by decide, hn.scale⟩, by decide⟩

theorem visitCaption_good (k r) : Gives (Good h0) FairC (visitCaption k r) := by
  unfold visitCaption
  refine Gives.bind Gives.get fun t ht => ?_
  split
  · exact Gives.throw _
  · rename_i p _
    refine Gives.bind (fullNumber_good k p) fun fn hfn => Gives.pure ?_
    refine fair_cons2 (fair_openTag ⟨?_, NoAngle.nil, by simp, Nets.nil _⟩) (fair_still (still_openClose
      ⟨(by lit : GoodTag "span".toList), NoAngle.nil, by lit, NoAngle.inert ?_⟩))
    · show GoodTag (if _ then _ else _)
      split <;> decide
    · exact noAngle_append.mpr ⟨noAngle_append.mpr ⟨noAngle_name _, noAngle_cons.mpr ⟨by decide, noAngle_fmtOpt hfn⟩⟩, by decide⟩

/-! ## Bibliography -/

theorem forEach_warn_good (l : List Warning) : Gives (Good h0) (fun _ => True) (forEach warn l) := by
  refine Gives.of_keep fun s hs => ?_
  have h := (Reads.forEach (fun w => Reads.warn w) l).reads s
  unfold Good
  rw [h]; exact hs

theorem warn_good (w : Warning) : Gives (Good h0) (fun _ => True) (warn w) :=
  Gives.of_keep fun _ hs => hs

theorem inert_backlinks : ∀ (i : Nat) {l : List Str}, (∀ x ∈ l, NoAngle x) →
    ∀ x ∈ backlinkTags i l, Inert x
  | _, [], _ => by simp [backlinkTags]
  | i, y :: l, h => by
    intro x hx
    simp only [backlinkTags, List.mem_cons] at hx
    rcases hx with rfl | hx
    · have := nets_link (id := []) (cs := ["reference".toList, "backlink".toList]) (kw := [])
        (href := '#' :: y) (text := '↖' :: natStr i) NoAngle.nil (by decide)
        (noAngle_hash (h y (by simp))) (by simp) (noAngle_cons.mpr ⟨by decide, noAngle_digits i⟩)
      exact this
    · exact inert_backlinks (i + 1) (fun z hz => h z (by simp [hz])) x hx

theorem bibitemParts_noAngle {nd : NodeRec} (hn : Clean nd) : ∀ x ∈ (bibitemParts nd).1, NoAngle x := by
  have hb : ∀ x ∈ ((if nd.number.truthy then [nd.number.fmt ++ ".".toList] else [])
    ++ [nd.author, "\"".toList ++ nd.title ++ "\"".toList]), NoAngle x := by
    intro x hx
    simp only [List.mem_append, List.mem_cons, List.not_mem_nil, or_false] at hx
    rcases hx with hx | rfl | rfl
    · split at hx
      · simp only [List.mem_singleton] at hx
        subst hx
        exact noAngle_append.mpr ⟨noAngle_fmt hn.number, by decide⟩
      · simp at hx
    · exact hn.author
    · exact noAngle_append.mpr ⟨noAngle_append.mpr ⟨by decide, hn.title⟩, by decide⟩
  have hs : ∀ y, NoAngle y → ∀ x ∈ ((if nd.number.truthy then [nd.number.fmt ++ ".".toList] else [])
    ++ [nd.author, "\"".toList ++ nd.title ++ "\"".toList]) ++ [y], NoAngle x := by
    intro y hy x hx
    rcases List.mem_append.mp hx with hx | hx
    · exact hb x hx
    · simp only [List.mem_singleton] at hx; subst hx; exact hy
  unfold bibitemParts
  dsimp only
  split
  · split
    · exact hs _ hn.journal
    · exact hb
  · split
    · split
      · exact hs _ hn.publisher
      · exact hb
    · exact hb

theorem bibitemYear_good {nd : NodeRec} (hn : Clean nd) :
    Gives (Good h0) (fun l => ∀ x ∈ l, NoAngle x) (bibitemYear nd) := by
  have := hn.year
  unfold bibitemYear
  split
  · split
    · rename_i y e
      rw [e] at this
      refine Gives.pure ?_
      intro x hx
      simp only [List.mem_singleton] at hx
      subst hx; exact this
    · exact Gives.throw _
  · exact Gives.bind (warn_good _) fun _ _ => Gives.pure (by simp)

/-- The link of a bibliography entry. -/
def doiTag (nd : NodeRec) : Str :=
  makeTag "a" (nd.label ++ "-doi".toList) ["bibitem-doi"]
    (kwargs := [("href", "https://doi.org/".toList ++ nd.doi), ("target", "_blank")])

theorem nets_doiTag {nd : NodeRec} (hn : Clean nd) : Nets (doiTag nd) [] ["a".toList] := by
  refine nets_makeTag (by decide) (noAngle_append.mpr ⟨hn.label, by decide⟩) (by decide) ?_
  intro x hx
  simp only [List.mem_cons, List.not_mem_nil, or_false] at hx
  rcases hx with rfl | rfl
  · exact ⟨by lit, noAngle_append.mpr ⟨by lit, hn.doi⟩⟩
  · exact ⟨by decide, by decide⟩

/-- The links back of a bibliography entry. -/
def backText (nd : NodeRec) : Str :=
  if nd.backlinks ≠ [] then
    "<br />[".toList ++ join "," (backlinkTags 1 nd.backlinks) ++ "]".toList
  else []

theorem inert_backText {nd : NodeRec} (hn : Clean nd) : Inert (backText nd) := by
  unfold backText
  split
  · refine Inert.append (Inert.append (nets_decide (by decide +kernel)) ?_) (NoAngle.inert (by decide))
    exact inert_join (NoAngle.inert (by decide)) (inert_backlinks 1 hn.backlinks)
  · exact Nets.nil _

/-- A bibliography entry: a text, the link, and the links back. -/
def BibText (nd : NodeRec) (s : Str) : Prop :=
  ∃ a, NoAngle a ∧ s = a ++ ((if nd.doi ≠ [] then " ".toList ++ doiTag nd ++ "[link]</a>".toList else [])
    ++ backText nd)

theorem node_good' (r : Ref) :
    Gives (Good h0) (fun nd => Clean nd ∧ frame nd = frame (h0.get r)) (node r) :=
  (Gives.node r).mono fun _ ⟨_, hs, e⟩ => e ▸ ⟨hs.2 r, hs.1.2 r⟩

theorem bibitemText_good (r) : Gives (Good h0) (fun s => ∃ nd, Clean nd ∧
    frame nd = frame (h0.get r) ∧ BibText nd s) (bibitemText r) := by
  unfold bibitemText
  refine Gives.bind (node_good' r) fun nd ⟨hn, hfr⟩ => Gives.bind (forEach_warn_good _) fun _ _ =>
    Gives.bind (bibitemYear_good hn) fun year hy => Gives.bind
      (P := fun s => s = if nd.doi ≠ [] then " ".toList ++ doiTag nd ++ "[link]</a>".toList else [])
      ?_ fun doi hdoi => Gives.pure ⟨nd, hn, hfr, ?_⟩
  · unfold bibitemDoi
    split
    · exact Gives.pure rfl
    · exact Gives.bind (warn_good _) fun _ _ => Gives.pure rfl
  · subst hdoi
    refine ⟨join ". ".toList (((bibitemParts nd).1 ++ year).map stripDots) ++ ".".toList, ?_, ?_⟩
    · refine noAngle_append.mpr ⟨noAngle_join (by decide) ?_, by decide⟩
      intro x hx
      obtain ⟨y, hy', rfl⟩ := List.mem_map.mp hx
      exact noAngle_stripDots ((List.mem_append.mp hy').elim (bibitemParts_noAngle hn y) (hy y))
    · unfold backText
      simp only [List.append_assoc]

theorem BibText.inert {nd : NodeRec} {s : Str} (hn : Clean nd) (h : BibText nd s) : Inert s := by
  obtain ⟨a, ha, rfl⟩ := h
  refine ha.inert.append (Inert.append ?_ (inert_backText hn))
  split
  · have h1 : Inert " ".toList := NoAngle.inert (by decide)
    have h2 : Nets "[link]</a>".toList ["a".toList] [] := nets_decide (by decide +kernel)
    exact (Nets.append (Nets.append h1 (nets_doiTag hn)) h2)
  · exact Nets.nil _

end Tr
end RSM
