import Verif.Lemmas.RailsBase

/-! # Lemmas: what is written for nodes with handrails -/

namespace RSM
namespace Tr
open PyM

variable {k : Conf} {h : Heap} {num : Ref → Option Str} {ref : Ref → Str} {src : Option Str}

/-- How nodes change when `r` is visited. -/
def Moved (h : Heap) (r : Ref) (s s' : TrState) : Prop := s'.heap.next = s.heap.next ∧
  ∀ x, ∃ ty, s'.heap.get x = { s.heap.get x with
      types := ty
      text := if Rails.dotted h r && Rails.next h r == some x then (s.heap.get x).text.tail else (s.heap.get x).text
      followedByDot := (s.heap.get x).followedByDot || (decide (x = r) && Rails.dotted h r) } ∧
    (x ≠ r → ty = (s.heap.get x).types ++ if lastOf h r x then ["last".toList] else [])

theorem Moved.of_retyped {r s s'} (hc : (h.get r).cls ≠ .Math) (H : Retyped (Rails.dotless h) r s s') :
    Moved h r s s' := by
  have hd : Rails.dotted h r = false := by unfold Rails.dotted; simp [hc]
  refine ⟨H.1, fun x => ?_⟩
  obtain ⟨ty, e, hty⟩ := H.2 x
  refine ⟨ty, ?_, hty⟩
  rw [e, hd]
  simp

theorem Moved.same {r s s'} (e : s'.heap = s.heap) (hc : (h.get r).cls ≠ .Math) (hp : (h.get r).cls ≠ .Proof) :
    Moved h r s s' := .of_retyped hc (.same e hp)

/-- What is written after the children of a node by the commands of its visit. -/
def shutR (h : Heap) (x : Ref) : List Str :=
  let e (s : String) := Render.line (Render.endTag s.toList)
  match (h.get x).cls with
  | .Paragraph =>
      (if (h.children x).any (fun c => (h.get c).cls = .MathBlock) then [] else ["</p>\n".toList]) ++ [e "div", e "div"]
  | .Author | .Subproof | .Sketch | .Proof | .Step
  | .Theorem | .Lemma | .Corollary | .Example | .Exercise | .Proposition | .Problem | .Porism | .Remark
  | .Definition => [e "div", e "div"]
  | .MathBlock => ["\n$$".toList, e "div", e "div"]
  | .Bibliography => [e "div", e "section"]
  | .Bibitem | .UnknownBibitem => [e "div"]
  | _ => shut h x

/-- What visiting a node does. -/
structure Railed (k : Conf) (h : Heap) (num : Ref → Option Str) (ref : Ref → Str) (src : Option Str) (r : Ref)
    (ks : List Tree) (c : Cmd) (s s' : TrState) : Prop where
  text : c.text = Rails.opening h num ref k.highlight src r ks
  closers : c.closers = shutR h r
  heap : Moved h r s s'

/-- The same settings without handrails. -/
def bare (k : Conf) : Conf := { k with handrails := false }

/-! ## Nodes without handrails -/

theorem citeTags_bare (k : Conf) (r : Ref) : ∀ i xs, citeTags (bare k) r i xs = citeTags k r i xs
  | _, [] => rfl
  | i, x :: xs => by
    rw [citeTags, citeTags]
    simp only [citeTags_bare k r (i + 1) xs]
    rfl

theorem visitCite_bare (k : Conf) (r : Ref) : visitCite (bare k) r = visitCite k r := by
  unfold visitCite
  simp only [citeTags_bare]
  rfl

theorem visit_shared {r b s s' c ks} (hf : SameFrame h s.heap) (R : Apt k h num ref r) (hown : r ∉ h.children r)
    (hn : s.heap.get r = record (Rails.dotless h) r b)
    (hc : (h.get r).cls ∈ [.Enumerate, .Itemize, .Item, .Note, .SourceCode, .Code, .CodeBlock, .Algorithm, .Text, .Error,
      .Span, .Keyword, .Construct, .ClaimBlock, .Statement, .Reference, .URL, .Cite, .Draft, .Figure, .Caption, .Appendix,
      .Table, .TableHead, .TableBody, .TableRow, .TableDatum])
    (hv : visit k r s = .ok c s') : Railed k h num ref src r ks c s s' := by
  have hc' : (s.heap.get r).cls = (h.get r).cls := by rw [hn]; rfl
  have e : visit k r s = visit (bare k) r s := by
    simp only [List.mem_cons, List.not_mem_nil, or_false] at hc
    rcases hc with hc | hc | hc | hc | hc | hc | hc | hc | hc | hc | hc | hc | hc | hc | hc | hc | hc | hc | hc | hc |
      hc | hc | hc | hc | hc | hc | hc <;>
    · rw [visit_eq (d := _) (by rw [hc', hc]; rfl), visit_eq (d := _) (by rw [hc', hc]; rfl)]
      first
        | rfl
        | exact congrFun (visitCite_bare k r).symm s
  rw [e] at hv
  have hR : Apt (bare k) (Rails.dotless h) num ref r := ⟨R.kind, R.url, fun y hy => by
    have := R.named y hy
    exact ⟨fun o ho => this.num o (by rw [← (dotless_frame h).fullNumber]; exact ho), fun o a ho hfi =>
      this.ref o a (by rw [← (dotless_frame h).fullNumber]; exact ho) hfi⟩⟩
  have S := visit_seen (k := bare k) rfl (h0 := Rails.dotless h) ⟨hf.1, hf.2⟩ hR hown hn hv
  have hm : (h.get r).cls ≠ .Math := fun e => by rw [e] at hc; exact absurd hc (by decide)
  refine ⟨?_, ?_, .of_retyped hm S.heap⟩
  · rw [S.text]
    simp only [List.mem_cons, List.not_mem_nil, or_false] at hc
    rcases hc with hc | hc | hc | hc | hc | hc | hc | hc | hc | hc | hc | hc | hc | hc | hc | hc | hc | hc | hc | hc |
      hc | hc | hc | hc | hc | hc | hc <;>
    · unfold Rails.opening
      dsimp only
      rw [hc]
      rfl
  · rw [S.closers]
    show shut h r = _
    simp only [List.mem_cons, List.not_mem_nil, or_false] at hc
    rcases hc with hc | hc | hc | hc | hc | hc | hc | hc | hc | hc | hc | hc | hc | hc | hc | hc | hc | hc | hc | hc |
      hc | hc | hc | hc | hc | hc | hc <;>
    · unfold shutR
      dsimp only
      rw [hc]

/-! ## Handrails of nodes -/

theorem record_label {r b} : (record (Rails.dotless h) r b).label = (h.get r).label := rfl

theorem handrail_read {r b s s' l more c a} (hf : SameFrame h s.heap) (N : Named k h num ref r)
    (hn : s.heap.get r = record (Rails.dotless h) r b) (hv : handrailItems k r more c a s = .ok l s') :
    s' = s ∧ l.flatMap Item.makeText =
      Rails.rail h r (Rails.classes h r more) c (if a then some true else none) (ref r) ∧
    l.filterMap Item.deferred = [Render.line (Render.endTag "div"), Render.line (Render.endTag "div")] := by
  unfold handrailItems at hv
  simp only [node, bind_apply, gets_apply, hn] at hv
  cases hh : reftext k r s with
  | err e s2 => rw [hh] at hv; cases hv
  | ok t s2 =>
    rw [hh] at hv
    obtain ⟨rfl, rfl⟩ := reftext_named N hf hh
    cases hv
    rw [rail_from]
    refine ⟨rfl, ?_, ?_⟩
    · rw [replace_text, linkOpt_as]; rfl
    · rw [replace_deferred, closing_line]

theorem headed_text (i : Item) (front back : List Item) (label : Str) (link : Opt) :
    (wrapItem front.length (front ++ i :: back) ["heading".toList] label link).flatMap Item.makeText =
      front.flatMap Item.makeText ++ Rails.headed label link.as i.makeText ++ back.flatMap Item.makeText := by
  rw [wrap_text]
  unfold Rails.headed
  have e : Render.unique (["heading".toList] ++ ["hr".toList]) = ["heading".toList, "hr".toList] := by decide +kernel
  have e2 : infoIconContent none = Rails.noInfo := by decide +kernel
  rw [e, e2]
  simp only [List.append_assoc]

theorem headed_read {r b s s' l} {i j : Item} {back : List Item} (hf : SameFrame h s.heap) (N : Named k h num ref r)
    (hn : (s.heap.get r).label = (record (Rails.dotless h) r b).label)
    (hv : wrapHeading k r (j :: i :: back) s = .ok l s') :
    s' = s ∧ l.flatMap Item.makeText = j.makeText ++ Rails.headed (ref r) (Rails.linkable h r) i.makeText
      ++ back.flatMap Item.makeText ∧
    l.filterMap Item.deferred = (j :: i :: back).filterMap Item.deferred := by
  unfold wrapHeading at hv
  simp only [node, bind_apply, gets_apply] at hv
  cases hh : reftext k r s with
  | err e s2 => rw [hh] at hv; cases hv
  | ok t s2 =>
    rw [hh] at hv
    obtain ⟨rfl, rfl⟩ := reftext_named N hf hh
    cases hv
    have e : (linkOpt (s'.heap.get r)).as = Rails.linkable h r := by
      have := linkOpt_as (h0 := Rails.dotless h) r b
      unfold linkOpt at this ⊢
      rw [hn]
      exact this
    refine ⟨rfl, ?_, ?_⟩
    · have := headed_text i [j] back (ref r) (linkOpt (s'.heap.get r))
      rw [e] at this
      rw [show [j].flatMap Item.makeText = j.makeText by simp] at this
      exact this
    · exact wrap_deferred i [j] back ["heading".toList] (ref r) (linkOpt (s'.heap.get r)) true none

theorem shutR_two {r} (hc : (h.get r).cls ∈ [.Author, .Subproof, .Sketch, .Proof, .Step, .Theorem, .Lemma, .Corollary, .Example,
    .Exercise, .Proposition, .Problem, .Porism, .Remark, .Definition]) :
    shutR h r = [Render.line (Render.endTag "div"), Render.line (Render.endTag "div")] := by
  simp only [List.mem_cons, List.not_mem_nil, or_false] at hc
  unfold shutR
  dsimp only
  rcases hc with hc | hc | hc | hc | hc | hc | hc | hc | hc | hc | hc | hc | hc | hc | hc <;> rw [hc]

theorem rail_author {r b s s' c ks} (hk : k.handrails = true) (hf : SameFrame h s.heap) (N : Named k h num ref r)
    (hn : s.heap.get r = record (Rails.dotless h) r b) (hc : (h.get r).cls = .Author)
    (hv : visit k r s = .ok c s') : Railed k h num ref src r ks c s s' := by
  have hc' : (s.heap.get r).cls = (h.get r).cls := by rw [hn]; rfl
  rw [visit_eq (by rw [hc', hc]; rfl)] at hv
  simp only [visitWith, hk, if_true, hrVisitAuthor, node, bind_apply, gets_apply] at hv
  cases hh : handrailItems k r ["hr-hidden".toList] false false s with
  | err e s2 => rw [hh] at hv; cases hv
  | ok l s2 =>
    rw [hh] at hv
    obtain ⟨rfl, ht, hd⟩ := handrail_read hf N hn hh
    dsimp only at hv
    rw [hn] at hv
    unfold authorCmd at hv
    by_cases hd0 : (record (Rails.dotless h) r b).name ≠ [] ∨ (record (Rails.dotless h) r b).affiliation ≠ [] ∨
        (record (Rails.dotless h) r b).email ≠ []
    · rw [if_pos hd0] at hv
      cases hv
      refine ⟨?_, ?_, .same rfl (by rw [hc]; decide) (by rw [hc]; decide)⟩
      · unfold Rails.opening
        simp only [hc, Cmd.text, List.flatMap_append, ht]
        congr 1
        rw [authorData_eq]
        simp only [List.drop_succ_cons, List.drop_zero, List.cons_append, List.nil_append]
        rw [List.dropLast_concat, flatMap_paragraphs]
        rfl
      · rw [shutR_two (by rw [hc]; decide)]
        simp only [Cmd.closers, closersOf, List.filterMap_append, hd, authorData_eq]
        simp only [List.drop_succ_cons, List.drop_zero, List.cons_append, List.nil_append]
        rw [List.dropLast_concat, filterMap_paragraphs]
        rfl
    · rw [if_neg hd0] at hv
      cases hv

theorem rail_abstract {r b s s' c ks} (hk : k.handrails = true) (hf : SameFrame h s.heap) (N : Named k h num ref r)
    (hn : s.heap.get r = record (Rails.dotless h) r b) (hc : (h.get r).cls = .Abstract)
    (hv : visit k r s = .ok c s') : Railed k h num ref src r ks c s s' := by
  have hc' : (s.heap.get r).cls = (h.get r).cls := by rw [hn]; rfl
  rw [visit_eq (by rw [hc', hc]; rfl)] at hv
  simp only [visitWith, wrapIf, hk, if_true, node, bind_apply, gets_apply, hn, abstractItems] at hv
  cases hh : wrapHeading k r [.openTag (nodeTag (record (Rails.dotless h) r b)), heading 3 "Abstract".toList] s with
  | err e s2 => rw [hh] at hv; cases hv
  | ok l s2 =>
    rw [hh] at hv
    obtain ⟨rfl, ht, hd⟩ := headed_read hf N (by rw [hn]) hh
    cases hv
    refine ⟨?_, ?_, .same rfl (by rw [hc]; decide) (by rw [hc]; decide)⟩
    · unfold Rails.opening
      simp only [hc, Cmd.text, ht, nodeTag_text, line_nl, heading_text, natStr_3, List.flatMap_nil, List.append_nil]
      rfl
    · unfold shutR
      simp only [hc, Cmd.closers, closersOf, hd]
      closers hc

theorem rail_bibliography {r b s s' c ks} (hk : k.handrails = true) (hf : SameFrame h s.heap) (N : Named k h num ref r)
    (hn : s.heap.get r = record (Rails.dotless h) r b) (hc : (h.get r).cls = .Bibliography)
    (hv : visit k r s = .ok c s') : Railed k h num ref src r ks c s s' := by
  have hc' : (s.heap.get r).cls = (h.get r).cls := by rw [hn]; rfl
  rw [visit_eq (by rw [hc', hc]; rfl)] at hv
  simp only [visitWith, hk, if_true, hrVisitBibliography, node, bind_apply, gets_apply, hn] at hv
  have e : (bibliographyItems (record (Rails.dotless h) r b)).take 2 ++ [.openTag (nodeTag (record (Rails.dotless h) r b))] =
    [.openTag { tag := "section", classes := ["level-2"] }, heading 2 "References".toList,
      .openTag (nodeTag (record (Rails.dotless h) r b))] := rfl
  rw [e] at hv
  cases hh : wrapHeading k r [.openTag { tag := "section", classes := ["level-2"] }, heading 2 "References".toList,
      .openTag (nodeTag (record (Rails.dotless h) r b))] s with
  | err e s2 => rw [hh] at hv; cases hv
  | ok l s2 =>
    rw [hh] at hv
    obtain ⟨rfl, ht, hd⟩ := headed_read hf N (by rw [hn]) hh
    cases hv
    refine ⟨?_, ?_, .same rfl (by rw [hc]; decide) (by rw [hc]; decide)⟩
    · unfold Rails.opening
      simp only [hc, Cmd.text, ht, args_text, nodeTag_text, line_nl, heading_text, natStr_2, List.flatMap_cons, List.flatMap_nil,
        List.append_nil]
      rfl
    · unfold shutR
      simp only [hc, Cmd.closers, closersOf, hd]
      closers hc

theorem rail_section {r b s s' c ks} (hk : k.handrails = true) (hf : SameFrame h s.heap) (N : Named k h num ref r)
    (hn : s.heap.get r = record (Rails.dotless h) r b)
    (hc : (h.get r).cls = .Section ∨ (h.get r).cls = .Subsection ∨ (h.get r).cls = .Subsubsection)
    (hv : visit k r s = .ok c s') : Railed k h num ref src r ks c s s' := by
  have hc' : (s.heap.get r).cls = (h.get r).cls := by rw [hn]; rfl
  have hl : ∃ n, (h.get r).cls.level = some n ∧ natStr n = Render.level (h.get r).cls := by
    rcases hc with e | e | e <;> rw [e]
    · exact ⟨2, rfl, by decide⟩
    · exact ⟨3, rfl, by decide⟩
    · exact ⟨4, rfl, by decide⟩
  obtain ⟨n, hl, hlv⟩ := hl
  have hd : methodClass visitNames (s.heap.get r).cls = .ok .Section := by
    rw [hc']; rcases hc with e | e | e <;> rw [e] <;> rfl
  have hp : (h.get r).cls ≠ .Proof := by rcases hc with e | e | e <;> rw [e] <;> decide
  have hm : (h.get r).cls ≠ .Math := by rcases hc with e | e | e <;> rw [e] <;> decide
  rw [visit_eq hd] at hv
  simp only [visitWith, sectionItems, wrapIf, hk, if_true, node, bind_apply, gets_apply, hn] at hv
  rw [show (record (Rails.dotless h) r b).cls = (h.get r).cls from rfl, hl] at hv
  simp only [bind_apply, gets_apply, assign, modify_apply] at hv
  have hr1 : (s.heap.update r fun nd => { nd with types := ("level-".toList ++ natStr n) :: nd.types }).get r =
      { record (Rails.dotless h) r b with types := ("level-".toList ++ natStr n) :: Render.types h r } := by
    rw [Heap.get_update, if_pos rfl, hn]; rfl
  rw [hr1] at hv
  generalize hs1 : ({ s with heap := s.heap.update r fun nd =>
    { nd with types := ("level-".toList ++ natStr n) :: nd.types } } : TrState) = s1 at hv
  have hf1 : SameFrame h s1.heap := by
    subst hs1
    exact hf.trans (SameFrame.update _ _ _ fun _ => rfl)
  have hn1 : (s1.heap.get r).label = (record (Rails.dotless h) r b).label := by
    subst hs1; dsimp only; rw [hr1]
  cases hh : sectionHeading k r s1 with
  | err e s2 => rw [hh] at hv; cases hv
  | ok text s2 =>
    rw [hh] at hv
    obtain ⟨rfl, rfl⟩ := sectionHeading_named N hf1 hh
    dsimp only at hv
    rw [pure_apply] at hv
    dsimp only at hv
    generalize hits : ([_, heading n _] : List Item) = its at hv
    cases hw : wrapHeading k r its s2 with
    | err e s3 => rw [hw] at hv; cases hv
    | ok l s3 =>
      rw [hw] at hv
      subst hits
      obtain ⟨rfl, ht, hdef⟩ := headed_read hf1 N hn1 hw
      cases hv
      have htag : (Item.openTag (nodeTag { record (Rails.dotless h) r b with
          types := ("level-".toList ++ natStr n) :: Render.types h r } "section")).makeText =
          Render.line (Render.nodeTag h r "section" ["level-".toList ++ Render.level (h.get r).cls]) := by
        unfold nodeTag
        rw [args_text, line_nl]
        simp [Render.nodeTag, record, Rails.dotless, lower, fromKeys_eq, hlv]
      refine ⟨?_, ?_, ?_⟩
      · have : Rails.opening h num ref k.highlight src r ks =
            Render.line (Render.nodeTag h r "section" ["level-".toList ++ Render.level (h.get r).cls])
            ++ Rails.headed (ref r) (Rails.linkable h r) (Render.line (Render.element ('h' :: Render.level (h.get r).cls) []
              ((if (h.get r).nonum then [] else Render.shown (num r) ++ ". ".toList) ++ (h.get r).title))) := by
          rcases hc with e | e | e <;> simp only [Rails.opening, e]
        rw [this, Cmd.text, ht, htag, heading_text, hlv, List.flatMap_nil, List.append_nil]
      · have : shutR h r = [Render.line (Render.endTag "section")] := by
          rcases hc with e | e | e <;> simp only [shutR, shut, e]
        rw [this, Cmd.closers, closersOf, hdef]
        rfl
      · exact .of_retyped hm (Retyped.own (f := fun nd => { nd with types := ("level-".toList ++ natStr n) :: nd.types })
          (fun _ => rfl) (by subst hs1; rfl) hp)

theorem labelled_read {r b s s' c a} {i : Item} {rest : List Item} (hf : SameFrame h s.heap) (N : Named k h num ref r)
    (hn : s.heap.get r = record (Rails.dotless h) r b) (hv : hrLabeled k r (i :: rest) a s = .ok c s') :
    s' = s ∧ c.text =
      Rails.rail h r (Rails.classes h r ["hr-labeled"]) true (if a then some true else none) (ref r)
        ++ rest.flatMap Item.makeText ∧
    c.closers = (rest.filterMap Item.deferred).reverse
      ++ [Render.line (Render.endTag "div"), Render.line (Render.endTag "div")] := by
  unfold hrLabeled at hv
  simp only [bind_apply] at hv
  cases hh : handrailItems k r ["hr-labeled".toList] true a s with
  | err e s2 => rw [hh] at hv; cases hv
  | ok l s2 =>
    rw [hh] at hv
    obtain ⟨rfl, ht, hd⟩ := handrail_read hf N hn hh
    cases hv
    refine ⟨rfl, ?_, ?_⟩
    · simp only [Cmd.text, List.flatMap_append, ht, List.drop_succ_cons, List.drop_zero]
    · simp only [Cmd.closers, closersOf, List.filterMap_append, hd, List.drop_succ_cons, List.drop_zero]
      rw [List.reverse_append]
      rfl

theorem rail_sketch {r b s s' c ks} (hk : k.handrails = true) (hf : SameFrame h s.heap) (N : Named k h num ref r)
    (hn : s.heap.get r = record (Rails.dotless h) r b) (hc : (h.get r).cls = .Sketch)
    (hv : visit k r s = .ok c s') : Railed k h num ref src r ks c s s' := by
  have hc' : (s.heap.get r).cls = (h.get r).cls := by rw [hn]; rfl
  rw [visit_eq (by rw [hc', hc]; rfl)] at hv
  simp only [visitWith, hk, if_true, node, bind_apply, gets_apply, hn, sketchItems] at hv
  obtain ⟨rfl, ht, hd⟩ := labelled_read hf N hn hv
  refine ⟨?_, ?_, .same rfl (by rw [hc]; decide) (by rw [hc]; decide)⟩
  · unfold Rails.opening
    simp only [hc, ht, List.flatMap_cons, List.flatMap_nil, text_text, titleText_eq, List.append_nil]
    rfl
  · rw [hd, shutR_two (by rw [hc]; decide)]; rfl

theorem rail_theorem {r b s s' c ks} (hk : k.handrails = true) (hf : SameFrame h s.heap) (N : Named k h num ref r)
    (hn : s.heap.get r = record (Rails.dotless h) r b)
    (hc : (h.get r).cls ∈ [.Theorem, .Lemma, .Corollary, .Example, .Exercise, .Proposition, .Problem, .Porism,
      .Remark, .Definition])
    (hv : visit k r s = .ok c s') : Railed k h num ref src r ks c s s' := by
  have hc' : (s.heap.get r).cls = (h.get r).cls := by rw [hn]; rfl
  have hd : methodClass visitNames (s.heap.get r).cls = .ok .Theorem := by
    rw [hc']; simp only [List.mem_cons, List.not_mem_nil, or_false] at hc
    rcases hc with e | e | e | e | e | e | e | e | e | e <;> rw [e] <;> rfl
  have hp : (h.get r).cls ≠ .Proof := by
    intro e; rw [e] at hc; exact absurd hc (by decide)
  have hm : (h.get r).cls ≠ .Math := by
    intro e; rw [e] at hc; exact absurd hc (by decide)
  rw [visit_eq hd] at hv
  simp only [visitWith, hk, if_true] at hv
  obtain ⟨items, s1, h1, hv⟩ := bindOk hv
  have hb : visit (bare k) r s = .ok (.batchDefer items) s1 := by
    rw [visit_eq hd]
    simp only [visitWith, bare, Bool.false_eq_true, if_false, bind_apply]
    rw [show theoremItems { k with handrails := false } r s = theoremItems k r s from rfl, h1]
    rfl
  have hR : Named (bare k) (Rails.dotless h) num ref r :=
    ⟨fun o ho => N.num o (by rw [← (dotless_frame h).fullNumber]; exact ho), fun o a ho hfi =>
      N.ref o a (by rw [← (dotless_frame h).fullNumber]; exact ho) hfi⟩
  have S := visit_theorem (k := bare k) rfl (h0 := Rails.dotless h) ⟨hf.1, hf.2⟩ hR hn hc hb
  have hshape : s1 = s ∧ ∃ t, items = [.openTag (nodeTag (record (Rails.dotless h) r b) (additional := ["theorem"])), .text t] := by
    unfold theoremItems at h1
    obtain ⟨nd, s2, h2, h1⟩ := bindOk h1
    cases h2
    obtain ⟨o, s2, h2, h1⟩ := bindOk h1
    cases h1
    refine ⟨?_, _, congrArg (fun nd => [Item.openTag (nodeTag nd (additional := ["theorem"])), _]) hn⟩
    simp only [theoremNumber, node, bind_apply, gets_apply] at h2
    split at h2
    · simp only [bind_apply] at h2
      cases hh : fullNumber k r s with
      | err e s2 => rw [hh] at h2; cases h2
      | ok o s2 =>
        rw [hh] at h2
        have := (fullNumber_named N hf hh).1
        cases h2
        exact this
    · cases h2; rfl
  obtain ⟨rfl, t, rfl⟩ := hshape
  obtain ⟨rfl, ht, hdef⟩ := labelled_read hf N hn hv
  have hop : Rails.opening h num ref k.highlight src r ks =
      Rails.rail h r (Rails.classes h r ["hr-labeled"]) true none (ref r)
      ++ Render.title (Render.capital (h.get r).cls.name
          ++ (if (h.get r).nonum = false ∧ (h.get r).number.truthy then ' ' :: Render.shown (num r) else [])
          ++ (if (h.get r).title = [] then ".".toList else ": ".toList)) (h.get r).title := by
    simp only [List.mem_cons, List.not_mem_nil, or_false] at hc
    rcases hc with e | e | e | e | e | e | e | e | e | e <;> simp only [Rails.opening, e]
  have hpl : Render.opening (Rails.dotless h) num ref (bare k).highlight r = Render.line (Render.nodeTag (Rails.dotless h) r "div" [] ["theorem"])
      ++ Render.title (Render.capital (h.get r).cls.name
          ++ (if (h.get r).nonum = false ∧ (h.get r).number.truthy then ' ' :: Render.shown (num r) else [])
          ++ (if (h.get r).title = [] then ".".toList else ": ".toList)) (h.get r).title := by
    have e0 : ((Rails.dotless h).get r).cls = (h.get r).cls := rfl
    simp only [List.mem_cons, List.not_mem_nil, or_false] at hc
    rcases hc with e | e | e | e | e | e | e | e | e | e <;>
    · simp only [Render.opening, e0, e]
      rfl
  have ht2 := S.text
  rw [hpl] at ht2
  simp only [Cmd.text, List.flatMap_cons, List.flatMap_nil, List.append_nil, nodeTag_text, text_text, line_nl] at ht2
  have ht3 := List.append_cancel_left ht2
  refine ⟨?_, ?_, .same rfl hm hp⟩
  · rw [ht, hop, ← ht3]
    simp [text_text]
  · rw [hdef, shutR_two (by
      simp only [List.mem_cons, List.not_mem_nil, or_false] at hc ⊢
      tauto)]; rfl

theorem rail_proof {r b s s' c ks} (hk : k.handrails = true) (hf : SameFrame h s.heap) (N : Named k h num ref r)
    (hown : r ∉ h.children r)
    (hn : s.heap.get r = record (Rails.dotless h) r b) (hc : (h.get r).cls = .Proof)
    (hv : visit k r s = .ok c s') : Railed k h num ref src r ks c s s' := by
  have hc' : (s.heap.get r).cls = (h.get r).cls := by rw [hn]; rfl
  have hd : methodClass visitNames (s.heap.get r).cls = .ok .Proof := by rw [hc', hc]; rfl
  rw [visit_eq hd] at hv
  simp only [visitWith, hk, if_true] at hv
  obtain ⟨items, s1, h1, hv⟩ := bindOk hv
  have hb : visit (bare k) r s = .ok (.batchDefer items) s1 := by
    rw [visit_eq hd]
    simp only [visitWith, bare, Bool.false_eq_true, if_false, bind_apply, h1]
    rfl
  have S := visit_proof (k := bare k) (num := num) (ref := ref) rfl (h0 := Rails.dotless h) ⟨hf.1, hf.2⟩ hown hn hc hb
  unfold proofItems at h1
  obtain ⟨_, s2, h2, h1⟩ := bindOk h1
  obtain ⟨nd, s3, h3, h1⟩ := bindOk h1
  cases h3
  cases h1
  have hn1 : s1.heap.get r = record (Rails.dotless h) r b := by
    rw [← hn]
    simp only [markLast, bind_apply, get_apply] at h2
    cases hl : s.heap.lastOfType r [.Step] with
    | none => rw [hl] at h2; cases h2; rfl
    | some p =>
      obtain ⟨x, i⟩ := p
      rw [hl] at h2
      cases h2
      have hx : x ∈ h.children r := by
        have e := lastOfType_step s.heap r
        rw [hl] at e
        have := List.mem_of_getLast? e.symm
        rw [← hf.children]
        exact (List.mem_filter.mp this).1
      dsimp only
      rw [Heap.get_update, if_neg]
      intro e
      exact hown (e ▸ hx)
  have hf1 : SameFrame h s1.heap := by
    refine hf.trans ⟨S.heap.1, fun x => ?_⟩
    obtain ⟨ty, e, _⟩ := S.heap.2 x
    rw [e]
    rfl
  obtain ⟨rfl, ht, hdef⟩ := labelled_read hf1 N hn1 hv
  refine ⟨?_, ?_, .of_retyped (by rw [hc]; decide) S.heap⟩
  · unfold Rails.opening
    have e : capitalize (lower (s'.heap.get r).cls.name) ++ ".".toList = "Proof.".toList := by
      rw [hn1, show (record (Rails.dotless h) r b).cls = (h.get r).cls from rfl, hc]; decide
    simp only [hc, ht, List.flatMap_cons, List.flatMap_nil, text_text, titleText_eq, List.append_nil, e]
    rfl
  · rw [hdef, shutR_two (by rw [hc]; decide)]; rfl

end Tr
end RSM
