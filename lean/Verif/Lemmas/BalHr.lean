import Verif.Lemmas.BalVisit

/-! # Lemmas: what visiting a node writes and defers is well nested (handrails translator) -/

namespace RSM
namespace Tr
open PyM Html

variable {h0 : Heap}

/-! ## Blocks -/

/-- Items that defer nothing and are well nested. -/
def Block (l : List Item) : Prop := DoneL l ∧ Inert (l.flatMap Item.makeText)

theorem Block.fair {l : List Item} (h : Block l) : Fair l [] [] := Fair.done h.1 h.2
theorem Block.append {a b : List Item} (ha : Block a) (hb : Block b) : Block (a ++ b) :=
  ⟨ha.1.append hb.1, by rw [List.flatMap_append]; exact ha.2.append hb.2⟩
theorem Block.still {i : Item} (h : Still i) : Block [i] :=
  ⟨StillL.done (by simpa using h), StillL.inert (by simpa using h)⟩
theorem Block.nil : Block [] := ⟨by simp [DoneL], Nets.nil _⟩
theorem Block.cons {i : Item} {l : List Item} (h : Still i) (hl : Block l) : Block (i :: l) :=
  (Block.still h).append hl
theorem Block.manual {a : TagArgs} (ha : TagOk a) {l : List Item} (hl : Block l) {c : Str}
    (hc : Nets c [a.tag] []) : Block (.openManual a :: l ++ [.text c]) := by
  refine ⟨DoneL.append (DoneL.cons rfl hl.1) (DoneL.cons rfl (by simp [DoneL])), ?_⟩
  rw [List.flatMap_append, List.flatMap_cons]
  refine ((nets_openManual ha).append (hl.2.any _)).append ?_
  simpa [Item.makeText] using hc
theorem Block.between {o c : Str} {p : List Str} (ho : Nets o [] p) {l : List Item} (hl : Block l)
    (hc : Nets c p []) : Block (.text o :: l ++ [.text c]) := by
  refine ⟨DoneL.append (DoneL.cons rfl hl.1) (DoneL.cons rfl (by simp [DoneL])), ?_⟩
  rw [List.flatMap_append, List.flatMap_cons]
  refine (Nets.append ho (hl.2.any _)).append ?_
  simpa [Item.makeText] using hc

theorem still_div {content : Str} (h : Inert content) {cs : List Str} (hc : ∀ x ∈ cs, NoAngle x)
    : Still (.openClose { content := content, classes := cs }) :=
  still_openClose ⟨(by decide : GoodTag "div".toList), NoAngle.nil, hc, h⟩

theorem still_collapse (b : Bool) : Still (hrCollapseZone b) := by
  cases b <;> exact still_div (nets_decide (by decide +kernel)) (by decide)
theorem still_border : Still hrBorderZone := still_div (nets_decide (by decide +kernel)) (by decide)
theorem still_borderEmpty : Still hrBorderZoneEmpty :=
  still_div (nets_decide (by decide +kernel)) (by decide)
theorem still_spacer : Still hrSpacerZone := still_div (nets_decide (by decide +kernel)) (by decide)
theorem still_menuEmpty : Still hrMenuZoneEmpty := still_div (Nets.nil _) (by decide)
theorem still_infoNone : Still (hrInfoZoneIcon none) :=
  still_div (nets_decide (by decide +kernel)) (by decide)
theorem still_infoExt : Still (hrInfoZoneIcon (some "ext".toList)) :=
  still_div (nets_decide (by decide +kernel)) (by decide)

theorem inert_menuLabel {l : Str} (h : NoAngle l) : Inert (hrMenuLabel l) := by
  have h1 : Nets "\n  <div class=\"hr-menu-label\">\n    <span class=\"hr-menu-item-text\">".toList []
    ["span".toList, "div".toList] := nets_decide (by decide +kernel)
  have h2 : Nets "</span>\n  </div>".toList ["span".toList, "div".toList] [] :=
    nets_decide (by decide +kernel)
  exact (h1.append (h.inert.any _)).append h2

theorem inert_sep : Inert hrMenuSep := nets_decide (by decide +kernel)

theorem inert_nl_cons {s : Str} (h : Inert s) : Inert ('\n' :: s) :=
  Inert.append (a := ['\n']) (NoAngle.inert (by decide)) h

/-- `optItem` writes a well-nested text that starts with a newline, or nothing. -/
theorem opt_of {o : Opt} {cs : List Str} {icon text : Str}
    (h1 : Inert (menuItem cs icon text)) (h2 : Inert (menuItem (cs ++ ["disabled".toList]) icon text)) :
    Inert (optItem o cs icon text) := by
  cases o
  · exact inert_nl_cons h1
  · exact inert_nl_cons h2
  · exact Nets.nil _

/-- Dropping the newline at the start. -/
theorem inert_dropNl {s : Str} (h : Inert s) : Inert (match (generalizing := false) s with
    | '\n' :: s => s
    | s => s) := by
  split
  · intro st
    have := h st
    simpa [scan, feed] using this
  · assumption

theorem still_menu {label : Str} (h : NoAngle label) (a b c : Opt) : Still (hrMenuZone label a b c) := by
  unfold hrMenuZone
  refine still_div ?_ (by decide)
  have hm : Inert ((if label ≠ [] then '\n' :: hrMenuLabel label ++ hrMenuSep else [])
    ++ optItem a ["collapse-subproof".toList] "collapse".toList "Collapse".toList
    ++ optItem b ["collapse-steps".toList] "collapse-all".toList "Collapse all".toList
    ++ (if a ≠ .off ∨ b ≠ .off then hrMenuSep else [])
    ++ optItem c ["link".toList] "link".toList "Copy link".toList
    ++ optItem .on [] "tree".toList "Tree".toList ++ optItem .on [] "code".toList "Source".toList) := by
    refine Inert.append (Inert.append (Inert.append (Inert.append (Inert.append (Inert.append ?_ ?_) ?_) ?_) ?_) ?_) ?_
    · split
      · exact inert_nl_cons ((inert_menuLabel h).append inert_sep)
      · exact Nets.nil _
    · exact opt_of (nets_decide (by decide +kernel)) (nets_decide (by decide +kernel))
    · exact opt_of (nets_decide (by decide +kernel)) (nets_decide (by decide +kernel))
    · split
      · exact inert_sep
      · exact Nets.nil _
    · exact opt_of (nets_decide (by decide +kernel)) (nets_decide (by decide +kernel))
    · exact opt_of (nets_decide (by decide +kernel)) (nets_decide (by decide +kernel))
    · exact opt_of (nets_decide (by decide +kernel)) (nets_decide (by decide +kernel))
  have hd := inert_dropNl hm
  have h1 : Nets "\n<div class=\"hr-menu\">".toList [] ["div".toList] := nets_decide (by decide +kernel)
  have h3 : Nets "\n</div>\n".toList ["div".toList] [] := nets_decide (by decide +kernel)
  have hnl : Inert "\n".toList := NoAngle.inert (by decide)
  simp only [join]
  exact (h1.append (hnl.any _)).append (((Inert.any hd _).append (hnl.any _)).append h3)

theorem still_infoNumber {o : Option Str} (h : ∀ s, o = some s → NoAngle s) (b : Bool) :
    Still (hrInfoZoneNumber o b) := by
  unfold hrInfoZoneNumber
  refine still_div ?_ (by decide)
  have h1 : Nets "<div class=\"hr-info\">".toList [] ["div".toList] := nets_decide (by decide +kernel)
  refine (h1.append (Inert.any ?_ _)).append (nets_closeTag (tag := "div".toList) (by decide))
  split
  · exact Nets.nil _
  · rename_i n
    have hn := (h n rfl).inert
    split
    · have h1 : Nets "<div class=\"step-number\"><p>⟨".toList [] ["p".toList, "div".toList] :=
        nets_decide (by decide +kernel)
      have h2 : Nets "⟩</p></div>".toList ["p".toList, "div".toList] [] := nets_decide (by decide +kernel)
      exact (h1.append (hn.any _)).append h2
    · have h1 : Nets "<div class=\"eqn-number\"><p>(".toList [] ["p".toList, "div".toList] :=
        nets_decide (by decide +kernel)
      have h2 : Nets ")</p></div>".toList ["p".toList, "div".toList] [] := nets_decide (by decide +kernel)
      exact (h1.append (hn.any _)).append h2

theorem tagOk_hrFromNode {nd : NodeRec} (hn : Clean nd) {add : List Str} (ha : ∀ x ∈ add, NoAngle x)
    (sel : Bool) : TagOk (hrFromNode nd add sel) := by
  refine tagOk_nodeTag hn (by decide) ?_ ..
  intro x hx
  rw [mem_fromKeys] at hx
  simp only [List.mem_append, List.mem_singleton] at hx
  rcases hx with (((hx | rfl) | hx) | hx) | hx
  · exact hn.types x hx
  · decide
  · split at hx
    · simp only [List.mem_singleton] at hx; subst hx; decide
    · simp at hx
  · split at hx
    · simp only [List.mem_singleton] at hx; subst hx; decide
    · simp at hx
  · exact ha x hx

theorem fair_replace {tag : TagArgs} (ht : TagOk tag) {label : Str} (hl : NoAngle label) (o : Opt)
    (a b : Bool) : Fair (replaceWithHandrails tag label o a b) [] [] :=
  fair_cons2 (fair_openTag ht) (Fair.append (a := [hrCollapseZone a, hrMenuZone label .off
      (if b then .on else .off) o, hrBorderZone, hrSpacerZone])
    (Block.fair (Block.cons (still_collapse _) (Block.cons (still_menu hl ..) (Block.cons still_border
      (Block.still still_spacer)))))
    (fair_lit (by decide) rfl (by decide) rfl))

theorem handrailItems_good (k r) {add : List Str} (ha : ∀ x ∈ add, NoAngle x) (a b : Bool) :
    Gives (Good h0) (fun l => Fair l [] []) (handrailItems k r add a b) := by
  unfold handrailItems
  exact Gives.bind (node_good r) fun nd hn => Gives.bind (reftext_good k r) fun label hl =>
    Gives.pure (fair_replace (tagOk_hrFromNode hn ha _) hl _ _ _)

theorem closing_nets {a : TagArgs} (h : GoodTag a.tag) : Nets a.closing [a.tag] [] :=
  (((inert_nl _).any _).append (nets_closeTag h)).append (inert_nl _)

/-- The item at the index, with a handrail around. -/
theorem block_wrap {i : Item} (hi : Still i) {classes : List Str} (hc : ∀ x ∈ classes, NoAngle x)
    {label : Str} (hl : NoAngle label) (o : Opt) (b : Bool) {info : Item} (hinfo : Still info) :
    Block (.openManual { classes := fromKeys (classes ++ ["hr".toList]), selectable := true } ::
      [hrCollapseZone b, hrMenuZone label .off .off o, hrBorderZone, hrSpacerZone]
      ++ (.openManual { classes := ["hr-content-zone".toList] } :: [i]
        ++ [.text (TagArgs.closing { classes := ["hr-content-zone".toList] })])
      ++ [info]
      ++ [.text (TagArgs.closing { classes := fromKeys (classes ++ ["hr".toList]), selectable := true })]) := by
  have hh : TagOk { classes := fromKeys (classes ++ ["hr".toList]), selectable := true } := by
    refine ⟨(by decide : GoodTag "div".toList), NoAngle.nil, ?_, Nets.nil _⟩
    intro x hx
    rw [show (TagArgs.classes { classes := fromKeys (classes ++ ["hr".toList]), selectable := true }) =
      fromKeys (classes ++ ["hr".toList]) from rfl, mem_fromKeys] at hx
    simp only [List.mem_append, List.mem_singleton] at hx
    rcases hx with hx | rfl
    · exact hc x hx
    · decide
  have h2 : Block (.openManual { classes := ["hr-content-zone".toList] } :: [i]
        ++ [.text (TagArgs.closing { classes := ["hr-content-zone".toList] })]) :=
    Block.manual ⟨(by decide : GoodTag "div".toList), NoAngle.nil, by decide, Nets.nil _⟩
      (Block.still hi) (closing_nets (by decide))
  have h1 : Block [hrCollapseZone b, hrMenuZone label .off .off o, hrBorderZone, hrSpacerZone] :=
    Block.cons (still_collapse _) (Block.cons (still_menu hl ..) (Block.cons still_border
      (Block.still still_spacer)))
  have := Block.manual hh ((h1.append h2).append (Block.still hinfo)) (closing_nets hh.tag)
  simpa only [List.cons_append, List.append_assoc] using this

theorem wrapItem_one {x i : Item} {rest : List Item} {classes label o b icon} :
    wrapItem 1 (x :: i :: rest) classes label o b icon = [x]
      ++ ((.openManual { classes := fromKeys (classes ++ ["hr".toList]), selectable := true } ::
      [hrCollapseZone b, hrMenuZone label .off .off o, hrBorderZone, hrSpacerZone]
      ++ (.openManual { classes := ["hr-content-zone".toList] } :: [i]
        ++ [.text (TagArgs.closing { classes := ["hr-content-zone".toList] })])
      ++ [hrInfoZoneIcon icon]
      ++ [.text (TagArgs.closing { classes := fromKeys (classes ++ ["hr".toList]), selectable := true })])
      ++ rest) := by
  simp [wrapItem]

theorem wrapHeading_good (k r) {l : List Item} (h : Headed l) :
    Gives (Good h0) (fun l' => ∃ a b, TagOk a ∧ Block b ∧ l' = .openTag a :: b ++ l.drop 2)
      (wrapHeading k r l) := by
  unfold wrapHeading
  refine Gives.bind (node_good r) fun nd hn => Gives.bind (reftext_good k r) fun label hl =>
    Gives.pure ?_
  obtain ⟨a, i, rest, rfl, ha, hi, hr⟩ := h
  refine ⟨a, _, ha, block_wrap hi (classes := ["heading".toList]) (by decide) hl (linkOpt nd) true
    still_infoNone, ?_⟩
  rw [wrapItem_one]
  simp

theorem wrapIf_good (k r) {l : List Item} (h : Headed l) :
    Gives (Good h0) (fun l => Fair l [] []) (wrapIf k r l) := by
  unfold wrapIf
  split
  · refine (wrapHeading_good k r h).mono ?_
    rintro l' ⟨a, b, ha, hb, rfl⟩
    obtain ⟨a', i, rest, rfl, _, _, hr⟩ := h
    exact fair_cons2 (fair_openTag ha) (hb.fair.append hr)
  · exact Gives.pure h.fair

/-! ## The minimap -/

/-- A tag that closes itself. -/
theorem inert_self {body : Str} (h : NoAngle body) {m} (he : body = m ++ ['/']) (hh : body.head? ≠ some '/') :
    Inert ('<' :: body ++ ['>']) := by
  intro st
  rw [scan_tag h]
  have : tagEffect body ([] ++ st) = some st := by
    unfold tagEffect
    split
    · simp at hh
    · rw [if_pos (.inl (by rw [he]; simp))]; rfl
  rw [this]; rfl

theorem minimapCircles_inert {h : Heap} (hc : CleanHeap h) (w : Bool) : ∀ (i : Nat) (l : List Ref)
    {c : List Str}, minimapCircles h w i l = .ok c → Chain c [] []
  | _, [], c, e => by simp [minimapCircles] at e; subst e; rfl
  | i, r :: rs, c, e => by
    unfold minimapCircles at e
    split at e
    · rename_i t _
      split at e
      · cases e
      · rename_i rad _
        cases hrest : minimapCircles h w (i + 1) rs with
        | error x => simp only [hrest] at e; cases e
        | ok rest =>
          simp only [hrest] at e
          have ih := minimapCircles_inert hc w (i + 1) rs hrest
          cases e
          have hl := (hc t).label
          have hcy := noAngle_digits (20 + (24 + 8) * i)
          have hrad := noAngle_digits rad
          have hrad' := noAngle_digits (rad - 4)
          have hsecond : Inert ("<circle cx=\"16\" cy=\"".toList ++ natStr (20 + (24 + 8) * i) ++ "\" r=\"".toList
            ++ natStr (rad - 4) ++ "\" fill=\"#FCFEFF\" data-pos=\"".toList
            ++ natStr (20 + (24 + 8) * i) ++ "\" />".toList) := by
            have := inert_self (body := "circle cx=\"16\" cy=\"".toList ++ natStr (20 + (24 + 8) * i)
              ++ "\" r=\"".toList ++ natStr (rad - 4) ++ "\" fill=\"#FCFEFF\" data-pos=\"".toList
              ++ natStr (20 + (24 + 8) * i) ++ "\" /".toList)
              (m := "circle cx=\"16\" cy=\"".toList ++ natStr (20 + (24 + 8) * i)
              ++ "\" r=\"".toList ++ natStr (rad - 4) ++ "\" fill=\"#FCFEFF\" data-pos=\"".toList
              ++ natStr (20 + (24 + 8) * i) ++ "\" ".toList) ?_ (by simp) (by simp)
            · simpa using this
            · simp only [noAngle_append]
              exact ⟨⟨⟨⟨⟨⟨by decide, hcy⟩, by decide⟩, hrad'⟩, by decide⟩, hcy⟩, by decide⟩
          have hfirst : ∀ pre : Str, NoAngle pre → Inert ("<circle ".toList ++ pre ++ "cx=\"16\" cy=\"".toList
              ++ natStr (20 + (24 + 8) * i) ++ "\" r=\"".toList
            ++ natStr rad ++ "\" data-pos=\"".toList
            ++ natStr (20 + (24 + 8) * i) ++ "\" />".toList) := by
            intro pre hpre
            have := inert_self (body := "circle ".toList ++ pre ++ "cx=\"16\" cy=\"".toList
              ++ natStr (20 + (24 + 8) * i)
              ++ "\" r=\"".toList ++ natStr rad ++ "\" data-pos=\"".toList
              ++ natStr (20 + (24 + 8) * i) ++ "\" /".toList)
              (m := "circle ".toList ++ pre ++ "cx=\"16\" cy=\"".toList ++ natStr (20 + (24 + 8) * i)
              ++ "\" r=\"".toList ++ natStr rad ++ "\" data-pos=\"".toList
              ++ natStr (20 + (24 + 8) * i) ++ "\" ".toList) ?_ (by simp) (by simp)
            · simpa using this
            · simp only [noAngle_append]
              exact ⟨⟨⟨⟨⟨⟨⟨⟨by decide, hpre⟩, by decide⟩, hcy⟩, by decide⟩, hrad⟩, by decide⟩, hcy⟩, by decide⟩
          cases w with
          | false =>
            refine ⟨[], ?_, [], ?_, ih⟩
            · simpa using hfirst [] NoAngle.nil
            · simpa using hsecond
          | true =>
            refine ⟨["a".toList], ?_, [], ?_, ih⟩
            · have h1 := nets_lit (tag := "a".toList) (pre := "href=\"#".toList) (x := (h.get t).label)
                (post := "\" class=\"reference\" tabindex=\"-1\"".toList) (by decide) (by decide) hl
                (by decide) (m := "\" class=\"reference\" tabindex=\"-1".toList) (c := '"') (by decide) (by decide)
              have h2 := hfirst ("id=\"mm-".toList ++ (h.get t).label ++ "\" ".toList) (by
                simp only [noAngle_append]; exact ⟨⟨by decide, hl⟩, by decide⟩)
              have := h1.append (h2.any _)
              simpa using this
            · have := (hsecond.any ["a".toList]).append (nets_closeTag (tag := "a".toList) (by decide))
              simpa [closeTag] using this
    · cases e

theorem Chain.join {sep : Str} (hs : Inert sep) : ∀ {l : List Str} {p q}, Chain l p q →
    Nets (join sep l) p q
  | [], p, q, h => by cases h; exact Nets.nil _
  | [x], p, q, h => by obtain ⟨m, h1, h2⟩ := h; cases h2; exact h1
  | x :: y :: xs, p, q, h => by
    obtain ⟨m, h1, h2⟩ := h
    simp only [Tr.join]
    exact (h1.append (hs.any _)).append (Chain.join hs h2)

end Tr
end RSM
