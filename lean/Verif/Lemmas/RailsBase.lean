import Verif.Lemmas.RenderTree
import Verif.Spec.Rails

/-! # Lemmas: the texts of handrails -/

namespace RSM
namespace Tr
open PyM

/-! ## Tags -/

theorem rail_tag (id : Str) (cl : List Str) (sel : Bool) (nid : Option Nat) :
    makeTag "div".toList id cl sel nid [] = Rails.tag id cl sel nid := by
  unfold makeTag Rails.tag
  simp only [List.filter_nil, List.map_nil, List.nil_append, join_eq]
  have e1 : ∀ a b c d : Str, a ++ b ++ c ++ d = a ++ (b ++ c) ++ d := by simp
  rw [e1, intercalate_space]
  have h1 : (if id ≠ [] then " id=\"".toList ++ id ++ "\"".toList else []) =
      if id = [] then [] else Render.attr "id" id := by
    by_cases h : id = [] <;> simp [h, Render.attr]
  have h2 : (if cl ≠ [] then " class=\"".toList ++ List.intercalate " ".toList cl ++ "\"".toList else []) =
      if cl = [] then [] else Render.attr "class" (List.intercalate " ".toList cl) := by
    by_cases h : cl = [] <;> simp [h, Render.attr]
  rw [h1, h2, List.flatMap_append]
  have h3 : (if sel then ["tabindex=0".toList] else []).flatMap (' ' :: ·) =
      if sel then " tabindex=0".toList else [] := by
    cases sel <;> decide
  have h4 : (match nid with
        | none => []
        | some n => ["data-nodeid=\"".toList ++ natStr n ++ "\"".toList]).flatMap (' ' :: ·) =
      match nid with
      | none => []
      | some n => Render.attr "data-nodeid" (natStr n) := by
    cases nid with
    | none => rfl
    | some n => simp [Render.attr]
  rw [h3, show "<div".toList = "<".toList ++ "div".toList by decide]
  simp only [List.append_assoc]
  cases nid with
  | none => rfl
  | some n => have := h4; dsimp only at this ⊢; simp only [List.append_assoc] at this; rw [this]

theorem rail_text (id : Str) (cl : List Str) (sel : Bool) (nid : Option Nat) :
    (Item.openTag { id := id, classes := cl, selectable := sel, nodeid := nid }).makeText =
      Render.line (Rails.tag id cl sel nid) := by
  rw [Item.makeText, ← rail_tag, ← line_nl]; rfl

theorem rail_manual_text (cl : List Str) (sel : Bool) :
    (Item.openManual { classes := cl, selectable := sel }).makeText = Render.line (Rails.tag [] cl sel none) := by
  rw [Item.makeText, ← rail_tag, ← line_nl]
  simp only [List.append_nil]; rfl

/-! ## Zones -/

theorem box_text (name content : Str) :
    (Item.openClose { content := content, classes := [name] }).makeText = Rails.box name content := by
  rw [element_text, line_nl, line_nl]; rfl

theorem collapseZone_text (b : Bool) : (hrCollapseZone b).makeText = Rails.collapseZone b := by
  unfold hrCollapseZone Rails.collapseZone
  rw [box_text]

/-- Options as the specification has them. -/
def Opt.as : Opt → Option Bool
  | .on => some true
  | .disabled => some false
  | .off => none

theorem entry_text (o : Opt) (cl : List Str) (icon text : Str) :
    optItem o cl icon text = Rails.entry o.as cl icon text := by
  have key : ∀ cl : List Str, '\n' :: menuItem cl icon text =
      "\n\n  <div class=\"".toList ++ List.intercalate " ".toList ("hr-menu-item".toList :: cl)
      ++ "\">\n    <span class=\"icon ".toList ++ icon
      ++ "\">\n    </span>\n    <span class=\"hr-menu-item-text\">".toList ++ text ++ "</span>\n  </div>".toList := by
    intro cl
    unfold menuItem
    rw [join_eq, show "\n\n  <div class=\"".toList = '\n' :: "\n  <div class=\"".toList by decide,
      show "\n  <div class=\"hr-menu-item".toList = "\n  <div class=\"".toList ++ "hr-menu-item".toList by decide +kernel]
    have e : List.intercalate " ".toList ("hr-menu-item".toList :: cl) =
        "hr-menu-item".toList ++ if cl ≠ [] then ' ' :: List.intercalate " ".toList cl else [] := by
      generalize "hr-menu-item".toList = w
      cases cl with
      | nil => simp [List.intercalate]
      | cons a l => simp [List.intercalate, List.intersperse]
    rw [e]
    simp only [List.append_assoc, List.cons_append]
  cases o with
  | off => rfl
  | on => unfold optItem Rails.entry; dsimp only [Opt.as]; rw [key, if_pos rfl, List.append_nil]
  | disabled => unfold optItem Rails.entry; dsimp only [Opt.as]; rw [key, if_neg (by decide), List.cons_append]

theorem menuZone_text (label : Str) (c ca l : Opt) :
    (hrMenuZone label c ca l).makeText = Rails.menuZone label c.as ca.as l.as := by
  unfold hrMenuZone Rails.menuZone
  dsimp only
  rw [box_text]
  congr 1
  have hl : (if label ≠ [] then '\n' :: hrMenuLabel label ++ hrMenuSep else []) =
      if label = [] then [] else
        "\n\n  <div class=\"hr-menu-label\">\n    <span class=\"hr-menu-item-text\">".toList ++ label
        ++ "</span>\n  </div>".toList ++ Rails.separator := by
    by_cases h : label = []
    · rw [if_neg (fun e => e h), if_pos h]
    · rw [if_pos h, if_neg h]
      unfold hrMenuLabel
      rw [show "\n\n  <div class=\"hr-menu-label\">\n    <span class=\"hr-menu-item-text\">".toList =
        '\n' :: "\n  <div class=\"hr-menu-label\">\n    <span class=\"hr-menu-item-text\">".toList by decide +kernel]
      simp only [List.append_assoc, List.cons_append]
      rfl
  have hs : (if c ≠ .off ∨ ca ≠ .off then hrMenuSep else []) =
      if c.as = none ∧ ca.as = none then [] else Rails.separator := by
    cases c <;> cases ca <;> rfl
  rw [hl, hs, entry_text, entry_text, entry_text, entry_text, entry_text]
  have e0 : Opt.on.as = some true := rfl
  rw [e0]
  generalize hm : (if label = [] then [] else
        "\n\n  <div class=\"hr-menu-label\">\n    <span class=\"hr-menu-item-text\">".toList ++ label
        ++ "</span>\n  </div>".toList ++ Rails.separator)
      ++ Rails.entry c.as ["collapse-subproof".toList] "collapse".toList "Collapse".toList
      ++ Rails.entry ca.as ["collapse-steps".toList] "collapse-all".toList "Collapse all".toList
      ++ (if c.as = none ∧ ca.as = none then [] else Rails.separator)
      ++ Rails.entry l.as ["link".toList] "link".toList "Copy link".toList
      ++ Rails.entry (some true) [] "tree".toList "Tree".toList
      ++ Rails.entry (some true) [] "code".toList "Source".toList = middle
  have hd : ∃ m, middle = '\n' :: m := by
    have key : ∀ o cl i t, Rails.entry o cl i t = [] ∨ ∃ m, Rails.entry o cl i t = '\n' :: m := by
      intro o cl i t
      cases o with
      | none => exact .inl rfl
      | some b => exact .inr ⟨_, rfl⟩
    have step : ∀ {a b : Str}, (a = [] ∨ ∃ m, a = '\n' :: m) → (∃ m, b = '\n' :: m) → ∃ m, a ++ b = '\n' :: m := by
      rintro a b (rfl | ⟨m, rfl⟩) hb
      · exact hb
      · exact ⟨_, rfl⟩
    have sep : ∀ p : Prop, [Decidable p] → (if p then [] else Rails.separator) = [] ∨
        ∃ m, (if p then [] else Rails.separator) = '\n' :: m := by
      intro p _
      by_cases h : p
      · exact .inl (if_pos h)
      · exact .inr ⟨_, (if_neg h).trans rfl⟩
    rw [← hm]
    simp only [List.append_assoc]
    refine step ?_ (step (key ..) (step (key ..) (step (sep _) (step (key ..) (step (key ..) ⟨_, rfl⟩)))))
    by_cases h : label = []
    · exact .inl (if_pos h)
    · exact .inr ⟨_, (if_neg h).trans rfl⟩
  obtain ⟨m, rfl⟩ := hd
  rw [show "\n\n</div>\n".toList = '\n' :: "\n</div>\n".toList by decide]
  simp only [join_eq, List.intercalate, List.intersperse, List.flatten_cons, List.flatten_nil, List.append_nil]
  have e : ∀ a b : Str, a ++ ('\n' :: m) ++ b = a ++ ("\n".toList ++ (m ++ b)) := by
    intro a b
    rw [show "\n".toList = ['\n'] by decide]
    simp
  have e2 : "\n".toList ++ "\n</div>\n".toList = '\n' :: "\n</div>\n".toList := by decide
  rw [e2, ← e, ← hm]
  simp only [List.append_assoc]

theorem borderZone_text : hrBorderZone.makeText = Rails.borderZone := by
  unfold hrBorderZone Rails.borderZone; rw [box_text]
theorem spacerZone_text : hrSpacerZone.makeText = Rails.spacerZone := by
  unfold hrSpacerZone Rails.spacerZone; rw [box_text]
theorem contentZone_text : (hrContentZone true).makeText = Render.line (Render.tag "div" [] ["hr-content-zone"]) := by
  unfold hrContentZone; rw [if_pos rfl, args_text, line_nl]

/-! ## Classes -/

theorem mem_unique {x : Str} : ∀ {l : List Str}, x ∈ Render.unique l ↔ x ∈ l
  | [] => by simp [Render.unique]
  | y :: l => by
    rw [Render.unique, List.mem_cons, List.mem_filter, mem_unique, List.mem_cons]
    by_cases h : x = y <;> simp [h]

theorem unique_filter (p : Str → Bool) : ∀ l : List Str, Render.unique (l.filter p) = (Render.unique l).filter p
  | [] => rfl
  | y :: l => by
    rw [Render.unique]
    by_cases h : p y = true
    · rw [List.filter_cons_of_pos h, Render.unique, unique_filter p l, List.filter_cons_of_pos h,
        List.filter_filter, List.filter_filter]
      simp only [Bool.and_comm]
    · rw [List.filter_cons_of_neg h, unique_filter p l, List.filter_cons_of_neg h, List.filter_filter]
      congr 1
      funext z
      by_cases hz : z = y
      · subst hz; simp [h]
      · simp [hz]

theorem unique_append : ∀ a b : List Str, Render.unique (a ++ b) =
    Render.unique a ++ (Render.unique b).filter (fun x => decide (x ∉ a))
  | [], b => by simp [Render.unique]
  | y :: a, b => by
    rw [List.cons_append, Render.unique, unique_append a b, Render.unique, List.filter_append, List.cons_append,
      List.filter_filter]
    congr 3
    funext z
    by_cases hz : z = y <;> simp [hz]

theorem unique_unique : ∀ l : List Str, Render.unique (Render.unique l) = Render.unique l
  | [] => rfl
  | y :: l => by
    rw [Render.unique, Render.unique, unique_filter, unique_unique l, List.filter_filter]
    simp only [Bool.and_self]

theorem unique_twice (n : Str) (a b : List Str) :
    Render.unique (n :: a ++ Render.unique (a ++ b)) = Render.unique (n :: a ++ b) := by
  rw [unique_append, unique_unique, unique_append a b, unique_append (n :: a) b, List.filter_append]
  congr 1
  rw [List.filter_filter]
  have : (Render.unique a).filter (fun x => decide (x ∉ n :: a)) = [] := by
    rw [List.filter_eq_nil_iff]
    intro x hx
    simp [mem_unique.mp hx]
  rw [this, List.nil_append]
  congr 1
  funext z
  by_cases hz : z ∈ a <;> simp [hz]

theorem unique_snoc (l : List Str) (w : Str) : Render.unique (l ++ [w]) =
    if w ∈ Render.unique l then Render.unique l else Render.unique l ++ [w] := by
  rw [unique_append]
  by_cases h : w ∈ l
  · rw [if_pos (mem_unique.mpr h)]
    simp [Render.unique, h]
  · rw [if_neg (fun e => h (mem_unique.mp e))]
    simp [Render.unique, h]

theorem unique_nodup : ∀ l : List Str, (Render.unique l).Nodup
  | [] => List.nodup_nil
  | y :: l => by
    rw [Render.unique, List.nodup_cons]
    exact ⟨by simp, (unique_nodup l).filter _⟩

variable {k : Conf} {h0 : Heap} {num : Ref → Option Str} {ref : Ref → Str}

theorem rail_from (r : Ref) (b : Bool) (more : List Str) (sel : Bool) :
    hrFromNode (record h0 r b) more sel =
      { id := (h0.get r).label, classes := Rails.classes h0 r more, selectable := sel, nodeid := (h0.get r).nodeid } := by
  unfold hrFromNode nodeTag Rails.classes
  have e : ∀ n : Nat, (if n > 0 then ["hr-offset".toList] else []) = if n = 0 then [] else ["hr-offset".toList] := by
    intro n; cases n <;> rfl
  rw [e, fromKeys_eq, fromKeys_eq]
  congr 1
  show Render.unique ((h0.get r).cls.name.map Char.toLower :: Render.types h0 r ++ Render.unique _) = _
  rw [show (record h0 r b).types = Render.types h0 r from rfl, List.append_assoc, List.append_assoc,
    List.append_assoc, unique_twice]
  simp only [List.append_assoc, List.cons_append, List.nil_append]
  rfl

theorem linkOpt_as (r : Ref) (b : Bool) : (linkOpt (record h0 r b)).as = Rails.linkable h0 r := by
  unfold linkOpt Rails.linkable
  show (if (h0.get r).label ≠ [] then Opt.on else .disabled).as = _
  by_cases h : (h0.get r).label = []
  · rw [if_neg (fun e => e h), decide_eq_false (fun e => e h)]; rfl
  · rw [if_pos h, decide_eq_true h]; rfl

/-! ## Assembled handrails -/

theorem replace_text (id : Str) (cl : List Str) (sel : Bool) (nid : Option Nat) (label : Str) (link : Opt) (c a : Bool) :
    (replaceWithHandrails { id := id, classes := cl, selectable := sel, nodeid := nid } label link c a).flatMap
      Item.makeText = Rails.start (Rails.tag id cl sel nid) (Rails.collapseZone c)
        (Rails.menuZone label none (if a then some true else none) link.as) Rails.borderZone := by
  unfold replaceWithHandrails Rails.start
  simp only [List.flatMap_cons, List.flatMap_nil, List.append_nil, rail_text, collapseZone_text, menuZone_text,
    borderZone_text, spacerZone_text, contentZone_text, List.append_assoc]
  cases a <;> rfl

theorem replace_deferred (t : TagArgs) (label : Str) (link : Opt) (c a : Bool) :
    (replaceWithHandrails t label link c a).filterMap Item.deferred =
      [t.closing, Render.line (Render.endTag "div")] := by
  unfold replaceWithHandrails
  simp only [List.filterMap_cons, hrCollapseZone, hrMenuZone, hrBorderZone, hrSpacerZone, hrContentZone,
    Item.deferred, List.filterMap_nil, if_true]
  rw [← line_nl]
  rfl

theorem closing_line (id : Str) (cl : List Str) (sel : Bool) (nid : Option Nat) :
    (TagArgs.closing { id := id, classes := cl, selectable := sel, nodeid := nid }) = Render.line (Render.endTag "div") := by
  rw [← line_nl]; rfl

theorem info_text (o : Option Str) : (hrInfoZoneIcon o).makeText = Rails.box "hr-info-zone" (infoIconContent o) := by
  unfold hrInfoZoneIcon; rw [box_text]

theorem noInfo_text : (hrInfoZoneIcon none).makeText = Rails.box "hr-info-zone" Rails.noInfo := by
  rw [info_text]; congr 1

theorem wrap_text (i : Item) (front back : List Item) (cl : List Str) (label : Str) (link : Opt) (c : Bool) (icon : Option Str) :
    (wrapItem front.length (front ++ i :: back) cl label link c icon).flatMap Item.makeText =
      front.flatMap Item.makeText ++ Rails.start (Rails.tag [] (Render.unique (cl ++ ["hr".toList])) true none)
        (Rails.collapseZone c) (Rails.menuZone label none none link.as) Rails.borderZone ++ i.makeText
      ++ Rails.stop (infoIconContent icon) ++ back.flatMap Item.makeText := by
  unfold wrapItem Rails.start Rails.stop
  dsimp only
  rw [List.take_left', List.getElem?_append_right (by omega), Nat.sub_self, List.getElem?_cons_zero]
  · have e : List.drop (front.length + 1) (front ++ i :: back) = back := by
      rw [List.drop_append]; simp
    rw [e, fromKeys_eq]
    simp only [List.flatMap_append, List.flatMap_cons, List.flatMap_nil, List.append_nil, rail_manual_text,
      collapseZone_text, menuZone_text, borderZone_text, spacerZone_text, info_text, text_text, closing_line,
      Option.toList_some, List.append_assoc]
    rw [show Rails.tag [] ["hr-content-zone".toList] false none = Render.tag "div" [] ["hr-content-zone"] by
      rw [← rail_tag, makeTag_eq]]
    rfl
  · rfl

theorem wrap_deferred (i : Item) (front back : List Item) (cl : List Str) (label : Str) (link : Opt) (c : Bool) (icon : Option Str) :
    (wrapItem front.length (front ++ i :: back) cl label link c icon).filterMap Item.deferred =
      (front ++ i :: back).filterMap Item.deferred := by
  unfold wrapItem
  dsimp only
  rw [List.take_left', List.getElem?_append_right (by omega), Nat.sub_self, List.getElem?_cons_zero]
  · have e : List.drop (front.length + 1) (front ++ i :: back) = back := by
      rw [List.drop_append]; simp
    rw [e]
    simp only [List.filterMap_append, List.filterMap_cons, List.filterMap_nil, hrCollapseZone, hrMenuZone, hrBorderZone,
      hrSpacerZone, hrInfoZoneIcon, Item.deferred, Option.toList_some, List.append_assoc, List.nil_append]
    cases i <;> rfl
  · rfl

/-! ## The document without the dots -/

theorem dotless_frame (h : Heap) : SameFrame h (Rails.dotless h) := ⟨rfl, fun _ => rfl⟩

end Tr
end RSM
