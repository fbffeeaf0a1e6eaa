import Verif.Lemmas.RenderBase

/-! # Lemmas: what is written for each node -/

namespace RSM
namespace Tr
open PyM

variable {k : Conf} {h0 : Heap} {num : Ref → Option Str} {ref : Ref → Str}

/-- The state during the translation: types and notes of nodes may have changed. -/
def Live (h0 : Heap) (s : TrState) : Prop := s.heap.next = h0.next ∧
  ∀ x, ∃ ty b, s.heap.get x = { h0.get x with types := ty, mustCloseP := b }

theorem Live.frame {s} (h : Live h0 s) : SameFrame h0 s.heap :=
  ⟨h.1, fun x => by obtain ⟨ty, b, e⟩ := h.2 x; rw [e]; rfl⟩

/-- The last step of the proof `r`. -/
def lastOf (h : Heap) (r x : Ref) : Bool :=
  decide ((h.get r).cls = .Proof) && ((h.children r).filter fun c => (h.get c).cls = .Step).getLast? == some x

/-- The types of nodes change as they do when `r` is visited. -/
def Retyped (h0 : Heap) (r : Ref) (s s' : TrState) : Prop := s'.heap.next = s.heap.next ∧
  ∀ x, ∃ ty, s'.heap.get x = { s.heap.get x with types := ty } ∧
    (x ≠ r → ty = (s.heap.get x).types ++ if lastOf h0 r x then ["last".toList] else [])

theorem Retyped.same {r s s'} (h : s'.heap = s.heap) (hc : (h0.get r).cls ≠ .Proof) : Retyped h0 r s s' := by
  refine ⟨by rw [h], fun x => ⟨(s.heap.get x).types, by rw [h], fun _ => ?_⟩⟩
  simp [lastOf, hc]

theorem Retyped.own {r s s'} {f : NodeRec → NodeRec} (hf : ∀ nd, f nd = { nd with types := (f nd).types })
    (h : s'.heap = s.heap.update r f) (hc : (h0.get r).cls ≠ .Proof) : Retyped h0 r s s' := by
  refine ⟨by rw [h]; rfl, fun x => ?_⟩
  rw [h, Heap.get_update]
  split
  · rename_i e; subst e; exact ⟨_, hf _, fun hn => absurd rfl hn⟩
  · exact ⟨(s.heap.get x).types, rfl, fun _ => by simp [lastOf, hc]⟩

/-- What is written after the children of a node by the commands of its visit. -/
def shut (h : Heap) (x : Ref) : List Str :=
  let nd := h.get x
  let e (s : String) := Render.line (Render.endTag s.toList)
  match nd.cls with
  | .Manuscript => [e "section", e "div", e "div", e "body"]
  | .Paragraph =>
      (if (h.children x).any (fun c => (h.get c).cls = .MathBlock) then [] else ["</p>\n".toList]) ++ [e "div"]
  | .Section | .Subsection | .Subsubsection => [e "section"]
  | .Enumerate => [e "ol"]
  | .Itemize => [e "ul"]
  | .Item => [e "li"]
  | .Contents => [e "ul", e "div", e "div"]
  | .Note => [Render.endTag "span" ++ "\n".toList, e "span"]
  | .Math => ["\\)".toList, Render.endTag "span"]
  | .MathBlock => ["\n$$".toList, e "div"]
  | .SourceCode => [Render.endTag "code"]
  | .Code => [Render.endTag "span" ++ "\n".toList]
  | .CodeBlock | .Algorithm => [e "pre", e "div"]
  | .Error => [Render.endTag "span"]
  | .Span | .Keyword => (Render.styles nd).reverse.map Render.endTag ++ [Render.endTag "span"]
  | .Construct => [Render.endTag "span"]
  | .Author | .Abstract | .Step | .ClaimBlock | .Statement | .Subproof | .Sketch | .Proof
  | .Theorem | .Lemma | .Corollary | .Example | .Exercise | .Proposition | .Problem | .Porism | .Remark
  | .Definition => [e "div"]
  | .Bibliography => [e "ol", e "section"]
  | .Bibitem | .UnknownBibitem => [e "li"]
  | .Draft => [" ]".toList, e "span"]
  | .Figure => [e "figure"]
  | .Caption =>
    match h.parent x with
    | none => []
    | some p => [Render.line (Render.endTag (if (h.get p).cls = .Figure then "figcaption" else "caption"))]
  | .Table => [e "table"]
  | .TableHead => [e "thead"]
  | .TableBody => [e "tbody"]
  | .TableRow => [e "tr"]
  | .TableDatum => [Render.endTag "td" ++ "\n".toList]
  | _ => []

/-- What visiting a node does. -/
structure Seen (k : Conf) (h0 : Heap) (num : Ref → Option Str) (ref : Ref → Str) (r : Ref) (c : Cmd)
    (s s' : TrState) : Prop where
  text : c.text = Render.opening h0 num ref k.highlight r
  closers : c.closers = shut h0 r
  heap : Retyped h0 r s s'

/-- The record that a visit reads. -/
def record (h0 : Heap) (r : Ref) (b : Bool) : NodeRec :=
  { h0.get r with types := Render.types h0 r, mustCloseP := b }

theorem nodeTag_eq (h0 : Heap) (r : Ref) (b : Bool) (tag : Str) (more : List Str) (i o : Bool) :
    (nodeTag (record h0 r b) tag more i o).opening = Render.nodeTag h0 r tag [] more := by
  unfold nodeTag
  rw [opening_tag _ rfl]
  simp [Render.nodeTag, record, lower, fromKeys_eq]

/-- With line breaks inside and outside. -/
def around (i o : Bool) (s : Str) : Str := nl o ++ s ++ nl i

theorem nodeTag_text (h0 : Heap) (r : Ref) (b : Bool) (tag : Str) (more : List Str) (i o : Bool) :
    (Item.openTag (nodeTag (record h0 r b) tag more i o)).makeText =
      around i o (Render.nodeTag h0 r tag [] more) := by
  rw [Item.makeText, nodeTag_eq]; rfl

theorem nodeTag_deferred (nd : NodeRec) (tag : Str) (more : List Str) (i o : Bool) :
    (Item.openTag (nodeTag nd tag more i o)).deferred = some (around o i (Render.endTag tag)) := rfl

theorem args_text (t c id : Str) (cl : List Str) (i o : Bool) (n : Option Nat) :
    (Item.openTag ⟨t, c, id, cl, i, o, false, n⟩).makeText = around i o (Render.tag t id cl [] n) := by
  rw [Item.makeText, opening_tag _ rfl]; rfl

theorem args_deferred (t c id : Str) (cl : List Str) (i o se : Bool) (n : Option Nat) :
    (Item.openTag ⟨t, c, id, cl, i, o, se, n⟩).deferred = some (around o i (Render.endTag t)) := rfl

theorem manual_text (t c id : Str) (cl : List Str) (i o : Bool) (n : Option Nat) :
    (Item.openManual ⟨t, c, id, cl, i, o, false, n⟩).makeText = around i o (Render.tag t id cl [] n) ++ c := by
  rw [Item.makeText, opening_tag _ rfl]; rfl

theorem element_text (t c : Str) (cl : List Str) (i o : Bool) :
    (Item.openClose ⟨t, c, [], cl, i, o, false, none⟩).makeText =
      around i o (Render.tag t [] cl) ++ c ++ around o i (Render.endTag t) := by
  rw [Item.makeText, opening_tag _ rfl]; simp [around, Render.endTag, closeTag]

theorem heading_text (n : Nat) (c : Str) :
    (heading n c).makeText = Render.line (Render.element ('h' :: natStr n) [] c) := by
  rw [heading, element_text]
  simp [Render.line, Render.element, nl, around]

theorem paragraphTag_text (c : Str) (cl : List Str) :
    (paragraphTag c cl).makeText = Render.line (Render.element "p" cl c) := by
  rw [paragraphTag, element_text]
  simp [Render.line, Render.element, nl, around]

theorem heading_deferred (n c) : (heading n c).deferred = none := rfl
theorem paragraphTag_deferred (c cl) : (paragraphTag c cl).deferred = none := rfl
theorem element_deferred (a) : (Item.openClose a).deferred = none := rfl
theorem manual_deferred (a) : (Item.openManual a).deferred = none := rfl
theorem text_deferred (a) : (Item.text a).deferred = none := rfl
theorem defer_deferred (a d) : (Item.defer a d).deferred = some d := rfl
theorem text_text (a) : (Item.text a).makeText = a := rfl
theorem defer_text (a d) : (Item.defer a d).makeText = a := rfl

theorem line_nl (s : Str) : around true true s = Render.line s := by simp [nl, Render.line, around]
theorem flat_nl (s : Str) : around false false s = s := by simp [nl, around]
theorem before_nl (s : Str) : around false true s = '\n' :: s := by simp [nl, around]
theorem after_nl (s : Str) : around true false s = s ++ "\n".toList := by simp [nl, around]

theorem natStr_1 : natStr 1 = "1".toList := by decide
theorem natStr_2 : natStr 2 = "2".toList := by decide
theorem natStr_3 : natStr 3 = "3".toList := by decide
theorem natStr_4 : natStr 4 = "4".toList := by decide

/-- Reads off what a visit method returned. -/
macro "read_off" hv:ident hn:ident hk:term : tactic => `(tactic|
  simp only [visitWith, $hk:term, node, wrapIf, bind_apply, gets_apply, pure_apply, get_apply, $hn:ident, if_false,
    Bool.false_eq_true, PyM.throw_apply] at $hv:ident)

/-- The texts of commands. -/
macro "texts" hc:ident : tactic => `(tactic|
  simp only [Render.opening, $hc:ident, Cmd.text, nodeTag_text, args_text, manual_text, element_text, heading_text,
      paragraphTag_text, text_text, defer_text, line_nl, flat_nl, before_nl, after_nl, List.flatMap_cons,
      List.flatMap_append, List.flatMap_nil, List.append_nil, List.append_assoc, List.nil_append,
      natStr_1, natStr_2, natStr_3, natStr_4,
      manuscriptItems, abstractItems, contentsItems, bibliographyItems, mathItems, sketchItems])

/-- What commands defer. -/
macro "closers" hc:ident : tactic => `(tactic|
  simp only [shut, $hc:ident, Cmd.closers, closersOf, nodeTag_deferred, args_deferred, manual_deferred,
      element_deferred, heading_deferred, paragraphTag_deferred, text_deferred, defer_deferred, line_nl, flat_nl,
      before_nl, after_nl, List.filterMap_cons, List.filterMap_nil, List.reverse_cons, List.reverse_nil,
      List.nil_append, List.cons_append, Option.toList, List.filterMap_append, List.reverse_append,
      manuscriptItems, abstractItems, contentsItems, bibliographyItems, mathItems, sketchItems])

theorem span_front : "<span class=\"span ".toList =
    "<".toList ++ ("span".toList ++ (' ' :: ("class".toList ++ ("=\"".toList ++ "span ".toList)))) := by decide +kernel
theorem span_middle : "\">".toList = "\"".toList ++ ">".toList := by decide
theorem span_back : "</span>".toList = "</".toList ++ ("span".toList ++ ">".toList) := by decide

theorem titleSpan_eq (c s : Str) : titleSpan c s = Render.element "span" ["span", c] s := by
  unfold titleSpan Render.element Render.tag Render.attr Render.endTag
  rw [show List.intercalate " ".toList ["span".toList, c] = "span ".toList ++ c by
    simp [List.intercalate], span_front, span_middle, span_back]
  simp only [List.append_assoc, List.cons_append, if_true, reduceCtorEq, if_false, List.filter_nil, List.flatMap_nil,
    List.nil_append]

theorem title_front : "\n<div class=\"paragraph hr-label\">\n\n<p>".toList =
    Render.line (Render.tag "div" [] ["paragraph", "hr-label"]) ++ "\n<p>".toList := by decide +kernel
theorem title_back : "</p>\n\n</div>\n".toList = "</p>\n".toList ++ Render.line (Render.endTag "div") := by
  decide +kernel

theorem titleText_eq (label desc : Str) : titleText label desc = Render.title label desc := by
  unfold titleText Render.title
  rw [titleSpan_eq, titleSpan_eq, title_front, title_back]
  have e : ∀ (a b : Str), (if a ≠ [] then b else []) = if a = [] then [] else b := by
    intro a b; by_cases h : a = [] <;> simp [h]
  rw [e, e]
  simp only [List.append_assoc]

theorem heading_if (a : Str) :
    List.flatMap Item.makeText (if a ≠ [] then [heading 1 a] else []) =
      if a = [] then [] else Render.line (Render.element "h1" [] a) := by
  by_cases h : a = []
  · simp [h]
  · simp [h, heading_text, natStr_1]
theorem heading_if_deferred (a : Str) :
    List.filterMap Item.deferred (if a ≠ [] then [heading 1 a] else []) = [] := by
  by_cases h : a = [] <;> simp [h, heading_deferred]

theorem visit_simple {r b s s' c} (hk : k.handrails = false) (hn : s.heap.get r = record h0 r b)
    (hc : (h0.get r).cls ∈ [.Enumerate, .Itemize, .Item, .Contents, .Manuscript, .Math, .Code, .CodeBlock, .Algorithm,
      .Abstract, .Text, .Error, .Construct, .ClaimBlock, .Statement, .Subproof, .Sketch, .Draft, .Appendix, .Table,
      .TableHead, .TableBody, .TableRow, .TableDatum, .Bibliography, .Step]) (hv : visit k r s = .ok c s') :
    Seen k h0 num ref r c s s' := by
  have hc' : (s.heap.get r).cls = (h0.get r).cls := by rw [hn]; rfl
  simp only [List.mem_cons, List.not_mem_nil, or_false] at hc
  rcases hc with hc | hc | hc | hc | hc | hc | hc | hc | hc | hc | hc | hc | hc | hc | hc | hc | hc | hc | hc | hc |
    hc | hc | hc | hc | hc | hc
  all_goals
    rw [visit_eq (by rw [hc', hc]; rfl)] at hv
    read_off hv hn hk
    cases hv
    refine ⟨?_, ?_, Retyped.same rfl (by rw [hc]; decide)⟩
    · texts hc
      try simp only [heading_if, titleText_eq]
      try rfl
    · closers hc
      try (rw [heading_if_deferred]; rfl)

/-! ## Authors, paragraphs, source code and spans -/

theorem authorData_eq (h0 : Heap) (r : Ref) (b : Bool) :
    authorParagraphs (record h0 r b) = (Render.authorData (h0.get r)).map fun x => paragraphTag x := by
  unfold authorParagraphs Render.authorData
  simp only [makeTag_eq]
  congr 2
  show [(h0.get r).name, (h0.get r).affiliation, if (h0.get r).email ≠ [] then _ else []] = _
  by_cases h : (h0.get r).email = []
  · simp [h]
  · simp only [h, if_false, ne_eq, not_false_eq_true, if_true]; rfl

theorem authorData_nil (nd : NodeRec) : Render.authorData nd = [] ↔
    ¬ (nd.name ≠ [] ∨ nd.affiliation ≠ [] ∨ nd.email ≠ []) := by
  unfold Render.authorData
  simp only [not_or, ne_eq, not_not]
  rw [List.filter_eq_nil_iff]
  by_cases h : nd.email = []
  · simp [h]
  · simp [h, Render.tag]

theorem flatMap_paragraphs (l : List Str) :
    (l.map fun x => paragraphTag x).flatMap Item.makeText = l.flatMap fun d => Render.line (Render.element "p" [] d) := by
  rw [List.flatMap_map]
  congr 1
  funext d
  rw [paragraphTag_text]

theorem filterMap_paragraphs (l : List Str) : (l.map fun x => paragraphTag x).filterMap Item.deferred = [] := by
  rw [List.filterMap_eq_nil_iff]
  intro i hi
  obtain ⟨x, _, rfl⟩ := List.mem_map.mp hi
  rfl

theorem visit_author {r b s s' c} (hk : k.handrails = false) (hn : s.heap.get r = record h0 r b)
    (hc : (h0.get r).cls = .Author) (hv : visit k r s = .ok c s') : Seen k h0 num ref r c s s' := by
  have hc' : (s.heap.get r).cls = (h0.get r).cls := by rw [hn]; rfl
  rw [visit_eq (by rw [hc', hc]; rfl)] at hv
  read_off hv hn hk
  cases hv
  unfold authorCmd
  have hd := authorData_nil (h0.get r)
  refine ⟨?_, ?_, Retyped.same rfl (by rw [hc]; decide)⟩
  · split
    · rename_i hh
      have hne : Render.authorData (h0.get r) ≠ [] := fun e => hd.mp e hh
      texts hc
      rw [authorData_eq, flatMap_paragraphs, if_neg hne]
      rfl
    · rename_i hh
      have hne : Render.authorData (h0.get r) = [] := hd.mpr hh
      texts hc
      rw [if_pos hne]; simp
  · split
    · closers hc
      rw [authorData_eq, filterMap_paragraphs]
      rfl
    · closers hc

theorem firstOfType_math (h : Heap) (r : Ref) : (h.firstOfType r [.MathBlock]).isSome =
    (h.children r).any fun c => (h.get c).cls = .MathBlock := by
  have := hasMath_eq h r
  unfold hasMath at this
  rw [this]
  rfl

theorem visit_para {r b s s' c} (hk : k.handrails = false) (hl : SameFrame h0 s.heap)
    (hn : s.heap.get r = record h0 r b) (hc : (h0.get r).cls = .Paragraph) (hv : visit k r s = .ok c s') :
    Seen k h0 num ref r c s s' := by
  have hc' : (s.heap.get r).cls = (h0.get r).cls := by rw [hn]; rfl
  rw [visit_eq (by rw [hc', hc]; rfl)] at hv
  read_off hv hn hk
  cases hv
  have hm : (s.heap.firstOfType r [.MathBlock]).isSome = (h0.children r).any fun c => (h0.get c).cls = .MathBlock := by
    rw [firstOfType_math, hl.children]
    simp only [hl.cls]
  unfold paragraphItems
  rw [hm, hn]
  refine ⟨?_, ?_, Retyped.same rfl (by rw [hc]; decide)⟩
  · texts hc
    have e : (record h0 r b).title = (h0.get r).title := rfl
    rw [e]
    have e2 : '\n' :: Render.tag "p".toList [] [] = "\n<p>".toList := by decide
    by_cases ht : (h0.get r).title = [] <;> split
    all_goals
      simp only [ht, ne_eq, not_true_eq_false, if_false, args_text, manual_text,
        element_text, before_nl, e2, line_nl, List.flatMap_cons, List.flatMap_nil, List.append_nil, List.append_assoc,
        List.nil_append]
  · closers hc
    have e : (record h0 r b).title = (h0.get r).title := rfl
    rw [e]
    by_cases ht : (h0.get r).title = [] <;>
      by_cases hh : (h0.children r).any (fun c => (h0.get c).cls = .MathBlock) = true <;>
      simp [ht, hh, manual_deferred, args_deferred, element_deferred, after_nl, Render.endTag]

theorem visit_sourcecode {r b s s' c} (_ : k.handrails = false) (hn : s.heap.get r = record h0 r b)
    (hc : (h0.get r).cls = .SourceCode) (hv : visit k r s = .ok c s') : Seen k h0 num ref r c s s' := by
  have hc' : (s.heap.get r).cls = (h0.get r).cls := by rw [hn]; rfl
  rw [visit_eq (by rw [hc', hc]; rfl)] at hv
  read_off hv hn bind_apply
  cases hv
  unfold sourceCodeCmd
  refine ⟨?_, ?_, Retyped.same rfl (by rw [hc]; decide)⟩
  · texts hc
    have e : (record h0 r b).lang = (h0.get r).lang := rfl
    rw [e]
    by_cases hl : (h0.get r).lang = []
    · simp only [hl, ne_eq, not_true_eq_false, if_false, if_true]; rfl
    · simp only [hl, ne_eq, not_false_eq_true, if_false, if_true]; rfl
  · closers hc

theorem span_items (nd : NodeRec) :
    ((([("strong", nd.strong), ("em", nd.emphas), ("small", nd.little), ("ins", nd.insert),
       ("del", nd.delete)] : List (String × Bool)).filter (·.2)).map fun p =>
      Item.openTag { tag := p.1, newlineInner := false, newlineOuter := false }) =
    (Render.styles nd).map fun t => Item.openTag { tag := t, newlineInner := false, newlineOuter := false } := by
  unfold Render.styles
  cases nd.strong <;> cases nd.emphas <;> cases nd.little <;> cases nd.insert <;> cases nd.delete <;> rfl

theorem visit_span {r b s s' c} (_ : k.handrails = false) (hn : s.heap.get r = record h0 r b)
    (hc : (h0.get r).cls = .Span ∨ (h0.get r).cls = .Keyword) (hv : visit k r s = .ok c s') :
    Seen k h0 num ref r c s s' := by
  have hc' : (s.heap.get r).cls = (h0.get r).cls := by rw [hn]; rfl
  have hst : Render.styles (record h0 r b) = Render.styles (h0.get r) := rfl
  have key : ∀ l : List Str, (l.map fun t => Item.openTag { tag := t, newlineInner := false, newlineOuter := false }).flatMap
      Item.makeText = l.flatMap fun s => Render.tag s [] [] := by
    intro l
    rw [List.flatMap_map]
    congr 1
    funext t
    rw [args_text, flat_nl]
  have key2 : ∀ l : List Str, (l.map fun t => Item.openTag { tag := t, newlineInner := false, newlineOuter := false }).filterMap
      Item.deferred = l.map Render.endTag := by
    intro l
    rw [List.filterMap_map]
    induction l with
    | nil => rfl
    | cons t l ih =>
      rw [List.filterMap_cons, Function.comp, args_deferred, flat_nl]
      simp only [List.map_cons]
      rw [ih]
  rcases hc with hc | hc
  all_goals
    rw [visit_eq (by rw [hc', hc]; rfl)] at hv
    read_off hv hn bind_apply
    cases hv
    unfold spanCmd
    rw [span_items, hst]
    refine ⟨?_, ?_, Retyped.same rfl (by rw [hc]; decide)⟩
    · texts hc
      rw [key]
    · closers hc
      rw [key2, List.map_reverse]

end Tr
end RSM
