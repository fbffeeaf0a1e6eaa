import Verif.Lemmas.BalHr

/-! # Lemmas: what visiting a node writes and defers is well nested (the visit methods) -/

namespace RSM
namespace Tr
open PyM Html

variable {h0 : Heap}

theorem inert_minimap {follow : Str} (hf : follow = "scroll".toList ∨ follow = "mouse".toList) (n : Nat)
    {mid : Str} (hm : Inert mid) : Inert (minimapStart follow n ++ mid ++ "</g>\n</svg>".toList) := by
  have hn := noAngle_digits n
  have hn' := noAngle_digits (n - 48)
  have h1 := nets_lit (tag := "svg".toList)
    (pre := "xmlns=\"http://www.w3.org/2000/svg\" viewBox=\"0 0 32 ".toList) (x := natStr n)
    (post := "\" fill=\"#3C4952\" preserveAspectRatio=\"xMinYMid meet\" stroke-width=\"0\"".toList)
    (by decide) (by decide +kernel) hn (by decide +kernel)
    (m := "\" fill=\"#3C4952\" preserveAspectRatio=\"xMinYMid meet\" stroke-width=\"0".toList) (c := '"')
    (by decide +kernel) (by decide)
  have h2 : ∀ f : Str, f = "scroll".toList ∨ f = "mouse".toList →
    Nets ("\n          <defs>\n\n            <linearGradient id=\"purple-green-".toList ++ f
  ++ "\" x1=\"0%\" x2=\"0%\" y1=\"0%\" y2=\"100%\" gradientUnits=\"userSpaceOnUse\">\n              <stop offset=\"0%\" stop-color=\"#AD71F2\" />\n              <stop id=\"stop-follow-".toList ++ f
  ++ "-1\" offset=\"100%\" stop-color=\"#1FB5A2\" />\n              <stop id=\"stop-follow-".toList ++ f
  ++ "-2\" offset=\"100%\" stop-color=\"#DAE1E5\" />\n              <stop offset=\"100%\" stop-color=\"#DAE1E5\" />\n            </linearGradient>\n\n            <mask id=\"gradient-mask\">\n              <rect width=\"100%\" height=\"100%\" fill=\"url(#purple-green-".toList ++ f
  ++ ")\" />\n            </mask>\n\n          </defs>\n\n          <g fill=\"url(#purple-green-".toList ++ f
  ++ ")\">\n            ".toList) ["svg".toList] ["g".toList, "svg".toList] := by
    rintro f (rfl | rfl) <;> exact nets_decide (by decide +kernel)
  have h3 : Inert ('<' :: ("rect x=\"14\" y=\"24\" width=\"4\" height=\"".toList ++ natStr (n - 48)
      ++ "\" /".toList) ++ ['>']) := by
    refine inert_self (m := "rect x=\"14\" y=\"24\" width=\"4\" height=\"".toList ++ natStr (n - 48)
      ++ "\" ".toList) ?_ (by simp) (by simp)
    simp only [noAngle_append]
    exact ⟨⟨by decide, hn'⟩, by decide⟩
  have h4 : Nets "</g>\n</svg>".toList ["g".toList, "svg".toList] [] := nets_decide (by decide +kernel)
  have h0 : Inert "\n        ".toList := NoAngle.inert (by decide)
  have h5 : Inert "\n    ".toList := NoAngle.inert (by decide)
  have := ((((Nets.append h0 h1).append (h2 follow hf)).append (h3.any _)).append (h5.any _)).append (hm.any _)
  have := this.append h4
  have e : minimapStart follow n = "\n        ".toList ++ ('<' :: ("svg".toList ++ (' ' ::
      "xmlns=\"http://www.w3.org/2000/svg\" viewBox=\"0 0 32 ".toList ++ natStr n ++
      "\" fill=\"#3C4952\" preserveAspectRatio=\"xMinYMid meet\" stroke-width=\"0\"".toList)) ++ ['>'])
     ++ ("\n          <defs>\n\n            <linearGradient id=\"purple-green-".toList ++ follow
  ++ "\" x1=\"0%\" x2=\"0%\" y1=\"0%\" y2=\"100%\" gradientUnits=\"userSpaceOnUse\">\n              <stop offset=\"0%\" stop-color=\"#AD71F2\" />\n              <stop id=\"stop-follow-".toList ++ follow
  ++ "-1\" offset=\"100%\" stop-color=\"#1FB5A2\" />\n              <stop id=\"stop-follow-".toList ++ follow
  ++ "-2\" offset=\"100%\" stop-color=\"#DAE1E5\" />\n              <stop offset=\"100%\" stop-color=\"#DAE1E5\" />\n            </linearGradient>\n\n            <mask id=\"gradient-mask\">\n              <rect width=\"100%\" height=\"100%\" fill=\"url(#purple-green-".toList ++ follow
  ++ ")\" />\n            </mask>\n\n          </defs>\n\n          <g fill=\"url(#purple-green-".toList ++ follow
  ++ ")\">\n            ".toList) ++ ('<' :: ("rect x=\"14\" y=\"24\" width=\"4\" height=\"".toList ++ natStr (n - 48)
      ++ "\" /".toList) ++ ['>']) ++ "\n    ".toList := by
    have a1 : "\n        <svg xmlns=\"http://www.w3.org/2000/svg\" viewBox=\"0 0 32 ".toList =
      "\n        ".toList ++ '<' :: ("svg".toList ++ ' ' ::
        "xmlns=\"http://www.w3.org/2000/svg\" viewBox=\"0 0 32 ".toList) := by decide +kernel
    have a2 : "\" fill=\"#3C4952\" preserveAspectRatio=\"xMinYMid meet\" stroke-width=\"0\">\n          <defs>\n\n            <linearGradient id=\"purple-green-".toList
      = "\" fill=\"#3C4952\" preserveAspectRatio=\"xMinYMid meet\" stroke-width=\"0\"".toList ++ '>' ::
        "\n          <defs>\n\n            <linearGradient id=\"purple-green-".toList := by decide +kernel
    have a3 : ")\">\n            <rect x=\"14\" y=\"24\" width=\"4\" height=\"".toList
      = ")\">\n            ".toList ++ '<' :: "rect x=\"14\" y=\"24\" width=\"4\" height=\"".toList := by
      decide +kernel
    have a4 : "\" />\n    ".toList = "\" /".toList ++ '>' :: "\n    ".toList := by decide +kernel
    unfold minimapStart
    rw [a1, a2, a3, a4]
    simp only [List.append_assoc, List.cons_append, List.nil_append]
  rw [e]
  exact this

theorem minimap_good (k toc) {follow : Str} (hf : follow = "scroll".toList ∨ follow = "mouse".toList)
    (w : Bool) : Gives (Good h0) Block (minimap k toc follow w) := by
  unfold minimap
  refine Gives.bind Gives.get fun t ht => ?_
  split
  · exact Gives.throw _
  · refine Gives.bind (Gives.lift _) fun circles hc => Gives.pure ?_
    have hmid := Chain.join (sep := "\n    ".toList) (NoAngle.inert (by decide))
      (minimapCircles_inert ht.2 w 0 _ hc)
    exact Block.manual (a := { classes := ["minimap".toList] }) (l := [.text _])
      ⟨(by decide : GoodTag "div".toList), NoAngle.nil, by decide, Nets.nil _⟩
      (Block.still (still_text (inert_minimap hf _ hmid))) (closing_nets (by decide))

theorem still_source {h : Heap} (hc : CleanHeap h) (tree) : Still (sourceDiv h tree) := by
  refine still_text ?_
  have h1 : Nets "<div class=\"rsm-source hide\">".toList [] ["div".toList] := nets_decide (by decide +kernel)
  exact (h1.append ((hc tree).src.inert.any _)).append (nets_closeTag (tag := "div".toList) (by decide))

theorem block_minimapWrapper {m : List Item} (hm : Block m) :
    Block (.text "<div class=\"float-minimap-wrapper\">".toList :: m ++ [.text "</div>".toList]) :=
  Block.between (p := ["div".toList]) (nets_decide (by decide +kernel)) hm
    (nets_closeTag (tag := "div".toList) (by decide))

theorem hrVisitManuscript_good (k r) : Gives (Good h0) FairC (hrVisitManuscript k r) := by
  unfold hrVisitManuscript
  refine Gives.bind Gives.get fun t ht => ?_
  have hn := ht.2 r
  have f1 : Fair [.openTag { tag := "body".toList }] [] [] := fair_lit (by decide) rfl (by decide) rfl
  have f2 : Fair [.openTag { classes := ["manuscriptwrapper".toList] }] [] [] :=
    fair_lit (by decide) rfl (by decide) rfl
  have f3 : Fair [.openTag (nodeTag (t.heap.get r))] [] [] := fair_nodeTag hn (by decide) (by decide) ..
  have f4 : Fair [.openTag { tag := "section".toList, classes := ["level-1".toList] }] [] [] :=
    fair_lit (by decide) rfl (by decide) rfl
  -- the items before the source and the minimap, and those after
  obtain ⟨tail, htail, hfair⟩ : ∃ tail : List Item,
      (if (t.heap.get r).title ≠ [] then wrapItem 4 (manuscriptItems (t.heap.get r)) ["heading"] "Title" .on
        else manuscriptItems (t.heap.get r)) =
      [.openTag { tag := "body" }, .openTag { classes := ["manuscriptwrapper"] },
       .openTag (nodeTag (t.heap.get r)), .openTag { tag := "section", classes := ["level-1"] }] ++ tail ∧
      Fair tail [] [] := by
    by_cases ht : (t.heap.get r).title = []
    · exact ⟨[], by simp [ht, manuscriptItems], Fair.nil⟩
    · refine ⟨_, ?_, (block_wrap (still_heading 1 hn.title) (classes := ["heading".toList]) (by decide)
        (label := "Title".toList) (by decide) .on true still_infoNone).fair⟩
      simp only [ht, ne_eq, not_false_eq_true, if_true, manuscriptItems, wrapItem]
      rfl
  dsimp only
  rw [htail]
  have hsrc := still_source ht.2 t.tree
  split
  · refine Gives.pure ?_
    split
    · exact fair_cons2 f1 (fair_cons2 f2 (fair_cons2 (fair_still hsrc) (fair_cons2 f3 (fair_cons2 f4 hfair))))
    · exact fair_cons2 f1 (fair_cons2 f2 (fair_cons2 f3 (fair_cons2 f4 hfair)))
  · refine Gives.bind (minimap_good k _ (.inl rfl) true) fun m hm => Gives.pure ?_
    have hw := (block_minimapWrapper hm).fair
    split
    · have := fair_cons2 f1 (fair_cons2 f2 (fair_cons2 (fair_still hsrc) (hw.append (fair_cons2 f3 (fair_cons2 f4 hfair)))))
      simpa [FairC, Cmd.allItems, insertAt] using this
    · have := fair_cons2 f1 (fair_cons2 f2 (fair_cons2 f3 (hw.append (fair_cons2 f4 hfair))))
      simpa [FairC, Cmd.allItems, insertAt] using this

theorem hrVisitAuthor_good (k r) : Gives (Good h0) FairC (hrVisitAuthor k r) := by
  unfold hrVisitAuthor
  refine Gives.bind (node_good r) fun nd hn => Gives.bind (handrailItems_good k r (by decide) _ _)
    fun items hi => ?_
  unfold authorCmd
  split
  · refine Gives.bind (P := fun l => ∀ i ∈ (l.drop 2).dropLast, Still i) ?_ fun l hl =>
      Gives.pure (hi.append (fair_stills hl))
    refine Gives.pure ?_
    have := authorParagraphs_still hn
    simpa using this
  · exact Gives.bind (P := fun _ => False) (Gives.throw _) fun _ h => h.elim

theorem hrVisitContents_good (k r) : Gives (Good h0) FairC (hrVisitContents k r) := by
  unfold hrVisitContents
  refine Gives.bind (node_good r) fun nd hn => Gives.bind (wrapHeading_good k r (contentsItems_good hn))
    fun items hi => Gives.bind (minimap_good k r (.inr rfl) false) fun m hm => Gives.pure ?_
  obtain ⟨a, b, ha, hb, rfl⟩ := hi
  have e : Item.openTag a :: b ++ (contentsItems nd).drop 2 = (.openTag a :: b
    ++ [.openTag { classes := ["toc-wrapper"] }]) ++ [.openTag (nodeTag nd "ul")] := by
    simp [contentsItems]
  rw [e, List.dropLast_concat, List.getLast?_concat]
  have := (fair_cons2 (fair_openTag ha) hb.fair).append ((fair_lit (a := { classes := ["toc-wrapper".toList] })
    (by decide) rfl (by decide) rfl).append (hm.fair.append
      (fair_nodeTag (tag := "ul".toList) hn (by decide) (add := []) (by simp) true true false)))
  simpa [FairC, Cmd.allItems] using this

theorem hrVisitBibliography_good (k r) : Gives (Good h0) FairC (hrVisitBibliography k r) := by
  unfold hrVisitBibliography
  refine Gives.bind (node_good r) fun nd hn => ?_
  have hd : Headed ((bibliographyItems nd).take 2 ++ [.openTag (nodeTag nd)]) :=
    ⟨_, _, _, rfl, ⟨(by decide : GoodTag "section".toList), NoAngle.nil, by decide, Nets.nil _⟩,
      still_heading _ (by decide), fair_nodeTag hn (by decide) (by decide) ..⟩
  refine Gives.bind (wrapHeading_good k r hd) fun items hi => Gives.pure ?_
  obtain ⟨a, b, ha, hb, rfl⟩ := hi
  exact fair_cons2 (fair_openTag ha) (hb.fair.append (fair_nodeTag hn (by decide) (by decide) ..))

theorem hrLabeled_good (k r) {l : List Item} (h : ∃ a rest, l = .openTag a :: rest ∧ TagOk a ∧
    ∀ i ∈ rest, Still i) (b : Bool) : Gives (Good h0) FairC (hrLabeled k r l b) := by
  unfold hrLabeled
  obtain ⟨a, rest, rfl, _, hr⟩ := h
  exact Gives.bind (handrailItems_good k r (by decide) _ _) fun hs hh =>
    Gives.pure (hh.append (fair_stills hr))

theorem hrVisitSubproof_good (r) : Gives (Good h0) FairC (hrVisitSubproof r) := by
  unfold hrVisitSubproof
  refine Gives.bind (node_good r) fun nd hn => Gives.pure ?_
  have ht := tagOk_hrFromNode hn (add := ["hr-shift-1".toList]) (by decide) false
  refine fair_cons2 (fair_openTag ⟨ht.tag, ht.id, fun x hx => ht.classes x (List.mem_of_mem_erase hx),
    ht.content⟩) ?_
  exact Fair.append (a := [_, _, _, _]) (Block.fair (Block.cons (still_collapse _)
    (Block.cons still_menuEmpty (Block.cons still_borderEmpty (Block.still still_spacer)))))
    (fair_lit (by decide) rfl (by decide) rfl)

theorem hrVisitStep_good (k r) : Gives (Good h0) FairC (hrVisitStep k r) := by
  unfold hrVisitStep
  refine Gives.bind Gives.get fun t ht => Gives.bind (reftext_good k r) fun label hl => ?_
  have : ∀ c a : Opt, FairC (.batchDefer
    [.openTag (hrFromNode (t.heap.get r)), hrCollapseZone false,
     hrMenuZone label c a (linkOpt (t.heap.get r)), hrBorderZone, hrSpacerZone,
     hrContentZone true]) := fun c a =>
    fair_cons2 (fair_openTag (tagOk_hrFromNode (ht.2 r) (by simp) _))
      (Fair.append (a := [_, _, _, _]) (Block.fair (Block.cons (still_collapse _)
        (Block.cons (still_menu hl ..) (Block.cons still_border (Block.still still_spacer)))))
      (fair_lit (by decide) rfl (by decide) rfl))
  dsimp only
  repeat' split
  all_goals exact Gives.pure (this _ _)

/-! ## Display formulas -/

theorem nets_closeP : Nets "</p>".toList ["p".toList] [] := nets_closeTag (tag := "p".toList) (by decide)
theorem nets_openP : Nets "<p>".toList [] ["p".toList] := nets_decide (by decide +kernel)

theorem fair_closeP {l : List Item} (h : Fair l [] []) : Fair (.text "</p>".toList :: l) ["p".toList] [] :=
  Fair.append (a := [.text "</p>".toList]) (Fair.done (DoneL.cons rfl (by simp [DoneL]))
    (by simpa [Item.makeText] using nets_closeP)) h

theorem fair_dollars : Fair [.defer "$$\n".toList "\n$$".toList] [] [] :=
  fair_defer (NoAngle.inert (by decide)) (NoAngle.inert (by decide))

theorem visitMathBlock_good (r) :
    Gives (Good h0) (fun c => Fair c.allItems ["p".toList] []) (visitMathBlock r) := by
  unfold visitMathBlock
  refine Gives.bind Gives.get fun t ht => ?_
  dsimp only
  split
  · split
    · exact Gives.pure (fair_closeP (fair_cons2 (fair_nodeTag (ht.2 r) (by decide) (by decide) ..)
        fair_dollars))
    · exact Gives.throw _
  · exact Gives.throw _

theorem hrVisitMathBlock_good (k r) :
    Gives (Good h0) (fun c => Fair c.allItems ["p".toList] []) (hrVisitMathBlock k r) := by
  unfold hrVisitMathBlock
  refine Gives.bind (node_good r) fun nd hn => Gives.bind (P := NoAngle) ?_ fun label hl =>
    Gives.pure (fair_closeP (Fair.append (fair_replace ?_ hl _ _ _) fair_dollars))
  · unfold mathBlockLabel
    refine Gives.bind (node_good r) fun nd hn => ?_
    split
    · exact Gives.pure (by decide)
    · exact Gives.bind (reftext_good k r) fun s hs =>
        Gives.pure (noAngle_strip (noAngle_append.mpr ⟨by decide, hs⟩))
  · have ht := tagOk_hrFromNode hn (add := []) (by simp) true
    refine ⟨ht.tag, ht.id, fun x hx => ?_, ht.content⟩
    simp only [List.mem_append, List.mem_cons, List.not_mem_nil, or_false] at hx
    rcases hx with hx | rfl | rfl
    · exact ht.classes x hx
    · decide
    · decide

/-! ## Paragraphs -/

/-- What the items write opens `p` and some elements around; what they defer closes those. -/
def OpenP (l : List Item) : Prop :=
  ∃ E, Nets (l.flatMap Item.makeText) [] ("p".toList :: E) ∧ Chain (closersOf l) E []

theorem fair_split {a : List Item} (ha : Fair a [] []) : ∃ E, Nets (a.flatMap Item.makeText) [] E ∧
    Chain (closersOf a) E [] := ha

theorem openP_of {a b : List Item} (ha : Fair a [] []) (hb : ∀ i ∈ b, Still i) :
    OpenP (a ++ .openManual { tag := "p".toList, newlineInner := false } :: b) := by
  obtain ⟨E, h1, h2⟩ := ha
  refine ⟨E, ?_, ?_⟩
  · rw [List.flatMap_append, List.flatMap_cons]
    have hp : Nets (Item.makeText (.openManual { tag := "p".toList, newlineInner := false })) []
        ["p".toList] := nets_openManual ⟨(by decide : GoodTag "p".toList), NoAngle.nil, by simp, Nets.nil _⟩
    exact h1.append (Nets.append (by simpa using hp.frame E) ((StillL.inert hb).any _))
  · unfold closersOf at *
    rw [List.filterMap_append, List.filterMap_cons]
    simp only [Item.deferred]
    rw [List.filterMap_eq_nil_iff.mpr (StillL.done hb), List.append_nil]
    exact h2

/-- What a paragraph writes and defers: with display formulas, `p` is left to them. -/
def ParOk (mb : Bool) (c : Cmd) : Prop := if mb then OpenP c.allItems else FairC c

theorem parOk_of {a b : List Item} (ha : Fair a [] []) (hb : ∀ i ∈ b, Still i) (mb : Bool) :
    ParOk mb (.batchDefer (a ++ (if mb then Item.openManual { tag := "p".toList, newlineInner := false }
      else Item.openTag { tag := "p".toList, newlineInner := false }) :: b)) := by
  cases mb
  · exact ha.append (fair_cons2 (fair_lit (by decide) rfl (by decide) rfl) (fair_stills hb))
  · exact openP_of ha hb

/-- The title of a paragraph. -/
def parTitle (nd : NodeRec) : List Item :=
  if nd.title ≠ [] then
    [.openClose { tag := "span", content := nd.title ++ ".".toList, classes := ["pg-label"] }]
  else []

theorem parTitle_still {nd : NodeRec} (hn : Clean nd) : ∀ i ∈ parTitle nd, Still i := by
  unfold parTitle
  intro i hi
  split at hi
  · simp only [List.mem_singleton] at hi
    subst hi
    exact still_openClose ⟨(by decide : GoodTag "span".toList), NoAngle.nil, by lit,
      NoAngle.inert (noAngle_append.mpr ⟨hn.title, by decide⟩)⟩
  · simp at hi

theorem paragraphItems_eq (h : Heap) (r : Ref) : paragraphItems h r = [.openTag (nodeTag (h.get r))] ++
    (if (h.firstOfType r [.MathBlock]).isSome then Item.openManual { tag := "p".toList, newlineInner := false }
      else Item.openTag { tag := "p".toList, newlineInner := false }) :: parTitle (h.get r) := rfl

theorem firstOfType_frame {a b : Heap} (h : SameFrame a b) (r cs) :
    b.firstOfType r cs = a.firstOfType r cs := by
  unfold Heap.firstOfType
  rw [h.children]
  simp only [Heap.isInstAny, h.cls]

/-- The paragraph has a display formula among its children. -/
def hasMath (h : Heap) (r : Ref) : Bool := (h.firstOfType r [.MathBlock]).isSome

theorem visitParagraph_good (r) : Gives (Good h0) (ParOk (hasMath h0 r))
    (do let t ← get; pure (.batchDefer (paragraphItems t.heap r))) := by
  refine Gives.bind Gives.get fun t ht => Gives.pure ?_
  rw [paragraphItems_eq, firstOfType_frame ht.1]
  exact parOk_of (fair_nodeTag (ht.2 r) (by decide) (by decide) ..) (parTitle_still (ht.2 r)) _

theorem hrVisitParagraph_good (k r) : Gives (Good h0) (ParOk (hasMath h0 r)) (hrVisitParagraph k r) := by
  unfold hrVisitParagraph
  refine Gives.bind Gives.get fun t ht => Gives.bind (reftext_good k r) fun label hl => Gives.pure ?_
  rw [paragraphItems_eq, firstOfType_frame ht.1]
  have htag : TagOk (if "hr-hidden".toList ∈ (hrFromNode (t.heap.get r)).classes then
      hrFromNode (t.heap.get r) else { hrFromNode (t.heap.get r) with
        classes := (hrFromNode (t.heap.get r)).classes ++ ["hr-hidden".toList] }) := by
    have ht := tagOk_hrFromNode (ht.2 r) (add := []) (by simp) true
    split
    · exact ht
    · refine ⟨ht.tag, ht.id, fun x hx => ?_, ht.content⟩
      simp only [List.mem_append, List.mem_singleton] at hx
      rcases hx with hx | rfl
      · exact ht.classes x hx
      · decide
  exact parOk_of (fair_replace htag hl _ _ _) (parTitle_still (ht.2 r)) _

end Tr
end RSM
