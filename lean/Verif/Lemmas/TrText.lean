import Verif.Lemmas.TrSim
import Verif.Lemmas.ReprBase

/-! # Lemmas: two runs on documents that differ in their texts -/

namespace RSM
namespace Tr
open PyM

/-- The two heaps differ in the texts of the nodes of class `Text` only, which are `T1` and `T2`;
`h0` has the same shape. -/
structure TextRel (h0 : Heap) (T1 T2 : Ref → Str) (h h' : Heap) : Prop where
  shape : SameFrame h0 h
  next : h'.next = h.next
  other : ∀ x, (h.get x).cls ≠ .Text → h'.get x = h.get x
  text : ∀ x, (h.get x).cls = .Text →
    (h.get x).text = T1 x ∧ h'.get x = { h.get x with text := T2 x }

variable {h0 : Heap} {T1 T2 : Ref → Str}

theorem TextRel.get {h h'} (ht : TextRel h0 T1 T2 h h') (x) :
    ∃ y, h'.get x = { h.get x with text := y } := by
  by_cases hx : (h.get x).cls = .Text
  · exact ⟨_, (ht.text x hx).2⟩
  · exact ⟨(h.get x).text, ht.other x hx⟩

theorem TextRel.sameFrame {h h'} (ht : TextRel h0 T1 T2 h h') : SameFrame h h' :=
  ⟨ht.next, fun x => by obtain ⟨y, e⟩ := ht.get x; rw [e]; rfl⟩

theorem textShape : Shape (TextRel h0 T1 T2) := fun _ _ h => h.sameFrame

theorem TextRel.update {h h'} (ht : TextRel h0 T1 T2 h h') (r : Ref) (f : NodeRec → NodeRec)
    (hf : ∀ nd, frame (f nd) = frame nd) (hf' : ∀ nd y, f { nd with text := y } = { f nd with text := y })
    (hf'' : ∀ nd, (f nd).text = nd.text) :
    TextRel h0 T1 T2 (h.update r f) (h'.update r f) := by
  have hc : ∀ nd, (f nd).cls = nd.cls := fun nd => frame_cls (hf nd)
  refine ⟨ht.shape.trans (SameFrame.update _ _ _ hf), ht.next, fun x hx => ?_, fun x hx => ?_⟩
  · simp only [Heap.get_update] at hx ⊢
    split
    · rw [ht.other x]; · rename_i e; rw [if_pos e, hc] at hx; exact hx
    · rw [ht.other x]; · rename_i e; rw [if_neg e] at hx; exact hx
  · simp only [Heap.get_update] at hx ⊢
    split
    · rename_i e; rw [if_pos e, hc] at hx
      refine ⟨(hf'' _).trans (ht.text x hx).1, ?_⟩
      rw [(ht.text x hx).2, hf']
    · rename_i e; rw [if_neg e] at hx
      exact ht.text x hx

/-- Assigning another text to a node that is not a text. -/
theorem TextRel.updateText {h h'} (ht : TextRel h0 T1 T2 h h') (r : Ref) (y : Str)
    (hr : (h.get r).cls ≠ .Text) :
    TextRel h0 T1 T2 (h.update r fun nd => { nd with text := y })
      (h'.update r fun nd => { nd with text := y }) := by
  refine ⟨ht.shape.trans (SameFrame.update _ _ _ fun _ => rfl), ht.next, fun x hx => ?_, fun x hx => ?_⟩
  · simp only [Heap.get_update] at hx ⊢
    split
    · rename_i e; subst e; rw [ht.other x hr]
    · rw [ht.other x]; · rename_i e; rw [if_neg e] at hx; exact hx
  · simp only [Heap.get_update] at hx ⊢
    split
    · rename_i e; subst e; rw [if_pos rfl] at hx; exact absurd hx hr
    · rename_i e; rw [if_neg e] at hx
      exact ht.text x hx

theorem Sim.nodeText {γ δ : Type} {Q : γ → δ → Prop} {r : Ref} {f : NodeRec → TrM γ}
    {f' : NodeRec → TrM δ}
    (hf : ∀ nd y, Sim (TextRel h0 T1 T2) Q (f nd) (f' { nd with text := y })) :
    Sim (TextRel h0 T1 T2) Q (Tr.node r >>= f) (Tr.node r >>= f') := by
  refine Sim.bind (Sim.node r) ?_
  rintro nd nd' ⟨h, h', hh, rfl, rfl⟩
  obtain ⟨y, e⟩ := hh.get r
  rw [e]; exact hf _ _

/-- Goes through two programs in parallel. -/
macro "sims" : tactic => `(tactic| repeat' first
  | assumption
  | exact Sim.throw _ | exact Sim.warn _ | exact Sim.warns _ | exact Sim.itemsOf _
  | exact Sim.leaveNode
  | exact Sim.pure rfl
  | exact fullNumber_sim textShape _ _ | exact reftext_sim textShape _ _
  | exact minimap_sim textShape _ _ _ _
  | (with_reducible refine Sim.nodeText fun _ _ => ?_)
  | (with_reducible refine Sim.next ?_ fun _ => ?_)
  | (refine Sim.assign fun _ _ h => TextRel.update h _ _ (fun _ => rfl) (fun _ _ => rfl) fun _ => rfl)
  | (refine Sim.ite ?_ ?_))

local notation "S" => Sim (TextRel h0 T1 T2) Eq

theorem sectionHeading_text (k r) : S (sectionHeading k r) (sectionHeading k r) := by
  unfold sectionHeading; sims

theorem sectionItems_text (k r) : S (sectionItems k r) (sectionItems k r) := by
  have := sectionHeading_text (h0 := h0) (T1 := T1) (T2 := T2) k r
  unfold sectionItems
  refine Sim.nodeText fun nd y => ?_
  dsimp only
  cases nd.cls.level with
  | none => exact Sim.throw _
  | some l => sims

theorem wrapHeading_text (k r l) : S (wrapHeading k r l) (wrapHeading k r l) := by
  unfold wrapHeading; sims

theorem wrapIf_text (k r l) : S (wrapIf k r l) (wrapIf k r l) := by
  have := wrapHeading_text (h0 := h0) (T1 := T1) (T2 := T2) k r l
  unfold wrapIf; sims

theorem handrailItems_text (k r a c d) : S (handrailItems k r a c d) (handrailItems k r a c d) := by
  unfold handrailItems; sims

theorem hrLabeled_text (k r l c) : S (hrLabeled k r l c) (hrLabeled k r l c) := by
  have := handrailItems_text (h0 := h0) (T1 := T1) (T2 := T2) k r ["hr-labeled"] true c
  unfold hrLabeled; sims

theorem theoremItems_text (k r) : S (theoremItems k r) (theoremItems k r) := by
  unfold theoremItems theoremNumber; sims

theorem proofItems_text (r) : S (proofItems r) (proofItems r) := by
  unfold proofItems markLast
  refine Sim.next ?_ fun _ => ?_
  · refine Sim.bind Sim.get fun t t' ht => ?_
    rw [(textShape _ _ ht.heap).lastOfType]
    cases t.heap.lastOfType r [.Step] with
    | none => exact Sim.pure rfl
    | some x => sims
  · sims

theorem bibitemText_text (r) : S (bibitemText r) (bibitemText r) := by
  unfold bibitemText bibitemYear bibitemDoi
  refine Sim.nodeText fun nd y => ?_
  refine Sim.next (Sim.warns _) fun _ => Sim.next ?_ fun _ => ?_
  · refine Sim.ite ?_ ?_
    · dsimp only; cases nd.year <;> sims
    · sims
  · sims

theorem linkText_text (k r t) : S (linkText k r t) (linkText k r t) := by
  unfold linkText
  refine Sim.nodeText fun nd y => Sim.ite (Sim.pure rfl) ?_
  cases t
  · exact Sim.pure rfl
  · sims

theorem ahref_text (k r t h i a) : S (ahref k r t h i a) (ahref k r t h i a) := by
  have := linkText_text (h0 := h0) (T1 := T1) (T2 := T2) k r t
  unfold ahref addReferenceType
  refine Sim.next ?_ fun _ => ?_
  · unfold checkTarget; split <;> sims
  · sims

theorem citeTags_text (k r) : ∀ i l, S (citeTags k r i l) (citeTags k r i l)
  | _, [] => Sim.pure rfl
  | i, x :: xs => by
    have ih := citeTags_text k r (i + 1) xs
    unfold citeTags
    refine Sim.bind Sim.get fun t t' ht => ?_
    have hf := textShape _ _ ht.heap
    rw [hf.label, hf.label]
    refine Sim.next (ahref_text ..) fun _ => Sim.next ih fun _ => Sim.pure rfl

/-- A node that is not a text is the same in both heaps. -/
theorem Sim.nodeSame {γ δ : Type} {Q : γ → δ → Prop} {r : Ref} {f : NodeRec → TrM γ}
    {f' : NodeRec → TrM δ} (hr : (h0.get r).cls ≠ .Text)
    (hf : ∀ nd, Sim (TextRel h0 T1 T2) Q (f nd) (f' nd)) :
    Sim (TextRel h0 T1 T2) Q (Tr.node r >>= f) (Tr.node r >>= f') := by
  refine Sim.bind (Sim.node r) ?_
  rintro nd nd' ⟨h, h', hh, rfl, rfl⟩
  rw [hh.other r (by rw [hh.shape.cls]; exact hr)]
  exact hf _

variable (k : Conf) {r : Ref} (hr : (h0.get r).cls ≠ .Text)

include hr in
theorem paragraphItems_text {h h'} (hh : TextRel h0 T1 T2 h h') :
    paragraphItems h' r = paragraphItems h r := by
  unfold paragraphItems
  rw [hh.other r (by rw [hh.shape.cls]; exact hr), hh.sameFrame.firstOfType]

theorem hrVisitManuscript_text :
    S (hrVisitManuscript k r) (hrVisitManuscript k r) := by
  unfold hrVisitManuscript
  refine Sim.bind Sim.get fun t t' ht => ?_
  have hf := textShape _ _ ht.heap
  obtain ⟨y, e⟩ := ht.heap.get r
  rw [hf.firstOfType, e]
  simp only [sourceDiv, ht.tree, hf.field (·.src) (fun _ => rfl)]
  simp only [manuscriptItems, nodeTag]
  cases t.heap.firstOfType r [.Contents] with
  | none => exact Sim.pure rfl
  | some x => exact Sim.next (minimap_sim textShape ..) fun _ => Sim.pure rfl

include hr in
theorem hrVisitParagraph_text : S (hrVisitParagraph k r) (hrVisitParagraph k r) := by
  unfold hrVisitParagraph
  refine Sim.bind Sim.get fun t t' ht => ?_
  rw [paragraphItems_text hr ht.heap,
    ht.heap.other r (by rw [ht.heap.shape.cls]; exact hr)]
  exact Sim.next (reftext_sim textShape ..) fun _ => Sim.pure rfl

include hr in
theorem hrVisitStep_text : S (hrVisitStep k r) (hrVisitStep k r) := by
  unfold hrVisitStep
  refine Sim.bind Sim.get fun t t' ht => ?_
  have hf := textShape _ _ ht.heap
  rw [ht.heap.other r (by rw [ht.heap.shape.cls]; exact hr)]
  simp only [hf.firstOfType]
  exact Sim.next (reftext_sim textShape ..) fun _ => Sim.pure rfl

/-- `visit_math` of the handrails translator, once the text after the formula is known. -/
def mathCont (r x : Ref) (items : List Item) : Str → TrM Cmd
  | '.' :: rest => do
    assign r fun nd => { nd with followedByDot := true }
    assign x fun nd => { nd with text := rest }
    pure (.batchDefer (.openManual { tag := "span", classes := ["inline-math-wrapper"]
                                     newlineOuter := false } :: items))
  | _ => pure (.batchDefer items)

theorem mathCont_ne {r x items} {y : Str} (h : y.head? ≠ some '.') :
    mathCont r x items y = pure (.batchDefer items) := by
  unfold mathCont
  split
  · simp at h
  · rfl

theorem mathCont_text {r x : Ref} (hx : (h0.get x).cls ≠ .Text) (items y) :
    S (mathCont r x items y) (mathCont r x items y) := by
  unfold mathCont
  split
  · refine Sim.next (Sim.assign fun _ _ h => TextRel.update h _ _ (fun _ => rfl) (fun _ _ => rfl)
      fun _ => rfl) fun _ => Sim.next (Sim.assign fun a b h => ?_) fun _ => Sim.pure rfl
    exact TextRel.updateText h x _ (by rw [h.shape.cls]; exact hx)
  · exact Sim.pure rfl

theorem hrVisitMath_eq (r) : hrVisitMath r = (do
    let t ← get
    let sib ← lift (t.heap.nextSibling r .any)
    match sib with
    | none => pure (.batchDefer (mathItems (t.heap.get r)))
    | some x =>
      if t.heap.isInst x .Text then mathCont r x (mathItems (t.heap.get r)) (t.heap.get x).text
      else pure (.batchDefer (mathItems (t.heap.get r)))) := rfl

include hr in
theorem hrVisitMath_text (hdot : ∀ x, h0.nextSibling r .any = .ok (some x) →
    (T1 x).head? ≠ some '.' ∧ (T2 x).head? ≠ some '.') :
    S (hrVisitMath r) (hrVisitMath r) := by
  rw [hrVisitMath_eq]
  constructor
  intro s s' hs
  have hf := textShape _ _ hs.heap
  have hother := hs.heap.other r (by rw [hs.heap.shape.cls]; exact hr)
  have hsib : s.heap.nextSibling r .any = h0.nextSibling r .any := hs.heap.shape.nextSibling ..
  simp only [bind_apply, get_apply, hf.nextSibling, hother]
  cases e : s.heap.nextSibling r .any with
  | error x => exact .err _ _ _
  | ok o =>
    simp only [lift, pure_apply]
    cases o with
    | none => exact .ok hs rfl
    | some x =>
      dsimp only
      rw [hf.isInst]
      by_cases hi : s.heap.isInst x .Text = true
      · rw [if_pos hi, if_pos hi]
        by_cases hx : (s.heap.get x).cls = .Text
        · obtain ⟨h1, h2⟩ := hs.heap.text x hx
          rw [h2, h1]
          rw [hsib] at e
          dsimp only
          rw [mathCont_ne (hdot x e).1, mathCont_ne (hdot x e).2]
          exact .ok hs rfl
        · have h2 := hs.heap.other x hx
          rw [h2]
          refine (mathCont_text ?_ _ _).sim _ _ hs
          rw [← hs.heap.shape.cls]; exact hx
      · rw [if_neg hi, if_neg hi]; exact .ok hs rfl

include hr in
theorem hrVisitMathBlock_text : S (hrVisitMathBlock k r) (hrVisitMathBlock k r) := by
  unfold hrVisitMathBlock mathBlockLabel
  refine Sim.nodeSame hr fun nd => Sim.next ?_ fun _ => Sim.pure rfl
  sims

include hr in
theorem visitMathBlock_text : S (visitMathBlock r) (visitMathBlock r) := by
  unfold visitMathBlock
  refine Sim.bind Sim.get fun t t' ht => ?_
  have hf := textShape _ _ ht.heap
  rw [ht.heap.other r (by rw [ht.heap.shape.cls]; exact hr), hf.parent]
  simp only [hf.isInst]
  sims

theorem visitReference_text : S (visitReference k r) (visitReference k r) := by
  unfold visitReference
  refine Sim.bind Sim.get fun t t' ht => ?_
  have hf := textShape _ _ ht.heap
  rw [hf.target]
  simp only [hf.label]
  cases (t.heap.get r).target with
  | node x => exact Sim.next (ahref_text ..) fun _ => Sim.pure rfl
  | _ => exact Sim.throw _

theorem visitUrl_text (hu : ∀ x, (h0.get r).target = .node x → ∀ h h', TextRel h0 T1 T2 h h' →
    k.reprOf h' x = k.reprOf h x) : S (visitUrl k r) (visitUrl k r) := by
  unfold visitUrl
  refine Sim.bind Sim.get fun t t' ht => ?_
  have hf := textShape _ _ ht.heap
  have h0t := ht.heap.shape.target r
  rw [hf.target]
  cases e : (t.heap.get r).target with
  | none => exact Sim.throw _
  | str s => exact Sim.next (ahref_text ..) fun _ => Sim.pure rfl
  | node x =>
    dsimp only
    rw [hu x (by rw [← h0t, e]) _ _ ht.heap]
    exact Sim.next (ahref_text ..) fun _ => Sim.pure rfl

theorem visitCite_text : S (visitCite k r) (visitCite k r) := by
  unfold visitCite
  refine Sim.bind Sim.get fun t t' ht => ?_
  have hf := textShape _ _ ht.heap
  dsimp only
  rw [hf.targets]
  simp only [hf.label, hf.isInst]
  split
  · exact Sim.next (ahref_text ..) fun _ => Sim.pure rfl
  · exact Sim.next (citeTags_text ..) fun _ => Sim.pure rfl

theorem visitCaption_text : S (visitCaption k r) (visitCaption k r) := by
  unfold visitCaption
  refine Sim.bind Sim.get fun t t' ht => ?_
  have hf := textShape _ _ ht.heap
  rw [hf.parent]
  simp only [hf.isInst, hf.cls]
  cases t.heap.parent r with
  | none => exact Sim.throw _
  | some p => exact Sim.next (fullNumber_sim textShape ..) fun _ => Sim.pure rfl

include hr in
theorem hrVisitBibitem_text : S (hrVisitBibitem r) (hrVisitBibitem r) := by
  unfold hrVisitBibitem
  refine Sim.nodeSame hr fun nd => Sim.next (bibitemText_text r) fun text => ?_
  cases searchDoi text with
  | none => sims
  | some x => exact Sim.pure rfl

theorem visitNode_text (hrepr : ∀ h h', TextRel h0 T1 T2 h h' → k.reprOf h' r = k.reprOf h r) :
    S (visitNode k r) (visitNode k r) := by
  unfold visitNode
  refine Sim.bind Sim.get fun t t' ht => ?_
  rw [hrepr _ _ ht.heap]
  exact Sim.pure rfl

/-- Goes through two programs in parallel; the node is not a text. -/
macro "simv" hr:ident : tactic => `(tactic| repeat' first
  | assumption
  | exact Sim.throw _ | exact Sim.warn _ | exact Sim.warns _ | exact Sim.itemsOf _
  | exact Sim.leaveNode
  | exact Sim.pure rfl
  | exact fullNumber_sim textShape _ _ | exact reftext_sim textShape _ _
  | exact minimap_sim textShape _ _ _ _
  | exact wrapHeading_text .. | exact wrapIf_text .. | exact handrailItems_text ..
  | exact hrLabeled_text .. | exact theoremItems_text .. | exact proofItems_text ..
  | exact sectionItems_text .. | exact bibitemText_text ..
  | (with_reducible refine Sim.nodeSame $hr fun _ => ?_)
  | (with_reducible refine Sim.next ?_ fun _ => ?_)
  | (refine Sim.ite ?_ ?_))

include hr in
theorem visitWith_text (o : Cls) (ho : o ≠ .URL) (ho' : o ≠ .Math) (hn : (visitNames.any fun n => n.toList = lower o.name) = true)
    (hrepr : o = .Node → ∀ h h', TextRel h0 T1 T2 h h' → k.reprOf h' r = k.reprOf h r) :
    S (visitWith k o r) (visitWith k o r) := by
  have h1 := hrVisitManuscript_text (h0 := h0) (T1 := T1) (T2 := T2) k (r := r)
  have h2 := hrVisitParagraph_text (T1 := T1) (T2 := T2) k hr
  have h3 := hrVisitStep_text (T1 := T1) (T2 := T2) k hr
  have h4 := hrVisitMathBlock_text (T1 := T1) (T2 := T2) k hr
  have h5 := visitMathBlock_text (T1 := T1) (T2 := T2) hr
  have h6 := visitReference_text (h0 := h0) (T1 := T1) (T2 := T2) k (r := r)
  have h7 := visitCite_text (h0 := h0) (T1 := T1) (T2 := T2) k (r := r)
  have h8 := visitCaption_text (h0 := h0) (T1 := T1) (T2 := T2) k (r := r)
  have h9 := hrVisitBibitem_text (T1 := T1) (T2 := T2) hr
  cases o <;> first | exact absurd rfl ho | exact absurd rfl ho' | exact absurd hn (by decide) | skip
  all_goals simp only [visitWith, hrVisitAuthor, hrVisitContents, visitNote, hrVisitSubproof,
    hrVisitBibliography, visitFigure]
  case Paragraph =>
    refine Sim.ite h2 (Sim.bind Sim.get fun t t' ht => ?_)
    rw [paragraphItems_text hr ht.heap]
    exact Sim.pure rfl
  case Node => exact visitNode_text k (hrepr rfl)
  all_goals simv hr

theorem leaveMathBlock_text : S (leaveMathBlock r) (leaveMathBlock r) := by
  unfold leaveMathBlock
  refine Sim.next Sim.leaveNode fun c => Sim.bind Sim.get fun t t' ht => ?_
  have hf := textShape _ _ ht.heap
  rw [hf.parent]
  cases t.heap.parent r with
  | none => exact Sim.pure rfl
  | some p =>
    dsimp only
    rw [hf.isInst, hf.nextSibling]
    refine Sim.ite (Sim.next (Sim.lift rfl) fun sib => ?_) (Sim.pure rfl)
    cases sib <;> sims

include hr in
theorem leaveWith_text (o : Cls) : S (leaveWith k o r) (leaveWith k o r) := by
  have h1 := leaveMathBlock_text (h0 := h0) (T1 := T1) (T2 := T2) (r := r)
  cases o
  all_goals simp only [leaveWith, leaveAbstract, hrLeaveMathBlock, leaveParagraph, infoBeforeLast,
    leaveInfo, leaveProof, hrLeaveStep, hrLeaveMath]
  all_goals simv hr

/-- What the texts may not be for the two runs to be comparable. -/
structure Quiet (h0 : Heap) (T1 T2 : Ref → Str) (r : Ref) : Prop where
  refs : (h0.get r).cls ∈ [.URL, .BaseReference, .PendingReference, .PendingPrev] → ∀ x, (h0.get r).target ≠ .node x
  dot : k.handrails = true → (h0.get r).cls = .Math → ∀ x, h0.nextSibling r .any = .ok (some x) →
    (T1 x).head? ≠ some '.' ∧ (T2 x).head? ≠ some '.'

theorem methodClass_visit_math (c : Cls) :
    ∃ d, methodClass visitNames c = .ok d ∧ (d = .Math ↔ c = .Math) := by
  cases c <;> exact ⟨_, rfl, by simp⟩

theorem methodClass_mem {names c d} (h : methodClass names c = .ok d) :
    (names.any fun n => n.toList = lower d.name) = true := by
  unfold methodClass at h
  split at h
  · rename_i x hx; cases h
    have := List.find?_some hx
    exact this
  · cases h

/-- The classes without a visit method of their own. -/
theorem methodClass_node {c : Cls} (h : methodClass visitNames c = .ok .Node) :
    c.isSub .Text = false ∧ (c.isSub .BaseReference = true → c ∈ [.BaseReference, .PendingReference, .PendingPrev]) := by
  cases c <;> first | (exact ⟨rfl, by decide⟩) | cases h

theorem repr_text (hm : methodClass visitNames (h0.get r).cls = .ok .Node)
    (hg : (h0.get r).cls ∈ [.BaseReference, .PendingReference, .PendingPrev] → ∀ x, (h0.get r).target ≠ .node x)
    {h h' : Heap} (hh : TextRel h0 T1 T2 h h') : k.reprOf h' r = k.reprOf h r := by
  have g : ∀ x, ∃ y, h'.get x = { h.get x with text := y } := hh.get
  have hc := hh.shape.cls r
  have hf := hh.shape.target r
  obtain ⟨y, e⟩ := g r
  obtain ⟨n1, n2⟩ := methodClass_node hm
  rw [← hc] at n1 n2 hg
  refine nodeRepr_congr k.repr (fun x => ?_) ?_ ?_ ?_ ?_ ?_ ?_ ?_ ?_ n1 fun hb x => ?_
  · obtain ⟨z, e'⟩ := g x
    rw [e']
  any_goals rw [e]
  rw [hf]
  exact hg (n2 hb) x

include hr in
theorem visit_text (hq : Quiet k h0 T1 T2 r) : S (visit k r) (visit k r) := by
  obtain ⟨d, hd, hdu⟩ := methodClass_visit (h0.get r).cls
  obtain ⟨d', hd', hdm⟩ := methodClass_visit_math (h0.get r).cls
  rw [hd] at hd'; cases hd'
  unfold visit
  refine Sim.bind (Sim.node r) ?_
  rintro nd nd' ⟨h, h', hh, rfl, rfl⟩
  rw [hh.sameFrame.cls, hh.shape.cls, hd]
  show S (visitWith k d r) (visitWith k d r)
  by_cases h1 : d = .URL
  · subst h1
    exact visitUrl_text k fun x hx => absurd hx (hq.refs (by rw [hdu.mp rfl]; decide) x)
  by_cases h2 : d = .Math
  · subst h2
    have h3 := hrVisitMath_text (T1 := T1) (T2 := T2) hr
    by_cases hh : k.handrails = true
    · simp only [visitWith, hh, if_true]
      exact h3 fun x => hq.dot hh (hdm.mp rfl) x
    · simp only [visitWith, hh, Bool.false_eq_true, if_false]
      simv hr
  refine visitWith_text k hr d h1 h2 (methodClass_mem hd) ?_
  rintro rfl h h' hh
  exact repr_text k hd (fun hc => hq.refs (List.mem_cons_of_mem _ hc)) hh

include hr in
theorem leave_text : S (leave k r) (leave k r) := by
  obtain ⟨d, hd⟩ := methodClass_leave k.handrails (h0.get r).cls
  unfold leave
  refine Sim.bind (Sim.node r) ?_
  rintro nd nd' ⟨h, h', hh, rfl, rfl⟩
  rw [hh.sameFrame.cls, hh.shape.cls, hd]
  exact leaveWith_text k hr d

include hr in
theorem finish_text (c : Cmd) : S (finish k r c) (finish k r c) := by
  unfold finish
  exact Sim.ite (Sim.next (leave_text k hr) fun d => Sim.execute d) (Sim.pure rfl)

end Tr
end RSM
