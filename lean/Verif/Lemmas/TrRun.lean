import Verif.Model.Translator
import Verif.Lemmas.Tree
import Mathlib.Tactic.Tauto

/-! # Lemmas: the translation loop as a recursion over the tree -/

namespace RSM
namespace Tr
open PyM

/-! ## Executing commands -/

/-- What a command adds to the body. -/
def Cmd.text : Cmd → Str
  | .item i => i.makeText
  | .batch l => l.flatMap Item.makeText
  | .batchDefer l => l.flatMap Item.makeText

/-- What a command puts on the stack of deferred commands (top first). -/
def Cmd.pushed : Cmd → List Cmd
  | .item i => i.deferred.toList.map fun d => .item (.text d)
  | .batch l => ((l.filterMap Item.deferred).map fun d => Cmd.item (.text d)).reverse
  | .batchDefer l => [.batch ((l.filterMap Item.deferred).map Item.text).reverse]

theorem Item.execute_eq (i : Item) (s : TrState) : i.execute s =
    .ok () { s with body := s.body ++ i.makeText,
                    deferred := (i.deferred.toList.map fun d => Cmd.item (.text d)) ++ s.deferred } := by
  unfold Item.execute emit push
  cases i <;> rfl

theorem forEach_execute (l : List Item) (s : TrState) : forEach Item.execute l s =
    .ok () { s with body := s.body ++ l.flatMap Item.makeText,
                    deferred := ((l.filterMap Item.deferred).map fun d => Cmd.item (.text d)).reverse
                      ++ s.deferred } := by
  induction l generalizing s with
  | nil => simp
  | cons i l ih =>
    rw [forEach_cons, Item.execute_eq]
    simp only [ih, List.flatMap_cons, List.append_assoc]
    cases hd : i.deferred <;> simp [hd]

theorem forEach_emit (l : List Item) (s : TrState) : forEach (fun i => emit i.makeText) l s =
    .ok () { s with body := s.body ++ l.flatMap Item.makeText } := by
  induction l generalizing s with
  | nil => simp
  | cons i l ih =>
    rw [forEach_cons]
    simp only [emit, modify_apply] at *
    rw [ih]; simp

theorem Cmd.execute_eq (c : Cmd) (s : TrState) : c.execute s =
    .ok () { s with body := s.body ++ c.text, deferred := c.pushed ++ s.deferred } := by
  cases c with
  | item i => exact Item.execute_eq i s
  | batch l => exact forEach_execute l s
  | batchDefer l =>
    simp only [Cmd.execute, bind_apply, forEach_emit, push, modify_apply]
    rfl

/-! ## What visiting and leaving change -/

/-- A node record without the attributes the translators change. -/
def frame (nd : NodeRec) : NodeRec :=
  { nd with types := [], text := [], mustCloseP := false, followedByDot := false }

/-- The two heaps hold the same nodes up to the attributes the translators change. -/
def SameFrame (h h' : Heap) : Prop := h'.next = h.next ∧ ∀ x, frame (h'.get x) = frame (h.get x)

theorem SameFrame.refl (h : Heap) : SameFrame h h := ⟨rfl, fun _ => rfl⟩
theorem SameFrame.trans {a b c : Heap} (h1 : SameFrame a b) (h2 : SameFrame b c) : SameFrame a c :=
  ⟨h2.1.trans h1.1, fun x => (h2.2 x).trans (h1.2 x)⟩

theorem SameFrame.update (h : Heap) (r : Ref) (f : NodeRec → NodeRec)
    (hf : ∀ nd, frame (f nd) = frame nd) : SameFrame h (h.update r f) :=
  ⟨rfl, fun x => by rw [Heap.get_update]; split <;> simp [hf]⟩

theorem frame_cls {a b : NodeRec} (h : frame a = frame b) : a.cls = b.cls := (congrArg NodeRec.cls h :)
theorem frame_parent {a b : NodeRec} (h : frame a = frame b) : a.parent = b.parent :=
  (congrArg NodeRec.parent h :)
theorem frame_kids {a b : NodeRec} (h : frame a = frame b) : a.kids = b.kids :=
  (congrArg NodeRec.kids h :)

theorem SameFrame.cls {a b : Heap} (h : SameFrame a b) (x) : (b.get x).cls = (a.get x).cls :=
  frame_cls (h.2 x)
theorem SameFrame.parent {a b : Heap} (h : SameFrame a b) (x) : b.parent x = a.parent x :=
  frame_parent (h.2 x)
theorem SameFrame.children {a b : Heap} (h : SameFrame a b) (x) : b.children x = a.children x := by
  unfold Heap.children; rw [frame_kids (h.2 x)]
  simp only [Heap.isInst, h.cls]
  rfl

theorem SameFrame.isTree {a b : Heap} (h : SameFrame a b) {p t} (ht : IsTree a p t) : IsTree b p t :=
  ht.congr (fun x _ => h.parent x) (fun x _ => h.children x)

/-- A step that writes nothing and leaves the deferred commands alone. -/
structure Keep (s s' : TrState) : Prop where
  frame : SameFrame s.heap s'.heap
  body : s'.body = s.body
  deferred : s'.deferred = s.deferred
  tree : s'.tree = s.tree

theorem Keep.refl (s : TrState) : Keep s s := ⟨SameFrame.refl _, rfl, rfl, rfl⟩
theorem Keep.trans {a b c : TrState} (h1 : Keep a b) (h2 : Keep b c) : Keep a c :=
  ⟨h1.frame.trans h2.frame, h2.body.trans h1.body, h2.deferred.trans h1.deferred,
    h2.tree.trans h1.tree⟩

/-- A program all of whose outcomes keep the state. -/
structure Keeps {α : Type} (m : TrM α) : Prop where
  keep : ∀ s, Keep s (m s).state

section
variable {α β : Type}

theorem Keeps.pure (a : α) : Keeps (Pure.pure a : TrM α) := ⟨fun s => Keep.refl s⟩
theorem Keeps.throw (e : PyErr) : Keeps (PyM.throw e : TrM α) := ⟨fun s => Keep.refl s⟩
theorem Keeps.get : Keeps (PyM.get : TrM TrState) := ⟨fun s => Keep.refl s⟩
theorem Keeps.node (r : Ref) : Keeps (Tr.node r) := ⟨fun s => Keep.refl s⟩
theorem Keeps.lift (x : Except PyErr α) : Keeps (Tr.lift x) := by
  constructor; intro s; cases x <;> exact Keep.refl s
theorem Keeps.warn (w : Warning) : Keeps (Tr.warn w) := ⟨fun _ => ⟨SameFrame.refl _, rfl, rfl, rfl⟩⟩
theorem Keeps.assign (r : Ref) (f : NodeRec → NodeRec) (hf : ∀ nd, Tr.frame (f nd) = Tr.frame nd) :
    Keeps (Tr.assign r f) := ⟨fun _ => ⟨SameFrame.update _ _ _ hf, rfl, rfl, rfl⟩⟩
theorem Keeps.bind {m : TrM α} {f : α → TrM β} (hm : Keeps m) (hf : ∀ a, Keeps (f a)) :
    Keeps (m >>= f) := by
  constructor
  intro s
  have h := hm.keep s
  rw [bind_apply]
  cases e : m s with
  | ok a s' => rw [e] at h; exact h.trans ((hf a).keep s')
  | err x s' => rw [e] at h; exact h
theorem Keeps.ite {p : Prop} [Decidable p] {a b : TrM α} (ha : Keeps a) (hb : Keeps b) :
    Keeps (if p then a else b) := by split <;> assumption
theorem Keeps.forEach {body : α → TrM Unit} (h : ∀ a, Keeps (body a)) (l : List α) :
    Keeps (PyM.forEach body l) := by
  induction l with
  | nil => exact ⟨fun s => Keep.refl s⟩
  | cons x xs ih => exact Keeps.bind (h x) fun _ => ih
end

/-- Proves `Keeps` goals structurally. -/
macro "keeps" : tactic => `(tactic| repeat' first
  | exact Keeps.pure _ | exact Keeps.throw _ | exact Keeps.get | exact Keeps.node _
  | exact Keeps.lift _ | exact Keeps.warn _ | exact Keeps.forEach (fun _ => Keeps.warn _) _
  | (refine Keeps.assign _ _ ?_; intro _; rfl)
  | assumption
  | (refine Keeps.bind ?_ ?_)
  | (intro _)
  | split
  | (refine Keeps.ite ?_ ?_))

theorem fullNumber_keeps (k r) : Keeps (fullNumber k r) := by unfold fullNumber; keeps
theorem reftext_keeps (k r) : Keeps (reftext k r) := by
  have := fullNumber_keeps k r
  unfold reftext; keeps
theorem sectionItems_keeps (k r) : Keeps (sectionItems k r) := by
  have := fullNumber_keeps k r
  unfold sectionItems sectionHeading; keeps
theorem ahref_keeps (k r t h i a) : Keeps (ahref k r t h i a) := by
  have := reftext_keeps k
  unfold ahref checkTarget linkText addReferenceType; keeps
theorem checkTarget_keeps (t) : Keeps (checkTarget t) := by unfold checkTarget; keeps
theorem citeTags_keeps (k r) : ∀ i xs, Keeps (citeTags k r i xs)
  | _, [] => Keeps.pure _
  | i, x :: xs => by
    have h1 := citeTags_keeps k r (i + 1) xs
    have h2 := ahref_keeps k r
    unfold citeTags; keeps
theorem itemsOf_keeps (c) : Keeps (itemsOf c) := by unfold itemsOf; keeps
theorem minimap_keeps (k r f w) : Keeps (minimap k r f w) := by unfold minimap; keeps
theorem handrailItems_keeps (k r a c d) : Keeps (handrailItems k r a c d) := by
  have := reftext_keeps k r
  unfold handrailItems; keeps
theorem wrapHeading_keeps (k r l) : Keeps (wrapHeading k r l) := by
  have := reftext_keeps k r
  unfold wrapHeading; keeps
theorem wrapIf_keeps (k r l) : Keeps (wrapIf k r l) := by
  have := wrapHeading_keeps k r l
  unfold wrapIf; keeps
theorem hrLabeled_keeps (k r l c) : Keeps (hrLabeled k r l c) := by
  unfold hrLabeled; keeps
theorem theoremItems_keeps (k r) : Keeps (theoremItems k r) := by
  have := fullNumber_keeps k r
  unfold theoremItems theoremNumber; keeps
theorem proofItems_keeps (r) : Keeps (proofItems r) := by unfold proofItems markLast; keeps
theorem bibitemText_keeps (r) : Keeps (bibitemText r) := by
  unfold bibitemText bibitemYear bibitemDoi; keeps

theorem visitWith_keeps (k o r) : Keeps (visitWith k o r) := by
  cases o <;> simp only [visitWith, visitNode, hrVisitManuscript, hrVisitAuthor, hrVisitParagraph,
    hrVisitStep, hrVisitContents, hrVisitMath, hrVisitMathBlock, visitMathBlock, visitNote,
    visitReference, visitUrl, hrVisitSubproof, visitCite, hrVisitBibliography, hrVisitBibitem,
    visitFigure, visitCaption, mathBlockLabel] <;> keeps
  all_goals first
    | exact fullNumber_keeps .. | exact reftext_keeps .. | exact ahref_keeps ..
    | exact citeTags_keeps .. | exact itemsOf_keeps .. | exact minimap_keeps ..
    | exact handrailItems_keeps .. | exact wrapHeading_keeps .. | exact wrapIf_keeps ..
    | exact hrLabeled_keeps .. | exact theoremItems_keeps .. | exact proofItems_keeps ..
    | exact bibitemText_keeps .. | exact sectionItems_keeps .. | exact checkTarget_keeps ..

/-- Visiting a node writes nothing, defers nothing and keeps the shape of the document. -/
theorem visit_keeps (k r) : Keeps (visit k r) := by
  unfold visit; keeps
  exact visitWith_keeps ..

/-! ## Which errors are raised and which commands are returned -/

/-- All values returned satisfy `P` and `RSMTranslatorError` is not raised. -/
structure Yields {α : Type} (P : α → Prop) (m : TrM α) : Prop where
  yields : ∀ s, match m s with
    | .ok a _ => P a
    | .err e _ => e ≠ .rsmTranslatorError

section
variable {α β : Type} {P : α → Prop} {Q : β → Prop}

theorem Yields.pure {a : α} (h : P a) : Yields P (Pure.pure a : TrM α) := ⟨fun _ => h⟩
theorem Yields.throw {e : PyErr} (h : e ≠ .rsmTranslatorError) : Yields P (PyM.throw e : TrM α) :=
  ⟨fun _ => h⟩
theorem Yields.bind {m : TrM α} {f : α → TrM β} (hm : Yields (fun _ => True) m)
    (hf : ∀ a, Yields Q (f a)) : Yields Q (m >>= f) := by
  constructor
  intro s
  have h := hm.yields s
  rw [bind_apply]
  cases e : m s with
  | ok a s' => exact (hf a).yields s'
  | err x s' => rw [e] at h; exact h
theorem Yields.bindP {m : TrM α} {f : α → TrM β} (hm : Yields P m)
    (hf : ∀ a, P a → Yields Q (f a)) : Yields Q (m >>= f) := by
  constructor
  intro s
  have h := hm.yields s
  rw [bind_apply]
  cases e : m s with
  | ok a s' => rw [e] at h; exact (hf a h).yields s'
  | err x s' => rw [e] at h; exact h
theorem Yields.mono {m : TrM α} {P' : α → Prop} (h : Yields P m) (hp : ∀ a, P a → P' a) :
    Yields P' m := by
  constructor
  intro s
  have := h.yields s
  cases e : m s with
  | ok a s' => rw [e] at this; exact hp a this
  | err x s' => rw [e] at this; exact this
theorem Yields.get : Yields (fun _ => True) (PyM.get : TrM TrState) := ⟨fun _ => trivial⟩
theorem Yields.node (r : Ref) : Yields (fun _ => True) (Tr.node r) := ⟨fun _ => trivial⟩
theorem Yields.warn (w : Warning) : Yields (fun _ => True) (Tr.warn w) := ⟨fun _ => trivial⟩
theorem Yields.assign (r : Ref) (f : NodeRec → NodeRec) : Yields (fun _ => True) (Tr.assign r f) :=
  ⟨fun _ => trivial⟩
theorem Yields.lift {x : Except PyErr α} (hx : x ≠ .error .rsmTranslatorError) :
    Yields (fun _ => True) (Tr.lift x) := by
  constructor; intro s
  cases x with
  | ok a => trivial
  | error e => exact fun h => hx (by rw [h])
theorem Yields.forEach {body : α → TrM Unit} (h : ∀ a, Yields (fun _ => True) (body a)) (l : List α) :
    Yields (fun _ => True) (PyM.forEach body l) := by
  induction l with
  | nil => exact ⟨fun s => trivial⟩
  | cons x xs ih => exact Yields.bind (h x) fun _ => ih
end

/-- Proves `Yields` goals structurally, leaving the claims about the values. -/
macro "yields" : tactic => `(tactic| repeat' first
  | assumption
  | exact Yields.get | exact Yields.node _ | exact Yields.warn _ | exact Yields.assign _ _
  | exact Yields.forEach (fun _ => Yields.warn _) _
  | exact Yields.pure trivial
  | (refine Yields.throw ?_; decide)
  | (refine Yields.pure ?_)
  | (with_reducible refine Yields.bind ?_ ?_)
  | (intro _)
  | split)

theorem formatGo_error (nc num : Str) (m : FmtMode) (s : Str) :
    formatGo nc num m s ≠ .error .rsmTranslatorError := by
  induction s generalizing m with
  | nil => cases m <;> simp [formatGo]
  | cons c s ih =>
    have hm : ∀ (m : FmtMode) (g : Str → Str),
        (formatGo nc num m s).map g ≠ .error .rsmTranslatorError := by
      intro m g h
      have := ih m
      cases e : formatGo nc num m s with
      | ok a => rw [e] at h; cases h
      | error x => rw [e] at h this; exact this (by cases h; rfl)
    cases m <;> simp only [formatGo] <;> repeat' (first | exact hm _ _ | exact ih _ | split)
    all_goals simp

theorem nextSibling_error (h : Heap) (r a) : h.nextSibling r a ≠ .error .rsmTranslatorError := by
  unfold Heap.nextSibling
  repeat' (first | split | simp)

theorem fullNumber_yields (k r) : Yields (fun _ => True) (fullNumber k r) := by
  unfold fullNumber; yields
theorem reftext_yields (k r) : Yields (fun _ => True) (reftext k r) := by
  have := fullNumber_yields k r
  unfold reftext; yields
  exact Yields.lift (formatGo_error _ _ _ _)
theorem sectionItems_yields (k r) : Yields (fun _ => True) (sectionItems k r) := by
  have := fullNumber_yields k r
  unfold sectionItems sectionHeading; yields
theorem linkText_yields (k r t) : Yields (fun _ => True) (linkText k r t) := by
  have := reftext_yields k
  unfold linkText; yields
  exact this _
theorem ahref_yields (k r x h i a) : Yields (fun _ => True) (ahref k r (.node x) h i a) := by
  have := linkText_yields k r (.node x)
  unfold ahref checkTarget addReferenceType; yields
theorem citeTags_yields (k r) : ∀ i xs, Yields (fun _ => True) (citeTags k r i xs)
  | _, [] => Yields.pure trivial
  | i, x :: xs => by
    have h1 := citeTags_yields k r (i + 1) xs
    have h2 := ahref_yields k r
    unfold citeTags; yields
    exact h2 _ _ _ _
theorem itemsOf_yields (c) : Yields (fun l => c.items? = some l) (itemsOf c) := by
  unfold itemsOf; yields

end Tr
end RSM
