import Verif.Lemmas.TrRun

/-! # Lemmas: the translation loop as a recursion over the tree -/

namespace RSM
namespace Tr
open PyM

theorem minimapCircles_error (h w) : ∀ i l, minimapCircles h w i l ≠ .error .rsmTranslatorError
  | _, [] => by simp [minimapCircles]
  | i, r :: rs => by
    have ih := minimapCircles_error h w (i + 1) rs
    unfold minimapCircles
    split
    · split
      · simp
      · intro e
        cases e' : minimapCircles h w (i + 1) rs with
        | ok a => simp [e'] at e; cases e
        | error x => rw [e'] at e ih; exact ih (by cases e; rfl)
    · simp

theorem minimap_yields (k r f w) : Yields (fun _ => True) (minimap k r f w) := by
  unfold minimap; yields
  exact Yields.lift (minimapCircles_error _ _ _ _)
theorem handrailItems_yields (k r a c d) : Yields (fun _ => True) (handrailItems k r a c d) := by
  have := reftext_yields k r
  unfold handrailItems; yields
theorem wrapHeading_yields (k r l) : Yields (fun _ => True) (wrapHeading k r l) := by
  have := reftext_yields k r
  unfold wrapHeading; yields
theorem wrapIf_yields (k r l) : Yields (fun _ => True) (wrapIf k r l) := by
  have := wrapHeading_yields k r l
  unfold wrapIf; yields
theorem theoremItems_yields (k r) : Yields (fun _ => True) (theoremItems k r) := by
  have := fullNumber_yields k r
  unfold theoremItems theoremNumber; yields
theorem proofItems_yields (r) : Yields (fun _ => True) (proofItems r) := by
  unfold proofItems markLast; yields
theorem bibitemText_yields (r) : Yields (fun _ => True) (bibitemText r) := by
  unfold bibitemText bibitemYear bibitemDoi; yields

/-- A command that a visit method returns: not an `AppendBatch`. -/
inductive Cmd.Visit : Cmd → Prop
  | item (i) : Visit (.item i)
  | batchDefer (l) : Visit (.batchDefer l)

theorem visit_item (i) : Cmd.Visit (.item i) := .item i
theorem visit_batchDefer (l) : Cmd.Visit (.batchDefer l) := .batchDefer l
theorem visit_authorCmd (nd) : Cmd.Visit (authorCmd nd) := by
  unfold authorCmd; split <;> constructor

theorem hrLabeled_yields (k r l c) : Yields Cmd.Visit (hrLabeled k r l c) := by
  have := handrailItems_yields k r
  unfold hrLabeled; yields
  · exact this ..
  · exact visit_batchDefer _

theorem visitWith_yields (k o r) (ho : o ≠ .URL) : Yields Cmd.Visit (visitWith k o r) := by
  cases o <;> first | exact absurd rfl ho | skip
  all_goals simp only [visitWith, visitNode, hrVisitManuscript, hrVisitAuthor, hrVisitParagraph,
    hrVisitStep, hrVisitContents, hrVisitMath, hrVisitMathBlock, visitMathBlock, visitNote,
    visitReference, hrVisitSubproof, visitCite, hrVisitBibliography, hrVisitBibitem,
    visitFigure, visitCaption, mathBlockLabel, sourceCodeCmd, spanCmd]
  all_goals yields
  all_goals first
    | exact visit_item _ | exact visit_batchDefer _ | exact visit_authorCmd _
    | exact fullNumber_yields .. | exact reftext_yields .. | exact ahref_yields ..
    | exact citeTags_yields .. | exact (itemsOf_yields _).mono (fun _ _ => trivial)
    | exact minimap_yields ..
    | exact handrailItems_yields .. | exact wrapHeading_yields .. | exact wrapIf_yields ..
    | exact hrLabeled_yields .. | exact theoremItems_yields .. | exact proofItems_yields ..
    | exact bibitemText_yields .. | exact sectionItems_yields ..
    | exact Yields.lift (nextSibling_error _ _ _)

/-! ## Leaving -/

/-- A command that defers nothing more. -/
def Cmd.Done (c : Cmd) : Prop := c.pushed = []

/-- The items defer nothing. -/
def DoneL (l : List Item) : Prop := ∀ i ∈ l, i.deferred = none

theorem done_batch {l : List Item} (h : DoneL l) : Cmd.Done (.batch l) := by
  have : l.filterMap Item.deferred = [] := List.filterMap_eq_nil_iff.mpr h
  simp [Cmd.Done, Cmd.pushed, this]

/-- What a command puts on the stack: texts only. -/
def Cmd.Closer (c : Cmd) : Prop :=
  (∃ d, c = .item (.text d)) ∨ ∃ l : List Str, c = .batch (l.map Item.text)

theorem Cmd.Closer.done {c : Cmd} (h : c.Closer) : c.Done := by
  rcases h with ⟨d, rfl⟩ | ⟨l, rfl⟩
  · rfl
  · exact done_batch fun i hi => by
      obtain ⟨x, _, rfl⟩ := List.mem_map.mp hi; rfl

theorem Cmd.Closer.items {c : Cmd} (h : c.Closer) {l} (hl : c.items? = some l) : DoneL l := by
  rcases h with ⟨d, rfl⟩ | ⟨l', rfl⟩
  · simp [Cmd.items?] at hl
  · simp only [Cmd.items?, Option.some.injEq] at hl
    subst hl
    intro i hi
    obtain ⟨x, _, rfl⟩ := List.mem_map.mp hi; rfl


/-- A URL without a target. -/
def NoTarget (h : Heap) (r : Ref) : Prop :=
  (h.get r).cls = .URL ∧ ((h.get r).target = .none ∨ (h.get r).target = .str [])

theorem methodClass_visit (c : Cls) :
    ∃ d, methodClass visitNames c = .ok d ∧ (d = .URL ↔ c = .URL) := by
  cases c <;> exact ⟨_, rfl, by simp⟩

theorem methodClass_leave (b : Bool) (c : Cls) : ∃ d, methodClass (leaveNames b) c = .ok d := by
  cases b <;> cases c <;> exact ⟨_, rfl⟩

theorem visitUrl_spec (k r s) : match visitUrl k r s with
    | .ok c _ => c.Visit
    | .err e _ => e = .rsmTranslatorError →
        (s.heap.get r).target = .none ∨ (s.heap.get r).target = .str [] := by
  unfold visitUrl
  simp only [bind_apply, get_apply]
  cases ht : (s.heap.get r).target with
  | none => exact fun _ => .inl rfl
  | node x =>
    have : Yields Cmd.Visit (ahref k r (.node x) (k.reprOf s.heap x) >>= fun a =>
        (pure (Cmd.item (.text a)) : TrM Cmd)) :=
      Yields.bind (ahref_yields ..) fun _ => Yields.pure (visit_item _)
    have := this.yields s
    revert this
    dsimp only
    cases (ahref k r (.node x) (k.reprOf s.heap x) >>= fun a =>
        (pure (Cmd.item (.text a)) : TrM Cmd)) s with
    | ok c s' => exact id
    | err e s' => exact fun h1 h2 => absurd h2 h1
  | str u =>
    cases u with
    | nil => exact fun _ => .inr rfl
    | cons c u =>
      have : Yields Cmd.Visit (ahref k r (.url (c :: u)) (c :: u) >>= fun a =>
          (pure (Cmd.item (.text a)) : TrM Cmd)) := by
        refine Yields.bind ?_ fun _ => Yields.pure (visit_item _)
        have := linkText_yields k r (.url (c :: u))
        unfold ahref checkTarget addReferenceType; yields
      have := this.yields s
      revert this
      dsimp only
      cases (ahref k r (.url (c :: u)) (c :: u) >>= fun a =>
          (pure (Cmd.item (.text a)) : TrM Cmd)) s with
      | ok c s' => exact id
      | err e s' => exact fun h1 h2 => absurd h2 h1

theorem visit_spec (k r s) : match visit k r s with
    | .ok c s' => Keep s s' ∧ c.Visit
    | .err e s' => Keep s s' ∧ (e = .rsmTranslatorError → NoTarget s.heap r) := by
  have hk := (visit_keeps k r).keep s
  obtain ⟨d, hd, hu⟩ := methodClass_visit (s.heap.get r).cls
  have e : visit k r s = visitWith k d r s := by
    simp only [visit, bind_apply, node, gets_apply, hd, lift, pure_apply]
  rw [e] at hk ⊢
  by_cases h : d = .URL
  · have h' := visitUrl_spec k r s
    subst h
    have e' : visitWith k .URL r = visitUrl k r := rfl
    rw [e'] at hk ⊢
    cases hv : visitUrl k r s with
    | ok c s' => rw [hv] at hk h'; exact ⟨hk, h'⟩
    | err x s' => rw [hv] at hk h'; exact ⟨hk, fun hx => ⟨hu.mp rfl, h' hx⟩⟩
  · have h' := (visitWith_yields k d r h).yields s
    cases hv : visitWith k d r s with
    | ok c s' => rw [hv] at hk h'; exact ⟨hk, h'⟩
    | err x s' => rw [hv] at hk h'; exact ⟨hk, fun hx => absurd hx h'⟩

theorem DoneL.append {a b : List Item} (ha : DoneL a) (hb : DoneL b) : DoneL (a ++ b) := fun i hi =>
  (List.mem_append.mp hi).elim (ha i) (hb i)
theorem DoneL.cons {a : Item} {b : List Item} (ha : a.deferred = none) (hb : DoneL b) :
    DoneL (a :: b) := fun i hi => (List.mem_cons.mp hi).elim (fun e => e ▸ ha) (hb i)
theorem DoneL.insertAt {n : Nat} {x : Item} {l : List Item} (hl : DoneL l) (hx : x.deferred = none) :
    DoneL (insertAt n x l) := by
  unfold Tr.insertAt
  exact DoneL.append (fun i hi => hl i (List.mem_of_mem_take hi))
    (DoneL.cons hx fun i hi => hl i (List.mem_of_mem_drop hi))
theorem DoneL.abstractParagraphs (nd) : DoneL (abstractParagraphs nd) := by
  unfold Tr.abstractParagraphs
  intro i hi
  simp only [List.mem_append] at hi
  rcases hi with hi | hi <;> split at hi <;> simp at hi <;> subst hi <;> rfl
theorem Cmd.Closer.withItems {c : Cmd} (h : c.Closer) {l} (hl : DoneL l) : (c.withItems l).Done := by
  rcases h with ⟨d, rfl⟩ | ⟨l', rfl⟩ <;> exact done_batch hl

/-- The state after one deferred command was taken off the stack. -/
structure Popped (ds : List Cmd) (s s' : TrState) : Prop where
  frame : SameFrame s.heap s'.heap
  body : s'.body = s.body
  deferred : s'.deferred = ds
  tree : s'.tree = s.tree

theorem leaveNode_bind {α : Type} {f : Cmd → TrM α} {s : TrState} {c0 ds} (hs : s.deferred = c0 :: ds) :
    (leaveNode >>= f) s = f c0 { s with deferred := ds } := by
  simp only [bind_apply, leaveNode, get_apply, hs, modify_apply, pure_apply]

theorem bind_assoc {α β γ : Type} (m : TrM α) (f : α → TrM β) (g : β → TrM γ) (s : TrState) :
    ((m >>= f) >>= g) s = (m >>= fun a => f a >>= g) s := by
  simp only [bind_apply]; cases m s <;> rfl

/-- `leave_mathblock` after the deferred command was taken. -/
def mathBlockRest (r : Ref) (c : Cmd) : TrM Cmd := do
  let t ← get
  match t.heap.parent r with
  | none => pure c
  | some p =>
    if t.heap.isInst p .BaseParagraph then do
      let sib ← lift (t.heap.nextSibling r .any)
      match sib with
      | none => pure c
      | some _ => do
        assign p fun nd => { nd with mustCloseP := true }
        let l ← itemsOf c
        pure (.batch (l ++ [.text "<p>"]))
    else pure c

/-- `leave_paragraph` after the deferred command was taken. -/
def paragraphRest (r : Ref) (c : Cmd) : TrM Cmd := do
  let nd ← node r
  if nd.mustCloseP then do
    let l ← itemsOf c
    pure (c.withItems (.text "</p>" :: l))
  else pure c

/-- What leaving a node does when the command it deferred is on top of the stack. -/
theorem leave_spec (k r) {s : TrState} {c0 ds} (hs : s.deferred = c0 :: ds) (hc : c0.Closer) :
    match leave k r s with
    | .ok c s' => Popped ds s s' ∧ c.Done
    | .err e s' => Popped ds s s' ∧ e ≠ .rsmTranslatorError := by
  obtain ⟨d, hd⟩ := methodClass_leave k.handrails (s.heap.get r).cls
  have e : leave k r s = leaveWith k d r s := by
    simp only [leave, bind_apply, node, gets_apply, hd, lift, pure_apply]
  rw [e]
  -- every leave method takes the deferred command and goes on with `f`
  have key : ∀ (f : Cmd → TrM Cmd), Keeps (f c0) → Yields Cmd.Done (f c0) →
      leaveWith k d r s = (leaveNode >>= f) s → match leaveWith k d r s with
      | .ok c s' => Popped ds s s' ∧ c.Done
      | .err e s' => Popped ds s s' ∧ e ≠ .rsmTranslatorError := by
    intro f hk hy he
    rw [he, leaveNode_bind hs]
    have hk := hk.keep { s with deferred := ds }
    have hy := hy.yields { s with deferred := ds }
    cases hv : f c0 { s with deferred := ds } with
    | ok c s' => rw [hv] at hk hy; exact ⟨⟨hk.frame, hk.body, hk.deferred, hk.tree⟩, hy⟩
    | err x s' => rw [hv] at hk hy; exact ⟨⟨hk.frame, hk.body, hk.deferred, hk.tree⟩, hy⟩
  have hnode : leaveWith k d r = leaveNode → match leaveWith k d r s with
      | .ok c s' => Popped ds s s' ∧ c.Done
      | .err e s' => Popped ds s s' ∧ e ≠ .rsmTranslatorError := by
    intro he
    refine key (fun c => pure c) (Keeps.pure _) (Yields.pure hc.done) ?_
    rw [he, bind_apply]
    cases leaveNode s <;> rfl
  have hinfo : ∀ info : Item, info.deferred = none → leaveWith k d r = leaveInfo info →
      match leaveWith k d r s with
      | .ok c s' => Popped ds s s' ∧ c.Done
      | .err e s' => Popped ds s s' ∧ e ≠ .rsmTranslatorError := by
    intro info hi he
    refine key (fun c => do let l ← itemsOf c; pure (.batch (insertAt 1 info l))) ?_ ?_ ?_
    · keeps; exact itemsOf_keeps _
    · exact Yields.bindP (itemsOf_yields c0) fun l hl =>
        Yields.pure (done_batch ((hc.items hl).insertAt hi))
    · rw [he]; rfl
  cases d
  case Abstract =>
    refine key (fun c => pure (.batch (abstractParagraphs (s.heap.get r) ++ (match c with
      | .item i => [i]
      | .batch l => l
      | .batchDefer l => l)))) (Keeps.pure _) ?_ ?_
    · refine Yields.pure (done_batch ((DoneL.abstractParagraphs _).append ?_))
      rcases hc with ⟨x, rfl⟩ | ⟨l, rfl⟩
      · intro i hi; simp at hi; subst hi; rfl
      · intro i hi; obtain ⟨x, _, rfl⟩ := List.mem_map.mp hi; rfl
    · rfl
  case MathBlock =>
    have h1 : ∀ c : Cmd, Keeps (mathBlockRest r c) := fun c => by
      unfold mathBlockRest; keeps; exact itemsOf_keeps _
    have h2 : Yields (fun c => c.Done ∧ ∀ l, c.items? = some l → DoneL l ∧ ∀ l', DoneL l' →
        (c.withItems l').Done) (mathBlockRest r c0) := by
      have h0 : c0.Done ∧ ∀ l, c0.items? = some l → DoneL l ∧ ∀ l', DoneL l' →
          (c0.withItems l').Done :=
        ⟨hc.done, fun l hl => ⟨hc.items hl, fun l' hl' => hc.withItems hl'⟩⟩
      unfold mathBlockRest
      refine Yields.bind Yields.get fun t => ?_
      split
      · exact Yields.pure h0
      · split
        · refine Yields.bind (Yields.lift (nextSibling_error _ _ _)) fun sib => ?_
          split
          · exact Yields.pure h0
          · refine Yields.bind (Yields.assign _ _) fun _ => Yields.bindP (itemsOf_yields c0)
              fun l hl => Yields.pure ?_
            have hd : DoneL (l ++ [.text "<p>"]) :=
              (hc.items hl).append (DoneL.cons rfl (fun _ h => by simp at h))
            refine ⟨done_batch hd, fun l' e => ?_⟩
            simp only [Cmd.items?, Option.some.injEq] at e
            subst e
            exact ⟨hd, fun l' hl' => done_batch hl'⟩
        · exact Yields.pure h0
    by_cases hh : k.handrails = true
    · refine key (fun c => mathBlockRest r c >>= fun c => fullNumber k r >>= fun fn =>
        itemsOf c >>= fun l => pure (c.withItems (insertAt 2 (hrInfoZoneNumber fn false) l))) ?_ ?_ ?_
      · exact Keeps.bind (h1 _) fun c => Keeps.bind (fullNumber_keeps ..) fun _ =>
          Keeps.bind (itemsOf_keeps _) fun _ => Keeps.pure _
      · exact Yields.bindP h2 fun c hc' => Yields.bind (fullNumber_yields ..) fun fn =>
          Yields.bindP (itemsOf_yields c) fun l hl =>
            Yields.pure ((hc'.2 l hl).2 _ ((hc'.2 l hl).1.insertAt rfl))
      · simp only [leaveWith, hh, if_true]
        exact bind_assoc leaveNode (mathBlockRest r) _ s
    · refine key (mathBlockRest r) (h1 _) (h2.mono fun _ h => h.1) ?_
      simp only [leaveWith, hh]; rfl
  case Paragraph =>
    have h1 : ∀ c : Cmd, Keeps (paragraphRest r c) := fun c => by
      unfold paragraphRest; keeps; exact itemsOf_keeps _
    have h2 : Yields (fun c => c.Done ∧ ∀ l, c.items? = some l → DoneL l ∧ ∀ l', DoneL l' →
        (c.withItems l').Done) (paragraphRest r c0) := by
      have h0 : c0.Done ∧ ∀ l, c0.items? = some l → DoneL l ∧ ∀ l', DoneL l' →
          (c0.withItems l').Done :=
        ⟨hc.done, fun l hl => ⟨hc.items hl, fun l' hl' => hc.withItems hl'⟩⟩
      unfold paragraphRest
      refine Yields.bind (Yields.node r) fun t => ?_
      split
      · refine Yields.bindP (itemsOf_yields c0) fun l hl => Yields.pure ?_
        have hd : DoneL (.text "</p>" :: l) := DoneL.cons rfl (hc.items hl)
        refine ⟨hc.withItems hd, fun l' e => ?_⟩
        rcases hc with ⟨x, rfl⟩ | ⟨x, rfl⟩ <;>
          simp only [Cmd.items?, Cmd.withItems, Option.some.injEq] at e <;> subst e <;>
          exact ⟨hd, fun l' hl' => done_batch hl'⟩
      · exact Yields.pure h0
    by_cases hh : k.handrails = true
    · refine key (fun c => paragraphRest r c >>= fun c => infoBeforeLast c) ?_ ?_ ?_
      · exact Keeps.bind (h1 _) fun c => Keeps.bind (itemsOf_keeps _) fun _ => Keeps.pure _
      · exact Yields.bindP h2 fun c hc' => Yields.bindP (itemsOf_yields c) fun l hl =>
            Yields.pure ((hc'.2 l hl).2 _ ((hc'.2 l hl).1.insertAt rfl))
      · simp only [leaveWith, hh, if_true]
        exact bind_assoc leaveNode (paragraphRest r) _ s
    · refine key (fun c => paragraphRest r c >>= fun c => pure c)
        (Keeps.bind (h1 _) fun _ => Keeps.pure _)
        (Yields.bindP h2 fun c hc' => Yields.pure hc'.1) ?_
      simp only [leaveWith, hh]
      exact bind_assoc leaveNode (paragraphRest r) _ s
  case Proof =>
    by_cases hh : k.handrails = true
    · exact hinfo (hrInfoZoneIcon none) rfl (by simp only [leaveWith, hh, if_true])
    · refine key (fun c => itemsOf c >>= fun l => pure (.batch (insertBeforeLast halmos l))) ?_ ?_ ?_
      · exact Keeps.bind (itemsOf_keeps _) fun _ => Keeps.pure _
      · exact Yields.bindP (itemsOf_yields c0) fun l hl =>
          Yields.pure (done_batch ((hc.items hl).insertAt rfl))
      · simp only [leaveWith, hh]; rfl
  case Author =>
    refine key infoBeforeLast ?_ ?_ rfl
    · exact Keeps.bind (itemsOf_keeps _) fun _ => Keeps.pure _
    · exact Yields.bindP (itemsOf_yields c0) fun l hl =>
        Yields.pure (hc.withItems ((hc.items hl).insertAt rfl))
  case Step =>
    refine key (fun c => itemsOf c >>= fun l => fullNumber k r >>= fun fn =>
      pure (.batch (insertAt 1 (hrInfoZoneNumber fn true) l))) ?_ ?_ rfl
    · exact Keeps.bind (itemsOf_keeps _) fun _ => Keeps.bind (fullNumber_keeps ..) fun _ =>
        Keeps.pure _
    · exact Yields.bindP (itemsOf_yields c0) fun l hl => Yields.bind (fullNumber_yields ..) fun fn =>
        Yields.pure (done_batch ((hc.items hl).insertAt rfl))
  case Math =>
    refine key (fun c => node r >>= fun nd => if nd.followedByDot then (do
      let l ← itemsOf c
      pure (c.withItems (l ++ [.text "<span>.</span>", .text "</span>"]))) else pure c) ?_ ?_ rfl
    · keeps; exact itemsOf_keeps _
    · refine Yields.bind (Yields.node r) fun nd => ?_
      split
      · exact Yields.bindP (itemsOf_yields c0) fun l hl => Yields.pure (hc.withItems
          ((hc.items hl).append (DoneL.cons rfl (DoneL.cons rfl (fun _ h => by simp at h)))))
      · exact Yields.pure hc.done
  case Theorem => exact hinfo _ rfl rfl
  case Sketch => exact hinfo _ rfl rfl
  case Subproof => exact hinfo _ rfl rfl
  all_goals exact hnode rfl

end Tr
end RSM
