import Verif.Lemmas.SimParser
import Verif.Model.Translator

/-!
# The translators, side by side

For C87.
-/

namespace RSM
namespace History
open PyM Tr

/-- The states of two translators. -/
structure TwinTr (n : Nat) (s0 s : TrState) : Prop where
  heap : Twin n s0.heap s.heap
  body : s.body = s0.body
  deferred : s.deferred = s0.deferred
  tree : s.tree = s0.tree + n
  treeLt : s0.tree < s0.heap.next
  log : s.log = s0.log

/-- Code of the translators. -/
def trs (n : Nat) : Pairing TrState := ⟨fun s => s.heap.next, TwinTr n⟩

/-- `repr` shows no addresses, for the given number of objects. -/
def ReprAlike (reprOf : Heap → Ref → Str) (n : Nat) : Prop :=
  ∀ h0 h r, Twin n h0 h → r < h0.next → reprOf h (r + n) = reprOf h0 r

/-- The same translator, with more time. -/
def more (k : Conf) (f : Nat) : Conf := { k with fuel := f }

section
variable {n N : Nat} {r : Ref}

theorem s_readTr {α : Type} {k : Kind α} {f0 f : TrState → TrM α}
    (hf : ∀ s0 s, TwinTr n s0 s → N ≤ s0.heap.next → Sim (trs n) k s0.heap.next (f0 s0) (f s)) :
    Sim (trs n) k N (PyM.get >>= f0) (PyM.get >>= f) := s_get hf

theorem s_node (hr : r < N) : Sim (trs n) (record n) N (node r) (node (r + n)) := by
  intro s0 s T hm
  have T : TwinTr n s0 s := T
  have hr : r < s0.heap.next := Nat.lt_of_lt_of_le hr hm
  exact .ok T (Nat.le_refl _) (T.heap.bd r hr) (T.heap.get r hr)

theorem s_emit (x : Str) : Sim (trs n) plain N (emit x) (emit x) :=
  s_modify fun s0 s h _ => by
    have h : TwinTr n s0 s := h
    exact ⟨⟨h.heap, by show s.body ++ _ = s0.body ++ _; rw [h.body], h.deferred, h.tree, h.treeLt, h.log⟩, Nat.le_refl _⟩

theorem s_push (c : Cmd) : Sim (trs n) plain N (push c) (push c) :=
  s_modify fun s0 s h _ => by
    have h : TwinTr n s0 s := h
    exact ⟨⟨h.heap, h.body, by show c :: s.deferred = c :: s0.deferred; rw [h.deferred], h.tree, h.treeLt, h.log⟩, Nat.le_refl _⟩

theorem s_warnTr (w : Warning) : Sim (trs n) plain N (Tr.warn w) (Tr.warn w) :=
  s_modify fun s0 s h _ => by
    have h : TwinTr n s0 s := h
    exact ⟨⟨h.heap, h.body, h.deferred, h.tree, h.treeLt, by show s.log ++ _ = s0.log ++ _; rw [h.log]⟩, Nat.le_refl _⟩

theorem s_assignTr (f : NodeRec → NodeRec) (hr : r < N)
    (h1 : ∀ a, f (shiftRec n a) = shiftRec n (f a))
    (h2 : ∀ a, (f a).parent = a.parent ∧ (f a).kids = a.kids ∧ (f a).target = a.target ∧ (f a).targets = a.targets) :
    Sim (trs n) plain N (Tr.assign r f) (Tr.assign (r + n) f) :=
  s_modify fun s0 s h hm => by
    have h : TwinTr n s0 s := h
    have hm : N ≤ s0.heap.next := hm
    refine ⟨⟨h.heap.update (by omega) fun a ha => ⟨h1 a, ?_⟩, h.body, h.deferred, h.tree, h.treeLt, h.log⟩, Nat.le_refl _⟩
    obtain ⟨e1, e2, e3, e4⟩ := h2 a
    exact ⟨e1 ▸ ha.parent, e2 ▸ ha.kids, e3 ▸ ha.target, e4 ▸ ha.targets⟩

theorem s_item (i : Item) : Sim (trs n) plain N i.execute i.execute := by
  refine s_then (s_emit _) fun M _ hM => ?_
  cases i.deferred with
  | none => exact s_unit
  | some d => exact s_push _

theorem s_cmd (c : Cmd) : Sim (trs n) plain N c.execute c.execute := by
  cases c with
  | item i => exact s_item i
  | batch l => exact s_each (fun _ i _ => s_item i) l
  | batchDefer l => exact s_then (s_each (fun _ i _ => s_emit _) l) fun _ _ _ => s_push _

theorem s_liftTr {α : Type} (e : Except PyErr α) : Sim (trs n) plain N (Tr.lift e) (Tr.lift e) := by
  cases e with
  | error x => exact s_throw x
  | ok a => exact s_val a

theorem s_fullNumber {k : Conf} {f : Nat} (hk : k.fuel ≤ f) (hr : r < N) :
    Sim (trs n) plain N (Tr.fullNumber k r) (Tr.fullNumber (more k f) (r + n)) := by
  refine s_readTr fun s0 s T hm => ?_
  cases e : s0.heap.fullNumber k.fuel r with
  | none => exact s_outOfFuel
  | some x =>
    rw [show (more k f).fuel = f from rfl, T.heap.fullNumber hk (by omega) e]
    exact s_val x

theorem s_reftext {k : Conf} {f : Nat} (hk : k.fuel ≤ f) (hr : r < N) :
    Sim (trs n) plain N (reftext k r) (reftext (more k f) (r + n)) := by
  refine s_then (s_fullNumber hk hr) fun M x hM => s_readTr fun s0 s T hm => ?_
  rw [T.heap.get r (by omega)]
  exact s_then (s_liftTr _) fun _ _ _ => s_val _

theorem s_leaveNode : Sim (trs n) plain N leaveNode leaveNode := by
  refine s_readTr fun s0 s T hm => ?_
  rw [T.deferred]
  cases s0.deferred with
  | nil => exact s_throw _
  | cons c cs =>
    refine s_then (s_modify fun t0 t h _ => ?_) fun _ _ _ => s_val _
    have h : TwinTr n t0 t := h
    exact ⟨⟨h.heap, h.body, rfl, h.tree, h.treeLt, h.log⟩, Nat.le_refl _⟩

theorem s_itemsOf (c : Cmd) : Sim (trs n) plain N (itemsOf c) (itemsOf c) := by
  unfold itemsOf
  cases c.items? with
  | none => exact s_throw _
  | some l => exact s_val l

/-- Something said of the attributes of a node. -/
theorem s_says {α : Type} (f : NodeRec → α) (hr : r < N) (hf : ∀ a, f (shiftRec n a) = f a) :
    Sim (trs n) plain N (do let nd ← node r; pure (f nd)) (do let nd ← node (r + n); pure (f nd)) :=
  s_bind (s_node hr) fun _ a _ _ => s_pure trivial (hf a)

theorem s_visitNodeTr {k : Conf} {f : Nat} (R : ReprAlike k.reprOf n) (hr : r < N) :
    Sim (trs n) plain N (visitNode k r) (visitNode (more k f) (r + n)) := by
  refine s_readTr fun s0 s T hm => ?_
  show Sim _ _ _ _ (pure (Cmd.batchDefer [_, .text (k.reprOf s.heap (r + n) ++ ['\n'])]))
  rw [R _ _ r T.heap (by omega)]
  exact s_val _

theorem s_leaveAbstract (hr : r < N) : Sim (trs n) plain N (leaveAbstract r) (leaveAbstract (r + n)) :=
  s_bind (s_node hr) fun _ _ _ _ => s_then s_leaveNode fun _ _ _ => s_val _

theorem Twin.paragraphItems {h0 h : Heap} (T : Twin n h0 h) (hr : r < h0.next) : paragraphItems h (r + n) = paragraphItems h0 r := by
  unfold Tr.paragraphItems
  rw [T.get r hr, T.firstOfType hr, show ((h0.firstOfType r [.MathBlock]).map fun p => (p.1 + n, p.2)).isSome =
    (h0.firstOfType r [.MathBlock]).isSome from some_shift]
  rfl

theorem s_paragraphItems (hr : r < N) : Sim (trs n) plain N
    (do let t ← PyM.get; pure (Cmd.batchDefer (paragraphItems t.heap r)))
    (do let t ← PyM.get; pure (Cmd.batchDefer (paragraphItems t.heap (r + n)))) := by
  refine s_readTr fun s0 s T hm => ?_
  rw [T.heap.paragraphItems (by omega)]
  exact s_val _

theorem s_sectionHeading {k : Conf} {f : Nat} (hk : k.fuel ≤ f) (hr : r < N) :
    Sim (trs n) plain N (sectionHeading k r) (sectionHeading (more k f) (r + n)) := by
  refine s_bind (s_node hr) fun M a hM _ => s_ite Iff.rfl (fun _ => s_val _) fun _ => ?_
  exact s_then (s_fullNumber hk (by omega)) fun _ _ _ => s_val _

theorem s_sectionItems {k : Conf} {f : Nat} (hk : k.fuel ≤ f) (hr : r < N) :
    Sim (trs n) plain N (sectionItems k r) (sectionItems (more k f) (r + n)) := by
  refine s_bind (s_node hr) fun M a hM _ => ?_
  show Sim _ _ _ (match a.cls.level with | none => _ | some lvl => _) (match a.cls.level with | none => _ | some lvl => _)
  cases a.cls.level with
  | none => exact s_throw _
  | some lvl =>
    refine s_then (s_assignTr _ (by omega) (fun _ => rfl) fun _ => ⟨rfl, rfl, rfl, rfl⟩) fun K _ hK => ?_
    exact s_bind (s_node (by omega)) fun L b hL _ => s_then (s_sectionHeading hk (by omega)) fun _ _ _ => s_val _

theorem s_visitNote {k : Conf} {f : Nat} (hk : k.fuel ≤ f) (hr : r < N) :
    Sim (trs n) plain N (visitNote k r) (visitNote (more k f) (r + n)) :=
  s_bind (s_node hr) fun _ _ _ _ => s_then (s_fullNumber hk (by omega)) fun _ _ _ => s_val _

theorem s_visitMathBlock (hr : r < N) : Sim (trs n) plain N (visitMathBlock r) (visitMathBlock (r + n)) := by
  refine s_readTr fun s0 s T hm => ?_
  have hr : r < s0.heap.next := by omega
  have hp := T.heap.par hr
  rw [T.heap.parent hr, T.heap.get r hr]
  cases e : s0.heap.parent r with
  | none => exact s_throw _
  | some p =>
    simp only [Option.map_some, T.heap.isInst (hp p e)]
    exact s_ite Iff.rfl (fun _ => s_val _) fun _ => s_throw _

theorem s_leaveMathBlock (hr : r < N) : Sim (trs n) plain N (leaveMathBlock r) (leaveMathBlock (r + n)) := by
  refine s_then s_leaveNode fun M c hM => s_readTr fun s0 s T hm => ?_
  have hr : r < s0.heap.next := by omega
  have hp := T.heap.par hr
  rw [T.heap.parent hr]
  cases e : s0.heap.parent r with
  | none => exact s_val _
  | some p =>
    have hp := hp p e
    simp only [Option.map_some]
    rw [T.heap.isInst hp, T.heap.nextSibling hr]
    refine s_ite Iff.rfl (fun _ => ?_) fun _ => s_val _
    cases s0.heap.nextSibling r .any with
    | error x => exact s_throw x
    | ok o =>
      cases o with
      | none => exact s_val c
      | some x =>
        have key : Sim (trs n) plain s0.heap.next
            (do Tr.assign p fun nd => { nd with mustCloseP := true }
                let l ← itemsOf c
                pure (Cmd.batch (l ++ [.text "<p>"])))
            (do Tr.assign (p + n) fun nd => { nd with mustCloseP := true }
                let l ← itemsOf c
                pure (Cmd.batch (l ++ [.text "<p>"]))) :=
          s_then (s_assignTr _ hp (fun _ => rfl) fun _ => ⟨rfl, rfl, rfl, rfl⟩) fun _ _ _ =>
            s_then (s_itemsOf c) fun _ _ _ => s_val _
        exact key

theorem s_leaveParagraph (hr : r < N) : Sim (trs n) plain N (leaveParagraph r) (leaveParagraph (r + n)) :=
  s_then s_leaveNode fun _ _ _ => s_bind (s_node (by omega)) fun _ _ _ _ =>
    s_ite Iff.rfl (fun _ => s_then (s_itemsOf _) fun _ _ _ => s_val _) fun _ => s_val _

/-- A target of a link. -/
def shiftTgt (n : Nat) : Tgt → Tgt
  | .url s => .url s
  | .node r => .node (r + n)

/-- The target exists. -/
def TgtLt (N : Nat) : Tgt → Prop
  | .url _ => True
  | .node r => r < N

theorem TgtLt.mono {M : Nat} {t : Tgt} (h : TgtLt N t) (hM : N ≤ M) : TgtLt M t := by
  cases t with
  | url s => trivial
  | node r => exact Nat.lt_of_lt_of_le h hM

theorem s_checkTarget (t : Tgt) : Sim (trs n) plain N (checkTarget t) (checkTarget (shiftTgt n t)) := by
  cases t with
  | node r => exact s_unit
  | url s => cases s with
    | nil => exact s_throw _
    | cons c s => exact s_unit

theorem s_linkText {k : Conf} {f : Nat} (hk : k.fuel ≤ f) (hr : r < N) {t : Tgt} (ht : TgtLt N t) :
    Sim (trs n) plain N (linkText k r t) (linkText (more k f) (r + n) (shiftTgt n t)) := by
  refine s_bind (s_node hr) fun M a hM _ => s_ite Iff.rfl (fun _ => s_val _) fun _ => ?_
  cases t with
  | url s => exact s_val _
  | node x => exact s_reftext hk (Nat.lt_of_lt_of_le ht hM)

theorem s_addReferenceType (hr : r < N) : Sim (trs n) plain N (addReferenceType r) (addReferenceType (r + n)) :=
  s_bind (s_node hr) fun _ _ _ _ => s_ite Iff.rfl
    (fun _ => s_assignTr _ (by omega) (fun _ => rfl) fun _ => ⟨rfl, rfl, rfl, rfl⟩) fun _ => s_unit

theorem s_ahref {k : Conf} {f : Nat} (hk : k.fuel ≤ f) (hr : r < N) {t : Tgt} (ht : TgtLt N t) (href id : Str) (more_ : List Str) :
    Sim (trs n) plain N (ahref k r t href id more_) (ahref (more k f) (r + n) (shiftTgt n t) href id more_) :=
  s_then (s_checkTarget t) fun _ _ h1 => s_then (s_linkText hk (by omega) (ht.mono h1)) fun _ _ _ =>
    s_then (s_addReferenceType (by omega)) fun _ _ _ => s_bind (s_node (by omega)) fun _ _ _ _ => s_val _

theorem s_visitReference {k : Conf} {f : Nat} (hk : k.fuel ≤ f) (hr : r < N) :
    Sim (trs n) plain N (visitReference k r) (visitReference (more k f) (r + n)) := by
  refine s_readTr fun s0 s T hm => ?_
  have hr : r < s0.heap.next := by omega
  have hb := (T.heap.bd r hr).target
  rw [T.heap.get r hr, show (shiftRec n (s0.heap.get r)).target = shiftTarget n (s0.heap.get r).target from rfl]
  cases e : (s0.heap.get r).target with
  | none => exact s_throw _
  | str s => exact s_throw _
  | node x =>
    have hx := hb x e
    show Sim _ _ _ _ (ahref (more k f) (r + n) (.node (x + n)) ('#' :: (s.heap.get (x + n)).label) >>= fun s => pure (Cmd.item (.text s)))
    rw [T.heap.get x hx]
    exact s_then (s_ahref hk hr (t := .node x) hx _ _ _) fun _ _ _ => s_val _

theorem s_visitUrl {k : Conf} {f : Nat} (R : ReprAlike k.reprOf n) (hk : k.fuel ≤ f) (hr : r < N) :
    Sim (trs n) plain N (visitUrl k r) (visitUrl (more k f) (r + n)) := by
  refine s_readTr fun s0 s T hm => ?_
  have hr : r < s0.heap.next := by omega
  have hb := (T.heap.bd r hr).target
  rw [T.heap.get r hr, show (shiftRec n (s0.heap.get r)).target = shiftTarget n (s0.heap.get r).target from rfl]
  cases e : (s0.heap.get r).target with
  | none => exact s_throw _
  | str s => exact s_then (s_ahref hk hr (t := .url s) trivial _ _ _) fun _ _ _ => s_val _
  | node x =>
    have hx := hb x e
    show Sim _ _ _ _ (ahref (more k f) (r + n) (.node (x + n)) (k.reprOf s.heap (x + n)) >>= fun s => pure (Cmd.item (.text s)))
    rw [R _ _ x T.heap hx]
    exact s_then (s_ahref hk hr (t := .node x) hx _ _ _) fun _ _ _ => s_val _

theorem s_theoremNumber {k : Conf} {f : Nat} (hk : k.fuel ≤ f) (hr : r < N) :
    Sim (trs n) plain N (theoremNumber k r) (theoremNumber (more k f) (r + n)) :=
  s_bind (s_node hr) fun _ _ _ _ => s_ite Iff.rfl
    (fun _ => s_then (s_fullNumber hk (by omega)) fun _ _ _ => s_val _) fun _ => s_val _

theorem s_theoremItems {k : Conf} {f : Nat} (hk : k.fuel ≤ f) (hr : r < N) :
    Sim (trs n) plain N (theoremItems k r) (theoremItems (more k f) (r + n)) :=
  s_bind (s_node hr) fun _ _ _ _ => s_then (s_theoremNumber hk (by omega)) fun _ _ _ => s_val _

theorem s_markLast (hr : r < N) : Sim (trs n) plain N (markLast r) (markLast (r + n)) := by
  refine s_readTr fun s0 s T hm => ?_
  have hr : r < s0.heap.next := by omega
  rw [T.heap.lastOfType hr]
  cases e : s0.heap.lastOfType r [.Step] with
  | none => exact s_unit
  | some p => exact s_assignTr _ (T.heap.last_lt hr e) (fun _ => rfl) fun _ => ⟨rfl, rfl, rfl, rfl⟩

theorem s_proofItems (hr : r < N) : Sim (trs n) plain N (proofItems r) (proofItems (r + n)) :=
  s_then (s_markLast hr) fun _ _ _ => s_says (fun nd => [Item.openTag (nodeTag nd),
        Item.text (titleText (capitalize (lower nd.cls.name) ++ ".".toList) [])]) (by omega) fun _ => rfl

theorem s_leaveProof : Sim (trs n) plain N leaveProof leaveProof :=
  s_then s_leaveNode fun _ _ _ => s_then (s_itemsOf _) fun _ _ _ => s_val _

theorem s_citeTags {k : Conf} {f : Nat} (hk : k.fuel ≤ f) : ∀ {xs : List Ref} {N i : Nat}, r < N → (∀ x ∈ xs, x < N) →
    Sim (trs n) plain N (citeTags k r i xs) (citeTags (more k f) (r + n) i (xs.map (· + n)))
  | [], _, _, _, _ => s_val _
  | x :: xs, N, i, hr, hx => by
    refine s_readTr fun s0 s T hm => ?_
    have h1 := hx x (by simp)
    simp only []
    rw [T.heap.get x (by omega), T.heap.get r (by omega)]
    refine s_then (s_ahref hk (by omega) (t := .node x) (show x < s0.heap.next by omega) _ _ _) fun M y hM => ?_
    exact s_then (s_citeTags hk (xs := xs) (by omega) fun z hz => Nat.lt_of_lt_of_le (hx z (by simp [hz])) (by omega)) fun _ _ _ => s_val _

theorem s_visitCite {k : Conf} {f : Nat} (hk : k.fuel ≤ f) (hr : r < N) :
    Sim (trs n) plain N (visitCite k r) (visitCite (more k f) (r + n)) := by
  refine s_readTr fun s0 s T hm => ?_
  have hr : r < s0.heap.next := by omega
  have hb := (T.heap.bd r hr).targets
  dsimp only
  rw [T.heap.get r hr, show (shiftRec n (s0.heap.get r)).targets = (s0.heap.get r).targets.map (· + n) from rfl]
  match e : (s0.heap.get r).targets with
  | [] => exact s_then (s_citeTags hk (xs := []) hr (fun _ h => by cases h)) fun _ _ _ => s_val _
  | x :: y :: l =>
    rw [e] at hb
    exact s_then (s_citeTags hk (xs := x :: y :: l) hr hb) fun _ _ _ => s_val _
  | [x] =>
    have hx := hb x (by rw [e]; simp)
    show Sim _ _ _ _ (ahref (more k f) (r + n) (.node (x + n)) ('#' :: (s.heap.get (x + n)).label) _
      (if s.heap.isInst (x + n) .UnknownBibitem then _ else _) >>= _)
    rw [T.heap.get x hx, T.heap.isInst hx]
    exact s_then (s_ahref hk hr (t := .node x) hx _ _ _) fun _ _ _ => s_val _

theorem s_bibitemYear (a : NodeRec) : Sim (trs n) plain N (bibitemYear a) (bibitemYear (shiftRec n a)) := by
  refine s_ite Iff.rfl (fun _ => ?_) fun _ => s_then (s_warnTr _) fun _ _ _ => s_val _
  rw [show (shiftRec n a).year = a.year from rfl]
  cases a.year <;> first | exact s_val _ | exact s_throw _

theorem s_bibitemDoi (a : NodeRec) : Sim (trs n) plain N (bibitemDoi a) (bibitemDoi (shiftRec n a)) :=
  s_ite Iff.rfl (fun _ => s_val _) fun _ => s_then (s_warnTr _) fun _ _ _ => s_val _

theorem s_bibitemText (hr : r < N) : Sim (trs n) plain N (bibitemText r) (bibitemText (r + n)) :=
  s_bind (s_node hr) fun _ a _ _ => s_then (s_each (fun _ w _ => s_warnTr w) _) fun _ _ _ =>
    s_then (s_bibitemYear a) fun _ _ _ => s_then (s_bibitemDoi a) fun _ _ _ => s_val _

theorem s_visitFigure {k : Conf} {f : Nat} (hk : k.fuel ≤ f) (hr : r < N) :
    Sim (trs n) plain N (visitFigure k r) (visitFigure (more k f) (r + n)) :=
  s_bind (s_node hr) fun _ _ _ _ => s_then (s_fullNumber hk (by omega)) fun _ _ _ => s_val _

theorem s_visitCaption {k : Conf} {f : Nat} (hk : k.fuel ≤ f) (hr : r < N) :
    Sim (trs n) plain N (visitCaption k r) (visitCaption (more k f) (r + n)) := by
  refine s_readTr fun s0 s T hm => ?_
  have hr : r < s0.heap.next := by omega
  have hp := T.heap.par hr
  rw [T.heap.parent hr]
  cases e : s0.heap.parent r with
  | none => exact s_throw _
  | some p =>
    have hp := hp p e
    simp only [Option.map_some]
    rw [T.heap.isInst hp, T.heap.get p hp]
    exact s_then (s_fullNumber hk hp) fun _ _ _ => s_val _

/-! ## With handrails -/

theorem s_handrailItems {k : Conf} {f : Nat} (hk : k.fuel ≤ f) (hr : r < N) (add : List Str) (a b : Bool) :
    Sim (trs n) plain N (handrailItems k r add a b) (handrailItems (more k f) (r + n) add a b) :=
  s_bind (s_node hr) fun _ _ _ _ => s_then (s_reftext hk (by omega)) fun _ _ _ => s_val _

theorem Twin.minimapCircles {h0 h : Heap} (T : Twin n h0 h) (w : Bool) : ∀ {l : List Ref} (i : Nat), (∀ x ∈ l, x < h0.next) →
    minimapCircles h w i (l.map (· + n)) = minimapCircles h0 w i l
  | [], _, _ => rfl
  | x :: l, i, hl => by
    have hx := hl x (by simp)
    have hb := (T.bd x hx).target
    rw [List.map_cons, Tr.minimapCircles, Tr.minimapCircles, T.get x hx,
      show (shiftRec n (h0.get x)).target = shiftTarget n (h0.get x).target from rfl]
    cases e : (h0.get x).target with
    | none => rfl
    | str s => rfl
    | node t =>
      show (match radius (h.get (t + n)).cls with | none => _ | some rad => _) = _
      rw [T.get t (hb t e), show (shiftRec n (h0.get t)).cls = (h0.get t).cls from rfl,
        show (shiftRec n (h0.get t)).label = (h0.get t).label from rfl,
        Twin.minimapCircles T w (i + 1) fun y hy => hl y (by simp [hy])]
      rfl

theorem s_minimap {k : Conf} {f : Nat} (hk : k.fuel ≤ f) (hr : r < N) (follow : Str) (w : Bool) :
    Sim (trs n) plain N (minimap k r follow w) (minimap (more k f) (r + n) follow w) := by
  refine s_readTr fun s0 s T hm => ?_
  cases e : s0.heap.traverse (fun r => s0.heap.isInst r .Reference) k.fuel [r] with
  | none => exact s_outOfFuel
  | some l =>
    obtain ⟨e2, hl⟩ := T.heap.traverse (c := fun r => s.heap.isInst r .Reference) (fun r hr => T.heap.isInst hr _) hk
      (one_lt (show r < s0.heap.next by omega)) e
    rw [show (more k f).fuel = f from rfl]
    simp only [List.map_cons, List.map_nil] at e2
    rw [e2]
    simp only []
    rw [T.heap.minimapCircles w 0 hl, List.length_map]
    exact s_then (s_liftTr _) fun _ _ _ => s_val _

theorem s_hrVisitManuscript {k : Conf} {f : Nat} (hk : k.fuel ≤ f) (hr : r < N) :
    Sim (trs n) plain N (hrVisitManuscript k r) (hrVisitManuscript (more k f) (r + n)) := by
  refine s_readTr fun s0 s T hm => ?_
  have hr : r < s0.heap.next := by omega
  dsimp only
  rw [T.heap.get r hr, T.heap.firstOfType hr,
    show sourceDiv s.heap s.tree = sourceDiv s0.heap s0.tree by
      unfold sourceDiv; rw [T.tree, T.heap.get _ T.treeLt]; rfl,
    show manuscriptItems (shiftRec n (s0.heap.get r)) = manuscriptItems (s0.heap.get r) from rfl,
    show (shiftRec n (s0.heap.get r)).title = (s0.heap.get r).title from rfl,
    show (more k f).addSource = k.addSource from rfl]
  generalize (if k.addSource = true then _ else _ : List Item) = items
  cases e : s0.heap.firstOfType r [.Contents] with
  | none => exact s_val _
  | some p => exact s_then (s_minimap hk (T.heap.first_lt hr e) _ _) fun _ _ _ => s_val _

theorem s_hrVisitAuthor {k : Conf} {f : Nat} (hk : k.fuel ≤ f) (hr : r < N) :
    Sim (trs n) plain N (hrVisitAuthor k r) (hrVisitAuthor (more k f) (r + n)) :=
  s_bind (s_node hr) fun _ a _ _ => s_then (s_handrailItems hk (by omega) _ _ _) fun _ _ _ =>
    s_then (s_itemsOf (authorCmd a)) fun _ _ _ => s_val _

theorem s_infoBeforeLast (c : Cmd) : Sim (trs n) plain N (infoBeforeLast c) (infoBeforeLast c) :=
  s_then (s_itemsOf c) fun _ _ _ => s_val _

theorem s_wrapHeading {k : Conf} {f : Nat} (hk : k.fuel ≤ f) (hr : r < N) (l : List Item) :
    Sim (trs n) plain N (wrapHeading k r l) (wrapHeading (more k f) (r + n) l) :=
  s_bind (s_node hr) fun _ _ _ _ => s_then (s_reftext hk (by omega)) fun _ _ _ => s_val _

theorem s_wrapIf {k : Conf} {f : Nat} (hk : k.fuel ≤ f) (hr : r < N) (l : List Item) :
    Sim (trs n) plain N (wrapIf k r l) (wrapIf (more k f) (r + n) l) :=
  s_ite Iff.rfl (fun _ => s_wrapHeading hk hr l) fun _ => s_val _

theorem s_hrVisitContents {k : Conf} {f : Nat} (hk : k.fuel ≤ f) (hr : r < N) :
    Sim (trs n) plain N (hrVisitContents k r) (hrVisitContents (more k f) (r + n)) :=
  s_bind (s_node hr) fun _ a _ _ => s_then (s_wrapHeading hk (by omega) (contentsItems a)) fun _ _ _ =>
    s_then (s_minimap hk (by omega) _ _) fun _ _ _ => s_val _

theorem s_hrVisitBibliography {k : Conf} {f : Nat} (hk : k.fuel ≤ f) (hr : r < N) :
    Sim (trs n) plain N (hrVisitBibliography k r) (hrVisitBibliography (more k f) (r + n)) := by
  refine s_bind (s_node hr) fun M a hM _ => ?_
  have e : (bibliographyItems (shiftRec n a)).take 2 ++ [Item.openTag (nodeTag (shiftRec n a))] =
      (bibliographyItems a).take 2 ++ [.openTag (nodeTag a)] := by
    rw [show bibliographyItems (shiftRec n a) = bibliographyItems a from rfl, show nodeTag (shiftRec n a) = nodeTag a from rfl]
  show Sim _ _ _ _ (wrapHeading (more k f) (r + n)
    ((bibliographyItems (shiftRec n a)).take 2 ++ [Item.openTag (nodeTag (shiftRec n a))]) >>= _)
  rw [e]
  exact s_then (s_wrapHeading hk (by omega) _) fun _ _ _ => s_val _

theorem s_hrVisitParagraph {k : Conf} {f : Nat} (hk : k.fuel ≤ f) (hr : r < N) :
    Sim (trs n) plain N (hrVisitParagraph k r) (hrVisitParagraph (more k f) (r + n)) := by
  refine s_readTr fun s0 s T hm => ?_
  dsimp only
  rw [T.heap.get r (by omega), T.heap.paragraphItems (by omega)]
  exact s_then (s_reftext hk (by omega)) fun _ _ _ => s_val _

theorem s_hrLabeled {k : Conf} {f : Nat} (hk : k.fuel ≤ f) (hr : r < N) (l : List Item) (b : Bool) :
    Sim (trs n) plain N (hrLabeled k r l b) (hrLabeled (more k f) (r + n) l b) :=
  s_then (s_handrailItems hk hr _ _ _) fun _ _ _ => s_val _

theorem s_leaveInfo (i : Item) : Sim (trs n) plain N (leaveInfo i) (leaveInfo i) :=
  s_then s_leaveNode fun _ _ _ => s_then (s_itemsOf _) fun _ _ _ => s_val _

theorem s_hrVisitSubproof (hr : r < N) : Sim (trs n) plain N (hrVisitSubproof r) (hrVisitSubproof (r + n)) :=
  s_bind (s_node hr) fun _ _ _ _ => s_val _

theorem s_hrVisitStep {k : Conf} {f : Nat} (hk : k.fuel ≤ f) (hr : r < N) :
    Sim (trs n) plain N (hrVisitStep k r) (hrVisitStep (more k f) (r + n)) := by
  refine s_readTr fun s0 s T hm => ?_
  have hr : r < s0.heap.next := by omega
  dsimp only
  rw [T.heap.get r hr, T.heap.firstOfType hr]
  cases e : s0.heap.firstOfType r [.Subproof] with
  | none => exact s_then (s_reftext hk hr) fun _ _ _ => s_val _
  | some p =>
    simp only [Option.map_some]
    rw [T.heap.firstOfType (T.heap.first_lt hr e)]
    cases s0.heap.firstOfType p.1 [.Step] with
    | none => exact s_then (s_reftext hk hr) fun _ _ _ => s_val _
    | some q => exact s_then (s_reftext hk hr) fun _ _ _ => s_val _

theorem s_hrLeaveStep {k : Conf} {f : Nat} (hk : k.fuel ≤ f) (hr : r < N) :
    Sim (trs n) plain N (hrLeaveStep k r) (hrLeaveStep (more k f) (r + n)) :=
  s_then s_leaveNode fun _ _ _ => s_then (s_itemsOf _) fun _ _ _ => s_then (s_fullNumber hk (by omega)) fun _ _ _ => s_val _

theorem s_hrVisitMath (hr : r < N) : Sim (trs n) plain N (hrVisitMath r) (hrVisitMath (r + n)) := by
  refine s_readTr fun s0 s T hm => ?_
  have hr : r < s0.heap.next := by omega
  dsimp only
  rw [T.heap.get r hr, T.heap.nextSibling hr]
  cases e : s0.heap.nextSibling r .any with
  | error x => exact s_throw x
  | ok o =>
    cases o with
    | none => exact s_val _
    | some x =>
      have hx := T.heap.next_lt hr e
      show Sim _ _ _ _ (if s.heap.isInst (x + n) .Text then (match (s.heap.get (x + n)).text with | '.' :: rest => _ | _ => _) else _)
      rw [T.heap.isInst hx, T.heap.get x hx]
      refine s_ite Iff.rfl (fun _ => ?_) fun _ => s_val _
      rw [show (shiftRec n (s0.heap.get x)).text = (s0.heap.get x).text from rfl]
      have key : ∀ rest : Str, Sim (trs n) plain s0.heap.next
          (do Tr.assign r fun nd => { nd with followedByDot := true }
              Tr.assign x fun nd => { nd with text := rest }
              pure (Cmd.batchDefer (Item.openManual { tag := "span", classes := ["inline-math-wrapper"], newlineOuter := false } :: mathItems (s0.heap.get r))))
          (do Tr.assign (r + n) fun nd => { nd with followedByDot := true }
              Tr.assign (x + n) fun nd => { nd with text := rest }
              pure (Cmd.batchDefer (Item.openManual { tag := "span", classes := ["inline-math-wrapper"], newlineOuter := false } :: mathItems (s0.heap.get r)))) := fun rest =>
        s_then (s_assignTr _ hr (fun _ => rfl) fun _ => ⟨rfl, rfl, rfl, rfl⟩) fun M _ hM =>
          s_then (s_assignTr _ (by omega) (fun _ => rfl) fun _ => ⟨rfl, rfl, rfl, rfl⟩) fun _ _ _ => s_val _
      generalize (s0.heap.get x).text = tx
      split
      · exact key _
      · rename_i hne
        split
        · exact absurd rfl (hne _)
        · exact s_val _

theorem s_hrLeaveMath (hr : r < N) : Sim (trs n) plain N (hrLeaveMath r) (hrLeaveMath (r + n)) :=
  s_then s_leaveNode fun _ _ _ => s_bind (s_node (by omega)) fun _ _ _ _ =>
    s_ite Iff.rfl (fun _ => s_then (s_itemsOf _) fun _ _ _ => s_val _) fun _ => s_val _

theorem s_mathBlockLabel {k : Conf} {f : Nat} (hk : k.fuel ≤ f) (hr : r < N) :
    Sim (trs n) plain N (mathBlockLabel k r) (mathBlockLabel (more k f) (r + n)) :=
  s_bind (s_node hr) fun _ _ _ _ => s_ite Iff.rfl (fun _ => s_val _) fun _ =>
    s_then (s_reftext hk (by omega)) fun _ _ _ => s_val _

theorem s_hrVisitMathBlock {k : Conf} {f : Nat} (hk : k.fuel ≤ f) (hr : r < N) :
    Sim (trs n) plain N (hrVisitMathBlock k r) (hrVisitMathBlock (more k f) (r + n)) :=
  s_bind (s_node hr) fun _ _ _ _ => s_then (s_mathBlockLabel hk (by omega)) fun _ _ _ => s_val _

theorem s_hrLeaveMathBlock {k : Conf} {f : Nat} (hk : k.fuel ≤ f) (hr : r < N) :
    Sim (trs n) plain N (hrLeaveMathBlock k r) (hrLeaveMathBlock (more k f) (r + n)) :=
  s_then (s_leaveMathBlock hr) fun _ _ _ => s_then (s_fullNumber hk (by omega)) fun _ _ _ =>
    s_then (s_itemsOf _) fun _ _ _ => s_val _

theorem s_hrVisitBibitem (hr : r < N) : Sim (trs n) plain N (hrVisitBibitem r) (hrVisitBibitem (r + n)) := by
  refine s_bind (s_node hr) fun _ a _ _ => s_then (s_bibitemText (by omega)) fun _ t _ => ?_
  cases searchDoi t with
  | none => exact s_then (s_warnTr _) fun _ _ _ => s_val _
  | some p => exact s_val _

/-! ## The loop -/

theorem s_visitWith {k : Conf} {f : Nat} (R : ReprAlike k.reprOf n) (hk : k.fuel ≤ f) (hr : r < N) (owner : Cls) :
    Sim (trs n) plain N (visitWith k owner r) (visitWith (more k f) owner (r + n)) := by
  cases owner
  case Manuscript => exact s_ite Iff.rfl (fun _ => s_hrVisitManuscript hk hr) fun _ => s_says (fun nd => Cmd.batchDefer (manuscriptItems nd)) hr fun _ => rfl
  case Author => exact s_ite Iff.rfl (fun _ => s_hrVisitAuthor hk hr) fun _ => s_says authorCmd hr fun _ => rfl
  case Abstract => exact s_bind (s_node hr) fun _ a _ _ => s_then (s_wrapIf hk (by omega) (abstractItems a)) fun _ _ _ => s_val _
  case Paragraph => exact s_ite Iff.rfl (fun _ => s_hrVisitParagraph hk hr) fun _ => s_paragraphItems hr
  case Step => exact s_ite Iff.rfl (fun _ => s_hrVisitStep hk hr) fun _ => s_says (fun nd => Cmd.item (.openTag (nodeTag nd))) hr fun _ => rfl
  case Section => exact s_then (s_sectionItems hk hr) fun _ _ _ => s_then (s_wrapIf hk (by omega) _) fun _ _ _ => s_val _
  case Contents => exact s_ite Iff.rfl (fun _ => s_hrVisitContents hk hr) fun _ => s_says (fun nd => Cmd.batchDefer (contentsItems nd)) hr fun _ => rfl
  case Note => exact s_visitNote hk hr
  case Math => exact s_ite Iff.rfl (fun _ => s_hrVisitMath hr) fun _ => s_says (fun nd => Cmd.batchDefer (mathItems nd)) hr fun _ => rfl
  case MathBlock => exact s_ite Iff.rfl (fun _ => s_hrVisitMathBlock hk hr) fun _ => s_visitMathBlock hr
  case Reference => exact s_visitReference hk hr
  case URL => exact s_visitUrl R hk hr
  case Theorem => exact s_then (s_theoremItems hk hr) fun _ _ _ => s_ite Iff.rfl (fun _ => s_hrLabeled hk (by omega) _ _) fun _ => s_val _
  case Subproof => exact s_ite Iff.rfl (fun _ => s_hrVisitSubproof hr) fun _ => s_says (fun nd => Cmd.batchDefer [.openTag (nodeTag nd)]) hr fun _ => rfl
  case Sketch => exact s_bind (s_node hr) fun _ a _ _ => s_ite Iff.rfl (fun _ => s_hrLabeled hk (by omega) (sketchItems a) _) fun _ => s_val _
  case Proof => exact s_then (s_proofItems hr) fun _ _ _ => s_ite Iff.rfl (fun _ => s_hrLabeled hk (by omega) _ _) fun _ => s_val _
  case Cite => exact s_visitCite hk hr
  case Bibliography => exact s_ite Iff.rfl (fun _ => s_hrVisitBibliography hk hr) fun _ => s_says (fun nd => Cmd.batchDefer (bibliographyItems nd)) hr fun _ => rfl
  case Bibitem => exact s_ite Iff.rfl (fun _ => s_hrVisitBibitem hr) fun _ => s_bind (s_node hr) fun _ a _ _ => s_then (s_bibitemText (by omega)) fun _ _ _ => s_val _
  case Figure => exact s_visitFigure hk hr
  case Caption => exact s_visitCaption hk hr
  case Appendix => exact s_val _
  all_goals first
    | exact s_visitNodeTr R hr
    | exact s_bind (s_node hr) fun _ _ _ _ => s_val _

theorem s_leaveWith {k : Conf} {f : Nat} (hk : k.fuel ≤ f) (hr : r < N) (owner : Cls) :
    Sim (trs n) plain N (leaveWith k owner r) (leaveWith (more k f) owner (r + n)) := by
  cases owner
  case Abstract => exact s_leaveAbstract hr
  case MathBlock => exact s_ite Iff.rfl (fun _ => s_hrLeaveMathBlock hk hr) fun _ => s_leaveMathBlock hr
  case Paragraph => exact s_then (s_leaveParagraph hr) fun _ _ _ => s_ite Iff.rfl (fun _ => s_infoBeforeLast _) fun _ => s_val _
  case Proof => exact s_ite Iff.rfl (fun _ => s_leaveInfo _) fun _ => s_leaveProof
  case Author => exact s_then s_leaveNode fun _ _ _ => s_infoBeforeLast _
  case Step => exact s_hrLeaveStep hk hr
  case Math => exact s_hrLeaveMath hr
  all_goals first | exact s_leaveNode | exact s_leaveInfo _

theorem s_visitTr {k : Conf} {f : Nat} (R : ReprAlike k.reprOf n) (hk : k.fuel ≤ f) (hr : r < N) :
    Sim (trs n) plain N (Tr.visit k r) (Tr.visit (more k f) (r + n)) :=
  s_bind (s_node hr) fun _ a _ _ => s_then (s_liftTr (methodClass visitNames a.cls)) fun _ c _ => s_visitWith R hk (by omega) c

theorem s_leaveTr {k : Conf} {f : Nat} (hk : k.fuel ≤ f) (hr : r < N) :
    Sim (trs n) plain N (Tr.leave k r) (Tr.leave (more k f) (r + n)) :=
  s_bind (s_node hr) fun _ a _ _ => s_then (s_liftTr (methodClass (leaveNames k.handrails) a.cls)) fun _ c _ => s_leaveWith hk (by omega) c

/-- An entry of the stack. -/
def shiftAct (n : Nat) : Act → Act
  | .visit r => .visit (r + n)
  | .leave r => .leave (r + n)

/-- The node of the entry exists. -/
def ActLt (N : Nat) : Act → Prop
  | .visit r => r < N
  | .leave r => r < N

theorem ActLt.mono {M : Nat} {t : Act} (h : ActLt N t) (hM : N ≤ M) : ActLt M t := by
  cases t <;> exact Nat.lt_of_lt_of_le h hM

theorem s_trLoop {k : Conf} {f : Nat} (R : ReprAlike k.reprOf n) (hk : k.fuel ≤ f) : ∀ {i j : Nat} {st : List Act} {N : Nat}, i ≤ j →
    (∀ a ∈ st, ActLt N a) → Sim (trs n) plain N (trLoop k i st) (trLoop (more k f) j (st.map (shiftAct n)))
  | _, _, [], _, _, _ => by unfold trLoop; exact s_unit
  | 0, _, _ :: _, _, _, _ => by unfold trLoop; exact s_outOfFuel
  | i + 1, 0, _ :: _, _, h, _ => by omega
  | i + 1, j + 1, .visit r :: st, N, h, hs => by
    have hr : r < N := hs _ List.mem_cons_self
    rw [List.map_cons, shiftAct, trLoop, trLoop]
    refine s_then (s_visitTr R hk hr) fun M c hM => s_readTr fun s0 s T hm => s_then (s_cmd c) fun K _ hK => ?_
    rw [T.heap.children (by omega)]
    have e : ((s0.heap.children r).map (· + n)).map Act.visit ++ (if c.defers then [Act.leave (r + n)] else []) ++ st.map (shiftAct n) =
        ((s0.heap.children r).map Act.visit ++ (if c.defers then [Act.leave r] else []) ++ st).map (shiftAct n) := by
      rw [List.map_append, List.map_append, List.map_map, List.map_map]
      cases c.defers <;> rfl
    rw [e]
    refine s_trLoop R hk (by omega) fun a ha => ?_
    rcases List.mem_append.1 ha with ha | ha
    · rcases List.mem_append.1 ha with ha | ha
      · obtain ⟨x, hx, rfl⟩ := List.mem_map.1 ha
        exact Nat.lt_of_lt_of_le (T.heap.kid (by omega) x hx) hK
      · split at ha
        · cases List.mem_singleton.1 ha
          show r < K
          omega
        · cases ha
    · exact (hs a (List.mem_cons_of_mem _ ha)).mono (by omega)
  | i + 1, j + 1, .leave r :: st, N, h, hs => by
    have hr : r < N := hs _ List.mem_cons_self
    rw [List.map_cons, shiftAct, trLoop, trLoop]
    refine s_then (s_leaveTr hk hr) fun M c hM => s_then (s_cmd c) fun K _ hK => ?_
    exact s_trLoop R hk (by omega) fun a ha => (hs a (List.mem_cons_of_mem _ ha)).mono (by omega)

theorem s_requireNoDeferred : Sim (trs n) plain N requireNoDeferred requireNoDeferred := by
  refine s_readTr fun s0 s T hm => ?_
  rw [T.deferred]
  exact s_ite Iff.rfl (fun _ => s_throw _) fun _ => s_unit

/-- The states of two translators that have not begun. -/
structure TwinTr0 (n : Nat) (s0 s : TrState) : Prop where
  heap : Twin n s0.heap s.heap
  deferred : s.deferred = s0.deferred
  log : s.log = s0.log

theorem a_translate {k : Conf} {f : Nat} (R : ReprAlike k.reprOf n) (hk : k.fuel ≤ f) {s0 s : TrState} (T : TwinTr0 n s0 s)
    (hr : r < s0.heap.next) :
    Alike (trs n) plain s0.heap.next (Tr.translate k r s0) (Tr.translate (more k f) (r + n) s) := by
  have key : Sim (trs n) (plain (α := Str)) s0.heap.next
      (do requireNoDeferred
          trLoop k k.fuel [.visit r]
          requireNoDeferred
          gets (·.body))
      (do requireNoDeferred
          trLoop (more k f) f [.visit (r + n)]
          requireNoDeferred
          gets (·.body)) :=
    s_then s_requireNoDeferred fun M _ hM => s_then (s_trLoop R hk (st := [.visit r]) hk fun a ha => by
      cases List.mem_singleton.1 ha
      show r < M
      omega) fun _ _ _ => s_then s_requireNoDeferred fun _ _ _ => fun t0 t h _ => by
        have h : TwinTr n t0 t := h
        exact .ok h (Nat.le_refl _) trivial h.body
  exact key { s0 with body := [], tree := r } { s with body := [], tree := r + n }
    ⟨T.heap, rfl, T.deferred, rfl, hr, T.log⟩ (Nat.le_refl _)

end
end History
end RSM
