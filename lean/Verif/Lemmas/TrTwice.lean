import Verif.Lemmas.TrWeave
import Verif.Lemmas.TrTags

/-! # Lemmas: translating twice with the plain translator -/

namespace RSM
namespace Tr
open PyM

/-! ## Lists of classes -/

theorem filter_fromKeys (p : Str → Bool) (l : List Str) :
    (fromKeys l).filter p = fromKeys (l.filter p) := by
  induction l with
  | nil => rfl
  | cons a l ih =>
    by_cases ha : p a = true
    · simp only [fromKeys, List.filter_cons, ha, if_true, List.filter_filter]
      rw [← ih, List.filter_filter]
      congr 1
      exact List.filter_congr fun x _ => Bool.and_comm _ _
    · simp only [fromKeys, List.filter_cons, ha, Bool.false_eq_true, if_false]
      rw [← ih, List.filter_filter]
      refine List.filter_congr fun x _ => ?_
      by_cases hx : x = a
      · subst hx; simp [ha]
      · simp [hx]

theorem fromKeys_append (l m : List Str) :
    fromKeys (l ++ m) = fromKeys l ++ fromKeys (m.filter (· ∉ l)) := by
  induction l with
  | nil => simp only [List.nil_append, fromKeys, List.not_mem_nil, not_false_eq_true, decide_true]; rw [List.filter_eq_self.mpr (fun _ _ => rfl)]
  | cons a l ih =>
    simp only [List.cons_append, fromKeys, ih, List.filter_append, filter_fromKeys, List.filter_filter]
    congr 3
    refine List.filter_congr fun x _ => ?_
    simp

theorem fromKeys_append_congr {l l' : List Str} (h : fromKeys l = fromKeys l') (m) :
    fromKeys (l ++ m) = fromKeys (l' ++ m) := by
  rw [fromKeys_append, fromKeys_append, h]
  congr 2
  refine List.filter_congr fun x _ => ?_
  have : x ∈ l ↔ x ∈ l' := by rw [← mem_fromKeys, h, mem_fromKeys]
  simp [this]

theorem fromKeys_cons_congr {l l' : List Str} (h : fromKeys l = fromKeys l') (a) :
    fromKeys (a :: l) = fromKeys (a :: l') := by
  simp [fromKeys, h]

theorem fromKeys_append_mem {l : List Str} {x : Str} (h : x ∈ l) : fromKeys (l ++ [x]) = fromKeys l := by
  rw [fromKeys_append]; simp [h, fromKeys]

theorem fromKeys_dup (a : Str) (l : List Str) : fromKeys (a :: a :: l) = fromKeys (a :: l) := by
  simp [fromKeys, List.filter_filter]

/-! ## What the plain translator does to a node -/

/-- The classes of a link after `classes.insert(0, "reference")`. -/
def ensureRef (l : List Str) : List Str :=
  if "reference".toList ∈ l then l else "reference".toList :: l

theorem ensureRef_idem (l) : ensureRef (ensureRef l) = ensureRef l := by
  unfold ensureRef; split <;> simp [*]

/-- The last step of a proof. -/
def Marked (h : Heap) (x : Ref) : Prop :=
  ∃ p i, h.parent x = some p ∧ methodClass visitNames (h.get p).cls = .ok .Proof ∧
    h.lastOfType p [.Step] = some (x, i)

/-- A paragraph with a display formula that is not its last child. -/
def Closes (h : Heap) (p : Ref) : Prop :=
  ∃ m ∈ h.children p, methodClass (leaveNames false) (h.get m).cls = .ok .MathBlock ∧
    h.parent m = some p ∧ h.isInst p .BaseParagraph = true ∧ ∃ y, h.nextSibling m .any = .ok (some y)

open Classical in
/-- What the types of a node amount to once it is written. -/
noncomputable def norm (h0 : Heap) (x : Ref) (types : List Str) : List Str :=
  match methodClass visitNames (h0.get x).cls with
  | .ok .Section => match (h0.get x).cls.level with
    | some l => fromKeys (("level-".toList ++ natStr l) :: types)
    | none => types
  | .ok .Reference => ensureRef types
  | .ok .Cite => ensureRef types
  | _ => if Marked h0 x then fromKeys (types ++ ["last".toList]) else types

/-- `b` is `a` after some work of the plain translator. -/
structure Later (h0 a b : Heap) : Prop where
  shape : SameFrame h0 a
  frame : SameFrame a b
  text : ∀ x, (b.get x).text = (a.get x).text
  dot : ∀ x, (b.get x).followedByDot = (a.get x).followedByDot
  types : ∀ x, norm h0 x (b.get x).types = norm h0 x (a.get x).types
  grow : ∀ x, ∀ y ∈ (a.get x).types, y ∈ (b.get x).types
  close : ∀ x, (b.get x).mustCloseP = (a.get x).mustCloseP ∨
    (Closes h0 x ∧ (b.get x).mustCloseP = true)

variable {h0 : Heap}

theorem Later.refl {a} (h : SameFrame h0 a) : Later h0 a a :=
  ⟨h, SameFrame.refl _, fun _ => rfl, fun _ => rfl, fun _ => rfl, fun _ _ h => h, fun _ => .inl rfl⟩

theorem Later.trans {a b c} (h1 : Later h0 a b) (h2 : Later h0 b c) : Later h0 a c where
  shape := h1.shape
  frame := h1.frame.trans h2.frame
  text x := (h2.text x).trans (h1.text x)
  dot x := (h2.dot x).trans (h1.dot x)
  types x := (h2.types x).trans (h1.types x)
  grow x y hy := h2.grow x y (h1.grow x y hy)
  close x := by
    rcases h2.close x with h | h
    · rcases h1.close x with h' | h'
      · exact .inl (h.trans h')
      · exact .inr ⟨h'.1, h.trans h'.2⟩
    · exact .inr h

/-- Changing the types of one node. -/
theorem Later.addTypes {a : Heap} (h : SameFrame h0 a) (r : Ref) (g : List Str → List Str)
    (hg : norm h0 r (g (a.get r).types) = norm h0 r (a.get r).types)
    (hs : ∀ y ∈ (a.get r).types, y ∈ g (a.get r).types) :
    Later h0 a (a.update r fun nd => { nd with types := g nd.types }) := by
  refine ⟨h, SameFrame.update _ _ _ fun _ => rfl, fun x => ?_, fun x => ?_, fun x => ?_, fun x => ?_,
    fun x => .inl ?_⟩
  all_goals
    rw [Heap.get_update]
    by_cases hx : x = r
    · subst hx; simp only [if_true]; try assumption
    · simp only [if_neg hx]; try exact fun _ h => h

theorem Later.setClose {a : Heap} (h : SameFrame h0 a) (r : Ref) (hc : Closes h0 r) :
    Later h0 a (a.update r fun nd => { nd with mustCloseP := true }) := by
  refine ⟨h, SameFrame.update _ _ _ fun _ => rfl, fun x => ?_, fun x => ?_, fun x => ?_, fun x => ?_,
    fun x => ?_⟩
  all_goals
    rw [Heap.get_update]
    by_cases hx : x = r
    · subst hx; simp only [if_true]; try first | exact fun _ h => h | exact .inr ⟨hc, trivial⟩
    · simp only [if_neg hx]; try first | exact fun _ h => h | exact .inl trivial

/-- Changing the types of one node in both heaps. -/
theorem Later.addTypes₂ {a b : Heap} (h : Later h0 a b) (r : Ref) {f f' : NodeRec → NodeRec}
    {X Y : List Str} (hf : f (a.get r) = { a.get r with types := X })
    (hf' : f' (b.get r) = { b.get r with types := Y })
    (hg : norm h0 r Y = norm h0 r X) (hs : ∀ y ∈ X, y ∈ Y) :
    Later h0 (a.update r f) (b.update r f') := by
  have hsh : SameFrame a (a.update r f) := ⟨rfl, fun x => by
    rw [Heap.get_update]; split
    · rename_i e; subst e; rw [hf]; rfl
    · rfl⟩
  refine ⟨h.shape.trans hsh, ⟨h.frame.1, fun x => ?_⟩, fun x => ?_, fun x => ?_, fun x => ?_,
    fun x => ?_, fun x => ?_⟩
  all_goals
    rw [Heap.get_update, Heap.get_update]
    by_cases hx : x = r
    · subst hx; simp only [if_true, hf, hf']
      first
        | assumption | exact h.text _ | exact h.dot _ | exact h.close _ | exact h.frame.2 _
    · simp only [if_neg hx]
      first
        | exact h.frame.2 _ | exact h.text _ | exact h.dot _ | exact h.types _ | exact h.grow _
        | exact h.close _

theorem Later.setClose₂ {a b : Heap} (h : Later h0 a b) (r : Ref) :
    Later h0 (a.update r fun nd => { nd with mustCloseP := true })
      (b.update r fun nd => { nd with mustCloseP := true }) := by
  have hsh : SameFrame a (a.update r fun nd => { nd with mustCloseP := true }) :=
    SameFrame.update _ _ _ fun _ => rfl
  refine ⟨h.shape.trans hsh, ⟨h.frame.1, fun x => ?_⟩, fun x => ?_, fun x => ?_, fun x => ?_,
    fun x => ?_, fun x => ?_⟩
  all_goals
    rw [Heap.get_update, Heap.get_update]
    by_cases hx : x = r
    · subst hx; simp only [if_true]
      first
        | exact h.frame.2 _ | exact h.text _ | exact h.dot _ | exact h.types _ | exact h.grow _
        | exact .inl trivial
    · simp only [if_neg hx]
      first
        | exact h.frame.2 _ | exact h.text _ | exact h.dot _ | exact h.types _ | exact h.grow _
        | exact h.close _

/-! ## One run -/

/-- A program whose writes to the heap are of the kind described by `Later`. -/
structure Traces {α : Type} (h0 : Heap) (m : TrM α) : Prop where
  trace : ∀ s, SameFrame h0 s.heap → Later h0 s.heap (m s).state.heap

section
variable {α β : Type}
theorem Traces.of_reads {m : TrM α} (h : Reads m) : Traces h0 m :=
  ⟨fun s hs => by rw [h.reads s]; exact Later.refl hs⟩
theorem Traces.bind {m : TrM α} {f : α → TrM β} (hm : Traces h0 m) (hf : ∀ a, Traces h0 (f a)) :
    Traces h0 (m >>= f) := by
  constructor
  intro s hs
  have h := hm.trace s hs
  rw [bind_apply]
  cases e : m s with
  | ok a s' => rw [e] at h; exact h.trans ((hf a).trace s' (hs.trans h.frame))
  | err x s' => rw [e] at h; exact h
theorem Traces.assign {r : Ref} {f} (h : ∀ a, SameFrame h0 a → Later h0 a (a.update r f)) :
    Traces h0 (Tr.assign r f) := ⟨fun s hs => h s.heap hs⟩
/-- The next program may use what is known about the node. -/
theorem Traces.node {r : Ref} {f : NodeRec → TrM β}
    (hf : ∀ s, SameFrame h0 s.heap → Later h0 s.heap (f (s.heap.get r) s).state.heap) :
    Traces h0 (Tr.node r >>= f) := ⟨fun s hs => hf s hs⟩
theorem Traces.get {f : TrState → TrM β}
    (hf : ∀ t, SameFrame h0 t.heap → Traces h0 (f t)) :
    Traces h0 (PyM.get >>= f) := ⟨fun s hs => (hf s hs).trace s hs⟩
end

theorem norm_section {r : Ref} {l : Nat}
    (ho : methodClass visitNames (h0.get r).cls = .ok .Section) (hl : (h0.get r).cls.level = some l)
    (ts : List Str) : norm h0 r ts = fromKeys (("level-".toList ++ natStr l) :: ts) := by
  simp only [norm, ho, hl]

theorem norm_ref {r : Ref} (ho : methodClass visitNames (h0.get r).cls = .ok .Reference ∨
      methodClass visitNames (h0.get r).cls = .ok .Cite) (ts : List Str) :
    norm h0 r ts = ensureRef ts := by
  rcases ho with ho | ho <;> simp only [norm, ho]

theorem step_owner (c : Cls) (h : c.isSub .Step = true) :
    methodClass visitNames c ≠ .ok .Section ∧ methodClass visitNames c ≠ .ok .Reference ∧
      methodClass visitNames c ≠ .ok .Cite := by
  cases c <;> first | (exact absurd h (by decide)) | (refine ⟨?_, ?_, ?_⟩ <;> intro h <;> cases h)

theorem norm_plain {r : Ref} (h1 : methodClass visitNames (h0.get r).cls ≠ .ok .Section)
    (h2 : methodClass visitNames (h0.get r).cls ≠ .ok .Reference)
    (h3 : methodClass visitNames (h0.get r).cls ≠ .ok .Cite) (ts : List Str) :
    (Marked h0 r → norm h0 r ts = fromKeys (ts ++ ["last".toList])) ∧
      (¬ Marked h0 r → norm h0 r ts = ts) := by
  unfold norm
  split
  · exact absurd (by assumption) h1
  · exact absurd (by assumption) h2
  · exact absurd (by assumption) h3
  · exact ⟨fun h => by rw [if_pos h], fun h => by rw [if_neg h]⟩

theorem lastOfType_spec {h : Heap} {p x : Ref} {i cs} (he : h.lastOfType p cs = some (x, i)) :
    x ∈ h.children p ∧ h.isInstAny x cs = true := by
  unfold Heap.lastOfType at he
  rw [Option.map_eq_some_iff] at he
  obtain ⟨⟨y, j⟩, he, e⟩ := he
  have h1 := List.mem_of_find?_eq_some he
  have h2 := List.find?_some he
  simp only [Prod.mk.injEq] at e
  obtain ⟨rfl, _⟩ := e
  have := List.mem_zipIdx h1
  refine ⟨?_, h2⟩
  have := List.fst_mem_of_mem_zipIdx h1
  simpa using this

/-- What a tree guarantees about the children of a node. -/
def KidsOf (h : Heap) (r : Ref) : Prop := ∀ x ∈ h.children r, h.parent x = some r

theorem markLast_later {a : Heap} (hs : SameFrame h0 a) {r x i} (hk : KidsOf h0 r)
    (ho : methodClass visitNames (h0.get r).cls = .ok .Proof)
    (he : a.lastOfType r [.Step] = some (x, i)) :
    Marked h0 x ∧ methodClass visitNames (h0.get x).cls ≠ .ok .Section ∧
      methodClass visitNames (h0.get x).cls ≠ .ok .Reference ∧
      methodClass visitNames (h0.get x).cls ≠ .ok .Cite := by
  rw [hs.lastOfType] at he
  obtain ⟨h1, h2⟩ := lastOfType_spec he
  refine ⟨⟨r, i, hk x h1, ho, he⟩, step_owner _ ?_⟩
  simpa [Heap.isInstAny, Cls.isSubAny] using h2

theorem sectionItems_traces (k r) (ho : methodClass visitNames (h0.get r).cls = .ok .Section) :
    Traces h0 (sectionItems k r) := by
  have h1 := sectionHeading_reads k r
  unfold sectionItems
  refine Traces.node fun s hs => ?_
  rw [hs.cls]
  cases hl : (h0.get r).cls.level with
  | none => exact Later.refl hs
  | some l =>
    refine (Traces.bind (Traces.assign fun a ha => ?_) fun _ => Traces.of_reads ?_).trace s hs
    · refine Later.addTypes ha r (("level-".toList ++ natStr l) :: ·) ?_ fun y hy => List.mem_cons_of_mem _ hy
      rw [norm_section ho hl, norm_section ho hl, fromKeys_dup]
    · reads

theorem linkText_reads (k r t) : Reads (linkText k r t) := by
  have := fun x => reftext_reads k x
  unfold linkText
  refine Reads.bind (Reads.node r) fun nd => ?_
  split
  · exact Reads.pure _
  · split
    · exact Reads.pure _
    · exact this _

theorem ahref_traces (k r t href id add) (ho : (h0.get r).cls.isSub .URL = true ∨
      methodClass visitNames (h0.get r).cls = .ok .Reference ∨
      methodClass visitNames (h0.get r).cls = .ok .Cite) : Traces h0 (ahref k r t href id add) := by
  have h1 : Reads (checkTarget t) := by unfold checkTarget; split <;> reads
  have h2 := linkText_reads k r t
  unfold ahref
  refine Traces.bind (Traces.of_reads h1) fun _ => Traces.bind (Traces.of_reads h2) fun _ =>
    Traces.bind ?_ fun _ => Traces.of_reads (by reads)
  unfold addReferenceType
  refine Traces.node fun s hs => ?_
  split
  · rename_i h
    rw [hs.cls] at h
    have ho := ho.resolve_left h.1
    refine Later.addTypes hs r ("reference".toList :: ·) ?_ fun y hy => List.mem_cons_of_mem _ hy
    rw [norm_ref ho, norm_ref ho]
    unfold ensureRef
    rw [if_pos (by simp), if_neg h.2]
  · exact Later.refl hs

theorem citeTags_traces (k r) (ho : methodClass visitNames (h0.get r).cls = .ok .Cite) :
    ∀ i l, Traces h0 (citeTags k r i l)
  | _, [] => Traces.of_reads (Reads.pure _)
  | i, x :: xs => by
    have ih := citeTags_traces k r ho (i + 1) xs
    unfold citeTags
    exact Traces.bind (Traces.of_reads Reads.get) fun t => Traces.bind
      (ahref_traces k r _ _ _ _ (.inr (.inr ho))) fun _ => Traces.bind ih fun _ =>
        Traces.of_reads (Reads.pure _)

theorem proofItems_traces (r) (hk : KidsOf h0 r)
    (ho : methodClass visitNames (h0.get r).cls = .ok .Proof) : Traces h0 (proofItems r) := by
  unfold proofItems markLast
  refine Traces.bind (Traces.get fun t ht => ?_) fun _ => Traces.of_reads (by reads)
  cases he : t.heap.lastOfType r [.Step] with
  | none => exact Traces.of_reads (Reads.pure _)
  | some xi =>
    obtain ⟨x, i⟩ := xi
    obtain ⟨hm, h1, h2, h3⟩ := markLast_later ht hk ho he
    refine Traces.assign fun a ha => Later.addTypes ha x (· ++ ["last".toList]) ?_ fun y hy =>
      List.mem_append_left _ hy
    rw [(norm_plain h1 h2 h3 _).1 hm, (norm_plain h1 h2 h3 _).1 hm]
    exact fromKeys_append_mem (by simp)

theorem visitWith_traces (k o r) (hp : k.handrails = false) (hk : KidsOf h0 r)
    (ho : methodClass visitNames (h0.get r).cls = .ok o) : Traces h0 (visitWith k o r) := by
  have h1 := fullNumber_reads k
  have h2 := reftext_reads k r
  have h3 := bibitemText_reads r
  have h4 : ∀ items, Reads (wrapIf k r items) := fun items => by
    unfold wrapIf; simp only [hp, Bool.false_eq_true, if_false]; exact Reads.pure _
  have h5 := theoremNumber_reads k r
  have h6 : Reads (theoremItems k r) := by unfold theoremItems; reads
  have h1' := h1 r
  obtain ⟨d, hd, hdu⟩ := methodClass_visit (h0.get r).cls
  rw [ho] at hd; cases hd
  cases o
  all_goals simp only [visitWith, hp, Bool.false_eq_true, if_false]
  case Section =>
    exact Traces.bind (sectionItems_traces k r ho) fun _ => Traces.bind (Traces.of_reads (h4 _))
      fun _ => Traces.of_reads (Reads.pure _)
  case Proof => exact Traces.bind (proofItems_traces r hk ho) fun _ => Traces.of_reads (Reads.pure _)
  case Reference =>
    unfold visitReference
    refine Traces.bind (Traces.of_reads Reads.get) fun t => ?_
    split
    · exact Traces.bind (ahref_traces k r _ _ _ _ (.inr (.inl ho))) fun _ => Traces.of_reads (Reads.pure _)
    · exact Traces.of_reads (Reads.throw _)
  case URL =>
    have hu : (h0.get r).cls.isSub .URL = true := by rw [hdu.mp rfl]; decide
    unfold visitUrl
    refine Traces.bind (Traces.of_reads Reads.get) fun t => ?_
    split
    · exact Traces.of_reads (Reads.throw _)
    · exact Traces.bind (ahref_traces k r _ _ _ _ (.inl hu)) fun _ => Traces.of_reads (Reads.pure _)
    · exact Traces.bind (ahref_traces k r _ _ _ _ (.inl hu)) fun _ => Traces.of_reads (Reads.pure _)
  case Cite =>
    unfold visitCite
    refine Traces.bind (Traces.of_reads Reads.get) fun t => ?_
    dsimp only
    split
    · exact Traces.bind (ahref_traces k r _ _ _ _ (.inr (.inr ho))) fun _ => Traces.of_reads (Reads.pure _)
    · exact Traces.bind (citeTags_traces k r ho _ _) fun _ => Traces.of_reads (Reads.pure _)
  case Caption =>
    unfold visitCaption
    refine Traces.of_reads (Reads.bind Reads.get fun t => ?_)
    split
    · exact Reads.throw _
    · exact Reads.bind (h1 _) fun _ => Reads.pure _
  all_goals
    refine Traces.of_reads ?_
    try unfold visitNode
    try unfold visitNote
    try unfold visitMathBlock
    try unfold visitFigure
    reads
  all_goals first
    | exact h4 _
    | (dsimp only; reads)

/-- What a tree guarantees about the parent of a node. -/
def ParentOf (h : Heap) (r : Ref) : Prop := ∀ p, h.parent r = some p → r ∈ h.children p

theorem leaveNode_reads : Reads leaveNode := by
  constructor; intro s
  simp only [leaveNode, bind_apply, get_apply]
  cases s.deferred <;> rfl

theorem itemsOf_reads (c) : Reads (itemsOf c) := by
  unfold itemsOf; cases c.items? <;> reads

theorem leaveMathBlock_traces (r) (hpar : ParentOf h0 r)
    (ho : methodClass (leaveNames false) (h0.get r).cls = .ok .MathBlock) :
    Traces h0 (leaveMathBlock r) := by
  unfold leaveMathBlock
  refine Traces.bind (Traces.of_reads leaveNode_reads) fun c => Traces.get fun t ht => ?_
  rw [ht.parent]
  cases hp : h0.parent r with
  | none => exact Traces.of_reads (Reads.pure _)
  | some p =>
    dsimp only
    rw [ht.isInst, ht.nextSibling]
    split
    · rename_i hi
      cases hn : h0.nextSibling r .any with
      | error e => exact ⟨fun s hs => Later.refl hs⟩
      | ok o =>
        cases o with
        | none => exact Traces.of_reads (Reads.pure _)
        | some y =>
          refine Traces.bind (Traces.of_reads (Reads.lift _)) fun sib => ?_
          cases sib with
          | none => exact Traces.of_reads (Reads.pure _)
          | some z =>
            refine Traces.bind (Traces.assign fun a ha => Later.setClose ha p
              ⟨r, hpar p hp, ho, hp, hi, y, hn⟩) fun _ => Traces.of_reads ?_
            exact Reads.bind (itemsOf_reads _) fun _ => Reads.pure _
    · exact Traces.of_reads (Reads.pure _)

theorem leaveWith_traces (k o r) (hp : k.handrails = false) (hpar : ParentOf h0 r)
    (ho : methodClass (leaveNames false) (h0.get r).cls = .ok o) : Traces h0 (leaveWith k o r) := by
  have h1 := leaveNode_reads
  have h2 := itemsOf_reads
  have h3 := fullNumber_reads k r
  cases o
  all_goals simp only [leaveWith, hp, Bool.false_eq_true, if_false, leaveAbstract, leaveParagraph,
    leaveProof, infoBeforeLast, leaveInfo, hrLeaveStep, hrLeaveMath]
  case MathBlock => exact leaveMathBlock_traces r hpar ho
  all_goals
    refine Traces.of_reads ?_
    reads
  all_goals exact h2 _

/-! ## Two runs -/

/-- The second run is ahead of the first one, of which `G` is known. -/
structure Twin (h0 : Heap) (G : Heap → Prop) (a b : Heap) : Prop where
  later : Later h0 a b
  good : G a

/-- A property that the work of the translator does not destroy. -/
def Lasts (h0 : Heap) (G : Heap → Prop) : Prop := ∀ a b, Later h0 a b → G a → G b

variable {G : Heap → Prop} (hG : Lasts h0 G)

theorem twinShape : Shape (Twin h0 G) := fun _ _ h => h.later.frame

/-- The step has been marked, if it is to be. -/
def Ready (h0 : Heap) (r : Ref) (a : Heap) : Prop := Marked h0 r → "last".toList ∈ (a.get r).types

theorem ready_lasts (r) : Lasts h0 (Ready h0 r) := fun _ _ h hr hm => h.grow r _ (hr hm)

/-- The paragraph has been found to need a closing tag, if it does. -/
def CloseKnown (h0 : Heap) (r : Ref) (a : Heap) : Prop := Closes h0 r → (a.get r).mustCloseP = true

theorem closeKnown_lasts (r) : Lasts h0 (CloseKnown h0 r) := fun a b h hr hm => by
  rcases h.close r with h' | h'
  · rw [h']; exact hr hm
  · exact h'.2

theorem eq_of_frame {nd nd' : NodeRec} (h : Tr.frame nd' = Tr.frame nd) (ht : nd'.text = nd.text)
    (hd : nd'.followedByDot = nd.followedByDot) :
    nd' = { nd with types := nd'.types, mustCloseP := nd'.mustCloseP } := by
  have e : nd' = { Tr.frame nd' with types := nd'.types, text := nd'.text, mustCloseP := nd'.mustCloseP,
                                     followedByDot := nd'.followedByDot } := rfl
  rw [h, ht, hd] at e
  exact e

theorem Later.get {a b : Heap} (h : Later h0 a b) (x : Ref) :
    b.get x = { a.get x with types := (b.get x).types, mustCloseP := (b.get x).mustCloseP } :=
  eq_of_frame (h.frame.2 x) (h.text x) (h.dot x)

/-- The owner of the visit method writes the node with its types. -/
def Own (h0 : Heap) (r : Ref) : Prop :=
  methodClass visitNames (h0.get r).cls ≠ .ok .Section ∧
  methodClass visitNames (h0.get r).cls ≠ .ok .Reference ∧
  methodClass visitNames (h0.get r).cls ≠ .ok .Cite

theorem Later.fromKeys_types {a b : Heap} (h : Later h0 a b) {r} (ho : Own h0 r)
    (hr : Ready h0 r a) : fromKeys (b.get r).types = fromKeys (a.get r).types := by
  have ht := h.types r
  by_cases hm : Marked h0 r
  · have h1 := hr hm
    have h2 := h.grow r _ h1
    rw [(norm_plain ho.1 ho.2.1 ho.2.2 _).1 hm, (norm_plain ho.1 ho.2.1 ho.2.2 _).1 hm,
      fromKeys_append_mem h1, fromKeys_append_mem h2] at ht
    exact ht
  · rw [(norm_plain ho.1 ho.2.1 ho.2.2 _).2 hm, (norm_plain ho.1 ho.2.1 ho.2.2 _).2 hm] at ht
    rw [ht]

theorem Sim.nodeTwin {γ δ : Type} {Q : γ → δ → Prop} {r : Ref} {f : NodeRec → TrM γ}
    {f' : NodeRec → TrM δ} (ho : Own h0 r) (hr : ∀ a, G a → Ready h0 r a)
    (hf : ∀ nd ty cl, fromKeys ty = fromKeys nd.types → Sim (Twin h0 G) Q (f nd)
      (f' { nd with types := ty, mustCloseP := cl })) :
    Sim (Twin h0 G) Q (Tr.node r >>= f) (Tr.node r >>= f') := by
  refine Sim.bind (Sim.node r) ?_
  rintro nd nd' ⟨h, h', hh, rfl, rfl⟩
  rw [hh.later.get r]
  exact hf _ _ _ (hh.later.fromKeys_types ho (hr _ hh.good))

/-- Nothing depends on the types. -/
theorem Sim.nodeAny {γ δ : Type} {Q : γ → δ → Prop} {r : Ref} {f : NodeRec → TrM γ}
    {f' : NodeRec → TrM δ}
    (hf : ∀ nd ty cl, Sim (Twin h0 G) Q (f nd) (f' { nd with types := ty, mustCloseP := cl })) :
    Sim (Twin h0 G) Q (Tr.node r >>= f) (Tr.node r >>= f') := by
  refine Sim.bind (Sim.node r) ?_
  rintro nd nd' ⟨h, h', hh, rfl, rfl⟩
  rw [hh.later.get r]
  exact hf _ _ _

theorem Sim.assignNode {γ δ : Type} {H : Heap → Heap → Prop} {Q : γ → δ → Prop} {r : Ref}
    {f f' : NodeRec → NodeRec} {g : NodeRec → TrM γ} {g' : NodeRec → TrM δ}
    (h1 : ∀ a b, H a b → H (a.update r f) (b.update r f'))
    (h2 : ∀ a b, H a b → Sim H Q (g (f (a.get r))) (g' (f' (b.get r)))) :
    Sim H Q (Tr.assign r f >>= fun _ => Tr.node r >>= g)
      (Tr.assign r f' >>= fun _ => Tr.node r >>= g') := by
  constructor
  intro s s' hs
  have key : ∀ {ε : Type} (f : NodeRec → NodeRec) (g : NodeRec → TrM ε) (s : TrState),
      (Tr.assign r f >>= fun _ => Tr.node r >>= g) s
        = g (f (s.heap.get r)) { s with heap := s.heap.update r f } := by
    intro ε f g s
    show g ((s.heap.update r f).get r) _ = _
    rw [Heap.get_update, if_pos rfl]
  rw [key, key]
  exact (h2 _ _ hs.heap).sim _ _ ⟨h1 _ _ hs.heap, hs.deferred, hs.tree⟩

theorem nodeTag_congr {nd : NodeRec} {ty cl} (h : fromKeys ty = fromKeys nd.types) (tag add a b c) :
    nodeTag { nd with types := ty, mustCloseP := cl } tag add a b c = nodeTag nd tag add a b c := by
  unfold nodeTag
  have : fromKeys (lower nd.cls.name :: ty ++ add) = fromKeys (lower nd.cls.name :: nd.types ++ add) :=
    fromKeys_append_congr (fromKeys_cons_congr h _) _
  simp only [this]

/-- Goes through two programs in parallel. -/
macro "simt" : tactic => `(tactic| repeat' first
  | assumption
  | exact Sim.throw _ | exact Sim.warn _ | exact Sim.warns _ | exact Sim.itemsOf _
  | exact Sim.leaveNode
  | exact Sim.pure rfl
  | exact fullNumber_sim twinShape _ _ | exact reftext_sim twinShape _ _
  | (with_reducible refine Sim.nodeAny fun _ _ _ => ?_)
  | (with_reducible refine Sim.next ?_ fun _ => ?_)
  | (refine Sim.ite ?_ ?_))

local notation "W" => Sim (Twin h0 G) Eq

theorem sectionHeading_twin (k r) : W (sectionHeading k r) (sectionHeading k r) := by
  unfold sectionHeading; simt

include hG in
theorem sectionItems_twin (k r) (ho : methodClass visitNames (h0.get r).cls = .ok .Section) :
    W (sectionItems k r) (sectionItems k r) := by
  unfold sectionItems
  refine Sim.bind (Sim.node r) ?_
  rintro nd nd' ⟨h, h', hh, rfl, rfl⟩
  rw [hh.later.frame.cls, hh.later.shape.cls]
  cases hl : (h0.get r).cls.level with
  | none => exact Sim.throw _
  | some l =>
    refine Sim.assignNode (fun a b hab => ⟨?_, ?_⟩) fun a b hab => ?_
    · refine hab.later.addTypes₂ r rfl rfl ?_ fun y hy => ?_
      · have := hab.later.types r
        rw [norm_section ho hl, norm_section ho hl] at this ⊢
        exact fromKeys_cons_congr this _
      · rcases List.mem_cons.mp hy with rfl | hy
        · exact List.mem_cons_self
        · exact List.mem_cons_of_mem _ (hab.later.grow r y hy)
    · refine hG a _ (Later.addTypes hab.later.shape r (("level-".toList ++ natStr l) :: ·) ?_
        fun y hy => List.mem_cons_of_mem _ hy) hab.good
      rw [norm_section ho hl, norm_section ho hl, fromKeys_dup]
    · refine Sim.next (sectionHeading_twin k r) fun text => Sim.pure ?_
      have := hab.later.types r
      rw [norm_section ho hl, norm_section ho hl] at this
      rw [hab.later.get r]
      exact congrArg (fun x => [Item.openTag x, heading l text])
        (nodeTag_congr (nd := { a.get r with types := ("level-".toList ++ natStr l) :: (a.get r).types })
          this "section" [] true true false).symm

theorem linkText_twin (k r t) : W (linkText k r t) (linkText k r t) := by
  unfold linkText
  refine Sim.nodeAny fun nd ty cl => Sim.ite (Sim.pure rfl) ?_
  cases t
  · exact Sim.pure rfl
  · simt

/-- The types of a link. -/
def refTypes (c : Cls) (l : List Str) : List Str := if c.isSub .URL then l else ensureRef l

theorem Heap.update_self {h : Heap} {r : Ref} {f : NodeRec → NodeRec} (hf : f (h.get r) = h.get r) :
    h.update r f = h := by
  cases h with
  | mk g n =>
    simp only [Heap.update]
    congr 1
    funext x
    split
    · rename_i e; rw [e]; exact hf
    · rfl

theorem Heap.update_congr {h : Heap} {r : Ref} {f f' : NodeRec → NodeRec}
    (hf : f (h.get r) = f' (h.get r)) : h.update r f = h.update r f' := by
  cases h with
  | mk g n =>
    simp only [Heap.update]
    congr 1
    funext x
    split
    · rename_i e; rw [e]; exact hf
    · rfl

theorem addReferenceType_eq (r : Ref) : addReferenceType r =
    assign r fun nd => { nd with types := refTypes nd.cls nd.types } := by
  funext s
  simp only [addReferenceType, Tr.node, bind_apply, gets_apply]
  split
  · rename_i h
    have hu : (s.heap.get r).cls.isSub .URL = false := by simpa using h.1
    show Res.ok () { s with heap := s.heap.update r fun nd =>
        { nd with types := "reference".toList :: nd.types } } =
      Res.ok () { s with heap := s.heap.update r fun nd =>
        { nd with types := refTypes nd.cls nd.types } }
    rw [Heap.update_congr (f' := fun nd => { nd with types := refTypes nd.cls nd.types })]
    simp only [refTypes, hu, Bool.false_eq_true, if_false, ensureRef, h.2]
  · rename_i h
    show Res.ok () s = Res.ok () { s with heap := s.heap.update r fun nd =>
      { nd with types := refTypes nd.cls nd.types } }
    rw [Heap.update_self]
    simp only [refTypes, ensureRef]
    by_cases h1 : (s.heap.get r).cls.isSub .URL = true
    · simp [h1]
    · have h2 : "reference".toList ∈ (s.heap.get r).types := by
        exact Decidable.byContradiction fun h2 => h ⟨by simpa using h1, h2⟩
      simp only [h1, Bool.false_eq_true, if_false, h2, if_true]

theorem mem_ensureRef {x : Str} {l : List Str} : x ∈ ensureRef l ↔ x = "reference".toList ∨ x ∈ l := by
  unfold ensureRef
  split
  · exact ⟨.inr, fun h => h.elim (fun e => e ▸ by assumption) id⟩
  · simp

include hG in
theorem ahref_twin (k r t href id add) (ho : (h0.get r).cls = .URL ∨
      methodClass visitNames (h0.get r).cls = .ok .Reference ∨
      methodClass visitNames (h0.get r).cls = .ok .Cite) :
    W (ahref k r t href id add) (ahref k r t href id add) := by
  have hn : ∀ a b, Later h0 a b →
      refTypes (a.get r).cls (b.get r).types = refTypes (a.get r).cls (a.get r).types := by
    intro a b hab
    have ht := hab.types r
    rcases ho with ho | ho
    · have hm : ¬ Marked h0 r := by
        rintro ⟨p, i, _, _, he⟩
        have := (lastOfType_spec he).2
        rw [Heap.isInstAny, ho] at this
        exact absurd this (by decide)
      have hown : Own h0 r := by
        rw [Own, ho]; refine ⟨?_, ?_, ?_⟩ <;> intro h <;> cases h
      rw [(norm_plain hown.1 hown.2.1 hown.2.2 _).2 hm, (norm_plain hown.1 hown.2.1 hown.2.2 _).2 hm] at ht
      rw [ht]
    · rw [norm_ref ho, norm_ref ho] at ht
      have hu : (a.get r).cls.isSub .URL = false := by
        rw [hab.shape.cls]
        cases hc : (h0.get r).cls <;> rw [hc] at ho <;>
          first | rfl | (rcases ho with ho | ho <;> cases ho)
      simp only [refTypes, hu, Bool.false_eq_true, if_false, ht]
  have hnn : ∀ a, SameFrame h0 a → norm h0 r (refTypes (a.get r).cls (a.get r).types) =
      norm h0 r (a.get r).types := by
    intro a ha
    rw [ha.cls]
    rcases ho with ho | ho
    · rw [ho]; rfl
    · rw [norm_ref ho, norm_ref ho]
      unfold refTypes
      split
      · rfl
      · exact ensureRef_idem _
  have hsub : ∀ c (l : List Str), ∀ y ∈ l, y ∈ refTypes c l := by
    intro c l y hy
    unfold refTypes
    split
    · exact hy
    · exact mem_ensureRef.mpr (.inr hy)
  unfold ahref
  rw [addReferenceType_eq]
  refine Sim.next ?_ fun _ => Sim.next (linkText_twin ..) fun text => ?_
  · unfold checkTarget; split <;> simt
  · refine Sim.assignNode (fun a b hab => ⟨?_, ?_⟩) fun a b hab => ?_
    · refine hab.later.addTypes₂ r rfl rfl ?_ ?_
      · rw [hab.later.frame.cls, hn _ _ hab.later]
      · rw [hab.later.frame.cls, hn _ _ hab.later]; exact fun _ h => h
    · refine hG a _ ?_ hab.good
      have e : (a.update r fun nd => { nd with types := refTypes nd.cls nd.types }) =
          a.update r fun nd => { nd with types := refTypes (a.get r).cls nd.types } := by
        exact Heap.update_congr rfl
      rw [e]
      exact Later.addTypes hab.later.shape r (refTypes (a.get r).cls)
        (hnn a hab.later.shape) (hsub _ _)
    · refine Sim.pure ?_
      dsimp only
      rw [hab.later.frame.cls, hn _ _ hab.later]

include hG in
theorem citeTags_twin (k r) (ho : methodClass visitNames (h0.get r).cls = .ok .Cite) :
    ∀ i l, W (citeTags k r i l) (citeTags k r i l)
  | _, [] => Sim.pure rfl
  | i, x :: xs => by
    have ih := citeTags_twin k r ho (i + 1) xs
    unfold citeTags
    refine Sim.bind Sim.get fun t t' ht => ?_
    have hf := twinShape _ _ ht.heap
    rw [hf.label, hf.label]
    exact Sim.next (ahref_twin hG _ _ _ _ _ _ (.inr (.inr ho))) fun _ => Sim.next ih fun _ => Sim.pure rfl

include hG in
theorem proofItems_twin (r) (hk : KidsOf h0 r) (hr : ∀ a, G a → Ready h0 r a)
    (ho : methodClass visitNames (h0.get r).cls = .ok .Proof) : W (proofItems r) (proofItems r) := by
  have hown : Own h0 r := by rw [Own, ho]; refine ⟨?_, ?_, ?_⟩ <;> intro h <;> cases h
  unfold proofItems markLast
  refine Sim.next (Sim.bind Sim.get fun t t' ht => ?_) fun _ => ?_
  · rw [(twinShape _ _ ht.heap).lastOfType]
    cases he : t.heap.lastOfType r [.Step] with
    | none => exact Sim.pure rfl
    | some xi =>
      obtain ⟨x, i⟩ := xi
      obtain ⟨hm, h1, h2, h3⟩ := markLast_later ht.heap.later.shape hk ho he
      refine Sim.assign fun a b hab => ⟨?_, ?_⟩
      · refine hab.later.addTypes₂ x rfl rfl ?_ fun y hy => ?_
        · have := hab.later.types x
          rw [(norm_plain h1 h2 h3 _).1 hm, (norm_plain h1 h2 h3 _).1 hm] at this ⊢
          exact fromKeys_append_congr this _
        · rcases List.mem_append.mp hy with hy | hy
          · exact List.mem_append_left _ (hab.later.grow x y hy)
          · exact List.mem_append_right _ hy
      · refine hG a _ (Later.addTypes hab.later.shape x (· ++ ["last".toList]) ?_ fun y hy =>
          List.mem_append_left _ hy) hab.good
        rw [(norm_plain h1 h2 h3 _).1 hm, (norm_plain h1 h2 h3 _).1 hm]
        exact fromKeys_append_mem (by simp)
  · refine Sim.nodeTwin hown hr fun nd ty cl h => Sim.pure ?_
    rw [nodeTag_congr h]

theorem bibitemText_twin (r) : W (bibitemText r) (bibitemText r) := by
  unfold bibitemText bibitemYear bibitemDoi
  refine Sim.nodeAny fun nd ty cl => ?_
  refine Sim.next (Sim.warns _) fun _ => Sim.next ?_ fun _ => ?_
  · refine Sim.ite ?_ ?_
    · dsimp only; cases nd.year <;> simt
    · simt
  · simt

end Tr
end RSM
