import Verif.Lemmas.TrTags

/-! # Lemmas: two runs side by side -/

namespace RSM
namespace Tr
open PyM

/-! ## What the translators read of the shape of the document -/

namespace SameFrame
variable {a b : Heap}

theorem field {α : Type} (h : SameFrame a b) (f : NodeRec → α) (hf : ∀ nd, f (frame nd) = f nd)
    (x : Ref) : f (b.get x) = f (a.get x) := by rw [← hf (b.get x), h.2 x, hf]

theorem isInst (h : SameFrame a b) (x c) : b.isInst x c = a.isInst x c := by
  simp only [Heap.isInst, h.cls]
theorem isInstAny (h : SameFrame a b) (x c) : b.isInstAny x c = a.isInstAny x c := by
  simp only [Heap.isInstAny, h.cls]
theorem firstOfType (h : SameFrame a b) (x c) : b.firstOfType x c = a.firstOfType x c := by
  simp only [Heap.firstOfType, h.children, h.isInstAny]
theorem lastOfType (h : SameFrame a b) (x c) : b.lastOfType x c = a.lastOfType x c := by
  simp only [Heap.lastOfType, h.children, h.isInstAny]
theorem nextSibling (h : SameFrame a b) (x s) : b.nextSibling x s = a.nextSibling x s := by
  have : b.sibTest x s = a.sibTest x s := by
    funext r; cases s <;> simp only [Heap.sibTest, h.isInst, h.cls]
  simp only [Heap.nextSibling, h.parent, h.children, this]
theorem traverse (h : SameFrame a b) (f : Ref → Bool) : ∀ n l, b.traverse f n l = a.traverse f n l
  | 0, _ => rfl
  | _ + 1, [] => rfl
  | n + 1, r :: l => by simp only [Heap.traverse, h.children, traverse h f n]
theorem firstAncestorOfType (h : SameFrame a b) (cs) :
    ∀ n r, b.firstAncestorOfType cs n r = a.firstAncestorOfType cs n r
  | 0, _ => rfl
  | n + 1, r => by simp only [Heap.firstAncestorOfType, h.parent, h.cls, firstAncestorOfType h cs n]
theorem fullNumber (h : SameFrame a b) : ∀ n r, b.fullNumber n r = a.fullNumber n r
  | 0, _ => rfl
  | n + 1, r => by
    have h1 : (b.get r).nonum = (a.get r).nonum := h.field (·.nonum) (fun _ => rfl) r
    have h2 : (b.get r).number = (a.get r).number := h.field (·.number) (fun _ => rfl) r
    simp only [Heap.fullNumber, h.cls, h1, h2, h.firstAncestorOfType, fullNumber h n]
theorem label (h : SameFrame a b) (x) : (b.get x).label = (a.get x).label :=
  h.field (·.label) (fun _ => rfl) x
theorem target (h : SameFrame a b) (x) : (b.get x).target = (a.get x).target :=
  h.field (·.target) (fun _ => rfl) x
theorem targets (h : SameFrame a b) (x) : (b.get x).targets = (a.get x).targets :=
  h.field (·.targets) (fun _ => rfl) x
theorem minimapCircles (h : SameFrame a b) (w) :
    ∀ i l, Tr.minimapCircles b w i l = Tr.minimapCircles a w i l
  | _, [] => rfl
  | i, r :: l => by
    simp only [Tr.minimapCircles, h.target, h.cls, h.label, minimapCircles h w (i + 1) l]
end SameFrame

/-! ## Two programs that do the same up to a relation -/

/-- Both return, related values in related states, or both raise the same exception. -/
inductive RelRes {α β : Type} (I : TrState → TrState → Prop) (R : α → β → Prop) :
    Res TrState α → Res TrState β → Prop
  | ok {a b s s'} (hs : I s s') (h : R a b) : RelRes I R (.ok a s) (.ok b s')
  | err (e s s') : RelRes I R (.err e s) (.err e s')

/-- Related heaps, the same deferred commands, the same document. -/
structure Rel (H : Heap → Heap → Prop) (s s' : TrState) : Prop where
  heap : H s.heap s'.heap
  deferred : s'.deferred = s.deferred
  tree : s'.tree = s.tree

/-- Started in related states, the two programs do the same. -/
structure Sim {α β : Type} (H : Heap → Heap → Prop) (R : α → β → Prop) (m : TrM α) (m' : TrM β) :
    Prop where
  sim : ∀ s s', Rel H s s' → RelRes (Rel H) R (m s) (m' s')

section
variable {α β γ δ : Type} {H : Heap → Heap → Prop} {R : α → β → Prop} {Q : γ → δ → Prop}

theorem Sim.pure {a : α} {b : β} (h : R a b) : Sim H R (Pure.pure a) (Pure.pure b) :=
  ⟨fun _ _ hs => .ok hs h⟩
theorem Sim.throw (e : PyErr) : Sim H R (PyM.throw e) (PyM.throw e) := ⟨fun _ _ _ => .err _ _ _⟩
theorem Sim.bind {m : TrM α} {m' : TrM β} {f : α → TrM γ} {f' : β → TrM δ} (hm : Sim H R m m')
    (hf : ∀ a b, R a b → Sim H Q (f a) (f' b)) : Sim H Q (m >>= f) (m' >>= f') := by
  constructor
  intro s s' hs
  have h := hm.sim s s' hs
  rw [bind_apply, bind_apply]
  generalize m s = x at h
  generalize m' s' = y at h
  cases h with
  | ok h1 h2 => exact (hf _ _ h2).sim _ _ h1
  | err e s s' => exact .err _ _ _
/-- The same value is passed on. -/
theorem Sim.next {m m' : TrM α} {f : α → TrM γ} {f' : α → TrM δ} (hm : Sim H Eq m m')
    (hf : ∀ a, Sim H Q (f a) (f' a)) : Sim H Q (m >>= f) (m' >>= f') :=
  hm.bind fun a b h => by subst h; exact hf a
theorem Sim.get : Sim H (Rel H) PyM.get PyM.get := ⟨fun _ _ hs => .ok hs hs⟩
theorem Sim.node (r : Ref) : Sim H (fun nd nd' => ∃ h h', H h h' ∧ nd = h.get r ∧ nd' = h'.get r)
    (Tr.node r) (Tr.node r) := ⟨fun _ _ hs => .ok hs ⟨_, _, hs.heap, rfl, rfl⟩⟩
theorem Sim.lift {x y : Except PyErr α} (h : x = y) : Sim H Eq (Tr.lift x) (Tr.lift y) := by
  subst h
  cases x
  · exact Sim.throw _
  · exact Sim.pure rfl
theorem Sim.warn (w : Warning) : Sim H Eq (Tr.warn w) (Tr.warn w) :=
  ⟨fun _ _ hs => .ok ⟨hs.heap, hs.deferred, hs.tree⟩ rfl⟩
theorem Sim.assign {r r' : Ref} {f f' : NodeRec → NodeRec}
    (h : ∀ a b, H a b → H (a.update r f) (b.update r' f')) : Sim H Eq (Tr.assign r f) (Tr.assign r' f') :=
  ⟨fun _ _ hs => .ok ⟨h _ _ hs.heap, hs.deferred, hs.tree⟩ rfl⟩
theorem Sim.warns (l : List Warning) : Sim H Eq (PyM.forEach Tr.warn l) (PyM.forEach Tr.warn l) := by
  induction l with
  | nil => exact Sim.pure rfl
  | cons w l ih => exact Sim.next (Sim.warn w) fun _ => ih
theorem Sim.ite {p : Prop} [Decidable p] {a b : TrM α} {a' b' : TrM β} (ha : Sim H R a a')
    (hb : Sim H R b b') : Sim H R (if p then a else b) (if p then a' else b') := by
  split <;> assumption
theorem Sim.leaveNode : Sim H Eq Tr.leaveNode Tr.leaveNode := by
  constructor
  intro s s' hs
  simp only [Tr.leaveNode, bind_apply, get_apply]
  rw [hs.deferred]
  cases s.deferred with
  | nil => exact .err _ _ _
  | cons c cs => exact .ok ⟨hs.heap, rfl, hs.tree⟩ rfl
theorem Sim.itemsOf (c : Cmd) : Sim H Eq (Tr.itemsOf c) (Tr.itemsOf c) := by
  unfold Tr.itemsOf
  cases c.items?
  · exact Sim.throw _
  · exact Sim.pure rfl
theorem Sim.execute (c : Cmd) : Sim H Eq c.execute c.execute := by
  constructor
  intro s s' hs
  rw [Cmd.execute_eq, Cmd.execute_eq]
  exact .ok ⟨hs.heap, by simp [hs.deferred], hs.tree⟩ rfl
end

/-- The part of a relation between heaps that most methods need. -/
def Shape (H : Heap → Heap → Prop) : Prop := ∀ a b, H a b → SameFrame a b

section
variable {H : Heap → Heap → Prop} (hH : Shape H)
include hH

theorem fullNumber_sim (k r) : Sim H Eq (fullNumber k r) (fullNumber k r) := by
  unfold fullNumber
  refine Sim.bind Sim.get fun t t' ht => ?_
  rw [(hH _ _ ht.heap).fullNumber]
  cases t.heap.fullNumber k.fuel r
  · exact Sim.throw _
  · exact Sim.pure rfl

theorem reftext_sim (k r) : Sim H Eq (reftext k r) (reftext k r) := by
  unfold reftext
  refine Sim.next (fullNumber_sim hH k r) fun fn => Sim.bind Sim.get fun t t' ht => ?_
  have hf := hH _ _ ht.heap
  refine Sim.next (Sim.lift ?_) fun s => Sim.pure rfl
  rw [hf.cls, hf.field (·.reftextTemplate) (fun _ => rfl)]

theorem minimap_sim (k r f w) : Sim H Eq (minimap k r f w) (minimap k r f w) := by
  unfold minimap
  refine Sim.bind Sim.get fun t t' ht => ?_
  have hf := hH _ _ ht.heap
  rw [hf.traverse]
  simp only [hf.isInst, hf.minimapCircles]
  cases t.heap.traverse (fun r => t.heap.isInst r .Reference) k.fuel [r] with
  | none => exact Sim.throw _
  | some refs => exact Sim.next (Sim.lift rfl) fun c => Sim.pure rfl

end

end Tr
end RSM
