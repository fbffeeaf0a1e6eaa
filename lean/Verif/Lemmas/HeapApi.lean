import Verif.Model.Histories

/-! Closed forms of the tree-editing API (helper lemmas). -/

namespace RSM
open PyM

namespace Heap

/-- The parent setter accepts `q` as parent of `r`. -/
def Allowed (h : Heap) (r q : Ref) : Prop :=
  (h.get r).cls.possibleParents = [] ∨ (h.get q).cls ∈ (h.get r).cls.possibleParents

instance (h : Heap) (r q : Ref) : Decidable (h.Allowed r q) := by
  unfold Allowed; infer_instance

def withParent (h : Heap) (r : Ref) (p : Option Ref) : Heap :=
  h.update r fun n => { n with parent := p }

def withKids (h : Heap) (r : Ref) (f : List Ref → List Ref) : Heap :=
  h.update r fun n => { n with kids := f n.kids }

@[simp] theorem cls_withParent (h : Heap) (r p x) :
    ((h.withParent r p).get x).cls = (h.get x).cls := by
  unfold withParent; rw [get_update]; split <;> rfl
@[simp] theorem kids_withParent (h : Heap) (r p x) :
    ((h.withParent r p).get x).kids = (h.get x).kids := by
  unfold withParent; rw [get_update]; split <;> rfl
theorem parent_withParent (h : Heap) (r p x) :
    (h.withParent r p).parent x = if x = r then p else h.parent x := by
  unfold withParent parent; rw [get_update]; split <;> rfl
@[simp] theorem next_withParent (h : Heap) (r p) : (h.withParent r p).next = h.next := rfl
@[simp] theorem isInst_withParent (h : Heap) (r p x c) :
    (h.withParent r p).isInst x c = h.isInst x c := by simp [isInst]
@[simp] theorem children_withParent (h : Heap) (r p x) :
    (h.withParent r p).children x = h.children x := by simp [children]
@[simp] theorem allowed_withParent (h : Heap) (r p x y) :
    (h.withParent r p).Allowed x y ↔ h.Allowed x y := by simp [Allowed]

@[simp] theorem cls_withKids (h : Heap) (r f x) :
    ((h.withKids r f).get x).cls = (h.get x).cls := by
  unfold withKids; rw [get_update]; split <;> rfl
theorem kids_withKids (h : Heap) (r f x) :
    ((h.withKids r f).get x).kids = if x = r then f (h.get x).kids else (h.get x).kids := by
  unfold withKids; rw [get_update]; split <;> rfl
@[simp] theorem parent_withKids (h : Heap) (r f x) :
    (h.withKids r f).parent x = h.parent x := by
  unfold withKids parent; rw [get_update]; split <;> rfl
@[simp] theorem next_withKids (h : Heap) (r f) : (h.withKids r f).next = h.next := rfl
@[simp] theorem isInst_withKids (h : Heap) (r f x c) :
    (h.withKids r f).isInst x c = h.isInst x c := by simp [isInst]
theorem children_withKids (h : Heap) (r f x) (hr : h.isInst r .NodeWithChildren = true) :
    (h.withKids r f).children x = if x = r then f (h.children x) else h.children x := by
  simp only [children, isInst_withKids, kids_withKids]
  by_cases hx : x = r
  · subst hx; simp [hr]
  · simp [hx]
@[simp] theorem allowed_withKids (h : Heap) (r f x y) :
    (h.withKids r f).Allowed x y ↔ h.Allowed x y := by simp [Allowed]

theorem withKids_congr (h : Heap) (r) {f g : List Ref → List Ref}
    (hfg : f (h.get r).kids = g (h.get r).kids) : h.withKids r f = h.withKids r g := by
  unfold withKids update
  congr 1
  funext x
  by_cases hx : x = r
  · subst hx; simp [hfg]
  · simp [hx]

theorem children_eq_kids (h : Heap) (r) (hr : h.isInst r .NodeWithChildren = true) :
    h.children r = (h.get r).kids := by simp [children, hr]

theorem isNWC_of_mem_children {h : Heap} {r c} (hc : c ∈ h.children r) :
    h.isInst r .NodeWithChildren = true := by
  unfold children at hc; split at hc <;> simp_all

end Heap

namespace Nodes
open Heap

theorem setParent_none (r : Ref) (h : Heap) :
    setParent r .none h = .ok () (h.withParent r .none) := rfl

theorem setParent_some (r q : Ref) (h : Heap) :
    setParent r (.some q) h =
      if h.Allowed r q then .ok () (h.withParent r (.some q)) else .err .rsmNodeError h := by
  unfold setParent Allowed
  simp only [bind_apply, get_apply]
  by_cases h1 : (h.get r).cls.possibleParents = []
  · simp [h1, withParent]
  · by_cases h2 : (h.get q).cls ∈ (h.get r).cls.possibleParents
    · simp [h1, h2, withParent]
    · simp [h1, h2]

theorem setKids_apply (r : Ref) (f) (h : Heap) :
    setKids r f h = .ok () (h.withKids r f) := rfl

theorem requireNWC_apply (r : Ref) (h : Heap) :
    requireNWC r h = if h.isInst r .NodeWithChildren then .ok () h else .err .attributeError h := by
  unfold requireNWC; simp only [bind_apply, get_apply]; split <;> rfl

theorem append_apply (s c : Ref) (h : Heap) :
    append s c h =
      if h.isInst s .NodeWithChildren = false then .err .attributeError h
      else if h.parent c ≠ .none then .err .rsmNodeError h
      else if h.Allowed c s then
        .ok () ((h.withKids s (· ++ [c])).withParent c (.some s))
      else .err .rsmNodeError (h.withKids s (· ++ [c])) := by
  unfold append
  simp only [bind_apply, requireNWC_apply]
  by_cases h1 : h.isInst s .NodeWithChildren = true
  · simp only [h1, if_true, get_apply, Bool.true_eq_false, if_false]
    cases h2 : h.parent c with
    | none =>
      simp [setKids_apply, setParent_some]
    | some q => simp
  · simp [h1]

theorem prepend_apply (s c : Ref) (h : Heap) :
    prepend s c h =
      if h.isInst s .NodeWithChildren = false then .err .attributeError h
      else if h.parent c ≠ .none ∧ h.parent c ≠ .some s then .err .rsmNodeError h
      else if h.Allowed c s then
        .ok () ((h.withKids s (c :: ·)).withParent c (.some s))
      else .err .rsmNodeError (h.withKids s (c :: ·)) := by
  unfold prepend
  simp only [bind_apply, requireNWC_apply]
  by_cases h1 : h.isInst s .NodeWithChildren = true
  · simp only [h1, if_true, get_apply, Bool.true_eq_false, if_false]
    cases h2 : h.parent c with
    | none => simp [setKids_apply, setParent_some]
    | some q =>
      by_cases hq : q = s
      · simp [hq, setKids_apply, setParent_some]
      · simp [hq]
  · simp [h1]

theorem remove_apply (s c : Ref) (h : Heap) :
    remove s c h =
      if h.isInst s .NodeWithChildren = false then .err .attributeError h
      else if c ∈ (h.get s).kids then
        .ok () ((h.withKids s (·.erase c)).withParent c .none)
      else .err .valueError h := by
  unfold remove
  simp only [bind_apply, requireNWC_apply]
  by_cases h1 : h.isInst s .NodeWithChildren = true
  · simp only [h1, if_true, get_apply, Bool.true_eq_false, if_false]
    cases h3 : (h.get s).kids.idxOf? c with
    | none =>
      have h2 : c ∉ (h.get s).kids := by simpa using h3
      simp [h2]
    | some i =>
      have h2 : c ∈ (h.get s).kids := by
        rw [← List.isSome_idxOf?, h3]; rfl
      simp only [h2, if_true, setKids_apply, bind_apply, setParent_none]
      have h4 : (h.get s).kids.erase c = (h.get s).kids.eraseIdx i := by
        rw [List.erase_eq_eraseIdx, h3]
      have : h.withKids s (·.eraseIdx i) = h.withKids s (·.erase c) := by
        apply withKids_congr; simpa using h4.symm
      rw [this]
  · simp [h1]

/-- All of `l` lose their parent. -/
def orphan (l : List Ref) (h : Heap) : Heap := l.foldl (fun h c => h.withParent c .none) h

@[simp] theorem cls_orphan (l) (h : Heap) (x) : ((orphan l h).get x).cls = (h.get x).cls := by
  induction l generalizing h with
  | nil => rfl
  | cons c l ih => simp [orphan] at ih ⊢; rw [ih]; simp
@[simp] theorem kids_orphan (l) (h : Heap) (x) : ((orphan l h).get x).kids = (h.get x).kids := by
  induction l generalizing h with
  | nil => rfl
  | cons c l ih => simp [orphan] at ih ⊢; rw [ih]; simp
@[simp] theorem next_orphan (l) (h : Heap) : (orphan l h).next = h.next := by
  induction l generalizing h with
  | nil => rfl
  | cons c l ih => simp [orphan] at ih ⊢; rw [ih]; simp
theorem parent_orphan (l) (h : Heap) (x) :
    (orphan l h).parent x = if x ∈ l then .none else h.parent x := by
  induction l generalizing h with
  | nil => simp [orphan]
  | cons c l ih =>
    have := ih (h.withParent c .none)
    simp only [orphan, List.foldl_cons] at this ⊢
    rw [this, parent_withParent]
    by_cases h1 : x ∈ l <;> by_cases h2 : x = c <;> simp [h1, h2]
@[simp] theorem isInst_orphan (l) (h : Heap) (x c) : (orphan l h).isInst x c = h.isInst x c := by
  simp [isInst]
@[simp] theorem children_orphan (l) (h : Heap) (x) : (orphan l h).children x = h.children x := by
  simp [children]

theorem forEach_orphan (l : List Ref) (h : Heap) :
    forEach (fun c => setParent c .none) l h = .ok () (orphan l h) := by
  induction l generalizing h with
  | nil => rfl
  | cons c l ih => simp [setParent_none, ih, orphan]

theorem clear_apply (s : Ref) (h : Heap) :
    clear s h =
      if h.isInst s .NodeWithChildren = false then .err .attributeError h
      else .ok () ((orphan (h.get s).kids h).withKids s fun _ => []) := by
  unfold clear
  simp only [bind_apply, requireNWC_apply]
  by_cases h1 : h.isInst s .NodeWithChildren = true
  · simp [h1, forEach_orphan, setKids_apply]
  · simp [h1]

theorem removeSelf_apply (s : Ref) (h : Heap) :
    removeSelf s h =
      match h.parent s with
      | .none => .ok () h
      | .some p => match remove p s h with
        | .ok _ h' => .ok () (h'.withParent s .none)
        | .err e h' => .err e h' := by
  unfold removeSelf
  simp only [bind_apply, get_apply]
  cases h.parent s with
  | none => rfl
  | some p => simp only [bind_apply]; cases remove p s h <;> rfl

theorem replaceSelf_apply (s : Ref) (reps) (h : Heap) :
    replaceSelf s reps h =
      match h.parent s with
      | .none => .err .rsmNodeError h
      | .some p => match (h.children p).idxOf? s with
        | .none => .err .valueError h
        | .some i => match remove p s h with
          | .ok _ h' => insertReplacements p i reps h'
          | .err e h' => .err e h' := by
  unfold replaceSelf
  simp only [bind_apply, get_apply]
  cases h.parent s with
  | none => rfl
  | some p =>
    dsimp only
    cases (h.children p).idxOf? s with
    | none => rfl
    | some i => dsimp only; rw [bind_apply]; cases remove p s h <;> rfl

theorem insertReplacements_cons (p i rep) (reps) (h : Heap) :
    insertReplacements p i (rep :: reps) h =
      if h.Allowed rep p then
        insertReplacements p (i + 1) reps ((h.withKids p (pyInsert i rep)).withParent rep (.some p))
      else .err .rsmNodeError (h.withKids p (pyInsert i rep)) := by
  rw [insertReplacements]
  simp only [bind_apply, setKids_apply, setParent_some, allowed_withKids]
  by_cases h1 : h.Allowed rep p <;> simp [h1]

theorem idxOf?_split {l : List Ref} {c : Ref} {i : Nat} :
    l.idxOf? c = some i ↔ ∃ pre post, l = pre ++ c :: post ∧ c ∉ pre ∧ pre.length = i := by
  induction l generalizing i with
  | nil => simp
  | cons x l ih =>
    rw [List.idxOf?_cons]
    by_cases hx : x = c
    · subst hx
      simp only [beq_self_eq_true, if_true, Option.some.injEq]
      constructor
      · rintro rfl; exact ⟨[], l, by simp⟩
      · rintro ⟨pre, post, h1, h2, rfl⟩
        cases pre with
        | nil => rfl
        | cons y pre => simp at h1 h2; exact absurd h1.1 h2.1
    · simp only [beq_iff_eq, hx, if_false, Option.map_eq_some_iff]
      constructor
      · rintro ⟨j, hj, rfl⟩
        obtain ⟨pre, post, rfl, h2, rfl⟩ := ih.mp hj
        exact ⟨x :: pre, post, by simp, by simp [h2, Ne.symm hx], by simp⟩
      · rintro ⟨pre, post, h1, h2, rfl⟩
        cases pre with
        | nil => simp at h1; exact absurd h1.1 hx
        | cons y pre =>
          simp at h1 h2
          exact ⟨pre.length, ih.mpr ⟨pre, post, h1.2, h2.2, rfl⟩, by simp⟩

theorem erase_split {pre post : List Ref} {c : Ref} (h : c ∉ pre) :
    (pre ++ c :: post).erase c = pre ++ post := by
  rw [List.erase_append_right _ h]; simp

end Nodes
end RSM
