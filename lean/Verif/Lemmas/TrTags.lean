import Verif.Lemmas.TrLoop
import Verif.Spec.Html

/-! # Lemmas: class attributes, dispatch -/

namespace RSM
namespace Tr
open PyM

theorem mem_fromKeys {x : Str} {l : List Str} : x ∈ fromKeys l ↔ x ∈ l := by
  induction l with
  | nil => simp [fromKeys]
  | cons a l ih =>
    simp only [fromKeys, List.mem_cons, List.mem_filter, ih, decide_eq_true_eq]
    by_cases h : x = a <;> simp [h]

theorem nodup_fromKeys (l : List Str) : (fromKeys l).Nodup := by
  induction l with
  | nil => exact List.nodup_nil
  | cons a l ih =>
    simp only [fromKeys, List.nodup_cons, List.mem_filter]
    exact ⟨by simp, ih.filter _⟩

theorem idxOf_cons_ne {a b : Str} (l : List Str) (h : a ≠ b) :
    (a :: l).idxOf b = l.idxOf b + 1 := by
  rw [List.idxOf_cons]; simp [beq_eq_false_iff_ne.mpr h]

theorem first_fromKeys (l : List Str) : Html.FirstOccurrences l (fromKeys l) := by
  refine ⟨fun x => mem_fromKeys, ?_⟩
  induction l with
  | nil => exact List.Pairwise.nil
  | cons a l ih =>
    simp only [fromKeys]
    refine List.Pairwise.cons ?_ ?_
    · intro b hb
      have : b ≠ a := by simpa using (List.mem_filter.mp hb).2
      rw [List.idxOf_cons_self, idxOf_cons_ne _ (fun h => this h.symm)]
      omega
    · have h := ih.filter (· ≠ a)
      refine h.imp_of_mem ?_
      intro b c hb hc hbc
      have hb' : a ≠ b := fun e => by subst e; simp at hb
      have hc' : a ≠ c := fun e => by subst e; simp at hc
      rw [idxOf_cons_ne _ hb', idxOf_cons_ne _ hc']
      omega

/-- The tag an item writes. -/
def Item.tag? : Item → Option TagArgs
  | .openClose a => some a
  | .openManual a => some a
  | .openTag a => some a
  | _ => none

/-- The items of a command. -/
def Cmd.allItems : Cmd → List Item
  | .item i => [i]
  | .batch l => l
  | .batchDefer l => l

/-- The tags a command writes. -/
def Cmd.tags (c : Cmd) : List TagArgs := c.allItems.filterMap Item.tag?

theorem mem_tags {a : TagArgs} {c : Cmd} : a ∈ c.tags ↔ ∃ i ∈ c.allItems, i.tag? = some a := by
  simp [Cmd.tags, List.mem_filterMap]

theorem Cmd.text_eq (c : Cmd) : c.text = c.allItems.flatMap Item.makeText := by
  cases c <;> simp [Cmd.text, Cmd.allItems]

theorem tag_in_text {a : TagArgs} {c : Cmd} (h : a ∈ c.tags) :
    ∃ p q, c.text = p ++ a.opening ++ q := by
  obtain ⟨i, hi, ht⟩ := mem_tags.mp h
  obtain ⟨u, v, e⟩ := List.append_of_mem hi
  have : ∃ p q, i.makeText = p ++ a.opening ++ q := by
    cases i <;> simp only [Item.tag?, Option.some.injEq, reduceCtorEq] at ht <;> subst ht <;>
      simp only [Item.makeText]
    · exact ⟨_, _, by simp only [List.append_assoc]; rfl⟩
    · exact ⟨_, _, by simp only [List.append_assoc]; rfl⟩
    · exact ⟨_, _, rfl⟩
  obtain ⟨p, q, e'⟩ := this
  rw [c.text_eq, e, List.flatMap_append, List.flatMap_cons, e']
  exact ⟨u.flatMap Item.makeText ++ p, q ++ v.flatMap Item.makeText, by simp⟩

theorem opening_eq {a : TagArgs} (h : a.classes ≠ []) : ∃ rest,
    a.opening = '<' :: a.tag ++ (if a.id ≠ [] then " id=\"".toList ++ a.id ++ "\"".toList else [])
      ++ " class=\"".toList ++ join " ".toList a.classes ++ "\"".toList ++ rest := by
  unfold TagArgs.opening makeTag
  simp only [h, ne_eq, not_false_eq_true, if_true]
  exact ⟨_, by simp only [List.append_assoc]; rfl⟩

/-- A program that does not write to the heap. -/
structure Reads {α : Type} (m : TrM α) : Prop where
  reads : ∀ s, (m s).state.heap = s.heap

section
variable {α β : Type}
theorem Reads.pure (a : α) : Reads (Pure.pure a : TrM α) := ⟨fun _ => rfl⟩
theorem Reads.throw (e : PyErr) : Reads (PyM.throw e : TrM α) := ⟨fun _ => rfl⟩
theorem Reads.get : Reads (PyM.get : TrM TrState) := ⟨fun _ => rfl⟩
theorem Reads.node (r : Ref) : Reads (Tr.node r) := ⟨fun _ => rfl⟩
theorem Reads.warn (w : Warning) : Reads (Tr.warn w) := ⟨fun _ => rfl⟩
theorem Reads.lift (x : Except PyErr α) : Reads (Tr.lift x) := by
  constructor; intro s; cases x <;> rfl
theorem Reads.bind {m : TrM α} {f : α → TrM β} (hm : Reads m) (hf : ∀ a, Reads (f a)) :
    Reads (m >>= f) := by
  constructor
  intro s
  have h := hm.reads s
  rw [bind_apply]
  cases e : m s with
  | ok a s' => rw [e] at h; exact ((hf a).reads s').trans h
  | err x s' => rw [e] at h; exact h
theorem Reads.forEach {body : α → TrM Unit} (h : ∀ a, Reads (body a)) (l : List α) :
    Reads (PyM.forEach body l) := by
  induction l with
  | nil => exact ⟨fun s => rfl⟩
  | cons x xs ih => exact Reads.bind (h x) fun _ => ih
theorem Reads.ok {m : TrM α} (h : Reads m) {s s' a} (e : m s = .ok a s') : s'.heap = s.heap := by
  have := h.reads s; rw [e] at this; exact this
end

/-- Proves `Reads` goals structurally. -/
macro "reads" : tactic => `(tactic| repeat' first
  | exact Reads.pure _ | exact Reads.throw _ | exact Reads.get | exact Reads.node _
  | exact Reads.lift _ | exact Reads.warn _ | exact Reads.forEach (fun _ => Reads.warn _) _
  | assumption
  | (with_reducible refine Reads.bind ?_ ?_)
  | (intro _)
  | split)

theorem fullNumber_reads (k r) : Reads (fullNumber k r) := by unfold fullNumber; reads
theorem reftext_reads (k r) : Reads (reftext k r) := by
  have := fullNumber_reads k r
  unfold reftext; reads
theorem sectionHeading_reads (k r) : Reads (sectionHeading k r) := by
  have := fullNumber_reads k r
  unfold sectionHeading; reads
theorem theoremNumber_reads (k r) : Reads (theoremNumber k r) := by
  have := fullNumber_reads k r
  unfold theoremNumber; reads
theorem bibitemText_reads (r) : Reads (bibitemText r) := by
  unfold bibitemText bibitemYear bibitemDoi; reads
theorem minimap_reads (k r f w) : Reads (minimap k r f w) := by unfold minimap; reads
theorem handrailItems_reads (k r a c d) : Reads (handrailItems k r a c d) := by
  have := reftext_reads k r
  unfold handrailItems; reads
theorem wrapHeading_reads (k r l) : Reads (wrapHeading k r l) := by
  have := reftext_reads k r
  unfold wrapHeading; reads
theorem wrapIf_reads (k r l) : Reads (wrapIf k r l) := by
  have := wrapHeading_reads k r l
  unfold wrapIf; reads

/-! ## Programs that only return good values -/

/-- From states that satisfy `I`: all values returned satisfy `P`, in states that satisfy `I`. -/
structure Gives {α : Type} (I : TrState → Prop) (P : α → Prop) (m : TrM α) : Prop where
  gives : ∀ s, I s → match m s with
    | .ok a s' => I s' ∧ P a
    | .err _ _ => True

section
variable {α β : Type} {I : TrState → Prop} {P : α → Prop} {Q : β → Prop}

theorem Gives.pure {a : α} (h : P a) : Gives I P (Pure.pure a : TrM α) := ⟨fun _ hs => ⟨hs, h⟩⟩
theorem Gives.throw (e : PyErr) : Gives I P (PyM.throw e : TrM α) := ⟨fun _ _ => trivial⟩
theorem Gives.bind {m : TrM α} {f : α → TrM β} (hm : Gives I P m)
    (hf : ∀ a, P a → Gives I Q (f a)) : Gives I Q (m >>= f) := by
  constructor
  intro s hs
  have h := hm.gives s hs
  rw [bind_apply]
  cases e : m s with
  | ok a s' => rw [e] at h; exact (hf a h.2).gives s' h.1
  | err x s' => trivial
theorem Gives.mono {m : TrM α} {P' : α → Prop} (h : Gives I P m) (hp : ∀ a, P a → P' a) :
    Gives I P' m := by
  constructor
  intro s hs
  have := h.gives s hs
  cases e : m s with
  | ok a s' => rw [e] at this; exact ⟨this.1, hp a this.2⟩
  | err x s' => trivial
theorem Gives.get : Gives I I (PyM.get : TrM TrState) := ⟨fun _ h => ⟨h, h⟩⟩
theorem Gives.node (r : Ref) : Gives I (fun nd => ∃ s, I s ∧ nd = s.heap.get r) (Tr.node r) :=
  ⟨fun s h => ⟨h, s, h, rfl⟩⟩
theorem Gives.lift (x : Except PyErr α) : Gives I (fun a => x = .ok a) (Tr.lift x) := by
  constructor; intro s hs
  cases x with
  | ok a => exact ⟨hs, rfl⟩
  | error e => trivial
theorem Gives.of_keep {m : TrM α} (h : ∀ s, I s → I (m s).state) : Gives I (fun _ => True) m := by
  constructor; intro s hs
  have := h s hs
  cases e : m s with
  | ok a s' => rw [e] at this; exact ⟨this, trivial⟩
  | err x s' => trivial
theorem Gives.any {m : TrM α} : Gives (fun _ => True) (fun _ => True) m :=
  Gives.of_keep fun _ _ => trivial
end

end Tr

/-! ## Dispatch -/

theorem mro_getElem? (c : Cls) (i : Nat) : c.mro[i]? = ancestor i c := by
  induction i generalizing c with
  | zero => rw [Cls.mro_eq]; cases c.base <;> rfl
  | succ i ih =>
    rw [Cls.mro_eq]
    cases h : c.base with
    | none => simp [ancestor, h]
    | some b => simp [ancestor, h, ih]

theorem node_mem_mro (c : Cls) : Cls.Node ∈ c.mro := by cases c <;> decide

end RSM
