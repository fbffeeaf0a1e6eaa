import Verif.Lemmas.TrText
import Verif.Spec.Html

/-! # Lemmas: the output as a function of the texts of the document -/

namespace RSM
namespace Tr
open PyM
open Html (weave)

/-! ## Weaving -/

/-- The gaps of two woven strings that are put one after the other. -/
def glue : List Str → List Str → List Str
  | [], g => g
  | [a], [] => [a]
  | [a], b :: g => (a ++ b) :: g
  | a :: b :: l, g => a :: glue (b :: l) g

theorem glue_length : ∀ (g g' : List Str), g ≠ [] → g' ≠ [] →
    (glue g g').length + 1 = g.length + g'.length
  | [], _, h, _ => absurd rfl h
  | [a], [], _, h => absurd rfl h
  | [a], b :: g, _, _ => by simp [glue]; omega
  | a :: b :: l, g, _, h => by
    have := glue_length (b :: l) g (by simp) h
    simp only [glue, List.length_cons] at this ⊢; omega

theorem weave_glue : ∀ (g g' xs xs' : List Str), g.length = xs.length + 1 → g' ≠ [] →
    weave (glue g g') (xs ++ xs') = weave g xs ++ weave g' xs'
  | [], _, xs, _, h, _ => by simp at h
  | [a], [], _, _, _, h => absurd rfl h
  | [a], b :: g, [], xs', _, _ => by
    cases xs' <;> simp [glue, weave]
  | [a], b :: g, x :: xs, xs', h, _ => by simp at h
  | a :: b :: l, g', [], _, h, _ => by simp at h
  | a :: b :: l, g', x :: xs, xs', h, hg => by
    have := weave_glue (b :: l) g' xs xs' (by simpa using h) hg
    simp only [glue, weave, List.cons_append, this, List.append_assoc]

/-! ## Programs that do not write to the output -/

/-- A program that leaves `translator.body` alone. -/
structure Mute {α : Type} (m : TrM α) : Prop where
  mute : ∀ s, (m s).state.body = s.body

section
variable {α β : Type}
theorem Mute.pure (a : α) : Mute (Pure.pure a : TrM α) := ⟨fun _ => rfl⟩
theorem Mute.throw (e : PyErr) : Mute (PyM.throw e : TrM α) := ⟨fun _ => rfl⟩
theorem Mute.get : Mute (PyM.get : TrM TrState) := ⟨fun _ => rfl⟩
theorem Mute.node (r : Ref) : Mute (Tr.node r) := ⟨fun _ => rfl⟩
theorem Mute.assign (r : Ref) (f) : Mute (Tr.assign r f) := ⟨fun _ => rfl⟩
theorem Mute.lift (x : Except PyErr α) : Mute (Tr.lift x) := by
  constructor; intro s; cases x <;> rfl
theorem Mute.itemsOf (c : Cmd) : Mute (Tr.itemsOf c) := by
  constructor; intro s; unfold Tr.itemsOf; cases c.items? <;> rfl
theorem Mute.leaveNode : Mute Tr.leaveNode := by
  constructor; intro s
  simp only [Tr.leaveNode, bind_apply, get_apply]
  cases s.deferred <;> rfl
theorem Mute.bind {m : TrM α} {f : α → TrM β} (hm : Mute m) (hf : ∀ a, Mute (f a)) :
    Mute (m >>= f) := by
  constructor
  intro s
  have h := hm.mute s
  rw [bind_apply]
  cases e : m s with
  | ok a s' => rw [e] at h; exact ((hf a).mute s').trans h
  | err x s' => rw [e] at h; exact h
theorem Mute.fullNumber (k r) : Mute (Tr.fullNumber k r) := by
  refine Mute.bind Mute.get fun t => ?_
  split
  · exact Mute.pure _
  · exact Mute.throw _
end

/-- Proves `Mute` goals structurally. -/
macro "mutes" : tactic => `(tactic| repeat' first
  | exact Mute.pure _ | exact Mute.throw _ | exact Mute.get | exact Mute.node _
  | exact Mute.lift _ | exact Mute.assign _ _ | exact Mute.itemsOf _ | exact Mute.leaveNode
  | exact Mute.fullNumber _ _
  | assumption
  | (with_reducible refine Mute.bind ?_ ?_)
  | (intro _)
  | split)

theorem leaveWith_mute (k o r) : Mute (leaveWith k o r) := by
  have h1 : Mute (leaveMathBlock r) := by unfold leaveMathBlock; mutes
  cases o
  all_goals simp only [leaveWith, leaveAbstract, hrLeaveMathBlock, leaveParagraph, infoBeforeLast,
    leaveInfo, leaveProof, hrLeaveStep, hrLeaveMath]
  all_goals mutes

theorem leave_mute (k r) : Mute (leave k r) := by
  have := fun o => leaveWith_mute k o r
  unfold leave
  exact Mute.bind (Mute.node _) fun nd => Mute.bind (Mute.lift _) fun o => this o

/-! ## Parallel runs -/

variable (k : Conf) (h0 : Heap) (P : List Ref)

/-- The document without any text. -/
def noText : Ref → Str := fun _ => []

/-- Assignments of texts for which the runs are comparable. -/
def Allowed (T : Ref → Str) : Prop := ∀ r ∈ P, Quiet k h0 noText T r

/-- The output of `m` is made of the texts of `ns`, in order, between pieces that do not depend on
them. -/
def Parallel (m : TrM Unit) (ns : List Ref) (s : TrState) : Prop :=
  match m s with
  | .ok _ s1 => ∃ gaps : List Str, gaps.length = ns.length + 1 ∧
      ∀ T s', Allowed k h0 P T → Rel (TextRel h0 noText T) s s' →
        ∃ s1', m s' = .ok () s1' ∧ Rel (TextRel h0 noText T) s1 s1' ∧
          s1'.body = s'.body ++ weave gaps (ns.map T)
  | .err e _ => ∀ T s', Allowed k h0 P T → Rel (TextRel h0 noText T) s s' → ∃ s1', m s' = .err e s1'

variable {k h0 P}

theorem Parallel.seq {m m2 : TrM Unit} {ns ns2 : List Ref} {s : TrState}
    (h : Parallel k h0 P m ns s) (h2 : ∀ s1, Parallel k h0 P m2 ns2 s1) :
    Parallel k h0 P (m >>= fun _ => m2) (ns ++ ns2) s := by
  unfold Parallel at h ⊢
  rw [bind_apply]
  cases e : m s with
  | err x s1 =>
    rw [e] at h
    intro T s' hT hs
    obtain ⟨s1', e'⟩ := h T s' hT hs
    exact ⟨s1', by rw [bind_apply, e']⟩
  | ok u s1 =>
    rw [e] at h
    obtain ⟨gaps, hg, h⟩ := h
    have h2 := h2 s1
    unfold Parallel at h2
    dsimp only
    cases e2 : m2 s1 with
    | err x s2 =>
      rw [e2] at h2
      intro T s' hT hs
      obtain ⟨s1', e', hr, _⟩ := h T s' hT hs
      obtain ⟨s2', e2'⟩ := h2 T s1' hT hr
      exact ⟨s2', by rw [bind_apply, e']; exact e2'⟩
    | ok u2 s2 =>
      rw [e2] at h2
      obtain ⟨gaps2, hg2, h2⟩ := h2
      have hne : gaps2 ≠ [] := by rintro rfl; simp at hg2
      have hne' : gaps ≠ [] := by rintro rfl; simp at hg
      refine ⟨glue gaps gaps2, ?_, fun T s' hT hs => ?_⟩
      · have := glue_length gaps gaps2 hne' hne
        rw [List.length_append]; omega
      · obtain ⟨s1', e', hr, hb⟩ := h T s' hT hs
        obtain ⟨s2', e2', hr2, hb2⟩ := h2 T s1' hT hr
        refine ⟨s2', by rw [bind_apply, e']; exact e2', hr2, ?_⟩
        rw [hb2, hb, List.map_append, weave_glue _ _ _ _ (by simpa using hg) hne, List.append_assoc]

/-- A program that does the same in both runs, passing its value to the next one. -/
theorem Parallel.after {α : Type} {m : TrM α} {f : α → TrM Unit} {ns : List Ref} {s : TrState}
    (hm : ∀ T, Allowed k h0 P T → Sim (TextRel h0 noText T) Eq m m)
    (hmute : Mute m) (hf : ∀ a s, Parallel k h0 P (f a) ns s) :
    Parallel k h0 P (m >>= f) ns s := by
  unfold Parallel
  rw [bind_apply]
  cases e : m s with
  | err x s1 =>
    intro T s' hT hs
    have := (hm T hT).sim s s' hs
    rw [e] at this
    generalize e' : m s' = y at this
    cases this
    exact ⟨_, by rw [bind_apply, e']⟩
  | ok a s1 =>
    have h2 := hf a s1
    unfold Parallel at h2
    dsimp only
    have key : ∀ T s', Allowed k h0 P T → Rel (TextRel h0 noText T) s s' →
        ∃ s1', m s' = .ok a s1' ∧ Rel (TextRel h0 noText T) s1 s1' ∧ s1'.body = s'.body := by
      intro T s' hT hs
      have := (hm T hT).sim s s' hs
      have hb := hmute.mute s'
      rw [e] at this
      generalize e' : m s' = y at this hb
      cases this with
      | ok hs1 hab => subst hab; exact ⟨_, rfl, hs1, hb⟩
    cases e2 : f a s1 with
    | err x s2 =>
      rw [e2] at h2
      intro T s' hT hs
      obtain ⟨s1', e', hr, _⟩ := key T s' hT hs
      obtain ⟨s2', e2'⟩ := h2 T s1' hT hr
      exact ⟨s2', by rw [bind_apply, e']; exact e2'⟩
    | ok u s2 =>
      rw [e2] at h2
      obtain ⟨gaps, hg, h2⟩ := h2
      refine ⟨gaps, hg, fun T s' hT hs => ?_⟩
      obtain ⟨s1', e', hr, hb⟩ := key T s' hT hs
      obtain ⟨s2', e2', hr2, hb2⟩ := h2 T s1' hT hr
      exact ⟨s2', by rw [bind_apply, e']; exact e2', hr2, by rw [hb2, hb]⟩

theorem Parallel.execute (c : Cmd) (s) : Parallel k h0 P c.execute [] s := by
  unfold Parallel
  rw [Cmd.execute_eq]
  refine ⟨[c.text], rfl, fun T s' _ hs => ⟨_, Cmd.execute_eq c s', ⟨hs.heap, by simp [hs.deferred], hs.tree⟩, ?_⟩⟩
  simp [weave]

theorem Parallel.pure (s) : Parallel k h0 P (pure ()) [] s :=
  ⟨[[]], rfl, fun T s' _ hs => ⟨s', rfl, hs, by simp [weave]⟩⟩

theorem Parallel.finish {r} (hr : (h0.get r).cls ≠ .Text) (c : Cmd) (s) :
    Parallel k h0 P (finish k r c) [] s := by
  unfold Tr.finish
  split
  · exact Parallel.after (fun T _ => leave_text k hr) (leave_mute k r) fun d s => Parallel.execute d s
  · exact Parallel.pure s

theorem visit_mute (k r) : Mute (visit k r) := ⟨fun s => ((visit_keeps k r).keep s).body⟩

/-- The text nodes among the given ones. -/
def textsOf (h : Heap) (l : List Ref) : List Ref := l.filter fun r => (h.get r).cls = .Text

theorem visit_of_text {s : TrState} {r} (hr : (s.heap.get r).cls = .Text) :
    visit k r s = .ok (.item (.text (s.heap.get r).text)) s := by
  simp only [visit, bind_apply, node, gets_apply, hr]
  rfl

theorem Parallel.text {r ns} {m : TrM Unit}
    (hm : ∀ s, Parallel k h0 P m ns s) (s) (hs0 : (s.heap.get r).cls = .Text) : Parallel k h0 P
    (visit k r >>= fun c => c.execute >>= fun _ => m >>= fun _ => Tr.finish k r c) (r :: ns) s := by
  have key : ∀ s : TrState, (s.heap.get r).cls = .Text →
      (visit k r >>= fun c => c.execute >>= fun _ => m >>= fun _ => Tr.finish k r c) s
      = m { s with body := s.body ++ (s.heap.get r).text } := by
    intro s hs
    rw [bind_apply, visit_of_text hs]
    simp only [bind_apply, Cmd.execute_eq]
    have : (Cmd.pushed (.item (.text (s.heap.get r).text))) = [] := rfl
    rw [this]
    have h2 : Cmd.text (.item (.text (s.heap.get r).text)) = (s.heap.get r).text := rfl
    have h3 : Cmd.defers (.item (.text (s.heap.get r).text)) = false := rfl
    simp only [List.nil_append, Tr.finish, h2, h3, Bool.false_eq_true, if_false]
    cases m { s with body := s.body ++ (s.heap.get r).text } <;> rfl
  have h := hm { s with body := s.body ++ (s.heap.get r).text }
  have hrel : ∀ T s', Rel (TextRel h0 noText T) s s' →
      Rel (TextRel h0 noText T) { s with body := s.body ++ (s.heap.get r).text }
        { s' with body := s'.body ++ (s'.heap.get r).text } :=
    fun T s' hs => ⟨hs.heap, hs.deferred, hs.tree⟩
  have hcls : ∀ T s', Rel (TextRel h0 noText T) s s' → (s'.heap.get r).cls = .Text :=
    fun T s' hs => by rw [(textShape _ _ hs.heap).cls]; exact hs0
  unfold Parallel at h ⊢
  rw [key s hs0]
  cases e : m { s with body := s.body ++ (s.heap.get r).text } with
  | err x s1 =>
    rw [e] at h
    intro T s' hT hs
    obtain ⟨s1', e1⟩ := h T _ hT (hrel T s' hs)
    exact ⟨s1', by rw [key s' (hcls T s' hs)]; exact e1⟩
  | ok u s1 =>
    rw [e] at h
    obtain ⟨gaps, hg, h⟩ := h
    refine ⟨[] :: gaps, by simp [hg], fun T s' hT hs => ?_⟩
    obtain ⟨s1', e1, hr1, hb⟩ := h T _ hT (hrel T s' hs)
    refine ⟨s1', by rw [key s' (hcls T s' hs)]; exact e1, hr1, ?_⟩
    rw [hb, (hs.heap.text r hs0).2]
    simp [weave]

/-- A state without related states. -/
theorem Parallel.vacuous {m ns s} (h : ∀ T s', ¬ Rel (TextRel h0 noText T) s s') :
    Parallel k h0 P m ns s := by
  unfold Parallel
  cases m s with
  | err x s1 => exact fun T s' _ hs => absurd hs (h T s')
  | ok u s1 => exact ⟨List.replicate (ns.length + 1) [], by simp, fun T s' _ hs => absurd hs (h T s')⟩

mutual
theorem parallel_tree (t : Tree) (hP : ∀ r ∈ t.pre, r ∈ P) (s : TrState) :
    Parallel k h0 P (evalTree k t) (textsOf h0 t.pre) s := by
  match t with
  | .node r ks =>
    have hf := fun s => parallel_forest ks (fun x hx => hP x (by simp [hx])) s
    rw [evalTree_node]
    by_cases hr : (h0.get r).cls = .Text
    · by_cases hs0 : (s.heap.get r).cls = .Text
      · have := Parallel.text hf s hs0
        rw [show textsOf h0 (Tree.node r ks).pre = r :: textsOf h0 (Tree.preL ks) by
          simp [textsOf, hr]]
        exact this
      · exact Parallel.vacuous fun T s' hs => hs0 (by rw [hs.heap.shape.cls]; exact hr)
    · rw [show textsOf h0 (Tree.node r ks).pre = textsOf h0 (Tree.preL ks) by
          simp [textsOf, hr]]
      refine Parallel.after (fun T hT => visit_text k hr (hT r (hP r (by simp)))) (visit_mute k r)
        fun c s => ?_
      refine Parallel.seq (ns := []) (Parallel.execute c s) fun s => ?_
      have := Parallel.seq (hf s) fun s => Parallel.finish hr c s
      rw [List.append_nil] at this
      exact this
theorem parallel_forest (ts : List Tree) (hP : ∀ r ∈ Tree.preL ts, r ∈ P) (s : TrState) :
    Parallel k h0 P (evalForest k ts) (textsOf h0 (Tree.preL ts)) s := by
  match ts with
  | [] => rw [evalForest_nil]; exact Parallel.pure s
  | t :: ts =>
    rw [evalForest_cons, show textsOf h0 (Tree.preL (t :: ts)) =
      textsOf h0 t.pre ++ textsOf h0 (Tree.preL ts) by simp [textsOf]]
    exact Parallel.seq (parallel_tree t (fun x hx => hP x (by simp [hx])) s) fun s =>
      parallel_forest ts (fun x hx => hP x (by simp [hx])) s
end

end Tr
end RSM
