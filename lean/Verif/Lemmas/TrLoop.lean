import Verif.Lemmas.TrEval

/-! # Lemmas: the translation loop is a recursion over the tree -/

namespace RSM
namespace Tr
open PyM

/-- Leaving a node whose visit deferred something. -/
def finish (k : Conf) (r : Ref) (c : Cmd) : TrM Unit :=
  if c.defers then (do let d ← leave k r; d.execute) else pure ()

mutual
/-- Translating a subtree, as a recursion. -/
def evalTree (k : Conf) : Tree → TrM Unit
  | .node r ks => do
    let c ← visit k r
    c.execute
    evalForest k ks
    finish k r c
/-- Translating a list of subtrees. -/
def evalForest (k : Conf) : List Tree → TrM Unit
  | [] => pure ()
  | t :: ts => do
    evalTree k t
    evalForest k ts
end

theorem evalTree_node (k r ks) : evalTree k (.node r ks) = (do
    let c ← visit k r
    c.execute
    evalForest k ks
    finish k r c) := by rw [evalTree]
theorem evalForest_nil (k) : evalForest k [] = pure () := by rw [evalForest]
theorem evalForest_cons (k t ts) : evalForest k (t :: ts) = (do
    evalTree k t
    evalForest k ts) := by rw [evalForest]

/-! ## The command a visit leaves on the stack -/

theorem Cmd.Visit.pushed {c : Cmd} (h : c.Visit) :
    (c.defers = true ∧ ∃ c0, c0.Closer ∧ c.pushed = [c0]) ∨ (c.defers = false ∧ c.pushed = []) := by
  cases h with
  | item i =>
    cases hd : i.deferred with
    | none => right; simp [Cmd.defers, Cmd.pushed, hd]
    | some d => left; exact ⟨by simp [Cmd.defers, hd], _, .inl ⟨d, rfl⟩, by simp [Cmd.pushed, hd]⟩
  | batchDefer l =>
    left
    refine ⟨rfl, _, .inr ⟨((l.filterMap Item.deferred)).reverse, ?_⟩, rfl⟩
    rw [List.map_reverse]

/-- What a part of a translation guarantees. -/
def Outcome (bad : Prop) (s : TrState) : Res TrState Unit → Prop
  | .ok _ s' => SameFrame s.heap s'.heap ∧ s'.deferred = s.deferred ∧ s'.tree = s.tree ∧
      ∃ out, s'.body = s.body ++ out
  | .err e s' => SameFrame s.heap s'.heap ∧ (∃ ds, s'.deferred = ds ++ s.deferred) ∧
      (∃ out, s'.body = s.body ++ out) ∧ (e = .rsmTranslatorError → bad)

theorem Outcome.mono {b b' : Prop} {s res} (h : Outcome b s res) (hb : b → b') : Outcome b' s res := by
  cases res with
  | ok a s' => exact h
  | err e s' => exact ⟨h.1, h.2.1, h.2.2.1, fun he => hb (h.2.2.2 he)⟩

theorem NoTarget.congr {h h' : Heap} (hf : SameFrame h h') {r} (hr : NoTarget h' r) : NoTarget h r := by
  have h1 := hf.cls r
  have h2 : (h'.get r).target = (h.get r).target := (congrArg NodeRec.target (hf.2 r) :)
  exact ⟨h1 ▸ hr.1, h2 ▸ hr.2⟩

theorem finish_outcome {k r c} (hc : c.Visit) {s : TrState} {ds : List Cmd}
    (hs : s.deferred = c.pushed ++ ds) : match finish k r c s with
    | .ok _ s' => SameFrame s.heap s'.heap ∧ s'.deferred = ds ∧ s'.tree = s.tree ∧
      ∃ out, s'.body = s.body ++ out
    | .err e s' => SameFrame s.heap s'.heap ∧ s'.deferred = ds ∧ s'.body = s.body ∧
        e ≠ .rsmTranslatorError := by
  unfold finish
  rcases hc.pushed with ⟨h1, c0, h2, h3⟩ | ⟨h1, h3⟩
  · rw [h1, if_pos rfl, bind_apply]
    have := leave_spec k r (s := s) (c0 := c0) (ds := ds) (by rw [hs, h3]; rfl) h2
    cases hv : leave k r s with
    | ok d s' =>
      rw [hv] at this
      obtain ⟨hp, hd⟩ := this
      simp only [Cmd.execute_eq]
      refine ⟨hp.frame, ?_, hp.tree, d.text, ?_⟩
      · show d.pushed ++ s'.deferred = ds
        rw [show d.pushed = [] from hd, hp.deferred]; rfl
      · show s'.body ++ d.text = _
        rw [hp.body]
    | err e s' =>
      rw [hv] at this
      exact ⟨this.1.frame, this.1.deferred, this.1.body, this.2⟩
  · rw [h1]
    exact ⟨SameFrame.refl _, by rw [hs, h3]; rfl, rfl, [], by simp⟩

mutual
theorem evalTree_outcome (k) : ∀ (t : Tree) (s : TrState),
    Outcome (∃ r ∈ t.pre, NoTarget s.heap r) s (evalTree k t s)
  | .node r ks, s => by
    rw [evalTree_node, bind_apply]
    have hv := visit_spec k r s
    cases ev : visit k r s with
    | err e s1 =>
      rw [ev] at hv
      exact ⟨hv.1.frame, ⟨[], by simp [hv.1.deferred]⟩, ⟨[], by simp [hv.1.body]⟩,
        fun he => ⟨r, by simp, hv.2 he⟩⟩
    | ok c s1 =>
      rw [ev] at hv
      obtain ⟨hk, hc⟩ := hv
      simp only [bind_apply, Cmd.execute_eq]
      have ih := evalForest_outcome k ks
        { s1 with body := s1.body ++ c.text, deferred := c.pushed ++ s1.deferred }
      cases ef : evalForest k ks
          { s1 with body := s1.body ++ c.text, deferred := c.pushed ++ s1.deferred } with
      | err e s2 =>
        rw [ef] at ih
        obtain ⟨h1, ⟨ds, h2⟩, ⟨out, h3⟩, h4⟩ := ih
        refine ⟨hk.frame.trans h1, ⟨ds ++ c.pushed, ?_⟩, ⟨c.text ++ out, ?_⟩, fun he => ?_⟩
        · rw [h2]; simp [hk.deferred]
        · rw [h3]; simp [hk.body]
        · obtain ⟨x, hx, hn⟩ := h4 he
          exact ⟨x, by simp [hx], hn.congr hk.frame⟩
      | ok a s2 =>
        rw [ef] at ih
        obtain ⟨h1, h2, h3, out, h4⟩ := ih
        have hf := finish_outcome (k := k) (r := r) hc (s := s2) (ds := s.deferred)
          (by rw [h2]; show c.pushed ++ s1.deferred = _; rw [hk.deferred])
        dsimp only
        cases eg : finish k r c s2 with
        | ok _ s3 =>
          rw [eg] at hf
          obtain ⟨g1, g2, g3, out', g4⟩ := hf
          exact ⟨hk.frame.trans (h1.trans g1), g2, g3.trans (h3.trans hk.tree),
            c.text ++ out ++ out', by rw [g4, h4]; simp [hk.body]⟩
        | err e s3 =>
          rw [eg] at hf
          obtain ⟨g1, g2, g3, g4⟩ := hf
          exact ⟨hk.frame.trans (h1.trans g1), ⟨[], by rw [g2]; rfl⟩,
            ⟨c.text ++ out, by rw [g3, h4]; simp [hk.body]⟩, fun he => absurd he g4⟩
theorem evalForest_outcome (k) : ∀ (ts : List Tree) (s : TrState),
    Outcome (∃ r ∈ Tree.preL ts, NoTarget s.heap r) s (evalForest k ts s)
  | [], s => by
    rw [evalForest_nil]
    exact ⟨SameFrame.refl _, rfl, rfl, [], by simp⟩
  | t :: ts, s => by
    rw [evalForest_cons, bind_apply]
    have h1 := evalTree_outcome k t s
    cases e1 : evalTree k t s with
    | err e s1 =>
      rw [e1] at h1
      exact h1.mono fun ⟨r, hr, hn⟩ => ⟨r, by simp [hr], hn⟩
    | ok a s1 =>
      rw [e1] at h1
      obtain ⟨g1, g2, g3, out, g4⟩ := h1
      have h2 := evalForest_outcome k ts s1
      dsimp only
      cases e2 : evalForest k ts s1 with
      | err e s2 =>
        rw [e2] at h2
        obtain ⟨k1, ⟨ds, k2⟩, ⟨out', k3⟩, k4⟩ := h2
        exact ⟨g1.trans k1, ⟨ds, by rw [k2, g2]⟩, ⟨out ++ out', by rw [k3, g4]; simp⟩,
          fun he => (k4 he).elim fun r hr => ⟨r, by simp [hr.1], hr.2.congr g1⟩⟩
      | ok b s2 =>
        rw [e2] at h2
        obtain ⟨k1, k2, k3, out', k4⟩ := h2
        exact ⟨g1.trans k1, k2.trans g2, k3.trans g3, out ++ out', by rw [k4, g4]; simp⟩
end

/-! ## The loop -/

/-- Continue after a part of the translation. -/
def andThen (res : Res TrState Unit) (f : TrState → Res TrState Unit) : Res TrState Unit :=
  match res with
  | .ok _ s => f s
  | .err e s => .err e s

theorem outcome_frame {b s res s'} (h : Outcome b s res) (e : res = .ok () s') :
    SameFrame s.heap s'.heap := by subst e; exact h.1

mutual
theorem loop_tree (k : Conf) : ∀ (t : Tree) {s : TrState} {p} (_ : IsTree s.heap p t)
    {n : Nat} (_ : 2 * t.size ≤ n) (rest : List Act),
    ∃ n', n ≤ n' + 2 * t.size ∧ trLoop k n (.visit t.root :: rest) s =
      andThen (evalTree k t s) (trLoop k n' rest)
  | .node r ks, s, p, ht, n, hn, rest => by
    rw [Tree.size_node] at hn ⊢
    obtain ⟨n, rfl⟩ : ∃ m, n = m + 1 := ⟨n - 1, by omega⟩
    have hv := visit_spec k r s
    rw [evalTree_node, Tree.root_node, trLoop, bind_apply, bind_apply]
    cases ev : visit k r s with
    | err e s1 => exact ⟨n, by omega, rfl⟩
    | ok c s1 =>
      rw [ev] at hv
      obtain ⟨hk, hc⟩ := hv
      obtain ⟨h1, h2, h3⟩ := ht
      have hkids : s1.heap.children r = ks.map Tree.root := by rw [hk.frame.children, h2]
      simp only [bind_apply, get_apply, Cmd.execute_eq, hkids, List.map_map, List.append_assoc]
      have hfor : IsForest s1.heap (some r) ks :=
        isForest_iff.mpr fun t ht => hk.frame.isTree (isForest_iff.mp h3 t ht)
      obtain ⟨n1, hn1, e1⟩ := loop_forest k ks
        (s := { s1 with body := s1.body ++ c.text, deferred := c.pushed ++ s1.deferred }) hfor
        (n := n) (by omega) ((if c.defers then [.leave r] else []) ++ rest)
      have ho := evalForest_outcome k ks
        { s1 with body := s1.body ++ c.text, deferred := c.pushed ++ s1.deferred }
      rw [show ((Act.visit ∘ Tree.root) = fun t : Tree => Act.visit t.root) from rfl, e1]
      cases ef : evalForest k ks
          { s1 with body := s1.body ++ c.text, deferred := c.pushed ++ s1.deferred } with
      | err e s2 => exact ⟨n, by omega, rfl⟩
      | ok a s2 =>
        simp only [andThen, finish]
        cases hd : c.defers with
        | false => exact ⟨n1, by omega, rfl⟩
        | true =>
          obtain ⟨n1, rfl⟩ : ∃ m, n1 = m + 1 := ⟨n1 - 1, by omega⟩
          refine ⟨n1, by omega, ?_⟩
          simp only [if_true, List.singleton_append, trLoop, bind_apply]
          cases leave k r s2 with
          | err e s3 => rfl
          | ok d s3 => simp only [Cmd.execute_eq]
theorem loop_forest (k : Conf) : ∀ (ts : List Tree) {s : TrState} {p} (_ : IsForest s.heap p ts)
    {n : Nat} (_ : 2 * Tree.sizeL ts ≤ n) (rest : List Act),
    ∃ n', n ≤ n' + 2 * Tree.sizeL ts ∧
      trLoop k n (ts.map (fun t => .visit t.root) ++ rest) s =
        andThen (evalForest k ts s) (trLoop k n' rest)
  | [], s, p, _, n, _, rest => ⟨n, by simp, by rw [evalForest_nil]; rfl⟩
  | t :: ts, s, p, hf, n, hn, rest => by
    rw [Tree.sizeL_cons] at hn ⊢
    obtain ⟨n1, hn1, e1⟩ := loop_tree k t hf.1 (n := n) (by omega)
      (ts.map (fun t => .visit t.root) ++ rest)
    rw [List.map_cons, List.cons_append, e1, evalForest_cons, bind_apply]
    have ho := evalTree_outcome k t s
    cases e : evalTree k t s with
    | err x s1 => exact ⟨n, by omega, rfl⟩
    | ok a s1 =>
      rw [e] at ho
      have hfor : IsForest s1.heap p ts :=
        isForest_iff.mpr fun t ht => ho.1.isTree (isForest_iff.mp hf.2 t ht)
      obtain ⟨n2, hn2, e2⟩ := loop_forest k ts hfor (n := n1) (by omega) rest
      exact ⟨n2, by omega, e2⟩
end

/-- The state in which `translate` starts its loop. -/
def started (root : Ref) (s : TrState) : TrState := { s with body := [], tree := root }

/-- `translate` of a document is the recursion over its tree. -/
theorem translate_eq (k : Conf) {root : Ref} {t : Tree} {s : TrState} (hd : Doc s.heap root t)
    (hfuel : 2 * t.size ≤ k.fuel) :
    translate k root s =
      if s.deferred ≠ [] then .err .rsmTranslatorError (started root s)
      else match evalTree k t (started root s) with
        | .ok _ s' => .ok s'.body s'
        | .err e s' => .err e s' := by
  unfold translate
  simp only [bind_apply, modify_apply, requireNoDeferred, get_apply, started, gets_apply]
  by_cases h : s.deferred = []
  · rw [if_neg (by simp [h])]
    simp only [h, ne_eq, not_true_eq_false, if_false, pure_apply]
    have ht : IsTree (started root s).heap none t := hd.tree
    obtain ⟨n, hn, e⟩ := loop_tree k t ht hfuel []
    rw [hd.root_eq] at e
    have ho := evalTree_outcome k t (started root s)
    rw [show ({ heap := s.heap, body := [], deferred := [], tree := root, log := s.log } : TrState)
      = started root s by simp [started, h], e]
    cases ev : evalTree k t (started root s) with
    | err x s' => rfl
    | ok a s' =>
      rw [ev] at ho
      have hds : s'.deferred = [] := by rw [ho.2.1]; exact h
      simp only [andThen, trLoop, pure_apply, hds, not_true_eq_false, if_false]
  · simp only [ne_eq, h, not_false_eq_true, if_true, throw_apply]

end Tr
end RSM
