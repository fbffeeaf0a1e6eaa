import Verif.Lemmas.Subproofs

/-! Helper lemmas for `add_necessary_subproofs`: the whole loop. -/

namespace RSM
open PyM Tree Transformer

theorem split_unique {α : Type} {P : α → Prop} {a b c d : List α} {k : α} (h : a ++ b = c ++ k :: d)
    (ha : ∀ x ∈ a, ¬ P x) (hc : ∀ x ∈ c, ¬ P x) (hk : P k)
    (hb : ∀ x b', b = x :: b' → P x) : a = c ∧ b = k :: d := by
  rcases List.append_eq_append_iff.mp h with ⟨as, h1, h2⟩ | ⟨bs, h1, h2⟩
  · cases as with
    | nil => simp at h1 h2; exact ⟨h1.symm, h2⟩
    | cons x as =>
      exact absurd (hb x _ h2) (hc x (by rw [h1]; simp))
  · cases bs with
    | nil => simp at h1 h2; exact ⟨h1, h2.symm⟩
    | cons x as =>
      simp only [List.cons_append, List.cons.injEq] at h2
      exact absurd hk (by rw [h2.1]; exact ha x (by rw [h1]; simp))

theorem split_exists {α : Type} {P : α → Prop} [DecidablePred P] (l : List α) :
    ∃ a b, l = a ++ b ∧ (∀ x ∈ a, ¬ P x) ∧ (∀ x b', b = x :: b' → P x) := by
  induction l with
  | nil => exact ⟨[], [], rfl, by simp, by simp⟩
  | cons x l ih =>
    by_cases hx : P x
    · exact ⟨[], x :: l, rfl, by simp, by rintro y b' ⟨⟩; exact hx⟩
    · obtain ⟨a, b, rfl, h1, h2⟩ := ih
      refine ⟨x :: a, b, rfl, ?_, h2⟩
      intro y hy
      rcases List.mem_cons.mp hy with rfl | hy
      · exact hx
      · exact h1 y hy

theorem subproofsLast_node {h : Heap} {i : Ref} {ks : List Tree} :
    SubproofsLast h (.node i ks) ↔
      ((h.get i).cls = .Step → ∀ a k b, ks = a ++ k :: b → (∀ j ∈ a, ¬ Opens h j) →
        (h.get k.root).cls = .Subproof → b = []) ∧ ∀ k ∈ ks, SubproofsLast h k := by
  constructor
  · intro H
    refine ⟨fun hc => H i ks (self_mem_subtrees _) hc, ?_⟩
    intro k hk j js hj
    exact H j js (mem_subtrees_node.mpr (.inr ⟨k, hk, hj⟩))
  · rintro ⟨H1, H2⟩ j js hj hc
    rcases mem_subtrees_node.mp hj with e | ⟨k, hk, hjk⟩
    · obtain ⟨rfl, rfl⟩ : j = i ∧ js = ks := by injection e with e1 e2; exact ⟨e1, e2⟩
      exact H1 hc
    · exact H2 k hk j js hjk hc

theorem NewNode.mono {h0 h h' : Heap} {c : Cls} {d : Nat} {s : Ref} (H : NewNode h0 h c d s)
    (hn : h.next ≤ h'.next) (hc : ∀ z < h.next, (h'.get z).core = (h.get z).core) :
    NewNode h0 h' c d s := ⟨H.1, Nat.lt_of_lt_of_le H.2.1 hn, (hc s H.2.1).trans H.2.2⟩

theorem Arranged.mono {h0 h h' : Heap} {i : Ref} {ks ks' : List Tree} (H : Arranged h0 h i ks ks')
    (hn : h.next ≤ h'.next) (hc : ∀ z < h.next, (h'.get z).core = (h.get z).core) :
    Arranged h0 h' i ks ks' := by
  unfold Arranged at *
  split at H
  · rename_i hif
    rw [if_pos hif]
    obtain ⟨s, a, b, h1, h2, h3, h4⟩ := H
    refine ⟨s, a, b, h1.mono hn hc, h2, h3, ?_⟩
    rcases h4 with h4 | ⟨k, b', r, g1, g2, g3, g4⟩ | h4
    · exact .inl h4
    · exact .inr (.inl ⟨k, b', r, g1, g2, g3.mono hn hc, g4⟩)
    · exact .inr (.inr h4)
  · rename_i hif
    rw [if_neg hif]; exact H

theorem wrappedL_cons {h h' : Heap} {t : Tree} {ts us : List Tree} :
    WrappedL h h' (t :: ts) us ↔ ∃ t' ts', us = t' :: ts' ∧ Wrapped h h' t t' ∧ WrappedL h h' ts ts' := by
  rw [WrappedL]

theorem wrappedL_append {h h' : Heap} {a b a' b' : List Tree} (ha : WrappedL h h' a a')
    (hb : WrappedL h h' b b') : WrappedL h h' (a ++ b) (a' ++ b') := by
  induction a generalizing a' with
  | nil => rw [WrappedL] at ha; subst ha; exact hb
  | cons t ts ih =>
    obtain ⟨t', ts', rfl, h1, h2⟩ := wrappedL_cons.mp ha
    exact wrappedL_cons.mpr ⟨t', ts' ++ b', rfl, h1, ih h2⟩

theorem wrappedL_roots {h h' : Heap} {a a' : List Tree} (ha : WrappedL h h' a a') :
    a'.map root = a.map root := by
  induction a generalizing a' with
  | nil => rw [WrappedL] at ha; subst ha; rfl
  | cons t ts ih =>
    obtain ⟨t', ts', rfl, h1, h2⟩ := wrappedL_cons.mp ha
    obtain ⟨i, ks⟩ := t
    rw [Wrapped] at h1
    obtain ⟨us, ks', rfl, -⟩ := h1
    simp [ih h2]

theorem Wrapped.mono {h0 h h' : Heap} (hn : h.next ≤ h'.next)
    (hc : ∀ z < h.next, (h'.get z).core = (h.get z).core) {t t' : Tree} (H : Wrapped h0 h t t') :
    Wrapped h0 h' t t' := by
  induction t using Tree.induct generalizing t' with
  | _ i ks ih =>
    rw [Wrapped] at H ⊢
    obtain ⟨us, ks', rfl, h1, h2⟩ := H
    refine ⟨us, ks', rfl, ?_, h2.mono hn hc⟩
    clear h2
    induction ks generalizing us with
    | nil => rw [WrappedL] at h1 ⊢; exact h1
    | cons k ks ih2 =>
      obtain ⟨t', ts', rfl, g1, g2⟩ := wrappedL_cons.mp h1
      exact wrappedL_cons.mpr ⟨t', ts', rfl, ih k (by simp) g1,
        ih2 (fun k hk => ih k (by simp [hk])) _ g2⟩

theorem WrappedL.mono {h0 h h' : Heap} (hn : h.next ≤ h'.next)
    (hc : ∀ z < h.next, (h'.get z).core = (h.get z).core) {a a' : List Tree} (H : WrappedL h0 h a a') :
    WrappedL h0 h' a a' := by
  induction a generalizing a' with
  | nil => rw [WrappedL] at H ⊢; exact H
  | cons t ts ih =>
    obtain ⟨t', ts', rfl, g1, g2⟩ := wrappedL_cons.mp H
    exact wrappedL_cons.mpr ⟨t', ts', rfl, g1.mono hn hc, ih g2⟩

/-- What the forest on the stack must satisfy when the loop comes to it; `h0` is the heap at the
start. -/
structure SubPre (h0 : Heap) (s : TState) (ts : List Tree) : Prop where
  next : h0.next ≤ s.heap.next
  cls : ∀ z < h0.next, (s.heap.get z).cls = (h0.get z).cls
  forest : ∀ t ∈ ts, IsTree s.heap (s.heap.parent t.root) t
  nodup : (preL ts).Nodup
  bound : ∀ z ∈ preL ts, z < h0.next
  allowed : ∀ t ∈ ts, StepKidsAllowed h0 t

/-- What the loop has done when it is through with the forest `ts`. -/
structure SubRun (h0 : Heap) (s s' : TState) (ts ts' : List Tree) : Prop where
  next : s.heap.next ≤ s'.heap.next
  labels : s'.labels = s.labels
  log : s'.log = s.log
  core : ∀ z < s.heap.next, (s'.heap.get z).core = (s.heap.get z).core
  frameC : ∀ z < s.heap.next, z ∉ preL ts → s'.heap.children z = s.heap.children z
  frameP : ∀ z < s.heap.next, z ∉ preL ts → s'.heap.parent z = s.heap.parent z
  forest : ∀ t ∈ ts', IsTree s'.heap (s.heap.parent t.root) t
  wrap : WrappedL h0 s'.heap ts ts'
  nodup : (preL ts').Nodup
  mem : ∀ z ∈ preL ts', z ∈ preL ts ∨ (s.heap.next ≤ z ∧ z < s'.heap.next)
  size : sizeL ts' ≤ 3 * sizeL ts

theorem SubRun.nil (h0 : Heap) (s : TState) : SubRun h0 s s [] [] where
  next := Nat.le_refl _
  labels := rfl
  log := rfl
  core _ _ := rfl
  frameC _ _ _ := rfl
  frameP _ _ _ := rfl
  forest := by simp
  wrap := by rw [WrappedL]
  nodup := by simp
  mem := by simp
  size := by simp

/-- The next forest still satisfies the precondition. -/
theorem SubPre.next_forest {h0 : Heap} {s s1 : TState} {a b a' : List Tree} (P : SubPre h0 s (a ++ b))
    (R : SubRun h0 s s1 a a') : SubPre h0 s1 b := by
  have hnd := P.nodup
  rw [preL_append, List.nodup_append] at hnd
  have hb : ∀ z ∈ preL b, z < s.heap.next ∧ z ∉ preL a := by
    intro z hz
    refine ⟨Nat.lt_of_lt_of_le (P.bound z (by simp [hz])) P.next, ?_⟩
    intro hza
    exact hnd.2.2 z hza z hz rfl
  constructor
  · exact Nat.le_trans P.next R.next
  · intro z hz
    rw [cls_of_core (R.core z (Nat.lt_of_lt_of_le hz P.next)), P.cls z hz]
  · intro t ht
    have hm : ∀ z ∈ t.pre, z ∈ preL b := fun z hz => mem_preL.mpr ⟨t, ht, hz⟩
    have hr := hb _ (hm _ (root_mem_pre t))
    rw [R.frameP _ hr.1 hr.2]
    refine (P.forest t (by simp [ht])).congr ?_ ?_
    · intro z hz; exact R.frameP z (hb z (hm z hz)).1 (hb z (hm z hz)).2
    · intro z hz; exact R.frameC z (hb z (hm z hz)).1 (hb z (hm z hz)).2
  · exact hnd.2.1
  · intro z hz; exact P.bound z (by simp [hz])
  · intro t ht; exact P.allowed t (by simp [ht])

theorem SubRun.trans {h0 : Heap} {s s1 s2 : TState} {a b a' b' : List Tree}
    (P : SubPre h0 s (a ++ b)) (R : SubRun h0 s s1 a a') (R' : SubRun h0 s1 s2 b b') :
    SubRun h0 s s2 (a ++ b) (a' ++ b') := by
  have hnd := P.nodup
  rw [preL_append, List.nodup_append] at hnd
  have hb : ∀ z ∈ preL b, z < s.heap.next ∧ z ∉ preL a := by
    intro z hz
    refine ⟨Nat.lt_of_lt_of_le (P.bound z (by simp [hz])) P.next, ?_⟩
    intro hza
    exact hnd.2.2 z hza z hz rfl
  have ha : ∀ z ∈ preL a, z < s.heap.next ∧ z ∉ preL b := by
    intro z hz
    refine ⟨Nat.lt_of_lt_of_le (P.bound z (by simp [hz])) P.next, ?_⟩
    intro hza
    exact hnd.2.2 z hz z hza rfl
  have ha' : ∀ z ∈ preL a', z < s1.heap.next ∧ z ∉ preL b := by
    intro z hz
    rcases R.mem z hz with h1 | h1
    · exact ⟨Nat.lt_of_lt_of_le (ha z h1).1 R.next, (ha z h1).2⟩
    · exact ⟨h1.2, fun hzb => by have := (hb z hzb).1; omega⟩
  constructor
  · exact Nat.le_trans R.next R'.next
  · rw [R'.labels, R.labels]
  · rw [R'.log, R.log]
  · intro z hz
    rw [R'.core z (Nat.lt_of_lt_of_le hz R.next), R.core z hz]
  · intro z hz hzn
    simp only [preL_append, List.mem_append, not_or] at hzn
    rw [R'.frameC z (Nat.lt_of_lt_of_le hz R.next) hzn.2, R.frameC z hz hzn.1]
  · intro z hz hzn
    simp only [preL_append, List.mem_append, not_or] at hzn
    rw [R'.frameP z (Nat.lt_of_lt_of_le hz R.next) hzn.2, R.frameP z hz hzn.1]
  · intro t ht
    rcases List.mem_append.mp ht with ht | ht
    · have hm : ∀ z ∈ t.pre, z ∈ preL a' := fun z hz => mem_preL.mpr ⟨t, ht, hz⟩
      refine (R.forest t ht).congr ?_ ?_
      · intro z hz; exact R'.frameP z (ha' z (hm z hz)).1 (ha' z (hm z hz)).2
      · intro z hz; exact R'.frameC z (ha' z (hm z hz)).1 (ha' z (hm z hz)).2
    · have := R'.forest t ht
      have hr : t.root ∈ preL b := by
        have h1 : t.root ∈ b.map root := by
          rw [← wrappedL_roots R'.wrap]; exact List.mem_map_of_mem ht
        obtain ⟨k, hk, e⟩ := List.mem_map.mp h1
        exact mem_preL.mpr ⟨k, hk, by rw [← e]; exact root_mem_pre k⟩
      rwa [R.frameP _ (hb _ hr).1 (hb _ hr).2] at this
  · refine wrappedL_append (R.wrap.mono R'.next ?_) R'.wrap
    intro z hz
    exact R'.core z hz
  · rw [preL_append, List.nodup_append]
    refine ⟨R.nodup, R'.nodup, ?_⟩
    rintro z hz _ hz' rfl
    rcases R'.mem z hz' with h1 | h1
    · exact (ha' z hz).2 h1
    · have := (ha' z hz).1; omega
  · intro z hz
    simp only [preL_append, List.mem_append] at hz ⊢
    have h1 := R.next
    have h2 := R'.next
    rcases hz with hz | hz
    · rcases R.mem z hz with h | h
      · exact .inl (.inl h)
      · exact .inr ⟨h.1, by omega⟩
    · rcases R'.mem z hz with h | h
      · exact .inl (.inr h)
      · exact .inr ⟨by omega, h.2⟩
  · rw [sizeL_append, sizeL_append]
    have := R.size
    have := R'.size
    omega

/-- The loop of `add_necessary_subproofs`. -/
abbrev subLoop := travLoop (σ := TState) (·.heap) (fun h r => h.isInst r .Step) subproofBody

/-- How the loop comes out of a forest on the stack. -/
def SubOut (h0 : Heap) (s : TState) (ts : List Tree) : Prop :=
  ((∀ t ∈ ts, SubproofsLast h0 t) ∧ ∃ s' ts', SubRun h0 s s' ts ts' ∧
    ∀ n rest, subLoop (n + sizeL ts') (ts.map root ++ rest) s = subLoop n rest s') ∨
  ((∃ t ∈ ts, ¬ SubproofsLast h0 t) ∧ ∀ n rest, ∃ s',
    subLoop (n + 3 * sizeL ts) (ts.map root ++ rest) s = .err .assertionError s')

theorem SubPre.left {h0 : Heap} {s : TState} {a b : List Tree} (P : SubPre h0 s (a ++ b)) :
    SubPre h0 s a := by
  have hnd := P.nodup
  rw [preL_append, List.nodup_append] at hnd
  exact ⟨P.next, P.cls, fun t ht => P.forest t (by simp [ht]), hnd.1,
    fun z hz => P.bound z (by simp [hz]), fun t ht => P.allowed t (by simp [ht])⟩

theorem subOut_forest {h0 : Heap} {ts : List Tree}
    (ih : ∀ t ∈ ts, ∀ s, SubPre h0 s [t] → SubOut h0 s [t]) (s : TState) (P : SubPre h0 s ts) :
    SubOut h0 s ts := by
  induction ts generalizing s with
  | nil =>
    exact .inl ⟨by simp, s, [], .nil h0 s, by intro n rest; simp⟩
  | cons t ts ih2 =>
    have P' : SubPre h0 s ([t] ++ ts) := P
    rcases ih t (by simp) s P'.left with ⟨h1, s1, t', R, e⟩ | ⟨h1, e⟩
    · rcases ih2 (fun t ht => ih t (by simp [ht])) s1 (P'.next_forest R) with
        ⟨h2, s2, ts', R', e'⟩ | ⟨h2, e'⟩
      · refine .inl ⟨?_, s2, t' ++ ts', SubRun.trans P' R R', ?_⟩
        · intro u hu
          rcases List.mem_cons.mp hu with rfl | hu
          · exact h1 _ (by simp)
          · exact h2 u hu
        · intro n rest
          rw [sizeL_append, show n + (sizeL t' + sizeL ts') = (n + sizeL ts') + sizeL t' by omega]
          have := e (n + sizeL ts') (ts.map root ++ rest)
          simp only [List.map_cons, List.map_nil, List.cons_append, List.nil_append] at this ⊢
          rw [this, e']
      · obtain ⟨u, hu, hu'⟩ := h2
        refine .inr ⟨⟨u, by simp [hu], hu'⟩, ?_⟩
        intro n rest
        have hs := R.size
        simp only [sizeL_cons, sizeL_nil, Nat.add_zero] at hs
        obtain ⟨s', es⟩ := e' (n + (3 * t.size - sizeL t')) rest
        refine ⟨s', ?_⟩
        have := e (n + (3 * t.size - sizeL t') + 3 * sizeL ts) (ts.map root ++ rest)
        rw [show n + (3 * t.size - sizeL t') + 3 * sizeL ts + sizeL t' =
          n + 3 * sizeL (t :: ts) by simp only [sizeL_cons]; omega] at this
        simp only [List.map_cons, List.map_nil, List.cons_append, List.nil_append] at this ⊢
        rw [this, es]
    · obtain ⟨u, hu, hu'⟩ := h1
      simp only [List.mem_singleton] at hu
      subst hu
      refine .inr ⟨⟨u, by simp, hu'⟩, ?_⟩
      intro n rest
      obtain ⟨s', es⟩ := e (n + 3 * sizeL ts) (ts.map root ++ rest)
      refine ⟨s', ?_⟩
      rw [← es]
      simp only [List.map_cons, List.map_nil, List.cons_append, List.nil_append, sizeL_cons, sizeL_nil]
      congr 1
      omega


theorem subLoop_skip {n : Nat} {x : Ref} {rest : List Ref} {s : TState}
    (hx : (s.heap.get x).cls ≠ .Step) :
    subLoop (n + 1) (x :: rest) s = subLoop n (s.heap.children x ++ rest) s := by
  have : s.heap.isInst x .Step = false := by
    cases h : s.heap.isInst x .Step with
    | false => rfl
    | true => exact absurd (Cls.isSub_step _ |>.mp h) hx
  unfold subLoop
  rw [travLoop]
  simp [this]

theorem subLoop_step {n : Nat} {x : Ref} {rest : List Ref} {s s1 : TState}
    (hx : (s.heap.get x).cls = .Step) (hb : subproofBody x s = .ok () s1) :
    subLoop (n + 1) (x :: rest) s = subLoop n (s1.heap.children x ++ rest) s1 := by
  have : s.heap.isInst x .Step = true := Cls.isSub_step _ |>.mpr hx
  unfold subLoop
  rw [travLoop]
  simp [this, hb]

theorem subLoop_err {n : Nat} {x : Ref} {rest : List Ref} {s s1 : TState} {e : PyErr}
    (hx : (s.heap.get x).cls = .Step) (hb : subproofBody x s = .err e s1) :
    subLoop (n + 1) (x :: rest) s = .err e s1 := by
  have : s.heap.isInst x .Step = true := Cls.isSub_step _ |>.mpr hx
  unfold subLoop
  rw [travLoop]
  simp [this, hb]

/-- After the body ran on a step, the loop finds the children of the step as before, below other
parents. -/
theorem SubPre.rearranged {h0 : Heap} {s s1 : TState} {i : Ref} {ks : List Tree} {top groups}
    (P : SubPre h0 s [.node i ks]) (A : Rearranged s s1 i top groups)
    (hg : ∀ g ∈ groups, ∀ c ∈ g.2, c ∈ ks.map root) : SubPre h0 s1 ks := by
  have hT := isTree_node.mp (P.forest (.node i ks) (by simp))
  have hnd := P.nodup
  simp only [preL_cons, pre_node, preL_nil, List.append_nil, List.nodup_cons] at hnd
  have hb : ∀ z ∈ preL ks, z < s.heap.next := fun z hz =>
    Nat.lt_of_lt_of_le (P.bound z (by simp [hz])) P.next
  constructor
  · exact Nat.le_trans P.next A.next
  · intro z hz
    rw [cls_of_core (A.core z (Nat.lt_of_lt_of_le hz P.next)), P.cls z hz]
  · intro t ht
    have hm : ∀ z ∈ t.pre, z ∈ preL ks := fun z hz => mem_preL.mpr ⟨t, ht, hz⟩
    obtain ⟨u, v, huv⟩ := List.append_of_mem ht
    have hnd2 := hnd.2
    rw [huv, preL_append, preL_cons] at hnd2
    have hnt : t.pre.Nodup := (List.nodup_append.mp (List.nodup_append.mp hnd2).2.1).1
    refine (hT.2.2 t ht).reparent hnt rfl ?_ ?_
    · intro z hz
      refine A.other z (hb z (hm z hz)) ?_
      rintro rfl
      exact hnd.1 (hm _ hz)
    · intro z hz hzr
      refine A.parent z (hb z (hm z hz)) ?_
      intro g hgm hzg
      obtain ⟨k, hk, rfl⟩ := List.mem_map.mp (hg g hgm z hzg)
      -- the root of `k` is in `t`, so `k` is `t`
      rw [huv] at hk
      rcases List.mem_append.mp hk with hk | hk
      · exact (List.nodup_append.mp hnd2).2.2 k.root (mem_preL.mpr ⟨k, hk, root_mem_pre k⟩) k.root
          (by simp [hz]) rfl
      · rcases List.mem_cons.mp hk with rfl | hk
        · exact hzr rfl
        · exact (List.nodup_append.mp (List.nodup_append.mp hnd2).2.1).2.2 k.root hz k.root
            (mem_preL.mpr ⟨k, hk, root_mem_pre k⟩) rfl
  · exact hnd.2
  · intro z hz; exact P.bound z (by simp [hz])
  · intro t ht j js hj
    exact P.allowed (.node i ks) (by simp) j js (mem_subtrees_node.mpr (.inr ⟨t, ht, hj⟩))

/-- Close the run on a step. -/
theorem SubRun.close {h0 : Heap} {s s1 s2 : TState} {i : Ref} {ks us ks' : List Tree} {top groups}
    (P : SubPre h0 s [.node i ks]) (A : Rearranged s s1 i top groups)
    (hg : ∀ g ∈ groups, ∀ c ∈ g.2, c ∈ ks.map root) (R : SubRun h0 s1 s2 ks us)
    (hT : IsTree s2.heap (s.heap.parent i) (.node i ks'))
    (hA : Arranged h0 s2.heap i us ks') (hsz : sizeL ks' ≤ sizeL us + 2)
    (hnew : ∃ new, new.Nodup ∧ (preL ks').Perm (new ++ preL us) ∧
      ∀ z ∈ new, s.heap.next ≤ z ∧ z < s1.heap.next) :
    SubRun h0 s s2 [.node i ks] [.node i ks'] := by
  have hnd := P.nodup
  simp only [preL_cons, pre_node, preL_nil, List.append_nil, List.nodup_cons] at hnd
  have hi : i < s.heap.next := Nat.lt_of_lt_of_le (P.bound i (by simp)) P.next
  have hb : ∀ z ∈ preL ks, z < s.heap.next := fun z hz =>
    Nat.lt_of_lt_of_le (P.bound z (by simp [hz])) P.next
  obtain ⟨new, hn1, hn2, hn3⟩ := hnew
  have hmem : ∀ z ∈ preL ks', z ∈ preL ks ∨ (s.heap.next ≤ z ∧ z < s2.heap.next) := by
    intro z hz
    have h1 := A.next
    have h2 := R.next
    rcases List.mem_append.mp (hn2.mem_iff.mp hz) with h | h
    · have := hn3 z h; exact .inr ⟨this.1, by omega⟩
    · rcases R.mem z h with h | h
      · exact .inl h
      · exact .inr ⟨by omega, h.2⟩
  constructor
  · exact Nat.le_trans A.next R.next
  · rw [R.labels, A.labels]
  · rw [R.log, A.log]
  · intro z hz
    rw [R.core z (Nat.lt_of_lt_of_le hz A.next), A.core z hz]
  · intro z hz hzn
    simp only [preL_cons, pre_node, preL_nil, List.append_nil, List.mem_cons, not_or] at hzn
    rw [R.frameC z (Nat.lt_of_lt_of_le hz A.next) hzn.2, A.other z hz hzn.1]
  · intro z hz hzn
    simp only [preL_cons, pre_node, preL_nil, List.append_nil, List.mem_cons, not_or] at hzn
    rw [R.frameP z (Nat.lt_of_lt_of_le hz A.next) hzn.2, A.parent z hz]
    intro g hgm hzg
    obtain ⟨k, hk, rfl⟩ := List.mem_map.mp (hg g hgm z hzg)
    exact hzn.2 (mem_preL.mpr ⟨k, hk, root_mem_pre k⟩)
  · intro t ht
    simp only [List.mem_singleton] at ht
    subst ht
    exact hT
  · rw [wrappedL_cons]
    refine ⟨_, [], rfl, ?_, by rw [WrappedL]⟩
    rw [Wrapped]
    exact ⟨us, ks', rfl, R.wrap, hA⟩
  · simp only [preL_cons, pre_node, preL_nil, List.append_nil, List.nodup_cons]
    refine ⟨?_, ?_⟩
    · intro hm
      rcases hmem i hm with h | h
      · exact hnd.1 h
      · omega
    · rw [hn2.nodup_iff, List.nodup_append]
      refine ⟨hn1, R.nodup, ?_⟩
      rintro z hz _ hz' rfl
      have h1 := hn3 z hz
      rcases R.mem z hz' with h | h
      · have := hb z h; omega
      · omega
  · intro z hz
    simp only [preL_cons, pre_node, preL_nil, List.append_nil, List.mem_cons] at hz ⊢
    rcases hz with rfl | hz
    · exact .inl (.inl rfl)
    · rcases hmem z hz with h | h
      · exact .inl (.inr h)
      · exact .inr h
  · simp only [sizeL_cons, size_node, sizeL_nil]
    have := R.size
    omega

theorem subOut_tree {h0 : Heap} (t : Tree) : ∀ s, SubPre h0 s [t] → SubOut h0 s [t] := by
  induction t using Tree.induct with
  | _ i ks ih =>
    intro s P
    have hT := isTree_node.mp (P.forest (.node i ks) (by simp))
    have hnd := P.nodup
    simp only [preL_cons, pre_node, preL_nil, List.append_nil, List.nodup_cons] at hnd
    have hi0 : i < h0.next := P.bound i (by simp)
    have hi : i < s.heap.next := Nat.lt_of_lt_of_le hi0 P.next
    have hb : ∀ z ∈ preL ks, z < s.heap.next := fun z hz =>
      Nat.lt_of_lt_of_le (P.bound z (by simp [hz])) P.next
    have hcls := P.cls i hi0
    by_cases hst : (h0.get i).cls = .Step ∧ ks ≠ []
    · -- a step with children
      obtain ⟨a, b, rfl, ha, hbh⟩ := split_exists (P := Opens h0) ks
      have hstep : (s.heap.get i).cls = .Step := by rw [hcls]; exact hst.1
      have hroot : ∀ k ∈ a ++ b, k.root < h0.next := fun k hk =>
        P.bound _ (by
          simp only [preL_cons, pre_node, preL_nil, List.append_nil, List.mem_cons]
          exact .inr (mem_preL.mpr ⟨k, hk, root_mem_pre k⟩))
      have hkc : ∀ k ∈ a ++ b, (s.heap.get k.root).cls = (h0.get k.root).cls := fun k hk =>
        P.cls _ (hroot k hk)
      have hrnd : (a.map root ++ b.map root).Nodup := by
        rw [← List.map_append]
        have hsub : ((a ++ b).map root).Sublist (preL (a ++ b)) := by
          generalize a ++ b = l
          induction l with
          | nil => simp
          | cons t l ih3 =>
            rw [List.map_cons, preL_cons, pre_eq]
            exact .cons_cons _ (ih3.trans (List.sublist_append_right _ _))
        exact hsub.nodup hnd.2
      obtain ⟨B1, B2, B3, B4⟩ := subproofBody_spec (s := s) (x := i) (a := a.map root) (b := b.map root)
        hi hstep (by rw [hT.2.1, List.map_append])
        (by rw [← List.map_append]; simpa using hst.2) hrnd
        (by
          rw [← List.map_append]
          intro hm
          obtain ⟨k, hk, e⟩ := List.mem_map.mp hm
          exact hnd.1 (mem_preL.mpr ⟨k, hk, e ▸ root_mem_pre k⟩))
        (by
          rw [← List.map_append]
          intro c hc
          obtain ⟨k, hk, rfl⟩ := List.mem_map.mp hc
          exact Nat.lt_of_lt_of_le (hroot k hk) P.next)
        (by
          rw [← List.map_append]
          intro c hc
          obtain ⟨k, hk, rfl⟩ := List.mem_map.mp hc
          exact (hT.2.2 k hk).parent_root)
        (by
          intro c hc
          obtain ⟨k, hk, rfl⟩ := List.mem_map.mp hc
          rw [hkc k (by simp [hk])]
          have := ha k hk
          unfold Opens at this
          exact not_or.mp this)
        (by
          intro c b' hcb
          cases b with
          | nil => simp at hcb
          | cons k b =>
            simp only [List.map_cons, List.cons.injEq] at hcb
            rw [← hcb.1, hkc k (by simp)]
            exact hbh k b rfl)
        (by
          rw [← List.map_append]
          intro c hc
          obtain ⟨k, hk, rfl⟩ := List.mem_map.mp hc
          rw [hkc k hk]
          exact P.allowed _ (by simp) i (a ++ b) (self_mem_subtrees _) hst.1 k hk)
      have hrun : ∀ {top groups} {s1 : TState}, Rearranged s s1 i top groups →
          (∀ g ∈ groups, ∀ c ∈ g.2, c ∈ (a ++ b).map root) → SubPre h0 s1 (a ++ b) :=
        fun A hg => P.rearranged A hg
      have iha : ∀ s, SubPre h0 s a → SubOut h0 s a :=
        subOut_forest fun t ht => ih t (by simp [ht])
      have ihb : ∀ s, SubPre h0 s b → SubOut h0 s b :=
        subOut_forest fun t ht => ih t (by simp [ht])
      have hopen : ∀ {a' : List Tree} {s2 : TState}, WrappedL h0 s2.heap a a' →
          ∀ k ∈ a', ¬ Opens h0 k := by
        intro a' s2 hw k hk
        have : k.root ∈ a.map root := by rw [← wrappedL_roots hw]; exact List.mem_map_of_mem hk
        obtain ⟨k', hk', e⟩ := List.mem_map.mp this
        have h1 := ha k' hk'
        unfold Opens at h1 ⊢
        rwa [e] at h1
      have hine : ∀ z, s.heap.next ≤ z → z ∉ preL (a ++ b) := fun z hz hm => by
        have := hb z hm; omega
      -- the local condition on the subproof
      have hlocal : (∀ k b', b = k :: b' → (h0.get k.root).cls = .Subproof → b' = []) →
          (∀ k ∈ a ++ b, SubproofsLast h0 k) → SubproofsLast h0 (.node i (a ++ b)) := by
        intro h1 h2
        refine subproofsLast_node.mpr ⟨?_, h2⟩
        intro _ a2 k b2 e h3 h4
        obtain ⟨-, h5⟩ := split_unique e ha h3 (.inr h4 : Opens h0 k) hbh
        exact h1 k b2 h5 h4
      cases hbb : b with
      | nil =>
        subst hbb
        obtain ⟨s1, e1, A, hn1, hc1⟩ := B1 rfl
        have hcc := hc1
        replace hc1 := core_cls hc1
        have hg : ∀ g ∈ [(s.heap.next, a.map root)], ∀ c ∈ g.2, c ∈ (a ++ []).map root := by
          simp
        have P1 := (hrun A hg).left
        have hch : s1.heap.children i = [s.heap.next] := A.top
        obtain ⟨g1, g2, g3⟩ := A.group _ (List.mem_singleton.mpr rfl)
        simp only at g1 g2 g3
        have hloop : ∀ m rest, subLoop (m + 2) (i :: rest) s = subLoop m (a.map root ++ rest) s1 := by
          intro m rest
          rw [subLoop_step hstep e1, hch, List.cons_append, List.nil_append,
            subLoop_skip (by rw [hc1]; decide), g1]
        rcases iha s1 P1 with ⟨h1, s2, a', R, e⟩ | ⟨h1, e⟩
        · refine .inl ⟨?_, s2, [.node i [.node s.heap.next a']], ?_, ?_⟩
          · intro t ht
            simp only [List.mem_singleton] at ht
            subst ht
            exact hlocal (by simp) (by simpa using h1)
          · refine SubRun.close P A hg (us := a') (by simpa using R) ?_ ?_ (by simp) ?_
            · rw [isTree_node]
              refine ⟨?_, ?_, ?_⟩
              · rw [R.frameP i (by omega) (by simpa using hnd.1), A.parent i hi]
                intro g hgm hig
                have := hg g hgm i hig
                obtain ⟨k, hk, e⟩ := List.mem_map.mp this
                exact hnd.1 (mem_preL.mpr ⟨k, hk, e ▸ root_mem_pre k⟩)
              · rw [R.frameC i (by omega) (by simpa using hnd.1), hch]; rfl
              · intro k hk
                simp only [List.mem_singleton] at hk
                subst hk
                have hnn : s.heap.next ∉ preL a := by simpa using hine _ (Nat.le_refl _)
                rw [isTree_node]
                refine ⟨?_, ?_, ?_⟩
                · rw [R.frameP _ (by omega) hnn, g2]
                · rw [R.frameC _ (by omega) hnn, g1, wrappedL_roots R.wrap]
                · intro k hk
                  have h2 := R.forest k hk
                  rwa [g3 k.root (by rw [← wrappedL_roots R.wrap]; exact List.mem_map_of_mem hk)] at h2
            · unfold Arranged
              split
              · refine ⟨s.heap.next, a', [], ?_, by simp, hopen R.wrap, .inl ⟨rfl, rfl⟩⟩
                refine ⟨P.next, by have := R.next; omega, ?_⟩
                exact (R.core _ (by omega)).trans hcc
              · rename_i hif
                refine absurd ⟨hst.1, ?_⟩ hif
                intro e0
                have := wrappedL_roots R.wrap
                rw [e0] at this
                simp only [List.map_nil] at this
                exact hst.2 (by simpa using this.symm)
            · refine ⟨[s.heap.next], by simp, by simp, ?_⟩
              intro z hz
              simp only [List.mem_singleton] at hz
              omega
          · intro n rest
            simp only [List.map_cons, List.map_nil, root_node, sizeL_cons, size_node, sizeL_nil,
              List.cons_append, List.nil_append]
            rw [show n + (sizeL a' + 1 + 0 + 1 + 0) = (n + sizeL a') + 2 by omega, hloop, e]
        · obtain ⟨u, hu, hu'⟩ := h1
          refine .inr ⟨⟨_, List.mem_singleton.mpr rfl, ?_⟩, ?_⟩
          · intro hs
            exact hu' ((subproofsLast_node.mp hs).2 u (by simp [hu]))
          · intro n rest
            obtain ⟨s', es⟩ := e (n + 1) rest
            refine ⟨s', ?_⟩
            simp only [List.map_cons, List.map_nil, root_node, sizeL_cons, size_node, sizeL_nil,
              List.cons_append, List.nil_append, List.append_nil]
            rw [show n + 3 * (sizeL a + 1 + 0) = (n + 1 + 3 * sizeL a) + 2 by omega, hloop, es]
      | cons k b' =>
        have hkk : (h0.get k.root).cls = .Step ∨ (h0.get k.root).cls = .Subproof := hbh k b' hbb
        rcases hkk with hk | hk
        · -- new subproof
          obtain ⟨s1, e1, A, hn1, hc1, hc2⟩ := B2 k.root (b'.map root) (by rw [hbb]; rfl)
            (by rw [hkc k (by simp [hbb]), hk])
          have hcc := hc1
          have hcc2 := hc2
          replace hc1 := core_cls hc1
          replace hc2 := core_cls hc2
          have hg : ∀ g ∈ [(s.heap.next, a.map root), (s.heap.next + 1, b.map root)], ∀ c ∈ g.2,
              c ∈ (a ++ b).map root := by
            intro g hg c hc
            rw [List.map_append, List.mem_append]
            simp only [List.mem_cons, List.not_mem_nil, or_false] at hg
            rcases hg with rfl | rfl
            · exact .inl hc
            · exact .inr hc
          have P1 := hrun A hg
          have hch : s1.heap.children i = [s.heap.next, s.heap.next + 1] := A.top
          obtain ⟨g1, g2, g3⟩ := A.group (s.heap.next, a.map root) (by simp)
          obtain ⟨f1, f2, f3⟩ := A.group (s.heap.next + 1, b.map root) (by simp)
          simp only at g1 g2 g3 f1 f2 f3
          have hloop : ∀ m rest, subLoop (m + 2) (i :: rest) s =
              subLoop m (a.map root ++ ((s.heap.next + 1) :: rest)) s1 := by
            intro m rest
            rw [subLoop_step hstep e1, hch, List.cons_append,
              subLoop_skip (by rw [hc1]; decide), g1]
            rfl
          have hnn : ∀ z, s.heap.next ≤ z → z ∉ preL a ∧ z ∉ preL b := by
            intro z hz
            have := hine z hz
            rwa [preL_append, List.mem_append, not_or] at this
          rcases iha s1 P1.left with ⟨h1, s2, a', R, e⟩ | ⟨h1, e⟩
          · have hc2' : (s2.heap.get (s.heap.next + 1)).cls = .Subproof := by
              rw [cls_of_core (R.core _ (by omega)), hc2]; rfl
            have hloop2 : ∀ m rest, subLoop (m + 1) ((s.heap.next + 1) :: rest) s2 =
                subLoop m (b.map root ++ rest) s2 := by
              intro m rest
              rw [subLoop_skip (by rw [hc2']; decide),
                R.frameC _ (by omega) (hnn _ (by omega)).1, f1]
            rcases ihb s2 (P1.next_forest R) with ⟨h2, s3, b2, R', e'⟩ | ⟨h2, e'⟩
            · have RR := SubRun.trans P1 R R'
              refine .inl ⟨?_, s3, [.node i [.node s.heap.next a', .node (s.heap.next + 1) b2]], ?_, ?_⟩
              · intro t ht
                simp only [List.mem_singleton] at ht
                subst ht
                rw [← hbb]
                refine hlocal ?_ ?_
                · intro k2 b3 e3 h3
                  rw [hbb] at e3
                  injection e3 with e3 e4
                  subst e3
                  rw [hk] at h3; cases h3
                · intro u hu
                  rcases List.mem_append.mp hu with hu | hu
                  · exact h1 u hu
                  · exact h2 u hu
              · rw [← hbb]
                refine SubRun.close P A hg RR ?_ ?_ ?_ ?_
                · rw [isTree_node]
                  refine ⟨?_, ?_, ?_⟩
                  · rw [RR.frameP i (by omega) hnd.1, A.parent i hi]
                    intro g hgm hig
                    have := hg g hgm i hig
                    obtain ⟨k, hk, e⟩ := List.mem_map.mp this
                    exact hnd.1 (mem_preL.mpr ⟨k, hk, e ▸ root_mem_pre k⟩)
                  · rw [RR.frameC i (by omega) hnd.1, hch]; rfl
                  · intro k hk
                    simp only [List.mem_cons, List.not_mem_nil, or_false] at hk
                    rcases hk with rfl | rfl
                    · rw [isTree_node]
                      refine ⟨?_, ?_, ?_⟩
                      · rw [RR.frameP _ (by omega) (hine _ (by omega)), g2]
                      · rw [RR.frameC _ (by omega) (hine _ (by omega)), g1, wrappedL_roots R.wrap]
                      · intro k hk
                        have h2 := RR.forest k (by simp [hk])
                        rwa [g3 k.root (by rw [← wrappedL_roots R.wrap]; exact List.mem_map_of_mem hk)] at h2
                    · rw [isTree_node]
                      refine ⟨?_, ?_, ?_⟩
                      · rw [RR.frameP _ (by omega) (hine _ (by omega)), f2]
                      · rw [RR.frameC _ (by omega) (hine _ (by omega)), f1, wrappedL_roots R'.wrap]
                      · intro k hk
                        have h2 := RR.forest k (by simp [hk])
                        rwa [f3 k.root (by rw [← wrappedL_roots R'.wrap]; exact List.mem_map_of_mem hk)] at h2
                · have hr := R.next
                  have hr' := R'.next
                  have hb2 := R'.wrap
                  rw [hbb] at hb2
                  obtain ⟨k2, b3, e2, -, -⟩ := wrappedL_cons.mp hb2
                  have hk2 : k2.root = k.root := by
                    have := wrappedL_roots hb2
                    rw [e2] at this
                    simp only [List.map_cons, List.cons.injEq] at this
                    exact this.1
                  unfold Arranged
                  rw [if_pos ⟨hst.1, by rw [e2]; simp⟩]
                  refine ⟨s.heap.next, a', b2, ?_, rfl, hopen R.wrap, .inr (.inl
                    ⟨k2, b3, s.heap.next + 1, e2, by rw [hk2]; exact hk, ?_, rfl⟩)⟩
                  · refine ⟨P.next, by omega, ?_⟩
                    exact (RR.core _ (by omega)).trans hcc
                  · refine ⟨by have := P.next; omega, by omega, ?_⟩
                    exact (RR.core _ (by omega)).trans hcc2
                · simp only [sizeL_cons, size_node, sizeL_nil, sizeL_append]; omega
                · refine ⟨[s.heap.next, s.heap.next + 1], by simp, ?_, ?_⟩
                  · simp only [preL_cons, pre_node, preL_nil, List.append_nil, preL_append,
                      List.cons_append, List.nil_append]
                    exact (List.Perm.cons _ List.perm_middle)
                  · intro z hz
                    simp only [List.mem_cons, List.not_mem_nil, or_false] at hz
                    omega
              · intro n rest
                simp only [List.map_cons, List.map_nil, root_node, sizeL_cons, size_node, sizeL_nil,
                  List.cons_append, List.nil_append]
                rw [show n + (sizeL a' + 1 + (sizeL b2 + 1 + 0) + 1 + 0) =
                  (n + sizeL b2 + 1 + sizeL a') + 2 by omega, hloop, e, hloop2, e']
            · obtain ⟨u, hu, hu'⟩ := h2
              refine .inr ⟨⟨_, List.mem_singleton.mpr rfl, ?_⟩, ?_⟩
              · intro hs
                exact hu' ((subproofsLast_node.mp hs).2 u (by rw [← hbb]; simp [hu]))
              · intro n rest
                have hs := R.size
                obtain ⟨s', es⟩ := e' (n + (3 * sizeL a - sizeL a')) rest
                refine ⟨s', ?_⟩
                rw [← hbb]
                simp only [List.map_cons, List.map_nil, root_node, sizeL_cons, size_node, sizeL_nil,
                  List.cons_append, List.nil_append, sizeL_append]
                rw [show n + 3 * (sizeL a + sizeL b + 1 + 0) =
                  (n + (3 * sizeL a - sizeL a') + 3 * sizeL b + 1 + sizeL a') + 2 by omega,
                  hloop, e, hloop2, es]
          · obtain ⟨u, hu, hu'⟩ := h1
            refine .inr ⟨⟨_, List.mem_singleton.mpr rfl, ?_⟩, ?_⟩
            · intro hs
              exact hu' ((subproofsLast_node.mp hs).2 u (by simp [hu]))
            · intro n rest
              obtain ⟨s', es⟩ := e (n + 3 * sizeL b + 1) ((s.heap.next + 1) :: rest)
              refine ⟨s', ?_⟩
              rw [← hbb]
              simp only [List.map_cons, List.map_nil, root_node, sizeL_cons, size_node, sizeL_nil,
                List.cons_append, List.nil_append, sizeL_append]
              rw [show n + 3 * (sizeL a + sizeL b + 1 + 0) =
                (n + 3 * sizeL b + 1 + 3 * sizeL a) + 2 by omega, hloop, es]
        · cases b' with
          | cons k2 b2 =>
            -- a subproof that is not last
            obtain ⟨s1, e1⟩ := B4 k.root ((k2 :: b2).map root) (by rw [hbb]; rfl)
              (by rw [hkc k (by simp [hbb]), hk]) (by simp)
            refine .inr ⟨⟨_, List.mem_singleton.mpr rfl, ?_⟩, ?_⟩
            · intro hs
              have := (subproofsLast_node.mp hs).1 hst.1 a k (k2 :: b2) rfl ha hk
              cases this
            · intro n rest
              refine ⟨s1, ?_⟩
              simp only [List.map_cons, List.map_nil, root_node, sizeL_cons, size_node, sizeL_nil,
                List.cons_append, List.nil_append]
              rw [show ∀ x, n + 3 * (x + 1 + 0) = (n + 3 * x + 2) + 1 by intro x; omega]
              exact subLoop_err hstep e1
          | nil =>
            obtain ⟨s1, e1, A, hn1, hc1⟩ := B3 k.root (by rw [hbb]; rfl)
              (by rw [hkc k (by simp [hbb]), hk])
            have hcc := hc1
            replace hc1 := core_cls hc1
            have hg : ∀ g ∈ [(s.heap.next, a.map root)], ∀ c ∈ g.2, c ∈ (a ++ b).map root := by
              intro g hg c hc
              rw [List.map_append, List.mem_append]
              simp only [List.mem_cons, List.not_mem_nil, or_false] at hg
              subst hg
              exact .inl hc
            have P1 := hrun A hg
            have hch : s1.heap.children i = [s.heap.next, k.root] := A.top
            obtain ⟨g1, g2, g3⟩ := A.group (s.heap.next, a.map root) (by simp)
            simp only at g1 g2 g3
            have hkp : s1.heap.parent k.root = some i := by
              rw [A.parent k.root (Nat.lt_of_lt_of_le (hroot k (by simp [hbb])) P.next),
                (hT.2.2 k (by simp [hbb])).parent_root]
              intro g hg hkg
              simp only [List.mem_cons, List.not_mem_nil, or_false] at hg
              subst hg
              exact (List.nodup_append.mp hrnd).2.2 _ hkg k.root (by simp [hbb]) rfl
            have hloop : ∀ m rest, subLoop (m + 2) (i :: rest) s =
                subLoop m (a.map root ++ (b.map root ++ rest)) s1 := by
              intro m rest
              rw [subLoop_step hstep e1, hch, List.cons_append,
                subLoop_skip (by rw [hc1]; decide), g1, hbb]
              rfl
            rcases iha s1 P1.left with ⟨h1, s2, a', R, e⟩ | ⟨h1, e⟩
            · rcases ihb s2 (P1.next_forest R) with ⟨h2, s3, b2, R', e'⟩ | ⟨h2, e'⟩
              · have RR := SubRun.trans P1 R R'
                have hb2 := R'.wrap
                rw [hbb] at hb2
                obtain ⟨k2, b3, e2, -, hb3⟩ := wrappedL_cons.mp hb2
                rw [WrappedL] at hb3
                subst hb3
                have hk2 : k2.root = k.root := by
                  have := wrappedL_roots hb2
                  rw [e2] at this
                  simp only [List.map_cons, List.cons.injEq] at this
                  exact this.1
                subst e2
                refine .inl ⟨?_, s3, [.node i [.node s.heap.next a', k2]], ?_, ?_⟩
                · intro t ht
                  simp only [List.mem_singleton] at ht
                  subst ht
                  rw [← hbb]
                  refine hlocal ?_ ?_
                  · intro k2 b3 e3 h3
                    rw [hbb] at e3
                    injection e3 with e3 e4
                    exact e4.symm
                  · intro u hu
                    rcases List.mem_append.mp hu with hu | hu
                    · exact h1 u hu
                    · exact h2 u hu
                · rw [← hbb]
                  refine SubRun.close P A hg RR ?_ ?_ ?_ ?_
                  · rw [isTree_node]
                    refine ⟨?_, ?_, ?_⟩
                    · rw [RR.frameP i (by omega) hnd.1, A.parent i hi]
                      intro g hgm hig
                      have := hg g hgm i hig
                      obtain ⟨k, hk, e⟩ := List.mem_map.mp this
                      exact hnd.1 (mem_preL.mpr ⟨k, hk, e ▸ root_mem_pre k⟩)
                    · rw [RR.frameC i (by omega) hnd.1, hch]
                      simp [hk2]
                    · intro k' hk'
                      simp only [List.mem_cons, List.not_mem_nil, or_false] at hk'
                      rcases hk' with rfl | rfl
                      · rw [isTree_node]
                        refine ⟨?_, ?_, ?_⟩
                        · rw [RR.frameP _ (by omega) (hine _ (by omega)), g2]
                        · rw [RR.frameC _ (by omega) (hine _ (by omega)), g1, wrappedL_roots R.wrap]
                        · intro k hk
                          have h2 := RR.forest k (by simp [hk])
                          rwa [g3 k.root (by rw [← wrappedL_roots R.wrap]; exact List.mem_map_of_mem hk)] at h2
                      · have h2 := RR.forest k' (by simp)
                        rwa [hk2, hkp] at h2
                  · have hr := R.next
                    have hr' := R'.next
                    unfold Arranged
                    rw [if_pos ⟨hst.1, by simp⟩]
                    refine ⟨s.heap.next, a', [k2], ?_, rfl, hopen R.wrap, .inr (.inr
                      ⟨k2, rfl, by rw [hk2]; exact hk, rfl⟩)⟩
                    refine ⟨P.next, by omega, ?_⟩
                    exact (RR.core _ (by omega)).trans hcc
                  · simp only [sizeL_cons, size_node, sizeL_nil, sizeL_append]; omega
                  · refine ⟨[s.heap.next], by simp, by simp, ?_⟩
                    intro z hz
                    simp only [List.mem_cons, List.not_mem_nil, or_false] at hz
                    omega
                · intro n rest
                  simp only [List.map_cons, List.map_nil, root_node, sizeL_cons, size_node, sizeL_nil,
                    List.cons_append, List.nil_append]
                  rw [show n + (sizeL a' + 1 + (k2.size + 0) + 1 + 0) =
                    (n + sizeL [k2] + sizeL a') + 2 by simp only [sizeL_cons, sizeL_nil]; omega,
                    hloop, e, e']
              · obtain ⟨u, hu, hu'⟩ := h2
                refine .inr ⟨⟨_, List.mem_singleton.mpr rfl, ?_⟩, ?_⟩
                · intro hs
                  exact hu' ((subproofsLast_node.mp hs).2 u (by rw [← hbb]; simp [hu]))
                · intro n rest
                  have hs := R.size
                  obtain ⟨s', es⟩ := e' (n + 1 + (3 * sizeL a - sizeL a')) rest
                  refine ⟨s', ?_⟩
                  rw [← hbb]
                  simp only [List.map_cons, List.map_nil, root_node, sizeL_cons, size_node, sizeL_nil,
                    List.cons_append, List.nil_append, sizeL_append]
                  rw [show n + 3 * (sizeL a + sizeL b + 1 + 0) =
                    (n + 1 + (3 * sizeL a - sizeL a') + 3 * sizeL b + sizeL a') + 2 by omega,
                    hloop, e, es]
            · obtain ⟨u, hu, hu'⟩ := h1
              refine .inr ⟨⟨_, List.mem_singleton.mpr rfl, ?_⟩, ?_⟩
              · intro hs
                exact hu' ((subproofsLast_node.mp hs).2 u (by simp [hu]))
              · intro n rest
                obtain ⟨s', es⟩ := e (n + 3 * sizeL b + 1) (b.map root ++ rest)
                refine ⟨s', ?_⟩
                rw [← hbb]
                simp only [List.map_cons, List.map_nil, root_node, sizeL_cons, size_node, sizeL_nil,
                  List.cons_append, List.nil_append, sizeL_append]
                rw [show n + 3 * (sizeL a + sizeL b + 1 + 0) =
                  (n + 3 * sizeL b + 1 + 3 * sizeL a) + 2 by omega, hloop, es]
    · -- nothing to do
      have A : Rearranged s s i (ks.map root) [] :=
        ⟨Nat.le_refl _, rfl, rfl, fun _ _ => rfl, hT.2.1, by simp, by simp, fun _ _ _ => rfl,
          fun _ _ _ => rfl⟩
      have hg : ∀ g ∈ ([] : List (Ref × List Ref)), ∀ c ∈ g.2, c ∈ ks.map root := by simp
      have hloop : ∀ m rest, subLoop (m + 1) (i :: rest) s = subLoop m (ks.map root ++ rest) s := by
        intro m rest
        by_cases hc : (s.heap.get i).cls = .Step
        · have hk : ks = [] := by
            by_cases h : ks = []
            · exact h
            · exact absurd ⟨by rw [← hcls]; exact hc, h⟩ hst
          subst hk
          have e1 : subproofBody i s = .ok () s := by
            unfold subproofBody
            simp only [bind_apply, get_apply, hT.2.1]
            rfl
          rw [subLoop_step hc e1, hT.2.1]
        · rw [subLoop_skip hc, hT.2.1]
      rcases subOut_forest ih s (P.rearranged A hg) with ⟨h1, s2, us, R, e⟩ | ⟨h1, e⟩
      · refine .inl ⟨?_, s2, [.node i us], ?_, ?_⟩
        · intro t ht
          simp only [List.mem_singleton] at ht
          subst ht
          refine subproofsLast_node.mpr ⟨?_, h1⟩
          intro hc a k b e
          exact absurd ⟨hc, by rw [e]; simp⟩ hst
        · refine SubRun.close P A hg R ?_ ?_ (by omega) ⟨[], by simp, by simp, by simp⟩
          · rw [isTree_node]
            refine ⟨R.frameP i hi hnd.1, ?_, ?_⟩
            · rw [R.frameC i hi hnd.1, hT.2.1, wrappedL_roots R.wrap]
            · intro k hk
              have h2 := R.forest k hk
              have : k.root ∈ ks.map root := by
                rw [← wrappedL_roots R.wrap]; exact List.mem_map_of_mem hk
              obtain ⟨k', hk', e'⟩ := List.mem_map.mp this
              rwa [← e', (hT.2.2 k' hk').parent_root] at h2
          · unfold Arranged
            rw [if_neg]
            rintro ⟨h2, h3⟩
            refine hst ⟨h2, ?_⟩
            rintro rfl
            have := R.wrap
            rw [WrappedL] at this
            exact h3 this
        · intro n rest
          simp only [List.map_cons, List.map_nil, root_node, sizeL_cons, size_node, sizeL_nil,
            List.cons_append, List.nil_append]
          rw [show n + (sizeL us + 1 + 0) = (n + sizeL us) + 1 by omega, hloop, e]
      · obtain ⟨u, hu, hu'⟩ := h1
        refine .inr ⟨⟨_, List.mem_singleton.mpr rfl, ?_⟩, ?_⟩
        · intro hs
          exact hu' ((subproofsLast_node.mp hs).2 u hu)
        · intro n rest
          obtain ⟨s', es⟩ := e (n + 2) rest
          refine ⟨s', ?_⟩
          simp only [List.map_cons, List.map_nil, root_node, sizeL_cons, size_node, sizeL_nil,
            List.cons_append, List.nil_append]
          rw [show n + 3 * (sizeL ks + 1 + 0) = (n + 2 + 3 * sizeL ks) + 1 by omega, hloop, es]

end RSM
