import Verif.Lemmas.Resolve

/-! Helper lemmas for `add_necessary_subproofs`. -/

namespace RSM
open PyM Tree Transformer

theorem cls_of_core {a b : NodeRec} (h : a.core = b.core) : a.cls = b.cls := by
  have := congrArg NodeRec.cls h
  exact this

theorem appendAll_ok {h : Heap} {s : Ref} {cs : List Ref} (hs : HasChildList h s) (hnd : cs.Nodup)
    (hp : ∀ c ∈ cs, h.parent c = none) (ha : ∀ c ∈ cs, MayHaveParent h c s) :
    ∃ h', Nodes.appendAll s cs h = .ok () h' := by
  unfold Nodes.appendAll
  rw [PyM.bind_apply, Nodes.requireNWC_apply, if_pos (show h.isInst s .NodeWithChildren = true from hs)]
  simp only
  induction cs generalizing h with
  | nil => exact ⟨h, rfl⟩
  | cons c cs ih =>
    obtain ⟨h1, hc⟩ := (C03_append_succeeds_iff h s c).mpr
      ⟨hs, hp c (by simp), ha c (by simp)⟩
    rw [PyM.forEach_cons, hc]
    obtain ⟨a1, a2, a3, a4, a5⟩ := C03_append h h1 s c hc
    simp only
    refine ih ?_ (List.nodup_cons.mp hnd).2 ?_ ?_
    · unfold HasChildList Heap.isInst at *
      rw [a5.cls]; exact hs
    · intro d hd
      rw [a4 d (by rintro rfl; exact (List.nodup_cons.mp hnd).1 hd)]
      exact hp d (by simp [hd])
    · intro d hd
      have := ha d (by simp [hd])
      unfold MayHaveParent at *
      rw [a5.cls, a5.cls]; exact this

theorem clear_ok {h : Heap} {s : Ref} (hs : HasChildList h s) :
    ∃ h', Nodes.clear s h = .ok () h' := by
  rw [Nodes.clear_apply, if_neg (by unfold HasChildList at hs; simp [hs])]
  exact ⟨_, rfl⟩

theorem SameAttributes.core {h h' : Heap} (S : SameAttributes h h') (z : Ref) :
    (h'.get z).core = (h.get z).core := S.2 z

theorem IsTree.reparent {h h' : Heap} {p p' : Option Ref} {t : Tree} (ht : IsTree h p t)
    (hnd : t.pre.Nodup) (hr : h'.parent t.root = p')
    (hc : ∀ z ∈ t.pre, h'.children z = h.children z)
    (hp : ∀ z ∈ t.pre, z ≠ t.root → h'.parent z = h.parent z) : IsTree h' p' t := by
  obtain ⟨i, ks⟩ := t
  rw [isTree_node] at ht ⊢
  refine ⟨hr, by rw [hc i (by simp), ht.2.1], ?_⟩
  intro k hk
  refine (ht.2.2 k hk).congr ?_ ?_
  · intro z hz
    refine hp z (by simp [mem_preL]; exact .inr ⟨k, hk, hz⟩) ?_
    rintro rfl
    rw [pre_node, List.nodup_cons] at hnd
    exact hnd.1 (mem_preL.mpr ⟨k, hk, hz⟩)
  · intro z hz
    exact hc z (by simp [mem_preL]; exact .inr ⟨k, hk, hz⟩)


theorem Cls.isSub_subproof (c : Cls) : c.isSub .Subproof = true ↔ c = .Subproof := by
  cases c <;> decide

/-- What the body of the loop does to the heap when it returns: the children of `x` are `top` and
the new nodes in `groups` were put between `x` and some of its children. -/
structure Rearranged (s s' : TState) (x : Ref) (top : List Ref) (groups : List (Ref × List Ref)) :
    Prop where
  next : s.heap.next ≤ s'.heap.next
  labels : s'.labels = s.labels
  log : s'.log = s.log
  core : ∀ z < s.heap.next, (s'.heap.get z).core = (s.heap.get z).core
  top : s'.heap.children x = top
  fresh : ∀ g ∈ groups, s.heap.next ≤ g.1 ∧ g.1 < s'.heap.next
  group : ∀ g ∈ groups, s'.heap.children g.1 = g.2 ∧ s'.heap.parent g.1 = some x ∧
    ∀ c ∈ g.2, s'.heap.parent c = some g.1
  other : ∀ z < s.heap.next, z ≠ x → s'.heap.children z = s.heap.children z
  parent : ∀ z < s.heap.next, (∀ g ∈ groups, z ∉ g.2) → s'.heap.parent z = s.heap.parent z

theorem firstOpen {h : Heap} {x : Ref} {a b : List Ref} (hcs : h.children x = a ++ b)
    (ha : ∀ c ∈ a, (h.get c).cls ≠ .Step ∧ (h.get c).cls ≠ .Subproof)
    (hb : ∀ k b', b = k :: b' → (h.get k).cls = .Step ∨ (h.get k).cls = .Subproof) :
    (h.firstOfType x [.Step, .Subproof] = none ∧ b = []) ∨
      ∃ k, h.firstOfType x [.Step, .Subproof] = some (k, a.length) := by
  have hmro : ∀ c : Cls, (∃ k ∈ [Cls.Step, Cls.Subproof], k ∈ c.mro) ↔ c = .Step ∨ c = .Subproof := by
    intro c; cases c <;> decide
  have hmro' : ∀ c : Cls, (∀ k ∈ [Cls.Step, Cls.Subproof], k ∉ c.mro) ↔ c ≠ .Step ∧ c ≠ .Subproof := by
    intro c
    have := hmro c
    constructor
    · intro h1
      exact ⟨fun e => by obtain ⟨k, hk, hm⟩ := this.mpr (.inl e); exact h1 k hk hm,
        fun e => by obtain ⟨k, hk, hm⟩ := this.mpr (.inr e); exact h1 k hk hm⟩
    · rintro ⟨h1, h2⟩ k hk hm
      rcases this.mp ⟨k, hk, hm⟩ with e | e
      · exact h1 e
      · exact h2 e
  cases b with
  | nil =>
    have : h.firstOfType x [.Step, .Subproof] = none := by
      rw [(C10_first_of_type h x _).2]
      intro c hc
      rw [hmro']
      rw [hcs, List.append_nil] at hc
      exact ha c hc
    exact .inl ⟨this, rfl⟩
  | cons k b =>
    have : h.firstOfType x [.Step, .Subproof] = some (k, a.length) := by
      rw [(C10_first_of_type h x _).1]
      refine ⟨by rw [hcs]; simp, (hmro _).mpr (hb k b rfl), ?_⟩
      intro j y hj hy
      rw [hmro']
      rw [hcs, List.getElem?_append_left hj] at hy
      exact ha y (List.mem_of_getElem? hy)
    exact .inr ⟨k, this⟩

/-- The heap after the children of `x` were taken off and the first ones were put into a new
statement. -/
structure Cleared (h h' : Heap) (x n : Ref) (a cs : List Ref) : Prop where
  next : h'.next = n + 1
  core : ∀ z < n, (h'.get z).core = (h.get z).core
  stmt : (h'.get n).core = { NodeRec.new .Statement with handrailDepth := 1 }
  stepKids : h'.children x = []
  stmtKids : h'.children n = a
  nParent : h'.parent n = none
  other : ∀ z < n, z ≠ x → h'.children z = h.children z
  inA : ∀ c ∈ a, h'.parent c = some n
  out : ∀ c ∈ cs, c ∉ a → h'.parent c = none
  parent : ∀ z < n, z ∉ cs → h'.parent z = h.parent z

theorem cleared {h : Heap} {x : Ref} {a b : List Ref} (hx : x < h.next)
    (hc : (h.get x).cls = .Step) (hcs : h.children x = a ++ b) (hnd : (a ++ b).Nodup)
    (hlt : ∀ c ∈ a ++ b, c < h.next)
    (hposs : ∀ c ∈ a, (h.get c).cls.possibleParents = []) :
    ∃ h1 h2 h3, Nodes.clear x h = .ok () h1 ∧
      Nodes.new (NodeRec.new .Statement) h1 = .ok h.next h2 ∧
      Nodes.appendAll h.next a h2 = .ok () h3 ∧
      Cleared h (h3.update h.next fun n => { n with handrailDepth := n.handrailDepth + 1 })
        x h.next a (a ++ b) := by
  have hxl : HasChildList h x := by unfold HasChildList Heap.isInst; rw [hc]; decide
  obtain ⟨h1, e1⟩ := clear_ok hxl
  obtain ⟨c1, c2, c3, c4, c5⟩ := C03_clear h h1 x e1
  have hn1 : h1.next = h.next := c5.1
  have E := Ext.alloc h1 (NodeRec.new .Statement)
  have hget : (h1.alloc (NodeRec.new .Statement)).2.get h.next = NodeRec.new .Statement := by
    rw [← hn1]; simp [Heap.alloc]
  have hna : h.next ∉ a := fun hm => Nat.lt_irrefl _ (hlt _ (by simp [hm]))
  have hlt' : ∀ c ∈ a ++ b, c < h1.next := by rw [hn1]; exact hlt
  have hcore2 : ∀ z < h.next, ((h1.alloc (NodeRec.new .Statement)).2.get z).core = (h.get z).core := by
    intro z hz
    rw [E.get z (by rw [hn1]; exact hz), c5.core]
  have hcls2 : ∀ z < h.next, ((h1.alloc (NodeRec.new .Statement)).2.get z).cls = (h.get z).cls :=
    fun z hz => cls_of_core (hcore2 z hz)
  obtain ⟨h3, e3⟩ := appendAll_ok (h := (h1.alloc (NodeRec.new .Statement)).2) (s := h.next) (cs := a)
    (by unfold HasChildList Heap.isInst; rw [hget]; decide)
    (List.nodup_append.mp hnd).1
    (by
      intro c hca
      rw [E.parent (hlt' c (by simp [hca]))]
      exact c2 c (by rw [hcs]; simp [hca]))
    (by
      intro c hca
      left
      rw [hcls2 c (hlt c (by simp [hca]))]
      exact hposs c hca)
  obtain ⟨d1, d2, d3, d4, d5⟩ := C03_append_list _ h3 _ _ e3
  refine ⟨h1, _, h3, e1, by unfold Nodes.new; rw [← hn1]; rfl, e3, ?_⟩
  have hn3 : h3.next = h.next + 1 := by rw [d5.1, ← hn1]; rfl
  have hch : ∀ z, (h3.update h.next fun n => { n with handrailDepth := n.handrailDepth + 1 }).children z
      = h3.children z := 
    fun z => Heap.children_update h3 _ _ (by intro; rfl) (by intro; rfl) z
  have hpa : ∀ z, (h3.update h.next fun n => { n with handrailDepth := n.handrailDepth + 1 }).parent z
      = h3.parent z := 
    fun z => Heap.parent_update h3 _ _ (by intro; rfl) z
  constructor
  · exact hn3
  · intro z hz
    rw [Heap.get_update_of_ne _ _ (Nat.ne_of_lt hz), d5.core, hcore2 z hz]
  · rw [Heap.get_update_self]
    have := d5.core h.next
    rw [hget] at this
    have h5 : (h3.get h.next).core = NodeRec.new .Statement := this
    have h6 : (h3.get h.next).handrailDepth = 0 := congrArg NodeRec.handrailDepth h5
    unfold NodeRec.core at *
    simp only [h6]
    rw [← h5]
  · rw [hch, d3 x (Nat.ne_of_lt hx), E.children (by rw [hn1]; exact hx), c1]
  · rw [hch, d1]
    have : (h1.alloc (NodeRec.new .Statement)).2.children h.next = [] := by
      unfold Heap.children
      rw [hget]; simp [NodeRec.new]
    rw [this, List.nil_append]
  · rw [hpa, d4 _ hna]
    unfold Heap.parent
    rw [hget]; rfl
  · intro z hz hzx
    rw [hch, d3 z (Nat.ne_of_lt hz), E.children (by rw [hn1]; exact hz), c3 z hzx]
  · intro c hca
    rw [hpa, d2 c hca]
  · intro c hcc hca
    rw [hpa, d4 c hca, E.parent (hlt' c hcc)]
    exact c2 c (by rw [hcs]; exact hcc)
  · intro z hz hzc
    rw [hpa, d4 z (fun hm => hzc (by simp [hm])), E.parent (by rw [hn1]; exact hz)]
    exact c4 z (by rw [hcs]; exact hzc)


theorem subproofBody_spec {s : TState} {x : Ref} {a b : List Ref} (hx : x < s.heap.next)
    (hc : (s.heap.get x).cls = .Step) (hcs : s.heap.children x = a ++ b) (hne : a ++ b ≠ [])
    (hnd : (a ++ b).Nodup) (hxn : x ∉ a ++ b) (hlt : ∀ c ∈ a ++ b, c < s.heap.next)
    (hpar : ∀ c ∈ a ++ b, s.heap.parent c = some x)
    (ha : ∀ c ∈ a, (s.heap.get c).cls ≠ .Step ∧ (s.heap.get c).cls ≠ .Subproof)
    (hb : ∀ k b', b = k :: b' → (s.heap.get k).cls = .Step ∨ (s.heap.get k).cls = .Subproof)
    (hallow : ∀ c ∈ a ++ b, (s.heap.get c).cls.possibleParents = [] ∨
      .Step ∈ (s.heap.get c).cls.possibleParents) :
    (b = [] → ∃ s', subproofBody x s = .ok () s' ∧
      Rearranged s s' x [s.heap.next] [(s.heap.next, a)] ∧
      s'.heap.next = s.heap.next + 1 ∧ 
      (s'.heap.get s.heap.next).core = { NodeRec.new .Statement with handrailDepth := 1 }) ∧
    (∀ k b', b = k :: b' → (s.heap.get k).cls = .Step → ∃ s', subproofBody x s = .ok () s' ∧
      Rearranged s s' x [s.heap.next, s.heap.next + 1] [(s.heap.next, a), (s.heap.next + 1, b)] ∧
      s'.heap.next = s.heap.next + 2 ∧ 
      (s'.heap.get s.heap.next).core = { NodeRec.new .Statement with handrailDepth := 1 } ∧
      
      (s'.heap.get (s.heap.next + 1)).core = NodeRec.new .Subproof) ∧
    (∀ k, b = [k] → (s.heap.get k).cls = .Subproof → ∃ s', subproofBody x s = .ok () s' ∧
      Rearranged s s' x [s.heap.next, k] [(s.heap.next, a)] ∧
      s'.heap.next = s.heap.next + 1 ∧ 
      (s'.heap.get s.heap.next).core = { NodeRec.new .Statement with handrailDepth := 1 }) ∧
    (∀ k b', b = k :: b' → (s.heap.get k).cls = .Subproof → b' ≠ [] → ∃ s',
      subproofBody x s = .err .assertionError s') := by
  have hcl : ∀ c : Cls, (c.possibleParents = [] ∨ .Step ∈ c.possibleParents) → c ≠ .Step →
      c.possibleParents = [] := by intro c; cases c <;> decide
  have hcl2 : ∀ c : Cls, (c.possibleParents = [] ∨ .Step ∈ c.possibleParents) →
      (c.possibleParents = [] ∨ .Subproof ∈ c.possibleParents) := by intro c; cases c <;> decide
  obtain ⟨h1, h2, h3, e1, e2, e3, K⟩ := cleared hx hc hcs hnd hlt
    (fun c hca => hcl _ (hallow c (by simp [hca])) (ha c hca).1)
  have hsplit := firstOpen hcs ha hb
  have hempty : (s.heap.children x).isEmpty = false := by
    rw [hcs]; cases hh : a ++ b with
    | nil => exact absurd hh hne
    | cons => rfl
  have hxn' : x ≠ s.heap.next := Nat.ne_of_lt hx
  -- the common beginning
  generalize hh4 : (h3.update s.heap.next fun n => { n with handrailDepth := n.handrailDepth + 1 })
    = h4 at K
  have hrun : subproofBody x s = (match (a ++ b)[a.length]? with
      | none => onHeap (Nodes.append x s.heap.next)
      | some c => (do
        let s' ← PyM.get
        if s'.heap.isInst c .Step then do
          let subproof ← onHeap (Nodes.new (NodeRec.new .Subproof))
          onHeap (Nodes.appendAll subproof ((a ++ b).drop a.length))
          onHeap (Nodes.appendAll x [s.heap.next, subproof])
        else if s'.heap.isInst c .Subproof then
          if a.length = (a ++ b).length - 1 then onHeap (Nodes.appendAll x [s.heap.next, c])
          else throw .assertionError
        else throw .rsmTransformerError : TM Unit)) { s with heap := h4 } := by
    unfold subproofBody
    simp only [bind_apply, get_apply, hempty, Bool.false_eq_true, if_false]
    simp only [onHeap, zoom, e1]
    simp only [e2]
    rcases hsplit with ⟨hf, rfl⟩ | ⟨k, hf⟩
    · simp only [hf, hcs, List.append_nil, List.take_length, e3]
      simp only [assign, modify_apply, hh4]
      rfl
    · simp only [hf, hcs, List.take_left, e3]
      simp only [assign, modify_apply, hh4]
      rfl
  have hxl : ∀ h', (h'.get x).cls = .Step → HasChildList h' x := by
    intro h' hh; unfold HasChildList Heap.isInst; rw [hh]; decide
  have hx4 : (h4.get x).cls = .Step := by rw [cls_of_core (K.core x hx), hc]
  have hstmt4 : (h4.get s.heap.next).cls = .Statement := core_cls K.stmt
  have hna : s.heap.next ∉ a ++ b := fun hm => Nat.lt_irrefl _ (hlt _ hm)
  refine ⟨?_, ?_, ?_, ?_⟩
  · rintro rfl
    rw [List.append_nil] at *
    have hnone : a[a.length]? = none := by simp
    rw [hnone] at hrun
    simp only at hrun
    obtain ⟨h5, e5⟩ := (C03_append_succeeds_iff h4 x s.heap.next).mpr
      ⟨hxl h4 hx4, K.nParent, .inl (by rw [hstmt4]; decide)⟩
    obtain ⟨f1, f2, f3, f4, f5⟩ := C03_append h4 h5 x s.heap.next e5
    refine ⟨{ s with heap := h5 }, ?_, ?_, ?_, ?_⟩
    · rw [hrun]; simp only [onHeap, zoom, e5]
    · refine ⟨?_, rfl, rfl, ?_, ?_, ?_, ?_, ?_, ?_⟩
      · simp only; rw [f5.1, K.next]; omega
      · intro z hz
        simp only
        rw [f5.core, K.core z hz]
      · simp only; rw [f1, K.stepKids]; rfl
      · intro g hg
        simp only [List.mem_singleton] at hg
        subst hg
        simp only
        rw [f5.1, K.next]; omega
      · intro g hg
        simp only [List.mem_singleton] at hg
        subst hg
        simp only
        refine ⟨by rw [f3 _ hxn'.symm, K.stmtKids], f2, ?_⟩
        intro c hca
        rw [f4 c (by rintro rfl; exact hna hca), K.inA c hca]
      · intro z hz hzx
        simp only
        rw [f3 z hzx, K.other z hz hzx]
      · intro z hz hg
        simp only
        rw [f4 z (Nat.ne_of_lt hz), K.parent z hz (hg (s.heap.next, a) (by simp))]
    · simp only; rw [f5.1, K.next]
    · simp only; rw [f5.core, K.stmt]
  · rintro k b' rfl hk
    have hsome : (a ++ k :: b')[a.length]? = some k := by simp
    rw [hsome] at hrun
    have hk4 : h4.isInst k .Step = true := by
      unfold Heap.isInst
      rw [cls_of_core (K.core k (hlt k (by simp))), hk]; decide
    simp only [bind_apply, get_apply, hk4, if_true, List.drop_left] at hrun
    -- the new subproof
    have E := Ext.alloc h4 (NodeRec.new .Subproof)
    have hn4 : h4.next = s.heap.next + 1 := K.next
    have hget : (h4.alloc (NodeRec.new .Subproof)).2.get (s.heap.next + 1) = NodeRec.new .Subproof := by
      rw [← hn4]; simp [Heap.alloc]
    have hlt4 : ∀ c ∈ a ++ k :: b', c < h4.next := fun c hcc => by have := hlt c hcc; omega
    have hdisj : ∀ c ∈ k :: b', c ∉ a := fun c hcb hca =>
      (List.nodup_append.mp hnd).2.2 c hca c hcb rfl
    obtain ⟨h6, e6⟩ := appendAll_ok (h := (h4.alloc (NodeRec.new .Subproof)).2)
      (s := s.heap.next + 1) (cs := k :: b')
      (by unfold HasChildList Heap.isInst; rw [hget]; decide)
      (List.nodup_append.mp hnd).2.1
      (by
        intro c hcb
        rw [E.parent (hlt4 c (by simp only [List.mem_append]; exact .inr hcb))]
        exact K.out c (by simp only [List.mem_append]; exact .inr hcb) (hdisj c hcb))
      (by
        intro c hcb
        have hcm : c ∈ a ++ k :: b' := by simp only [List.mem_append]; exact .inr hcb
        unfold MayHaveParent
        rw [hget, E.get c (hlt4 c hcm), cls_of_core (K.core c (hlt c hcm))]
        exact hcl2 _ (hallow c hcm))
    obtain ⟨d1, d2, d3, d4, d5⟩ := C03_append_list _ h6 _ _ e6
    have hn6 : h6.next = s.heap.next + 2 := by rw [d5.1, ← Nat.add_assoc s.heap.next 1 1, ← hn4]; rfl
    have hnb : s.heap.next ∉ k :: b' := fun hm => hna (by simp only [List.mem_append]; exact .inr hm)
    have hnb1 : s.heap.next + 1 ∉ k :: b' := fun hm => by
      have := hlt _ (by simp only [List.mem_append]; exact .inr hm : s.heap.next + 1 ∈ a ++ k :: b')
      omega
    have hcore6 : ∀ z < s.heap.next + 1, (h6.get z).core = (h4.get z).core := by
      intro z hz
      rw [d5.core, E.get z (by omega)]
    have hsub6 : (h6.get (s.heap.next + 1)).cls = .Subproof := by
      rw [d5.cls, hget]; rfl
    obtain ⟨h7, e7⟩ := appendAll_ok (h := h6) (s := x) (cs := [s.heap.next, s.heap.next + 1])
      (hxl h6 (by rw [cls_of_core (hcore6 x (by omega)), hx4]))
      (by simp)
      (by
        intro c hcc
        simp only [List.mem_cons, List.not_mem_nil, or_false] at hcc
        rcases hcc with rfl | rfl
        · rw [d4 _ hnb, E.parent (by omega), K.nParent]
        · rw [d4 _ hnb1]; unfold Heap.parent; rw [hget]; rfl)
      (by
        intro c hcc
        left
        simp only [List.mem_cons, List.not_mem_nil, or_false] at hcc
        rcases hcc with rfl | rfl
        · rw [cls_of_core (hcore6 s.heap.next (by omega)), hstmt4]; decide
        · rw [hsub6]; decide)
    obtain ⟨f1, f2, f3, f4, f5⟩ := C03_append_list _ h7 _ _ e7
    have hcore7 : ∀ z < s.heap.next + 1, (h7.get z).core = (h4.get z).core := by
      intro z hz; rw [f5.core, hcore6 z hz]
    refine ⟨{ s with heap := h7 }, ?_, ?_, ?_, ?_, ?_⟩
    · rw [hrun]
      have hnew : Nodes.new (NodeRec.new .Subproof) h4 =
          .ok (s.heap.next + 1) (h4.alloc (NodeRec.new .Subproof)).2 := by
        rw [← hn4]; rfl
      simp only [onHeap, zoom, hnew, e6, e7]
    · refine ⟨?_, rfl, rfl, ?_, ?_, ?_, ?_, ?_, ?_⟩
      · simp only; rw [f5.1, hn6]; omega
      · intro z hz
        simp only
        rw [hcore7 z (by omega), K.core z hz]
      · simp only
        rw [f1, d3 x (by omega), E.children (by omega), K.stepKids]; rfl
      · intro g hg
        simp only [List.mem_cons, List.not_mem_nil, or_false] at hg
        rcases hg with rfl | rfl <;> simp only <;> rw [f5.1, hn6] <;> omega
      · intro g hg
        simp only [List.mem_cons, List.not_mem_nil, or_false] at hg
        rcases hg with rfl | rfl
        · simp only
          refine ⟨?_, f2 _ (by simp), ?_⟩
          · rw [f3 _ (by omega), d3 _ (by omega), E.children (by omega), K.stmtKids]
          · intro c hca
            have hclt := hlt c (by simp [hca])
            rw [f4 c (by simp only [List.mem_cons, List.not_mem_nil, or_false]; omega),
              d4 c (fun hm => hdisj c hm hca), E.parent (by omega), K.inA c hca]
        · simp only
          refine ⟨?_, f2 _ (by simp), ?_⟩
          · rw [f3 _ (by omega), d1]
            have : (h4.alloc (NodeRec.new .Subproof)).2.children (s.heap.next + 1) = [] := by
              unfold Heap.children
              rw [hget]; simp [NodeRec.new]
            rw [this, List.nil_append]
          · intro c hcb
            have hclt := hlt c (by simp only [List.mem_append]; exact .inr hcb)
            rw [f4 c (by simp only [List.mem_cons, List.not_mem_nil, or_false]; omega), d2 c hcb]
      · intro z hz hzx
        simp only
        rw [f3 z hzx, d3 z (by omega), E.children (by omega), K.other z hz hzx]
      · intro z hz hg
        have g1 : z ∉ a := hg (s.heap.next, a) (by simp)
        have g2 : z ∉ k :: b' := hg (s.heap.next + 1, k :: b') (by simp)
        simp only
        rw [f4 z (by simp only [List.mem_cons, List.not_mem_nil, or_false]; omega),
          d4 z g2, E.parent (by omega), K.parent z hz]
        simp only [List.mem_append, not_or]
        exact ⟨g1, g2⟩
    · simp only; rw [f5.1, hn6]
    · simp only; rw [hcore7 _ (by omega), K.stmt]
    · simp only; rw [f5.core, d5.core, hget]; rfl
  · rintro k rfl hk
    have hsome : (a ++ [k])[a.length]? = some k := by simp
    rw [hsome] at hrun
    have hkn := hlt k (by simp)
    have hk4 : (h4.get k).cls = .Subproof := by rw [cls_of_core (K.core k hkn), hk]
    have hk4a : h4.isInst k .Step = false := by unfold Heap.isInst; rw [hk4]; decide
    have hk4b : h4.isInst k .Subproof = true := by unfold Heap.isInst; rw [hk4]; decide
    have hka : k ∉ a := fun hm => (List.nodup_append.mp hnd).2.2 k hm k (by simp) rfl
    simp only [bind_apply, get_apply, hk4a, hk4b, if_true, Bool.false_eq_true, if_false,
      List.length_append, List.length_singleton, Nat.add_sub_cancel] at hrun
    obtain ⟨h7, e7⟩ := appendAll_ok (h := h4) (s := x) (cs := [s.heap.next, k])
      (hxl h4 hx4) (by simp only [List.nodup_cons, List.mem_singleton, List.not_mem_nil,
        not_false_eq_true, List.nodup_nil, and_true]; omega)
      (by
        intro c hcc
        simp only [List.mem_cons, List.not_mem_nil, or_false] at hcc
        rcases hcc with rfl | rfl
        · exact K.nParent
        · exact K.out c (by simp) hka)
      (by
        intro c hcc
        left
        simp only [List.mem_cons, List.not_mem_nil, or_false] at hcc
        rcases hcc with rfl | rfl
        · rw [hstmt4]; decide
        · rw [hk4]; decide)
    obtain ⟨f1, f2, f3, f4, f5⟩ := C03_append_list _ h7 _ _ e7
    refine ⟨{ s with heap := h7 }, ?_, ?_, ?_, ?_⟩
    · rw [hrun]; simp only [onHeap, zoom, e7]
    · refine ⟨?_, rfl, rfl, ?_, ?_, ?_, ?_, ?_, ?_⟩
      · simp only; rw [f5.1, K.next]; omega
      · intro z hz
        simp only
        rw [f5.core, K.core z hz]
      · simp only; rw [f1, K.stepKids]; rfl
      · intro g hg
        simp only [List.mem_singleton] at hg
        subst hg
        simp only
        rw [f5.1, K.next]; omega
      · intro g hg
        simp only [List.mem_singleton] at hg
        subst hg
        simp only
        refine ⟨by rw [f3 _ hxn'.symm, K.stmtKids], f2 _ (by simp), ?_⟩
        intro c hca
        have hclt := hlt c (by simp [hca])
        rw [f4 c ?_, K.inA c hca]
        simp only [List.mem_cons, List.not_mem_nil, or_false, not_or]
        exact ⟨by omega, by rintro rfl; exact hka hca⟩
      · intro z hz hzx
        simp only
        rw [f3 z hzx, K.other z hz hzx]
      · intro z hz hg
        have g1 : z ∉ a := hg (s.heap.next, a) (by simp)
        simp only
        by_cases hzk : z = k
        · subst hzk
          rw [f2 z (by simp), hpar z (by simp)]
        · rw [f4 z (by simp only [List.mem_cons, List.not_mem_nil, or_false, not_or]
                       exact ⟨by omega, hzk⟩), K.parent z hz (by simp [g1, hzk])]
    · simp only; rw [f5.1, K.next]
    · simp only; rw [f5.core, K.stmt]
  · rintro k b' rfl hk hb'
    have hsome : (a ++ k :: b')[a.length]? = some k := by simp
    rw [hsome] at hrun
    have hkn := hlt k (by simp)
    have hk4 : (h4.get k).cls = .Subproof := by rw [cls_of_core (K.core k hkn), hk]
    have hk4a : h4.isInst k .Step = false := by unfold Heap.isInst; rw [hk4]; decide
    have hk4b : h4.isInst k .Subproof = true := by unfold Heap.isInst; rw [hk4]; decide
    have hlen : ¬ (a.length = (a ++ k :: b').length - 1) := by
      have : 0 < b'.length := List.length_pos_iff.mpr hb'
      simp only [List.length_append, List.length_cons]
      omega
    simp only [bind_apply, get_apply, hk4a, hk4b, if_true, Bool.false_eq_true, if_false, hlen] at hrun
    exact ⟨_, hrun⟩

end RSM
