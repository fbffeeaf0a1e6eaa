import Verif.Lemmas.Traverse
import Verif.Spec.Transform
import Verif.Props.Reading

/-! Helper lemmas for the passes of the transformer that only assign attributes. -/

namespace RSM
open PyM Tree Transformer

theorem Tree.eq_of_shared {ks : List Tree} (hnd : (preL ks).Nodup) {k k' : Tree} (hk : k ∈ ks)
    (hk' : k' ∈ ks) {r : Ref} (hr : r ∈ k.pre) (hr' : r ∈ k'.pre) : k = k' := by
  induction ks with
  | nil => simp at hk
  | cons a ks ih =>
    simp only [preL_cons, List.nodup_append] at hnd
    have hdis : ∀ {x}, x ∈ a.pre → x ∈ preL ks → False := fun h1 h2 => hnd.2.2 _ h1 _ h2 rfl
    rcases List.mem_cons.mp hk with rfl | hk <;> rcases List.mem_cons.mp hk' with rfl | hk'
    · rfl
    · exact (hdis hr (mem_preL.mpr ⟨k', hk', hr'⟩)).elim
    · exact (hdis hr' (mem_preL.mpr ⟨_, ‹k ∈ ks›, hr⟩)).elim
    · exact ih hnd.2.1 hk hk'

theorem Tree.nodup_of_mem {ks : List Tree} (hnd : (preL ks).Nodup) {k : Tree} (hk : k ∈ ks) :
    k.pre.Nodup := by
  induction ks with
  | nil => simp at hk
  | cons a ks ih =>
    simp only [preL_cons, List.nodup_append] at hnd
    rcases List.mem_cons.mp hk with rfl | hk
    · exact hnd.1
    · exact ih hnd.2.1 hk

theorem Tree.nodup_subtree {s t : Tree} (hnd : t.pre.Nodup) (hs : s ∈ t.subtrees) : s.pre.Nodup := by
  induction t using Tree.induct with
  | _ i ks ih =>
    rcases mem_subtrees_node.mp hs with rfl | ⟨k, hk, hsk⟩
    · exact hnd
    · exact ih k hk (nodup_of_mem (List.nodup_cons.mp hnd).2 hk) hsk

/-- The proper ancestors of a node of a tree are the roots of the subtrees properly above it. -/
theorem IsTree.ancestors_iff {h : Heap} {p t} (ht : IsTree h p t) (hnd : t.pre.Nodup) (lp : List Ref)
    (hlp : match p with
      | none => lp = []
      | some q => ∃ l, lp = q :: l ∧ Ancestors h q l)
    {r} (hr : r ∈ t.pre) :
    ∃ l, Ancestors h r (l ++ lp) ∧ l.Nodup ∧ (∀ a ∈ l, a ∈ t.pre) ∧
      ∀ s ∈ t.subtrees, s.root ∈ l ↔ r ∈ s.pre ∧ r ≠ s.root := by
  induction t using Tree.induct generalizing p lp with
  | _ i ks ih =>
    have hi : Ancestors h i lp := by
      have := ht.parent_root
      simp only [root_node] at this
      cases p with
      | none => simp only at hlp; subst hlp; exact this
      | some q => obtain ⟨l, rfl, hl⟩ := hlp; exact ⟨this, hl⟩
    have hnd' := List.nodup_cons.mp hnd
    simp only [pre_node, List.mem_cons, mem_preL] at hr
    rcases hr with rfl | ⟨k, hk, hr⟩
    · refine ⟨[], hi, by simp, by simp, ?_⟩
      intro s hs
      simp only [List.not_mem_nil, false_iff, not_and, ne_eq, Classical.not_not]
      intro hrs
      rcases mem_subtrees_node.mp hs with rfl | ⟨k, hk, hsk⟩
      · rfl
      · exact absurd (mem_preL.mpr ⟨k, hk, mem_pre_of_subtree hsk hrs⟩) hnd'.1
    · obtain ⟨l, h1, h2, h3, h4⟩ := ih k hk ((isTree_node.mp ht).2.2 k hk)
        (nodup_of_mem hnd'.2 hk) (i :: lp) ⟨lp, rfl, hi⟩ hr
      have hik : i ∉ k.pre := fun hm => hnd'.1 (mem_preL.mpr ⟨k, hk, hm⟩)
      refine ⟨l ++ [i], by simpa using h1, ?_, ?_, ?_⟩
      · rw [List.nodup_append]
        refine ⟨h2, by simp, ?_⟩
        rintro a ha b hb rfl
        simp only [List.mem_singleton] at hb
        subst hb
        exact hik (h3 _ ha)
      · intro a ha
        simp only [List.mem_append, List.mem_singleton] at ha
        simp only [pre_node, List.mem_cons, mem_preL]
        rcases ha with ha | rfl
        · exact .inr ⟨k, hk, h3 a ha⟩
        · exact .inl rfl
      · intro s hs
        rcases mem_subtrees_node.mp hs with rfl | ⟨k', hk', hsk⟩
        · simp only [root_node, List.mem_append, List.mem_singleton, or_true, true_iff]
          refine ⟨by simp only [pre_node, List.mem_cons, mem_preL]; exact .inr ⟨k, hk, hr⟩, ?_⟩
          rintro rfl
          exact hik hr
        · have hsi : s.root ≠ i := by
            intro e
            exact hnd'.1 (e ▸ mem_preL.mpr ⟨k', hk', mem_pre_of_subtree hsk (root_mem_pre s)⟩)
          simp only [List.mem_append, List.mem_singleton, hsi, or_false]
          by_cases hkk : k' = k
          · subst hkk; exact h4 s hsk
          · constructor
            · intro hm
              exact absurd (eq_of_shared hnd'.2 hk' hk
                (mem_pre_of_subtree hsk (root_mem_pre s)) (h3 _ hm)) hkk
            · rintro ⟨hm, _⟩
              exact absurd (eq_of_shared hnd'.2 hk' hk (mem_pre_of_subtree hsk hm) hr) hkk

theorem Doc.ancestors_iff {h : Heap} {root t} (D : Doc h root t) {r} (hr : r ∈ t.pre) :
    ∃ l, Ancestors h r l ∧ l.Nodup ∧ (∀ a ∈ l, a ∈ t.pre) ∧
      ∀ s ∈ t.subtrees, s.root ∈ l ↔ r ∈ s.pre ∧ r ≠ s.root := by
  obtain ⟨l, h1, h2⟩ := D.tree.ancestors_iff D.nodup [] rfl hr
  exact ⟨l, by simpa using h1, h2⟩

theorem Tree.exists_subtree {t : Tree} {r : Ref} (hr : r ∈ t.pre) :
    ∃ s ∈ t.subtrees, s.root = r := by
  rw [pre_eq_subtrees_map] at hr
  simpa using hr

theorem Doc.of_links {h h' : Heap} {root t} (D : Doc h root t) (hp : ∀ r, h'.parent r = h.parent r)
    (hc : ∀ r, h'.children r = h.children r) (hn : h'.next = h.next) : Doc h' root t :=
  ⟨D.root_eq, D.tree.congr (fun r _ => hp r) (fun r _ => hc r), D.nodup,
    fun r hr => by rw [hn]; exact D.bound r hr⟩

/-! ### Node ids -/

namespace Transformer

structure IdInv (h : Heap) (s0 : TState) (done : List Ref) (s : IdState) : Prop where
  next : s.t.heap.next = h.next
  labels : s.t.labels = s0.labels
  log : s.t.log = s0.log
  nodeid : s.nodeid = done.length
  get : ∀ x, s.t.heap.get x =
    if x ∈ done then { h.get x with nodeid := some (done.idxOf x) } else h.get x

theorem assignNodeIds_spec {s : TState} {root t} (D : Doc s.heap root t) {fuel : Nat}
    (hfuel : t.size < fuel) :
    ∃ s', assignNodeIds fuel root s = .ok () s' ∧ s'.labels = s.labels ∧ s'.log = s.log ∧
      s'.heap.next = s.heap.next ∧
      ∀ x, s'.heap.get x =
        if x ∈ t.pre then { s.heap.get x with nodeid := some (t.pre.idxOf x) }
        else s.heap.get x := by
  unfold assignNodeIds
  rw [← D.root_eq, travLoop_tree (σ := IdState) (·.t.heap) _ idBody ?_ { t := s } D.tree fuel hfuel]
  · have := forEach_index (σ := IdState)
      (fun r s => if true then idBody r s else .ok () s)
      (IdInv s.heap s) (fun _ _ => False) t.pre
      (by
        intro done r todo st hall I
        have hr : r ∉ done := by
          have := D.nodup
          rw [hall] at this
          exact fun hm => (List.disjoint_of_nodup_append this) hm (by simp)
        simp only [if_true, idBody, Res.Sat]
        refine ⟨I.next, I.labels, I.log, by simp [I.nodeid], ?_⟩
        intro x
        simp only [Heap.get_update, List.mem_append, List.mem_singleton]
        by_cases hx : x = r
        · subst hx
          rw [I.get]
          simp [hr, List.idxOf_append, I.nodeid]
        · rw [if_neg hx, I.get]
          by_cases hd : x ∈ done
          · simp [hd, List.idxOf_append]
          · simp [hd, hx])
      t.pre [] rfl { t := s } ⟨rfl, rfl, rfl, rfl, by simp⟩
    obtain ⟨u, s', h1, I⟩ := this.exists_ok
    simp only [if_true] at h1 ⊢
    rw [h1]
    exact ⟨s'.t, rfl, I.labels, I.log, I.next, I.get⟩
  · intro r s x
    simp only [idBody, Res.state]
    refine Heap.children_update _ _ _ ?_ ?_ _ <;> intro _ <;> rfl

/-! ### Constructs -/

/-- The types added to a construct of the given kind. -/
def kindTypes (kind : Str) : List Str :=
  kind :: (if nonAssumptionKinds.contains kind then [] else [assumptionType])

theorem keywordBody_apply (r : Ref) (s : TState) :
    keywordBody r s =
      if (s.heap.get r).kind.isEmpty then .err .assertionError s
      else .ok () { s with heap := s.heap.update r fun n =>
        { n with types := n.types ++ kindTypes (s.heap.get r).kind } } := by
  simp only [keywordBody, bind_apply, get_apply, assign, kindTypes]
  generalize nonAssumptionKinds.contains (s.heap.get r).kind = b
  generalize assumptionType = a
  split
  · rfl
  · simp only [modify_apply, bind_apply]
    cases b
    · simp only [Bool.not_false, if_true, modify_apply, Bool.false_eq_true, if_false]
      congr 2
      simp only [Heap.update, Heap.mk.injEq, and_true]
      funext x
      by_cases hx : x = r
      · subst hx; simp
      · simp [hx]
    · simp

structure KeywordInv (s0 : TState) (done : List Ref) (s : TState) : Prop where
  next : s.heap.next = s0.heap.next
  labels : s.labels = s0.labels
  log : s.log = s0.log
  get : ∀ x, s.heap.get x =
    if x ∈ done ∧ s0.heap.isInst x .Construct = true then
      { s0.heap.get x with types := (s0.heap.get x).types ++ kindTypes (s0.heap.get x).kind }
    else s0.heap.get x

theorem keyword_loop {s : TState} {root t} (D : Doc s.heap root t) {fuel : Nat}
    (hfuel : t.size < fuel) :
    addKeywordsToConstructs fuel root s =
      forEach (fun r s => if s.heap.isInst r .Construct then keywordBody r s else .ok () s) t.pre s := by
  unfold addKeywordsToConstructs
  rw [← D.root_eq, travLoop_tree (σ := TState) (·.heap) _ keywordBody ?_ s D.tree fuel hfuel]
  intro r s x
  rw [keywordBody_apply]
  split
  · rfl
  · simp only [Res.state]
    refine Heap.children_update _ _ _ ?_ ?_ _ <;> intro _ <;> rfl

theorem keywords_spec {s : TState} {root t} (D : Doc s.heap root t) {fuel : Nat}
    (hfuel : t.size < fuel) :
    (addKeywordsToConstructs fuel root s).Sat
      (fun _ s' => KeywordInv s t.pre s' ∧
        ∀ x ∈ t.pre, s.heap.isInst x .Construct = true → (s.heap.get x).kind ≠ [])
      (fun e _ => e = .assertionError ∧
        ∃ x ∈ t.pre, s.heap.isInst x .Construct = true ∧ (s.heap.get x).kind = []) := by
  rw [keyword_loop D hfuel]
  refine Res.Sat.mono (forEach_index (σ := TState) _
    (fun done s' => KeywordInv s done s' ∧
      ∀ x ∈ done, s.heap.isInst x .Construct = true → (s.heap.get x).kind ≠ [])
    (fun e _ => e = .assertionError ∧
        ∃ x ∈ t.pre, s.heap.isInst x .Construct = true ∧ (s.heap.get x).kind = [])
    t.pre ?_ t.pre [] rfl s ⟨⟨rfl, rfl, rfl, by simp⟩, by simp⟩) (fun _ _ h => h) (fun _ _ h => h)
  rintro done r todo st hall ⟨I, hk⟩
  have hr : r ∉ done := by
    have := D.nodup
    rw [hall] at this
    exact fun hm => (List.disjoint_of_nodup_append this) hm (by simp)
  have hmem : r ∈ t.pre := by rw [hall]; simp
  have hg : st.heap.get r = s.heap.get r := by rw [I.get]; simp [hr]
  have hinst : st.heap.isInst r .Construct = s.heap.isInst r .Construct := by
    simp only [Heap.isInst, hg]
  rw [hinst]
  by_cases hc : s.heap.isInst r .Construct = true
  · rw [if_pos hc, keywordBody_apply, hg]
    by_cases hkind : (s.heap.get r).kind = []
    · rw [if_pos (by simp [hkind])]
      exact ⟨rfl, r, hmem, hc, hkind⟩
    · rw [if_neg (by simp [hkind])]
      refine ⟨⟨I.next, I.labels, I.log, ?_⟩, ?_⟩
      · intro x
        simp only [Heap.get_update, List.mem_append, List.mem_singleton, I.get x]
        by_cases hx : x = r
        · subst hx; simp [hr, hc]
        · simp [hx]
      · intro x hx
        simp only [List.mem_append, List.mem_singleton] at hx
        rcases hx with hx | rfl
        · exact hk x hx
        · intro _; exact hkind
  · rw [if_neg hc]
    refine ⟨⟨I.next, I.labels, I.log, ?_⟩, ?_⟩
    · intro x
      simp only [List.mem_append, List.mem_singleton, I.get x]
      by_cases hx : x = r
      · subst hx; simp [hr, hc]
      · simp [hx]
    · intro x hx
      simp only [List.mem_append, List.mem_singleton] at hx
      rcases hx with hx | rfl
      · exact hk x hx
      · intro h'; exact absurd h' hc

/-! ### Handrail depth -/

/-- The heap of `s` is that of `s0` with the handrail depths raised by `f`. -/
structure Bumped (s0 : TState) (f : Ref → Nat) (s : TState) : Prop where
  next : s.heap.next = s0.heap.next
  labels : s.labels = s0.labels
  log : s.log = s0.log
  get : ∀ x, s.heap.get x =
    { s0.heap.get x with handrailDepth := (s0.heap.get x).handrailDepth + f x }

theorem Bumped.congr {s0 f g s} (B : Bumped s0 f s) (h : ∀ x, f x = g x) : Bumped s0 g s :=
  ⟨B.next, B.labels, B.log, fun x => by rw [B.get, h]⟩

theorem Bumped.doc {s0 f s root t} (B : Bumped s0 f s) (D : Doc s0.heap root t) :
    Doc s.heap root t := by
  refine D.of_links ?_ ?_ B.next
  · intro r; simp only [Heap.parent, B.get]
  · intro r; simp only [Heap.children, Heap.isInst, B.get]; rfl

theorem handrailInner_children (fuel node r : Nat) (s : TState) (x : Ref) :
    (handrailInner fuel node r s).state.heap.children x = s.heap.children x := by
  simp only [handrailInner, bind_apply, get_apply]
  cases s.heap.pyEq fuel r node with
  | none => rfl
  | some b =>
    cases b with
    | true => rfl
    | false =>
      simp only [assign, modify_apply, Res.state]
      refine Heap.children_update _ _ _ ?_ ?_ _ <;> intro _ <;> rfl

theorem handrail_inner {s0 : TState} {root t} (D : Doc s0.heap root t) {u : Tree}
    (hu : u ∈ t.subtrees) {f : Ref → Nat} {s : TState} (B : Bumped s0 f s) {fuel : Nat}
    (hfuel : u.size < fuel + 1) :
    ∃ s', travLoop (·.heap) (fun _ _ => true) (handrailInner (fuel + 1) u.root) (fuel + 1) [u.root] s
        = .ok () s' ∧
      Bumped s0 (fun x => f x + if x ∈ u.pre ∧ x ≠ u.root then 1 else 0) s' := by
  have hDs := B.doc D
  obtain ⟨q, hq⟩ := hDs.tree.subtree hu
  rw [travLoop_tree (σ := TState) (·.heap) _ _ (handrailInner_children _ _) s hq _ hfuel]
  have hnd := nodup_subtree D.nodup hu
  have := forEach_index (σ := TState)
    (fun r s => if true then handrailInner (fuel + 1) u.root r s else .ok () s)
    (fun done => Bumped s0 fun x => f x + if x ∈ done ∧ x ≠ u.root then 1 else 0)
    (fun _ _ => False) u.pre
    (by
      intro done r todo st hall I
      have hr : r ∉ done := by
        rw [hall] at hnd
        exact fun hm => (List.disjoint_of_nodup_append hnd) hm (by simp)
      have hmem : r ∈ u.pre := by rw [hall]; simp
      have heq := C11_descendant st.heap root t (I.doc D) u hu r hmem fuel
      simp only [if_true, handrailInner, bind_apply, get_apply]
      rw [heq]
      by_cases hru : r = u.root
      · subst hru
        simp only [decide_true, PyM.pure_apply, Res.Sat]
        refine I.congr fun x => ?_
        by_cases hx : x = u.root
        · simp [hx]
        · simp [hx]
      · simp only [hru, decide_false, assign, modify_apply, Res.Sat]
        refine ⟨I.next, I.labels, I.log, ?_⟩
        intro x
        simp only [Heap.get_update]
        by_cases hx : x = r
        · subst hx
          simp [I.get, hr, hru, Nat.add_assoc]
        · simp [hx, I.get])
    u.pre [] rfl s (B.congr (by simp))
  obtain ⟨_, s', h1, h2⟩ := this.exists_ok
  exact ⟨s', h1, h2⟩

/-- The subtree of `t` with root `r`. -/
noncomputable def properDesc (t : Tree) (r x : Ref) : Prop :=
  ∃ u ∈ t.subtrees, u.root = r ∧ x ∈ u.pre ∧ x ≠ r

theorem size_subtree {u t : Tree} (hu : u ∈ t.subtrees) : u.size ≤ t.size := by
  induction t using Tree.induct with
  | _ i ks ih =>
    rcases mem_subtrees_node.mp hu with rfl | ⟨k, hk, hsk⟩
    · exact Nat.le_refl _
    · have h1 := ih k hk hsk
      have : k.size ≤ sizeL ks := by
        obtain ⟨a, b, rfl⟩ := List.mem_iff_append.mp hk
        rw [sizeL_append]; simp; omega
      simp only [size_node]; omega

theorem subtree_unique {t : Tree} (hnd : t.pre.Nodup) {u v : Tree} (hu : u ∈ t.subtrees)
    (hv : v ∈ t.subtrees) (h : u.root = v.root) : u = v := by
  rw [pre_eq_subtrees_map] at hnd
  exact List.inj_on_of_nodup_map hnd hu hv h

open Classical in
theorem handrail_class {s0 : TState} {root t} (D : Doc s0.heap root t) (c : Cls) {f : Ref → Nat}
    {s : TState} (B : Bumped s0 f s) {fuel : Nat} (hfuel : t.size < fuel) :
    ∃ s', addHandrailDepthForClass fuel root c s = .ok () s' ∧
      Bumped s0 (fun x => f x +
        t.pre.countP fun a => s0.heap.isInst a c && decide (properDesc t a x)) s' := by
  obtain ⟨fuel, rfl⟩ : ∃ k, fuel = k + 1 := ⟨fuel - 1, by omega⟩
  unfold addHandrailDepthForClass
  have hbody : ∀ u ∈ t.subtrees, ∀ {g : Ref → Nat} {st : TState}, Bumped s0 g st →
      ∃ s', travLoop (·.heap) (fun _ _ => true) (handrailInner (fuel + 1) u.root) (fuel + 1)
          [u.root] st = .ok () s' ∧
        Bumped s0 (fun x => g x + if properDesc t u.root x then 1 else 0) s' := by
    intro u hu g st Bst
    obtain ⟨s', h1, h2⟩ := handrail_inner D hu Bst
      (Nat.lt_of_le_of_lt (size_subtree hu) hfuel)
    refine ⟨s', h1, h2.congr fun x => ?_⟩
    have : (x ∈ u.pre ∧ x ≠ u.root) ↔ properDesc t u.root x := by
      constructor
      · intro hx; exact ⟨u, hu, rfl, hx⟩
      · rintro ⟨v, hv, hvu, hx⟩
        have := subtree_unique D.nodup hv hu hvu
        subst this
        exact hx
    simp only [this]
  have key := travLoop_inv (σ := TState) (·.heap) (fun h r => h.isInst r c)
    (fun node => travLoop (·.heap) (fun _ _ => true) (handrailInner (fuel + 1) node) (fuel + 1) [node])
    t.pre
    (fun done => Bumped s0 fun x => f x +
        done.countP fun a => s0.heap.isInst a c && decide (properDesc t a x))
    (fun _ _ => False) s0.heap.children
    (by
      intro done r todo st hall I hc
      have hmem : r ∈ t.pre := by rw [hall]; simp
      obtain ⟨u, hu, rfl⟩ := exists_subtree hmem
      obtain ⟨s', h1, h2⟩ := hbody u hu I
      rw [h1]
      refine ⟨h2.congr fun x => ?_, ?_⟩
      · have hc' : s0.heap.isInst u.root c = true := by
          simp only [Heap.isInst, I.get] at hc; exact hc
        simp only [List.countP_append, List.countP_singleton, hc', Bool.true_and,
          decide_eq_true_eq]
        omega
      · simp only [Heap.children, Heap.isInst, h2.get]; rfl)
    (by
      intro done r todo st hall I hc
      refine ⟨I.congr fun x => ?_, ?_⟩
      · have hc' : s0.heap.isInst r c = false := by
          simp only [Heap.isInst, I.get] at hc; exact hc
        simp [List.countP_append, hc']
      · simp only [Heap.children, Heap.isInst, I.get]; rfl)
    [t]
    (by
      intro t' ht' i ks hi
      simp only [List.mem_singleton] at ht'
      subst ht'
      exact D.tree.kids_of_subtree hi)
    [] (by simp) s (B.congr (by simp)) (fuel + 1) (by simpa using hfuel)
  obtain ⟨_, s', h1, h2⟩ := key.exists_ok
  refine ⟨s', ?_, h2⟩
  simpa [D.root_eq] using h1

open Classical in
theorem handrail_spec {s0 : TState} {root t} (D : Doc s0.heap root t) {fuel : Nat}
    (hfuel : t.size < fuel) :
    ∃ s', addHandrailDepth fuel root s0 = .ok () s' ∧
      Bumped s0 (fun x => ((Cls.all.filter Cls.hasHandrail).map fun c =>
        t.pre.countP fun a => s0.heap.isInst a c && decide (properDesc t a x)).sum) s' := by
  unfold addHandrailDepth
  have := forEach_index (σ := TState) (addHandrailDepthForClass fuel root)
    (fun done => Bumped s0 fun x => (done.map fun c =>
        t.pre.countP fun a => s0.heap.isInst a c && decide (properDesc t a x)).sum)
    (fun _ _ => False) (Cls.all.filter Cls.hasHandrail)
    (by
      intro done c todo st _ I
      obtain ⟨s', h1, h2⟩ := handrail_class D c I hfuel
      rw [h1]
      exact h2.congr (by simp))
    _ [] rfl s0 ⟨rfl, rfl, rfl, by simp⟩
  obtain ⟨_, s', h1, h2⟩ := this.exists_ok
  exact ⟨s', h1, h2⟩

open Classical in
theorem countP_ancestors {h : Heap} {root t} (D : Doc h root t) {x : Ref} (hx : x ∈ t.pre)
    {l : List Ref} (hl : Ancestors h x l) (P : Ref → Bool) :
    (t.pre.countP fun a => P a && decide (properDesc t a x)) = l.countP P := by
  obtain ⟨l', h1, h2, h3, h4⟩ := D.ancestors_iff hx
  have := Ancestors.unique hl h1
  subst this
  have hperm : (t.pre.filter fun a => decide (properDesc t a x)).Perm l := by
    rw [List.perm_ext_iff_of_nodup (D.nodup.filter _) h2]
    intro a
    simp only [List.mem_filter, decide_eq_true_eq]
    constructor
    · rintro ⟨_, u, hu, rfl, hxu, hne⟩
      exact (h4 u hu).mpr ⟨hxu, hne⟩
    · intro ha
      obtain ⟨u, hu, rfl⟩ := exists_subtree (h3 a ha)
      exact ⟨h3 _ ha, u, hu, rfl, (h4 u hu).mp ha⟩
  rw [← hperm.countP_eq, List.countP_filter]

end Transformer
end RSM
