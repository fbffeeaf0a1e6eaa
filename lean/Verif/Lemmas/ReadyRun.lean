import Verif.Lemmas.LinkRun
import Verif.Spec.Obstacle

/-! # Lemmas: what the translators find after `transform` -/

namespace RSM
open Transformer Tree PyM Tr

/-- What a node that the passes after the resolution of references created is like. -/
def MadeNode (h : Heap) (t : Tree) (z : Ref) : Prop :=
  (h.get z).targets = [] ∧
    ((h.get z).target = .none ∧ (h.get z).cls ∈ [Cls.Statement, .Subproof, .Item, .Itemize] ∨
      (h.get z).cls = .Reference ∧ ∃ y ∈ t.pre, (h.get z).target = .node y ∧ IsSection h y)

/-- The references in tables of contents lead to sections. -/
def TablesLead (h : Heap) (t : Tree) : Prop :=
  ∀ u ∈ t.subtrees, (h.get u.root).cls = .Contents → ∀ y ∈ u.pre, (h.get y).cls = .Reference →
    ∃ z ∈ t.pre, (h.get y).target = .node z ∧ IsSection h z

theorem isSection_iff {h : Heap} {y : Ref} : IsSection h y ↔ IsSec h y := by
  unfold IsSection IsSec; simp

theorem target_of_authored {a b : NodeRec} (h : a.authored = b.authored) : a.target = b.target :=
  show a.authored.target = b.authored.target by rw [h]
theorem targets_of_authored {a b : NodeRec} (h : a.authored = b.authored) : a.targets = b.targets :=
  show a.authored.targets = b.authored.targets by rw [h]
theorem marked_of_authored {a b : NodeRec} (h : a.authored = b.authored) : a.mustCloseP = b.mustCloseP :=
  show a.authored.mustCloseP = b.authored.mustCloseP by rw [h]

theorem MadeNode.keeps {h h' : Heap} {t : Tree} {z : Ref} (M : MadeNode h t z) (K : Keeps h h')
    (hz : z < h.next) (hb : ∀ y ∈ t.pre, y < h.next) : MadeNode h' t z := by
  unfold MadeNode at M ⊢
  rw [K.cls hz, target_of_authored (K.authored z hz), targets_of_authored (K.authored z hz)]
  refine ⟨M.1, M.2.imp id ?_⟩
  rintro ⟨h1, y, h2, h3, h4⟩
  refine ⟨h1, y, h2, h3, ?_⟩
  unfold IsSection at h4 ⊢
  rw [K.cls (hb y h2)]
  exact h4

theorem TablesLead.keeps {h h' : Heap} {t : Tree} (M : TablesLead h t) (K : Keeps h h')
    (hb : ∀ y ∈ t.pre, y < h.next) : TablesLead h' t := by
  intro u hu hc y hy hcy
  have h1 := hb _ (mem_pre_of_subtree hu (root_mem_pre u))
  have h2 := hb _ (mem_pre_of_subtree hu hy)
  rw [K.cls h1] at hc
  rw [K.cls h2] at hcy
  obtain ⟨z, hz, h3, h4⟩ := M u hu hc y hy hcy
  refine ⟨z, hz, by rw [target_of_authored (K.authored _ h2)]; exact h3, ?_⟩
  unfold IsSection at h4 ⊢
  rw [K.cls (hb z hz)]
  exact h4

theorem toc_ready {s s' : TState} {root t fuel} (D : Doc s.heap root t) (hi : TocInput s.heap t)
    (hf : 4 * t.size < fuel) (hok : makeToc fuel root s = .ok () s') {t' : Tree} (D' : Doc s'.heap root t') :
    (∀ z ∈ t'.pre, z ∈ t.pre ∨ s.heap.next ≤ z ∧ MadeNode s'.heap t' z) ∧ TablesLead s'.heap t' ∧
      (∀ z < s.heap.next, (s'.heap.get z).core = (s.heap.get z).core) ∧
      (∀ z ∈ laterContents s.heap t, s'.heap.parent z = none) ∧
      (∀ z < s.heap.next, z ∉ laterContents s.heap t → s'.heap.parent z = s.heap.parent z) := by
  unfold laterContents
  cases hc : t.pre.filter (fun r => (s.heap.get r).cls = .Contents) with
  | nil =>
    have hn : ∀ r ∈ t.pre, (s.heap.get r).cls ≠ .Contents := by
      intro r hr h1
      have : r ∈ t.pre.filter (fun r => (s.heap.get r).cls = .Contents) :=
        List.mem_filter.mpr ⟨hr, by simpa using h1⟩
      rw [hc] at this
      cases this
    rw [makeToc_none D hf hn] at hok
    injection hok with _ e
    subst e
    obtain rfl := D.unique D'
    refine ⟨fun z hz => .inl hz, ?_, fun _ _ => rfl, by simp, fun _ _ _ => rfl⟩
    intro u hu h1
    exact absurd h1 (hn _ (mem_pre_of_subtree hu (root_mem_pre u)))
  | cons toc rest =>
    have htoc : toc ∈ t.pre.filter (fun r => (s.heap.get r).cls = .Contents) := by rw [hc]; simp
    obtain ⟨ht1, ht2⟩ := List.mem_filter.mp htoc
    obtain ⟨W, E⟩ := hi ⟨toc, ht1, by simpa using ht2⟩
    obtain ⟨s2, items, e, D2, hitems, hcore, -, hlab, -, hnext, hgone, hpar⟩ := makeToc_gone D W E hf hc
    rw [hok] at e
    injection e with _ e
    subst e
    obtain rfl := D2.unique D'
    have hrest : ∀ r ∈ rest, r ∈ t.pre ∧ (s.heap.get r).cls = .Contents := by
      intro r hr
      have : r ∈ t.pre.filter (fun r => (s.heap.get r).cls = .Contents) := by rw [hc]; simp [hr]
      exact ⟨(List.mem_filter.mp this).1, by simpa using (List.mem_filter.mp this).2⟩
    have hnd : (toc :: rest).Nodup := by rw [← hc]; exact D.nodup.filter _
    have hr : t.root ∉ rest := by
      intro hr
      obtain ⟨i, ks⟩ := t
      have := E i ks (self_mem_subtrees _) (hrest i hr).2
      subst this
      have : toc = i := by simpa using ht1
      subst this
      exact (List.nodup_cons.mp hnd).1 hr
    have hpre : (t.without rest).pre = t.pre.filter (· ∉ rest) :=
      pre_without hr (fun i ks hi h1 => E i ks hi (hrest i h1).2)
    have hmem : ∀ z ∈ ((t.without rest).graft toc items).pre, z ∈ (t.without rest).pre ∨ z ∈ preL items := by
      intro z hz
      by_cases h1 : z ∈ preL items
      · exact .inr h1
      · left
        have := pre_graft_filter (c := toc) (xs := items) (p := fun z => decide (z ∉ preL items))
          (by intro z hz; simpa using hz) (t.without rest)
        have h2 : z ∈ ((t.without rest).graft toc items).pre.filter (fun z => decide (z ∉ preL items)) :=
          List.mem_filter.mpr ⟨hz, by simpa using h1⟩
        rw [this] at h2
        exact (List.mem_filter.mp h2).1
    have hold : ∀ z ∈ (t.without rest).pre, z ∈ t.pre := fun z hz => by
      rw [hpre] at hz; exact (List.mem_filter.mp hz).1
    -- the targets of the entries
    have W1 := W.without (h1 := s.heap) rest (fun _ => rfl)
    obtain ⟨a, -⟩ := outerSections_spec s.heap (t.without rest)
    have htar := TocItems.targets W1 (fun k hk => ⟨mem_outerSections hk, a k hk⟩) hitems
    have hlead : ∀ y ∈ preL items, (s'.heap.get y).cls = .Reference →
        ∃ z ∈ ((t.without rest).graft toc items).pre, (s'.heap.get y).target = .node z ∧ IsSection s'.heap z := by
      intro y hy hcy
      have h1 : (s'.heap.get y).target ∈ refTargets s'.heap (preL items) :=
        List.mem_map.mpr ⟨y, List.mem_filter.mpr ⟨hy, by simpa using hcy⟩, rfl⟩
      rw [htar] at h1
      obtain ⟨z, hz, h2⟩ := List.mem_map.mp h1
      obtain ⟨hz1, hz2⟩ := List.mem_filter.mp hz
      have hz2 : IsSec s.heap z := by simpa using hz2
      obtain ⟨k, hk, hzk⟩ := mem_preL.mp hz1
      have hz3 := mem_pre_of_subtree (mem_outerSections hk) hzk
      refine ⟨z, mem_graft_old hz3, h2.symm, isSection_iff.mpr ?_⟩
      exact (isSec_of_core (hcore z (D.bound z (hold z hz3)))).mpr hz2
    refine ⟨?_, ?_, hcore, hgone, hpar⟩
    · intro z hz
      rcases hmem z hz with h1 | h1
      · exact .inl (hold z h1)
      · right
        rcases hitems.new z h1 with h2 | h2 | ⟨i, h2⟩
        · refine ⟨h2.1, (congrArg NodeRec.targets h2.2.2 :), .inl ⟨(congrArg NodeRec.target h2.2.2 :), ?_⟩⟩
          rw [(newNode_attrs h2).1]; decide
        · refine ⟨h2.1, (congrArg NodeRec.targets h2.2.2 :), .inl ⟨(congrArg NodeRec.target h2.2.2 :), ?_⟩⟩
          rw [(newNode_attrs h2).1]; decide
        · obtain ⟨h3, -, _, -, h4⟩ := id h2
          have h5 := (tocRef_attrs h2).1
          exact ⟨h3, (congrArg NodeRec.targets h4 :), .inr ⟨h5, hlead z h1 h5⟩⟩
    · intro u hu hcu y hy hcy
      have hru := mem_pre_of_subtree hu (root_mem_pre u)
      have hut : u.root = toc := by
        rcases hmem _ hru with h1 | h1
        · have h2 := hold _ h1
          have h3 : u.root ∈ t.pre.filter (fun r => (s.heap.get r).cls = .Contents) := by
            refine List.mem_filter.mpr ⟨h2, ?_⟩
            rw [← cls_of_core (hcore _ (D.bound _ h2))]; simpa using hcu
          rw [hc] at h3
          rcases List.mem_cons.mp h3 with h4 | h4
          · exact h4
          · rw [hpre] at h1
            exact absurd h4 (by simpa using (List.mem_filter.mp h1).2)
        · rcases hitems.new _ h1 with h2 | h2 | ⟨i, h2⟩
          · rw [(newNode_attrs h2).1] at hcu; cases hcu
          · rw [(newNode_attrs h2).1] at hcu; cases hcu
          · rw [(tocRef_attrs h2).1] at hcu; cases hcu
      have hempty : .node toc [] ∈ (t.without rest).subtrees := by
        have htoc1 : toc ∈ (t.without rest).pre := by
          rw [hpre]
          exact List.mem_filter.mpr ⟨ht1, by simpa using (List.nodup_cons.mp hnd).1⟩
        rw [pre_eq_subtrees_map] at htoc1
        obtain ⟨v, hv, hvr⟩ := List.mem_map.mp htoc1
        obtain ⟨i, ks⟩ := v
        simp only [root_node] at hvr
        subst hvr
        obtain ⟨j, js, h2, h3⟩ := mem_subtrees_without hv
        injection h3 with e1 e2
        subst e1; subst e2
        have := E i js h2 (by simpa using ht2)
        subst this
        exact hv
      have hg := mem_subtrees_graft (c := toc) (xs := items) hempty
      have hgu : u = .node toc items := by
        refine Transformer.subtree_unique D2.nodup hu (v := .node toc items) ?_ hut
        rw [graft_node] at hg
        simpa using hg
      subst hgu
      rw [pre_node, List.mem_cons] at hy
      rcases hy with rfl | hy
      · rw [root_node] at hcu
        rw [hcu] at hcy; cases hcy
      · exact hlead y hy hcy

/-- A pass that only computes attributes of nodes keeps all parents. -/
theorem attr_parents {h h' : Heap}
    (hg : ∀ x, ∃ nu re ty ha id, h'.get x = { h.get x with
      number := nu, reftextTemplate := re, types := ty, handrailDepth := ha, nodeid := id }) (x : Ref) :
    h'.parent x = h.parent x := by
  obtain ⟨nu, re, ty, ha, id, e⟩ := hg x
  simp only [Heap.parent, e]

theorem autonumber_ready {s s' : TState} {root t fuel} (D : Doc s.heap root t) (hf : t.size < fuel)
    (hok : autonumberNodes fuel root s = .ok () s') :
    (∀ x, s'.heap.parent x = s.heap.parent x) ∧
      ∀ x, (s'.heap.get x).reftextTemplate = (s.heap.get x).reftextTemplate ∨
        (s'.heap.get x).reftextTemplate = appendixTemplate (s.heap.get x).reftextTemplate := by
  have := autonumber_spec D hf
  rw [hok] at this
  obtain ⟨st, I, rfl⟩ := this
  refine ⟨attr_parents (fun x => ⟨_, _, _, _, _, by rw [I.other x]⟩), fun x => ?_⟩
  by_cases hx : Numbered s.heap x ∧ .Section ∈ (s.heap.get x).cls.mro ∧
      ∃ pre post, t.pre = pre ++ x :: post ∧ ∃ a ∈ pre, IsAppendix s.heap a
  · obtain ⟨h1, h2, pre, post, h3, h4⟩ := hx
    exact .inr (I.template pre x post h3 h1 h2 h4)
  · exact .inl (I.templateSame x hx)

theorem keywords_ready {s s' : TState} {root t fuel} (D : Doc s.heap root t) (hf : t.size < fuel)
    (hok : addKeywordsToConstructs fuel root s = .ok () s') (x : Ref) :
    s'.heap.parent x = s.heap.parent x ∧ (s'.heap.get x).reftextTemplate = (s.heap.get x).reftextTemplate := by
  have hkind : ∀ x ∈ t.pre, .Construct ∈ (s.heap.get x).cls.mro → (s.heap.get x).kind ≠ [] := by
    intro x hx h1 h2
    have := C27_no_kind s D hf ⟨x, hx, h1, h2⟩
    rw [hok] at this
    cases this
  obtain ⟨s2, e, h1, h2, h3, h4, -⟩ := C27_constructs s D hf hkind
  rw [hok] at e
  injection e with _ e
  subst e
  by_cases hx : x ∈ t.pre ∧ .Construct ∈ (s.heap.get x).cls.mro
  · simp only [Heap.parent, h1 x hx.1 hx.2, and_self]
  · simp only [Heap.parent, h2 x (by tauto), and_self]

theorem handrail_ready {s s' : TState} {root t fuel} (D : Doc s.heap root t) (hf : t.size < fuel)
    (hok : addHandrailDepth fuel root s = .ok () s') (x : Ref) :
    s'.heap.parent x = s.heap.parent x ∧ (s'.heap.get x).reftextTemplate = (s.heap.get x).reftextTemplate := by
  obtain ⟨s2, e, B⟩ := handrail_spec D hf
  rw [hok] at e
  injection e with _ e
  subst e
  simp only [Heap.parent, B.get x, and_self]

theorem ids_ready {s s' : TState} {root t fuel} (D : Doc s.heap root t) (hf : t.size < fuel)
    (hok : assignNodeIds fuel root s = .ok () s') (x : Ref) :
    s'.heap.parent x = s.heap.parent x ∧ (s'.heap.get x).reftextTemplate = (s.heap.get x).reftextTemplate := by
  obtain ⟨s2, e, h1, h2, h3, h4, -, -⟩ := C29_node_ids s D hf
  rw [hok] at e
  injection e with _ e
  subst e
  by_cases hx : x ∈ t.pre
  · obtain ⟨k, hk, rfl⟩ := List.mem_iff_getElem.mp hx
    simp only [Heap.parent, h1 k hk, and_self]
  · simp only [Heap.parent, h2 x hx, and_self]

/-- What the passes after the resolution of references leave. -/
structure After (s s' : TState) (root : Ref) (t t' : Tree) : Prop where
  doc : Doc s'.heap root t'
  keeps : Keeps s.heap s'.heap
  mem : ∀ z ∈ t'.pre, z ∈ t.pre ∨ s.heap.next ≤ z ∧ MadeNode s'.heap t' z
  tables : TablesLead s'.heap t'
  frame : ∀ z < s.heap.next, z ∉ t.pre → s'.heap.parent z = s.heap.parent z
  gone : ∀ z ∈ laterContents s.heap t, s'.heap.parent z = none
  steps : ∀ z ∈ t'.pre, z ∈ t.pre → ∀ p, s'.heap.parent z = some p → (s'.heap.get p).cls = .Step →
    (s'.heap.get z).cls = .Statement ∨ (s'.heap.get z).cls = .Subproof
  stay : ∀ p ∈ t.pre, (s.heap.get p).cls ≠ .Step → ∀ z ∈ s.heap.children p,
    z ∉ laterContents s.heap t → s'.heap.parent z = some p
  template : ∀ z < s.heap.next, (s'.heap.get z).reftextTemplate = (s.heap.get z).reftextTemplate ∨
    (s'.heap.get z).reftextTemplate = appendixTemplate (s.heap.get z).reftextTemplate

theorem template_of_core {a b : NodeRec} (h : a.core = b.core) : a.reftextTemplate = b.reftextTemplate :=
  show a.core.reftextTemplate = b.core.reftextTemplate by rw [h]

theorem after_ready {s s' : TState} {root t fuel} (D : Doc s.heap root t)
    (ha : StepKidsAllowed s.heap t) (hi : TocInput s.heap t) (hf : 12 * t.size < fuel)
    (hok : afterResolve fuel root s = .ok () s') {t' : Tree} (D' : Doc s'.heap root t') :
    After s s' root t t' := by
  have hpos := size_pos t
  unfold afterResolve at hok
  obtain ⟨⟨⟩, s1, e1, hok⟩ := bind_ok hok
  obtain ⟨⟨⟩, s2, e2, hok⟩ := bind_ok hok
  obtain ⟨⟨⟩, s3, e3, hok⟩ := bind_ok hok
  obtain ⟨⟨⟩, s4, e4, hok⟩ := bind_ok hok
  obtain ⟨⟨⟩, s5, e5, e6⟩ := bind_ok hok
  obtain ⟨t1, D1, W1, z1, K1, l1⟩ := subproofs_ok D ha (by omega) e1
  obtain ⟨c1, f1, -, -⟩ := C21_attributes s s1 root t fuel D ha (by omega) e1
  obtain ⟨D2, K2, n2, l2⟩ := autonumber_ok D1 (by omega) e2
  obtain ⟨p2, m2⟩ := autonumber_ready D1 (by omega) e2
  have K12 := K1.trans K2
  have hcls : ∀ z ∈ t.pre, (s1.heap.get z).cls = (s.heap.get z).cls := fun z hz => K1.cls (D.bound z hz)
  have hcls2 : ∀ z ∈ t1.pre, (s2.heap.get z).cls = (s1.heap.get z).cls :=
    fun z hz => K2.cls (D1.bound z hz)
  have hnewc : ∀ z ∈ t1.pre, z ∈ t.pre ∨ SubNew s.heap s1.heap z := W1.pre.2
  have hcont := wrapped_contents (h2 := s2.heap) D W1 hcls hcls2
  have hlater := laterContents_congr hcont
  have hi2 : TocInput s2.heap t1 := hi.wrapped D W1 hcls hcls2
  obtain ⟨t3, D3, z3, f3, m3, K3, l3⟩ := toc_ok D2 hi2 (by omega) e3
  obtain ⟨b3, q3, c3, g3, p3⟩ := toc_ready D2 hi2 (by omega) e3 D3
  obtain ⟨D4, K4, n4, l4⟩ := keywords_ok D3 (by omega) e4
  have r4 := keywords_ready D3 (by omega) e4
  obtain ⟨D5, K5, n5, l5⟩ := handrail_ok D4 (by omega) e5
  have r5 := handrail_ready D4 (by omega) e5
  obtain ⟨D6, K6, n6, l6⟩ := ids_ok D5 (by omega) e6
  have r6 := ids_ready D5 (by omega) e6
  obtain rfl := D6.unique D'
  have K46 := (K4.trans K5).trans K6
  have hp46 : ∀ x, s'.heap.parent x = s3.heap.parent x := fun x => by
    rw [(r6 x).1, (r5 x).1, (r4 x).1]
  have hmade : ∀ z ∈ t3.pre, z ∈ t.pre ∨ s.heap.next ≤ z ∧ MadeNode s'.heap t3 z := by
    intro z hz
    rcases b3 z hz with h1 | ⟨h1, h2⟩
    · rcases hnewc z h1 with h2 | h2
      · exact .inl h2
      · refine .inr ⟨h2.next_le, ?_⟩
        have K26 := (K2.trans K3).trans K46
        have hz1 := D1.bound z h1
        refine ⟨?_, .inl ⟨?_, ?_⟩⟩
        · rw [targets_of_authored (K26.authored z hz1)]
          rcases h2 with h2 | h2 <;> exact (congrArg NodeRec.targets h2.2.2 :)
        · rw [target_of_authored (K26.authored z hz1)]
          rcases h2 with h2 | h2 <;> exact (congrArg NodeRec.target h2.2.2 :)
        · rw [K26.cls hz1]
          rcases h2.cls with h3 | h3 <;> rw [h3] <;> decide
    · exact .inr ⟨K12.next.trans h1, h2.keeps K46 (D3.bound z hz) D3.bound⟩
  refine ⟨D6, (K12.trans K3).trans K46, hmade, q3.keeps K46 D3.bound, ?_, ?_, ?_, ?_, ?_⟩
  · intro z hz hzt
    rw [hp46, p3 z (lt_of_lt_of_le hz K12.next) ?_, p2, (f1 z hz hzt).2]
    rw [hlater]
    exact fun h => hzt (List.mem_filter.mp (List.mem_of_mem_tail h)).1
  · intro z hz
    rw [hp46]
    exact g3 z (by rw [hlater]; exact hz)
  · intro z hz hzt p hp hcp
    have hz0 := D.bound z hzt
    have hz2 : z < s2.heap.next := lt_of_lt_of_le hz0 K12.next
    have hz1 : z ∈ t1.pre := by
      rcases b3 z hz with h | ⟨h, -⟩
      · exact h
      · omega
    rw [hp46] at hp
    have hzl : z ∉ laterContents s2.heap t1 := by
      intro h
      rw [g3 z h] at hp
      cases hp
    rw [p3 z hz2 hzl, p2] at hp
    have hzr : z ≠ root := by
      rintro rfl
      rw [D1.parent_root_none] at hp
      cases hp
    obtain ⟨q, hq, h1, h2⟩ := D1.parent_mem hz1 hzr
    rw [hp] at h1
    injection h1 with h1
    subst h1
    have K26 := (K2.trans K3).trans K46
    rw [K26.cls (D1.bound p hq)] at hcp
    rcases hnewc p hq with h3 | h3
    · rw [hcls p h3] at hcp
      obtain ⟨a, b⟩ := C20_step_children s s1 root t fuel D ha (by omega) e1 p h3 hcp
      rw [K26.cls (D1.bound z hz1)]
      by_cases hk : s.heap.children p = []
      · rw [a hk] at h2
        cases h2
      · obtain ⟨st, N, h4 | ⟨sp, h4, h5⟩⟩ := b hk
        · rw [h4, List.mem_singleton] at h2
          subst h2
          exact .inl (newNode_attrs N).1
        · rw [h4] at h2
          simp only [List.mem_cons, List.not_mem_nil, or_false] at h2
          rcases h2 with rfl | rfl
          · exact .inl (newNode_attrs N).1
          · exact .inr h5
    · rcases h3.cls with h4 | h4 <;> rw [h4] at hcp <;> cases hcp
  · intro p hp hcp z hz hzl
    obtain ⟨u, hu, rfl⟩ : ∃ u ∈ t.subtrees, u.root = p := by
      rw [pre_eq_subtrees_map] at hp
      exact List.mem_map.mp hp
    obtain ⟨i, ks⟩ := u
    rw [root_node] at hcp hz ⊢
    obtain ⟨us, ks', h1, h2, h3⟩ := W1.arranged hu
    have hc : s.heap.children i = ks.map Tree.root := D.tree.kids_of_subtree hu
    have hc' : s1.heap.children i = ks'.map Tree.root := D1.tree.kids_of_subtree h1
    have hr := wrappedL_roots h2
    unfold Arranged at h3
    rw [if_neg (fun h => hcp h.1)] at h3
    subst h3
    have hz1 : z ∈ s1.heap.children i := by rw [hc', hr, ← hc]; exact hz
    have hz0 := D.bound z (D.children_mem hp hz).1
    rw [hp46, p3 z (lt_of_lt_of_le hz0 K12.next) (by rw [hlater]; exact hzl), p2]
    exact (D1.children_mem (node_mem_pre h1) hz1).2
  · intro z hz
    have h2 : z < s2.heap.next := lt_of_lt_of_le hz K12.next
    rw [(r6 z).2, (r5 z).2, (r4 z).2, template_of_core (c3 z h2), ← template_of_core (c1 z hz)]
    exact m2 z

/-! ### The whole run -/

theorem ResInv.start (s : TState) (fuel : Nat) (t : Tree) :
    ResInv s.heap s.labels s.log fuel t [] id ⟨s, 0⟩ := by
  refine ⟨Nat.le_refl _, rfl, by simp, by simp [citations], ?_, by simp, by simp, by simp,
    by simp, by simp, by simp, by simp, by simp, by simp⟩
  intro x hx
  simp [allBacklinks, citations]

theorem forall₂_right {α β : Type} {R : α → β → Prop} {l : List α} {m : List β} (H : List.Forall₂ R l m)
    {y : β} (hy : y ∈ m) : ∃ x, R x y := by
  induction H with
  | nil => cases hy
  | cons h1 _ ih =>
    rcases List.mem_cons.mp hy with rfl | hy
    · exact ⟨_, h1⟩
    · exact ih hy

/-- What a node is like after `transform` returned. -/
inductive Found (h : Heap) (t : Tree) (h' : Heap) (t' : Tree) (z : Ref) : Prop
  /-- It is a node of the author. -/
  | author : z ∈ t.pre → ¬ Pending h z → (h'.get z).authored = (h.get z).authored → Found h t h' t' z
  /-- It is a resolved reference. -/
  | link {y} : (h'.get z).cls = .Reference → (h'.get z).targets = [] → (h'.get z).target = .node y →
      y ∈ t.pre → Found h t h' t' z
  /-- It is an error message. -/
  | error : (h'.get z).cls = .Error → (h'.get z).targets = [] → (h'.get z).target = .none → Found h t h' t' z
  /-- It is a resolved citation. -/
  | cite : (h'.get z).cls = .Cite → (h'.get z).target = .none →
      (∀ y ∈ (h'.get z).targets, y ∈ t.pre ∨ h'.parent y = none ∧
        ((h'.get y).reftextTemplate = Cls.classreftext .UnknownBibitem ∨
          (h'.get y).reftextTemplate = appendixTemplate (Cls.classreftext .UnknownBibitem))) → Found h t h' t' z
  | made : MadeNode h' t' z → Found h t h' t' z

/-- What there is after `transform` returned. -/
structure Transformed (h : Heap) (root : Ref) (t : Tree) (h' : Heap) (t' : Tree) : Prop where
  doc : Doc h' root t'
  found : ∀ z ∈ t'.pre, Found h t h' t' z
  placed : ∀ y ∈ t.pre, y ∈ t'.pre ∨ h'.parent y = none
  tables : TablesLead h' t'
  steps : ∀ z ∈ t'.pre, ∀ p, h'.parent z = some p → (h'.get p).cls = .Step →
    (h'.get z).cls ∈ createdClasses
  stay : ∀ p ∈ t.pre, ¬ Pending h p → (h.get p).cls ≠ .Step → ∀ z ∈ h.children p, ¬ Pending h z →
    (h.get z).cls ≠ .Contents → h'.parent z = some p
  template : ∀ y ∈ t.pre, (h'.get y).reftextTemplate = (h.get y).reftextTemplate ∨
    (h'.get y).reftextTemplate = appendixTemplate (h.get y).reftextTemplate
  cls : ∀ y ∈ t.pre, (h'.get y).cls = (h.get y).cls
  follow : ∀ p ∈ t.pre, ¬ Pending h p → (h.get p).cls ≠ .Step → ∀ l m r, h.children p = l ++ m :: r →
    ¬ Pending h m → (h.get m).cls ≠ .Contents → ∀ y ∈ r, (h.get y).cls ≠ .Contents → ∀ l', h'.children p ≠ l' ++ [m]

mutual
theorem pre_subtree_sublist : ∀ {t u : Tree}, u ∈ t.subtrees → u.pre.Sublist t.pre
  | .node i ks, u, h => by
    rw [Tree.subtrees] at h
    rcases List.mem_cons.mp h with rfl | h
    · exact List.Sublist.refl _
    · rw [pre_node]
      exact (preL_subtree_sublist h).cons i
theorem preL_subtree_sublist : ∀ {ts : List Tree} {u : Tree}, u ∈ subtreesL ts → u.pre.Sublist (preL ts)
  | [], u, h => by cases h
  | t :: ts, u, h => by
    rw [Tree.subtreesL] at h
    rw [preL_cons]
    rcases List.mem_append.mp h with h | h
    · exact (pre_subtree_sublist h).trans (List.sublist_append_left _ _)
    · exact (preL_subtree_sublist h).trans (List.sublist_append_right _ _)
end

theorem roots_sublist : ∀ ts : List Tree, (ts.map Tree.root).Sublist (preL ts)
  | [] => List.Sublist.refl _
  | .node i ks :: ts => by
    rw [preL_cons, pre_node, List.map_cons, root_node, List.cons_append]
    exact ((roots_sublist ts).trans (List.sublist_append_right _ _)).cons_cons i

theorem Doc.children_sublist {h : Heap} {root p : Ref} {t : Tree} (D : Doc h root t) (hp : p ∈ t.pre) :
    (h.children p).Sublist t.pre := by
  obtain ⟨u, hu, rfl⟩ : ∃ u ∈ t.subtrees, u.root = p := by
    rw [pre_eq_subtrees_map] at hp
    exact List.mem_map.mp hp
  obtain ⟨i, ks⟩ := u
  rw [root_node, D.tree.kids_of_subtree hu]
  refine List.Sublist.trans ?_ (pre_subtree_sublist hu)
  rw [pre_node]
  exact (roots_sublist ks).cons i

theorem nodup_order {α : Type} {a b : α} : ∀ {l : List α}, l.Nodup → [a, b].Sublist l → [b, a].Sublist l → False
  | [], _, h, _ => by cases h
  | c :: l, hn, h1, h2 => by
    obtain ⟨hc, hl⟩ := List.nodup_cons.mp hn
    cases h1 with
    | cons _ h1 =>
      cases h2 with
      | cons _ h2 => exact nodup_order hl h1 h2
      | cons_cons _ h2 => exact hc (h1.subset (by simp))
    | cons_cons _ h1 =>
      cases h2 with
      | cons _ h2 => exact hc (h2.subset (by simp))
      | cons_cons _ h2 => exact hc (h1.subset (by simp))

theorem transformed {h : Heap} {root : Ref} {t : Tree} {fuel : Nat} {log : List TWarning} {s' : TState}
    (hr : ResolveInput h root t) (ha : StepKidsAllowed h t) (hi : TocInput h t)
    (hf : 12 * t.size < fuel)
    (hok : transform fuel root { heap := h, log := log } = .ok () s') :
    ∃ t', Transformed h root t s'.heap t' := by
  obtain ⟨s1, e1, e2⟩ := transform_ok hok
  obtain ⟨σ, D, M, n1, a1, f1, c1, -, g1⟩ := resolve_ok hr (by omega) e1
  have hi1 : TocInput s1.heap (t.map σ) := by
    rintro ⟨r, hr, hc⟩
    have : r ∈ (t.map σ).pre.filter (fun r => (s1.heap.get r).cls = .Contents) :=
      List.mem_filter.mpr ⟨hr, by simpa using hc⟩
    rw [g1] at this
    obtain ⟨h1, h2⟩ := List.mem_filter.mp this
    obtain ⟨W, E⟩ := hi ⟨r, h1, by simpa using h2⟩
    exact ⟨W.map M, E.map M⟩
  have hf1 : 12 * (t.map σ).size < fuel := by rw [size_map]; exact hf
  obtain ⟨t', D', f2, -, K, -⟩ := after_ok D (ha.map M) hi1 hf1 e2
  have A := after_ready D (ha.map M) hi1 hf1 e2 D'
  obtain ⟨s, τ, k, C, I, Dτ⟩ := resolved hr (by omega) e1
  have hn : s.heap.next = h.next := C.relabel.1
  have hP : ∀ x, Pending s.heap x ↔ Pending h x := C.relabel.pending
  have hστ : ∀ x ∈ t.pre, σ x = τ x := Tree.map_inj (D.unique Dτ)
  have hfix : ∀ x ∈ t.pre, ¬ Pending h x → σ x = x := fun x hx hp => by
    rw [hστ x hx]; exact I.fix x fun H => hp ((hP x).mp H.2)
  have hmapmem : ∀ x ∈ t.pre, σ x ∈ (t.map σ).pre := fun x hx => by
    rw [pre_map]; exact List.mem_map_of_mem hx
  have hlater := laterContents_congr g1
  have hbound : ∀ x ∈ t.pre, x < s1.heap.next := fun x hx => lt_of_lt_of_le (hr.doc.bound x hx) n1
  have mem : ∀ z ∈ (t.map σ).pre, z ∉ laterContents h t → z ∈ t'.pre := by
    intro z hz hl
    have : z ∈ (t.map σ).pre.filter (· ∉ laterContents s1.heap (t.map σ)) := by
      rw [hlater]
      exact List.mem_filter.mpr ⟨hz, by simpa using hl⟩
    rw [← f2] at this
    exact (List.mem_filter.mp this).1
  have hcls : ∀ y ∈ t.pre, (s'.heap.get y).cls = (h.get y).cls := fun y hy => by
    rw [A.keeps.cls (hbound y hy)]
    exact cls_of_authored (a1 y (hr.doc.bound y hy))
  refine ⟨t', D', ?_, ?_, A.tables, ?_, ?_, ?_, hcls, ?_⟩
  · intro z hz
    rcases A.mem z hz with h1 | ⟨-, h1⟩
    · rw [pre_map] at h1
      obtain ⟨w, hw, rfl⟩ := List.mem_map.mp h1
      by_cases hp : Pending h w
      · have hlt := D.bound _ (hmapmem w hw)
        have hau := A.keeps.authored _ hlt
        obtain ⟨pre, post, hd⟩ := List.append_of_mem hw
        have R := I.desc pre w post hd ((hP w).mpr hp)
        rw [← hστ w hw] at R
        unfold ReplacementOf at R
        rw [C.relabel.cls] at R
        rcases hp with hp | hp | hp
        · simp only [hp] at R
          split at R
          · rename_i r hlook
            refine .link (y := r) ?_ ?_ ?_ (carries_mem ((C.lookup _ _).mp hlook)).1
            · rw [cls_of_authored hau]; exact core_cls R
            · rw [targets_of_authored hau]
              exact (show (s1.heap.get (σ w)).core.targets = [] by rw [R]; rfl)
            · rw [target_of_authored hau]
              exact (show (s1.heap.get (σ w)).core.target = _ by rw [R])
          · refine .error ?_ ?_ ?_
            · rw [cls_of_authored hau]; exact core_cls R
            · rw [targets_of_authored hau]
              exact (show (s1.heap.get (σ w)).core.targets = [] by rw [R]; rfl)
            · rw [target_of_authored hau]
              exact (show (s1.heap.get (σ w)).core.target = _ by rw [R]; rfl)
        · simp only [hp] at R
          obtain ⟨ts, R, hts⟩ := R
          refine .cite ?_ ?_ ?_
          · rw [cls_of_authored hau]; exact core_cls R
          · rw [target_of_authored hau]
            exact (show (s1.heap.get (σ w)).core.target = _ by rw [R]; rfl)
          · intro y hy
            rw [targets_of_authored hau] at hy
            have hy : y ∈ (s1.heap.get (σ w)).core.targets := hy
            rw [R] at hy
            have hy : y ∈ ts := hy
            obtain ⟨l, hc⟩ := forall₂_right hts hy
            unfold CitedNode at hc
            split at hc
            · rename_i r hlook
              left
              rw [hc]
              exact (carries_mem ((C.lookup _ _).mp hlook)).1
            · obtain ⟨h2, h3, h4, h5⟩ := hc
              rw [hn] at h2
              have h3 : y < s1.heap.next := h3
              have hcy : (s1.heap.get y).cls = .UnknownBibitem := core_cls h5
              right
              have hyt : y ∉ (t.map σ).pre := by
                intro hm
                rw [pre_map] at hm
                obtain ⟨v, hv, rfl⟩ := List.mem_map.mp hm
                by_cases hpv : Pending h v
                · rcases M.new v hv hpv with h6 | h6 | h6 <;> rw [hcy] at h6 <;> cases h6
                · rw [hfix v hv hpv] at h2
                  have := hr.doc.bound v hv
                  omega
              refine ⟨(A.frame y h3 hyt).trans h4, ?_⟩
              have htm : (s1.heap.get y).reftextTemplate = Cls.classreftext .UnknownBibitem :=
                show (s1.heap.get y).core.reftextTemplate = _ by rw [h5]; rfl
              rw [← htm]
              exact A.template y h3
        · simp only [hp] at R
          obtain ⟨q, hq, R⟩ := R
          refine .link (y := q) ?_ ?_ ?_ ?_
          · rw [cls_of_authored hau]; exact core_cls R
          · rw [targets_of_authored hau]
            exact (show (s1.heap.get (σ w)).core.targets = [] by rw [R]; rfl)
          · rw [target_of_authored hau]
            exact (show (s1.heap.get (σ w)).core.target = _ by rw [R])
          · exact ((ResInv.start s fuel t).prevResult_eq C.doc hw (by simp)).2 q hq
      · rw [hfix w hw hp]
        refine .author hw hp ?_
        rw [A.keeps.authored w (hbound w hw)]
        exact a1 w (hr.doc.bound w hw)
    · exact .made h1
  · intro y hy
    by_cases hp : Pending h y
    · right
      have hyt : y ∉ (t.map σ).pre := by
        intro hm
        have : y ∈ (t.map σ).pre.filter (· < h.next) :=
          List.mem_filter.mpr ⟨hm, by simpa using hr.doc.bound y hy⟩
        rw [f1] at this
        exact absurd hp (by simpa using (List.mem_filter.mp this).2)
      rw [A.frame y (hbound y hy) hyt]
      exact I.gone y hy ((hP y).mpr hp)
    · by_cases hl : y ∈ laterContents h t
      · right
        exact A.gone y (by rw [hlater]; exact hl)
      · left
        refine mem y ?_ hl
        have h1 := hmapmem y hy
        rwa [hfix y hy hp] at h1
  · intro z hz p hp hcp
    rcases A.mem z hz with h1 | ⟨-, h1⟩
    · rcases A.steps z hz h1 p hp hcp with h2 | h2 <;> rw [h2] <;> decide
    · rcases h1.2 with ⟨-, h2⟩ | ⟨h2, -⟩
      · revert h2
        generalize (s'.heap.get z).cls = c
        cases c <;> decide
      · rw [h2]; decide
  · intro p hp hpp hcp z hz hpz hcz
    have hzt := (hr.doc.children_mem hp hz).1
    have h1 := hmapmem p hp
    rw [hfix p hp hpp] at h1
    refine A.stay p h1 ?_ z ?_ ?_
    · rw [cls_of_authored (a1 p (hr.doc.bound p hp))]; exact hcp
    · have := I.kids p hp
      have h2 : s1.heap.children p = (h.children p).map τ := by rw [← C.relabel.children]; exact this
      rw [h2]
      refine List.mem_map.mpr ⟨z, hz, ?_⟩
      rw [← hστ z hzt, hfix z hzt hpz]
    · rw [hlater]
      intro hm
      have := (List.mem_filter.mp (List.mem_of_mem_tail hm)).2
      exact hcz (by simpa using this)
  · intro y hy
    have h1 : (s1.heap.get y).reftextTemplate = (h.get y).reftextTemplate := by
      have h2 := I.old y (by rw [hn]; exact hr.doc.bound y hy)
      have h3 : (s1.heap.get y).reftextTemplate = (s.heap.get y).reftextTemplate :=
        (congrArg NodeRec.reftextTemplate h2 :)
      rw [h3, C.relabel.2 y]
    rw [← h1]
    exact A.template y (hbound y hy)
  · intro p hp hpp hcp l m r hk hpm hcm y hy hcy l' hl
    have h1 := hmapmem p hp
    rw [hfix p hp hpp] at h1
    have hmt := (hr.doc.children_mem hp (x := m) (by rw [hk]; simp)).1
    have hyt := (hr.doc.children_mem hp (x := y) (by rw [hk]; simp [hy])).1
    have h2 : s1.heap.children p = (h.children p).map σ := by
      have h3 : s1.heap.children p = (h.children p).map τ := by rw [← C.relabel.children]; exact I.kids p hp
      rw [h3]
      exact List.map_congr_left fun z hz => (hστ z (hr.doc.children_mem hp hz).1).symm
    have hσm := hfix m hmt hpm
    rw [hk, List.map_append, List.map_cons, hσm] at h2
    have hsub : [m, σ y].Sublist (s1.heap.children p) := by
      rw [h2]
      refine List.Sublist.trans ?_ (List.sublist_append_right _ _)
      exact (List.singleton_sublist.mpr (List.mem_map_of_mem hy)).cons_cons m
    have hlate : ∀ z ∈ t.pre, (h.get z).cls ≠ .Contents → σ z ∉ laterContents s1.heap (t.map σ) := by
      intro z hz hcz hm
      rw [hlater] at hm
      obtain ⟨g1, g2⟩ := List.mem_filter.mp (List.mem_of_mem_tail hm)
      by_cases hpz : Pending h z
      · have hm2 := hm
        rw [← hlater] at hm2
        obtain ⟨g3, g4⟩ := List.mem_filter.mp (List.mem_of_mem_tail hm2)
        have g4 : (s1.heap.get (σ z)).cls = .Contents := by simpa using g4
        rcases M.new z hz hpz with h6 | h6 | h6 <;> rw [g4] at h6 <;> cases h6
      · rw [hfix z hz hpz] at g2
        exact hcz (by simpa using g2)
    have hnm := hlate m hmt hcm
    have hny := hlate y hyt hcy
    rw [hσm] at hnm
    have hseq : [m, σ y].Sublist t'.pre := by
      have h4 := (hsub.trans (Doc.children_sublist D h1)).filter
        (fun z => decide (z ∉ laterContents s1.heap (t.map σ)))
      rw [List.filter_cons_of_pos (by simpa using hnm), List.filter_cons_of_pos (by simpa using hny), ← f2] at h4
      exact h4.trans List.filter_sublist
    have hm' : σ y ∈ t'.pre := hseq.subset (by simp)
    have hpar : s'.heap.parent (σ y) = some p :=
      A.stay p h1 (by rw [cls_of_authored (a1 p (hr.doc.bound p hp))]; exact hcp) (σ y) (hsub.subset (by simp)) hny
    have hyr : σ y ≠ root := by
      intro e
      rw [e, D'.parent_root_none] at hpar
      cases hpar
    obtain ⟨q, hq, g1, g2⟩ := D'.parent_mem hm' hyr
    rw [hpar] at g1
    injection g1 with g1
    subst g1
    have hne : σ y ≠ m := by
      intro e
      have h5 : (s1.heap.children p).Nodup := (D.nodup).sublist (Doc.children_sublist D h1)
      have := h5.sublist hsub
      rw [e] at this
      simp at this
    have hback : [σ y, m].Sublist t'.pre := by
      refine List.Sublist.trans ?_ (Doc.children_sublist D' hq)
      rw [hl] at g2 ⊢
      rcases List.mem_append.mp g2 with g2 | g2
      · exact (List.singleton_sublist.mpr g2).append (List.Sublist.refl [m])
      · exact absurd (List.mem_singleton.mp g2) hne
    exact nodup_order D'.nodup hseq hback

end RSM
