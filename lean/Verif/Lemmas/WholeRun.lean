import Verif.Lemmas.Whole

/-! Helper lemmas for the composition of the passes of `transform`: running them. -/

namespace RSM
open PyM Tree Transformer

theorem pre_without {rs : List Ref} {t : Tree} (hr : t.root ∉ rs)
    (hleaf : ∀ i ks, .node i ks ∈ t.subtrees → i ∈ rs → ks = []) :
    (t.without rs).pre = t.pre.filter (· ∉ rs) := by
  induction t using Tree.induct with
  | _ i ks ih =>
    rw [Tree.without, pre_node, pre_node, List.filter_cons_of_pos (by simpa using hr)]
    have : preL (withoutL rs ks) = (preL ks).filter (· ∉ rs) := by
      have hl2 : ∀ k ∈ ks, ∀ i ks', .node i ks' ∈ k.subtrees → i ∈ rs → ks' = [] :=
        fun k hk j js hj => hleaf j js (mem_subtrees_node.mpr (.inr ⟨k, hk, hj⟩))
      clear hleaf hr
      induction ks with
      | nil => rfl
      | cons k ks ih2 =>
        have h2 := ih2 (fun k hk => ih k (by simp [hk])) (fun k hk => hl2 k (by simp [hk]))
        rw [withoutL]
        by_cases hk : k.root ∈ rs
        · obtain ⟨j, js⟩ := k
          have := hl2 (.node j js) (by simp) j js (self_mem_subtrees _) hk
          subst this
          rw [if_pos hk, h2, preL_cons, pre_node, preL_nil, List.cons_append, List.nil_append,
            List.filter_cons_of_neg (by simpa using hk)]
        · rw [if_neg hk, preL_cons, preL_cons, List.filter_append, h2,
            ih k (by simp) hk (hl2 k (by simp))]
    rw [this]

theorem pre_graft_filter {c : Ref} {xs : List Tree} {p : Ref → Bool} (hx : ∀ z ∈ preL xs, p z = false)
    (t : Tree) : (t.graft c xs).pre.filter p = t.pre.filter p := by
  induction t using Tree.induct with
  | _ i ks ih =>
    have hxs : (preL xs).filter p = [] := by
      rw [List.filter_eq_nil_iff]
      intro z hz
      simp [hx z hz]
    have hks : (preL (ks.map (graft c xs))).filter p = (preL ks).filter p := by
      clear hx hxs
      induction ks with
      | nil => rfl
      | cons k ks ih2 =>
        rw [List.map_cons, preL_cons, preL_cons, List.filter_append, List.filter_append,
          ih k (by simp), ih2 (fun k hk => ih k (by simp [hk]))]
    rw [graft_node, pre_node, pre_node, List.filter_cons, List.filter_cons, preL_append,
      List.filter_append, hks, show (preL (if i = c then xs else [])).filter p = [] by
        split
        · exact hxs
        · rfl, List.append_nil]

/-- Everything after the resolution of references. -/
def afterResolve (fuel : Nat) (root : Ref) : TM Unit := do
  addNecessarySubproofs fuel root
  autonumberNodes fuel root
  makeToc fuel root
  addKeywordsToConstructs fuel root
  addHandrailDepth fuel root
  assignNodeIds fuel root

theorem bind_ok {σ α β : Type} {m : PyM σ α} {f : α → PyM σ β} {s s' : σ} {b : β}
    (h : (m >>= f) s = .ok b s') : ∃ a s1, m s = .ok a s1 ∧ f a s1 = .ok b s' := by
  rw [bind_apply] at h
  cases hm : m s with
  | ok a s1 => rw [hm] at h; exact ⟨a, s1, rfl, h⟩
  | err e s1 => rw [hm] at h; cases h

theorem transform_ok {fuel root} {s s' : TState} (h : transform fuel root s = .ok () s') :
    ∃ s1, collectAndResolve fuel root s = .ok () s1 ∧ afterResolve fuel root s1 = .ok () s' := by
  unfold transform at h
  obtain ⟨⟨⟩, s1, h1, h⟩ := bind_ok h
  obtain ⟨⟨⟩, s2, h2, h⟩ := bind_ok h
  refine ⟨s2, ?_, h⟩
  unfold collectAndResolve
  rw [bind_apply, h1]
  exact h2

/-- `h'` has the objects of `h`, with what the author put into them and their labels. -/
structure Keeps (h h' : Heap) : Prop where
  next : h.next ≤ h'.next
  authored : ∀ x < h.next, (h'.get x).authored = (h.get x).authored
  label : ∀ x < h.next, (h'.get x).label = (h.get x).label
  backlinks : ∀ x < h.next, (h'.get x).backlinks = (h.get x).backlinks

theorem cls_of_authored {a b : NodeRec} (h : a.authored = b.authored) : a.cls = b.cls :=
  show a.authored.cls = b.authored.cls by rw [h]

theorem Keeps.cls {h h' : Heap} (K : Keeps h h') {x} (hx : x < h.next) :
    (h'.get x).cls = (h.get x).cls := cls_of_authored (K.authored x hx)

theorem Keeps.refl (h : Heap) : Keeps h h := ⟨Nat.le_refl _, fun _ _ => rfl, fun _ _ => rfl, fun _ _ => rfl⟩

theorem Keeps.trans {a b c : Heap} (h1 : Keeps a b) (h2 : Keeps b c) : Keeps a c :=
  ⟨h1.next.trans h2.next,
    fun x hx => (h2.authored x (lt_of_lt_of_le hx h1.next)).trans (h1.authored x hx),
    fun x hx => (h2.label x (lt_of_lt_of_le hx h1.next)).trans (h1.label x hx),
    fun x hx => (h2.backlinks x (lt_of_lt_of_le hx h1.next)).trans (h1.backlinks x hx)⟩

theorem authored_of_core {a b : NodeRec} (h : a.core = b.core) : a.authored = b.authored := by
  show a.core.authored = b.core.authored
  rw [h]

theorem label_of_core {a b : NodeRec} (h : a.core = b.core) : a.label = b.label :=
  show a.core.label = b.core.label by rw [h]

theorem Keeps.of_core {h h' : Heap} (hn : h.next ≤ h'.next)
    (hc : ∀ x < h.next, (h'.get x).core = (h.get x).core) : Keeps h h' :=
  ⟨hn, fun x hx => authored_of_core (hc x hx), fun x hx => label_of_core (hc x hx),
    fun x hx => show (h'.get x).core.backlinks = (h.get x).core.backlinks by rw [hc x hx]⟩

/-- A pass that only computes attributes of nodes. -/
theorem attr_doc_keeps {h h' : Heap} {root t} (D : Doc h root t) (hn : h'.next = h.next)
    (hg : ∀ x, ∃ nu re ty ha id, h'.get x = { h.get x with
      number := nu, reftextTemplate := re, types := ty, handrailDepth := ha, nodeid := id }) :
    Doc h' root t ∧ Keeps h h' := by
  refine ⟨D.of_links ?_ ?_ hn, hn.ge, ?_, ?_, ?_⟩
  · intro r
    obtain ⟨nu, re, ty, ha, id, e⟩ := hg r
    simp only [Heap.parent, e]
  · intro r
    obtain ⟨nu, re, ty, ha, id, e⟩ := hg r
    simp only [Heap.children, Heap.isInst, e]
    rfl
  · intro x _
    obtain ⟨nu, re, ty, ha, id, e⟩ := hg x
    rw [e]; rfl
  · intro x _
    obtain ⟨nu, re, ty, ha, id, e⟩ := hg x
    rw [e]
  · intro x _
    obtain ⟨nu, re, ty, ha, id, e⟩ := hg x
    rw [e]

theorem autonumber_ok {s s' : TState} {root t fuel} (D : Doc s.heap root t) (hf : t.size < fuel)
    (hok : autonumberNodes fuel root s = .ok () s') :
    Doc s'.heap root t ∧ Keeps s.heap s'.heap ∧ s'.heap.next = s.heap.next ∧ s'.labels = s.labels := by
  have := autonumber_spec D hf
  rw [hok] at this
  obtain ⟨st, I, rfl⟩ := this
  obtain ⟨h1, h2⟩ := attr_doc_keeps (h' := st.t.heap) D I.next (fun x => ⟨_, _, _, _, _, by rw [I.other x]⟩)
  exact ⟨h1, h2, I.next, I.labels⟩

theorem keywords_ok {s s' : TState} {root t fuel} (D : Doc s.heap root t) (hf : t.size < fuel)
    (hok : addKeywordsToConstructs fuel root s = .ok () s') :
    Doc s'.heap root t ∧ Keeps s.heap s'.heap ∧ s'.heap.next = s.heap.next ∧ s'.labels = s.labels := by
  have hkind : ∀ x ∈ t.pre, .Construct ∈ (s.heap.get x).cls.mro → (s.heap.get x).kind ≠ [] := by
    intro x hx h1 h2
    have := C27_no_kind s D hf ⟨x, hx, h1, h2⟩
    rw [hok] at this
    cases this
  obtain ⟨s2, e, h1, h2, h3, h4, -⟩ := C27_constructs s D hf hkind
  rw [hok] at e
  injection e with _ e
  subst e
  obtain ⟨g1, g2⟩ := attr_doc_keeps (h' := s'.heap) D h3 (fun x => by
    by_cases hx : x ∈ t.pre ∧ .Construct ∈ (s.heap.get x).cls.mro
    · rw [h1 x hx.1 hx.2]; exact ⟨_, _, _, _, _, rfl⟩
    · rw [h2 x (by tauto)]; exact ⟨_, _, _, _, _, rfl⟩)
  exact ⟨g1, g2, h3, h4⟩

theorem handrail_ok {s s' : TState} {root t fuel} (D : Doc s.heap root t) (hf : t.size < fuel)
    (hok : addHandrailDepth fuel root s = .ok () s') :
    Doc s'.heap root t ∧ Keeps s.heap s'.heap ∧ s'.heap.next = s.heap.next ∧ s'.labels = s.labels := by
  obtain ⟨s2, e, B⟩ := handrail_spec D hf
  rw [hok] at e
  injection e with _ e
  subst e
  obtain ⟨g1, g2⟩ := attr_doc_keeps (h' := s'.heap) D B.next
    (fun x => by rw [B.get x]; exact ⟨_, _, _, _, _, rfl⟩)
  exact ⟨g1, g2, B.next, B.labels⟩

theorem ids_ok {s s' : TState} {root t fuel} (D : Doc s.heap root t) (hf : t.size < fuel)
    (hok : assignNodeIds fuel root s = .ok () s') :
    Doc s'.heap root t ∧ Keeps s.heap s'.heap ∧ s'.heap.next = s.heap.next ∧ s'.labels = s.labels := by
  obtain ⟨s2, e, h1, h2, h3, h4, -, -⟩ := C29_node_ids s D hf
  rw [hok] at e
  injection e with _ e
  subst e
  obtain ⟨g1, g2⟩ := attr_doc_keeps (h' := s'.heap) D h3 (fun x => by
    by_cases hx : x ∈ t.pre
    · obtain ⟨k, hk, rfl⟩ := List.mem_iff_getElem.mp hx
      rw [h1 k hk]; exact ⟨_, _, _, _, _, rfl⟩
    · rw [h2 x hx]; exact ⟨_, _, _, _, _, rfl⟩)
  exact ⟨g1, g2, h3, h4⟩

theorem subproofs_ok {s s' : TState} {root t fuel} (D : Doc s.heap root t)
    (ha : StepKidsAllowed s.heap t) (hf : 3 * t.size < fuel)
    (hok : addNecessarySubproofs fuel root s = .ok () s') :
    ∃ t', Doc s'.heap root t' ∧ Wrapped s.heap s'.heap t t' ∧ t'.size ≤ 3 * t.size ∧
      Keeps s.heap s'.heap ∧ s'.labels = s.labels := by
  obtain ⟨h1, h2⟩ := subproofs_spec D ha hf
  by_cases hl : SubproofsLast s.heap t
  · obtain ⟨s2, t2, e, R, D2⟩ := h1 hl
    rw [hok] at e
    injection e with _ e
    subst e
    obtain ⟨t', ts'', e', hw, hnil⟩ := wrappedL_cons.mp R.wrap
    injection e' with e1 e2
    subst e1
    have := R.size
    simp only [sizeL_cons, sizeL_nil] at this
    exact ⟨t2, D2, hw, by omega, .of_core R.next R.core, R.labels⟩
  · obtain ⟨s2, e⟩ := h2 hl
    rw [hok] at e
    cases e

theorem tocRef_attrs {h h' : Heap} {i z : Ref} (R : TocRef h h' i z) :
    (h'.get z).cls = .Reference ∧ (h'.get z).label = [] ∧ h.next ≤ z := by
  obtain ⟨h1, -, text, -, e⟩ := R
  exact ⟨(congrArg NodeRec.cls e :), (congrArg NodeRec.label e :), h1⟩

theorem newNode_attrs {h h' : Heap} {c d z} (N : NewNode h h' c d z) :
    (h'.get z).cls = c ∧ (h'.get z).label = [] ∧ h.next ≤ z :=
  ⟨(congrArg NodeRec.cls N.2.2 :), (congrArg NodeRec.label N.2.2 :), N.1⟩

/-- A node that some pass created: of one of the classes, without label. -/
def Created (h : Heap) (z : Ref) : Prop := (h.get z).cls ∈ createdClasses ∧ (h.get z).label = []

theorem Created.keeps {h h' : Heap} {z : Ref} (C : Created h z) (K : Keeps h h') (hz : z < h.next) :
    Created h' z := ⟨by rw [K.cls hz]; exact C.1, by rw [K.label z hz]; exact C.2⟩

theorem toc_ok {s s' : TState} {root t fuel} (D : Doc s.heap root t) (hi : TocInput s.heap t)
    (hf : 4 * t.size < fuel) (hok : makeToc fuel root s = .ok () s') :
    ∃ t', Doc s'.heap root t' ∧ t'.size ≤ 4 * t.size ∧
      t'.pre.filter (· < s.heap.next) = t.pre.filter (· ∉ laterContents s.heap t) ∧
      (∀ z ∈ t'.pre, z ∈ t.pre ∨ s.heap.next ≤ z ∧ Created s'.heap z) ∧
      Keeps s.heap s'.heap ∧ s'.labels = s.labels := by
  unfold laterContents
  cases hc : t.pre.filter (fun r => (s.heap.get r).cls = .Contents) with
  | nil =>
    have hn : ∀ r ∈ t.pre, (s.heap.get r).cls ≠ .Contents := by
      intro r hr h1
      have : r ∈ t.pre.filter (fun r => (s.heap.get r).cls = .Contents) :=
        List.mem_filter.mpr ⟨hr, by simpa using h1⟩
      rw [hc] at this
      cases this
    rw [makeToc_none D hf hn] at hok
    injection hok with _ e
    subst e
    refine ⟨t, D, by omega, ?_, fun z hz => .inl hz, .refl _, rfl⟩
    refine List.filter_congr ?_
    intro z hz
    simpa using D.bound z hz
  | cons toc rest =>
    have htoc : toc ∈ t.pre.filter (fun r => (s.heap.get r).cls = .Contents) := by rw [hc]; simp
    obtain ⟨ht1, ht2⟩ := List.mem_filter.mp htoc
    obtain ⟨W, E⟩ := hi ⟨toc, ht1, by simpa using ht2⟩
    obtain ⟨s2, items, e, D2, hitems, hcore, -, hlab, -, hnext⟩ := makeToc_spec D W E hf hc
    rw [hok] at e
    injection e with _ e
    subst e
    have hrest : ∀ r ∈ rest, r ∈ t.pre ∧ (s.heap.get r).cls = .Contents := by
      intro r hr
      have : r ∈ t.pre.filter (fun r => (s.heap.get r).cls = .Contents) := by rw [hc]; simp [hr]
      exact ⟨(List.mem_filter.mp this).1, by simpa using (List.mem_filter.mp this).2⟩
    have hnew : ∀ z ∈ preL items, s.heap.next ≤ z ∧ Created s'.heap z := by
      intro z hz
      rcases hitems.new z hz with h1 | h1 | ⟨i, h1⟩
      · obtain ⟨a, b, c⟩ := newNode_attrs h1
        exact ⟨c, by rw [a]; decide, b⟩
      · obtain ⟨a, b, c⟩ := newNode_attrs h1
        exact ⟨c, by rw [a]; decide, b⟩
      · obtain ⟨a, b, c⟩ := tocRef_attrs h1
        exact ⟨c, by rw [a]; decide, b⟩
    have hnd : (toc :: rest).Nodup := by rw [← hc]; exact D.nodup.filter _
    have hr : t.root ∉ rest := by
      intro hr
      obtain ⟨i, ks⟩ := t
      have := E i ks (self_mem_subtrees _) (hrest i hr).2
      subst this
      have : toc = i := by simpa using ht1
      subst this
      exact (List.nodup_cons.mp hnd).1 hr
    have hpre : (t.without rest).pre = t.pre.filter (· ∉ rest) :=
      pre_without hr (fun i ks hi h1 => E i ks hi (hrest i h1).2)
    have hmem : ∀ z ∈ ((t.without rest).graft toc items).pre, z ∈ (t.without rest).pre ∨ z ∈ preL items := by
      intro z hz
      by_cases h1 : z ∈ preL items
      · exact .inr h1
      · left
        have := pre_graft_filter (c := toc) (xs := items) (p := fun z => decide (z ∉ preL items))
          (by intro z hz; simpa using hz) (t.without rest)
        have h2 : z ∈ ((t.without rest).graft toc items).pre.filter (fun z => decide (z ∉ preL items)) :=
          List.mem_filter.mpr ⟨hz, by simpa using h1⟩
        rw [this] at h2
        exact (List.mem_filter.mp h2).1
    refine ⟨_, D2, ?_, ?_, ?_, .of_core hnext hcore, hlab⟩
    · have h1 : ((t.without rest).graft toc items).pre.length ≤
          ((t.without rest).pre ++ preL items).length :=
        (D2.nodup.subperm (fun z hz => List.mem_append.mpr (hmem z hz))).length_le
      have h2 : (t.without rest).pre.length ≤ t.pre.length := by
        rw [hpre]; exact List.length_filter_le _ _
      have h3 := hitems.size
      have h4 := outerSections_size s.heap (t.without rest)
      rw [List.length_append] at h1
      simp only [length_pre, length_preL] at h1 h2
      omega
    · rw [pre_graft_filter (fun z hz => by simpa using (hnew z hz).1), hpre, List.filter_filter]
      refine List.filter_congr ?_
      intro z hz
      by_cases hzr : z ∈ rest <;> simp [D.bound z hz, hzr]
    · intro z hz
      rcases hmem z hz with h1 | h1
      · left
        rw [hpre] at h1
        exact (List.mem_filter.mp h1).1
      · exact .inr (hnew z h1)

theorem laterContents_congr {h h' : Heap} {t t' : Tree}
    (hf : t'.pre.filter (fun r => (h'.get r).cls = .Contents) =
      t.pre.filter (fun r => (h.get r).cls = .Contents)) : laterContents h' t' = laterContents h t := by
  unfold laterContents
  rw [hf]

theorem wrapped_contents {h h1 h2 : Heap} {root : Ref} {t t1 : Tree} (D : Doc h root t)
    (W1 : Wrapped h h1 t t1) (hcls : ∀ z ∈ t.pre, (h1.get z).cls = (h.get z).cls)
    (hcls2 : ∀ z ∈ t1.pre, (h2.get z).cls = (h1.get z).cls) :
    t1.pre.filter (fun r => (h2.get r).cls = .Contents) =
      t.pre.filter (fun r => (h.get r).cls = .Contents) := by
  have hnewc : ∀ z ∈ t1.pre, z ∈ t.pre ∨ SubNew h h1 z := W1.pre.2
  have h1 : t1.pre.filter (· < h.next) = t.pre := by
    rw [W1.pre.1, List.filter_eq_self]
    intro z hz
    exact decide_eq_true (D.bound z hz)
  rw [← h1, List.filter_filter]
  refine List.filter_congr ?_
  intro z hz
  rw [hcls2 z hz]
  rcases hnewc z hz with h2 | h2
  · rw [hcls z h2]
    simp [D.bound z h2]
  · have := h2.next_le
    have h3 : ¬ z < h.next := by omega
    rcases h2.cls with h4 | h4 <;> simp [h4, h3]

theorem TocInput.wrapped {h h1 h2 : Heap} {root : Ref} {t t1 : Tree} (hi : TocInput h t)
    (D : Doc h root t) (W1 : Wrapped h h1 t t1) (hcls : ∀ z ∈ t.pre, (h1.get z).cls = (h.get z).cls)
    (hcls2 : ∀ z ∈ t1.pre, (h2.get z).cls = (h1.get z).cls) : TocInput h2 t1 := by
  have hcont := wrapped_contents D W1 hcls hcls2
  rintro ⟨r, hr, hc⟩
  have : r ∈ t1.pre.filter (fun r => (h2.get r).cls = .Contents) :=
    List.mem_filter.mpr ⟨hr, by simpa using hc⟩
  rw [hcont] at this
  obtain ⟨h1, h2⟩ := List.mem_filter.mp this
  obtain ⟨W, E⟩ := hi ⟨r, h1, by simpa using h2⟩
  have W' := W.wrapped W1 hcls
  have E' := E.wrapped W1 hcls
  refine ⟨⟨?_, ?_, ?_, ?_⟩, ?_⟩
  · rw [hcls2 _ (root_mem_pre t1)]; exact W'.root
  · intro i ks hm k hk
    rw [hcls2 _ (node_mem_pre hm), hcls2 _ (kid_mem_pre hm hk)]
    exact W'.subsection i ks hm k hk
  · intro i ks hm k hk
    rw [hcls2 _ (node_mem_pre hm), hcls2 _ (kid_mem_pre hm hk)]
    exact W'.subsubsection i ks hm k hk
  · intro i ks hm hs j hj
    rw [hcls2 j (mem_pre_of_subtree hm (by rw [pre_node]; exact List.mem_cons_of_mem _ hj))]
    refine W'.inner i ks hm ?_ j hj
    unfold IsSec at hs ⊢
    rwa [hcls2 _ (node_mem_pre hm)] at hs
  · intro i ks hm
    rw [hcls2 _ (node_mem_pre hm)]
    exact E' i ks hm

theorem after_ok {s s' : TState} {root t fuel} (D : Doc s.heap root t)
    (ha : StepKidsAllowed s.heap t) (hi : TocInput s.heap t) (hf : 12 * t.size < fuel)
    (hok : afterResolve fuel root s = .ok () s') :
    ∃ t', Doc s'.heap root t' ∧
      t'.pre.filter (· < s.heap.next) = t.pre.filter (· ∉ laterContents s.heap t) ∧
      (∀ z ∈ t'.pre, z ∈ t.pre ∨ s.heap.next ≤ z ∧ Created s'.heap z) ∧
      Keeps s.heap s'.heap ∧ s'.labels = s.labels := by
  have hpos := size_pos t
  unfold afterResolve at hok
  obtain ⟨⟨⟩, s1, e1, hok⟩ := bind_ok hok
  obtain ⟨⟨⟩, s2, e2, hok⟩ := bind_ok hok
  obtain ⟨⟨⟩, s3, e3, hok⟩ := bind_ok hok
  obtain ⟨⟨⟩, s4, e4, hok⟩ := bind_ok hok
  obtain ⟨⟨⟩, s5, e5, e6⟩ := bind_ok hok
  obtain ⟨t1, D1, W1, z1, K1, l1⟩ := subproofs_ok D ha (by omega) e1
  obtain ⟨D2, K2, n2, l2⟩ := autonumber_ok D1 (by omega) e2
  have K12 := K1.trans K2
  have hcls : ∀ z ∈ t.pre, (s1.heap.get z).cls = (s.heap.get z).cls := fun z hz => K1.cls (D.bound z hz)
  have hcls2 : ∀ z ∈ t1.pre, (s2.heap.get z).cls = (s1.heap.get z).cls :=
    fun z hz => K2.cls (D1.bound z hz)
  have hnewc : ∀ z ∈ t1.pre, z ∈ t.pre ∨ SubNew s.heap s1.heap z := W1.pre.2
  have hcont := wrapped_contents (h2 := s2.heap) D W1 hcls hcls2
  have hi2 : TocInput s2.heap t1 := hi.wrapped D W1 hcls hcls2
  obtain ⟨t3, D3, z3, f3, m3, K3, l3⟩ := toc_ok D2 hi2 (by omega) e3
  obtain ⟨D4, K4, n4, l4⟩ := keywords_ok D3 (by omega) e4
  obtain ⟨D5, K5, n5, l5⟩ := handrail_ok D4 (by omega) e5
  obtain ⟨D6, K6, n6, l6⟩ := ids_ok D5 (by omega) e6
  have K46 := (K4.trans K5).trans K6
  refine ⟨t3, D6, ?_, ?_, (K12.trans K3).trans K46, by rw [l6, l5, l4, l3, l2, l1]⟩
  · have h0 : t3.pre.filter (· < s.heap.next) =
        (t3.pre.filter (· < s2.heap.next)).filter (· < s.heap.next) := by
      rw [List.filter_filter]
      refine List.filter_congr ?_
      intro z _
      have := K12.next
      by_cases hz : z < s.heap.next
      · have : z < s2.heap.next := by omega
        simp [hz, this]
      · simp [hz]
    rw [h0, f3, List.filter_filter, laterContents_congr hcont]
    have h1 : t1.pre.filter (· < s.heap.next) = t.pre := by
      rw [W1.pre.1, List.filter_eq_self]
      intro z hz
      exact decide_eq_true (D.bound z hz)
    conv_rhs => rw [← h1, List.filter_filter]
    refine List.filter_congr ?_
    intro z _
    rw [Bool.and_comm]
  · intro z hz
    rcases m3 z hz with h1 | ⟨h1, h2⟩
    · rcases hnewc z h1 with h2 | h2
      · exact .inl h2
      · refine .inr ⟨h2.next_le, ?_⟩
        have h3 : Created s1.heap z := ⟨by
          rcases h2.cls with h3 | h3 <;> rw [h3] <;> decide, h2.label⟩
        have hz1 := D1.bound z h1
        exact ((h3.keeps K2 hz1).keeps K3 (by rw [n2]; exact hz1)).keeps K46 (D3.bound z hz)
    · exact .inr ⟨K12.next.trans h1, h2.keeps K46 (D3.bound z hz)⟩

/-! ### The first two passes -/

theorem filter_map_fix {σ : Ref → Ref} {l : List Ref} {p q : Ref → Bool}
    (h1 : ∀ x ∈ l, q x = true → σ x = x) (h2 : ∀ x ∈ l, p (σ x) = q x) :
    (l.map σ).filter p = l.filter q := by
  induction l with
  | nil => rfl
  | cons x l ih =>
    have ih := ih (fun x hx => h1 x (by simp [hx])) (fun x hx => h2 x (by simp [hx]))
    rw [List.map_cons, List.filter_cons, List.filter_cons, h2 x (by simp), ih]
    split
    · rename_i hq; rw [h1 x (by simp) hq]
    · rfl

theorem natStr_inj {a b : Nat} (h : natStr a = natStr b) : a = b := by
  unfold natStr at h
  have := congrArg (fun l => Nat.ofDigitChars 10 l 0) h
  simpa using this

theorem citeLabel_inj {a b : Nat} (h : citeLabel a = citeLabel b) : a = b := by
  unfold citeLabel at h
  exact natStr_inj (List.append_cancel_left h)

theorem length_citations (h : Heap) (l : List Ref) :
    (citations h l).length = (l.filter fun x => (h.get x).cls = .PendingCite).length := by
  unfold citations
  rfl

theorem resolve_ok {h : Heap} {root t fuel log} {s1 : TState} (R : ResolveInput h root t)
    (hf : t.size < fuel)
    (hok : collectAndResolve fuel root { heap := h, log := log } = .ok () s1) :
    ∃ σ, Doc s1.heap root (t.map σ) ∧ MapCls h s1.heap t σ ∧ h.next ≤ s1.heap.next ∧
      (∀ x < h.next, (s1.heap.get x).authored = (h.get x).authored) ∧
      (t.map σ).pre.filter (· < h.next) = t.pre.filter (fun x => ¬ Pending h x) ∧
      (∀ z ∈ (t.map σ).pre, z ∈ t.pre ∨ h.next ≤ z ∧ (s1.heap.get z).cls ∈ createdClasses) ∧
      ((∀ x ∈ t.pre, ¬ CiteForm (h.get x).label) → UniqueLabels s1.heap (t.map σ)) ∧
      (t.map σ).pre.filter (fun r => (s1.heap.get r).cls = .Contents) =
        t.pre.filter (fun r => (h.get r).cls = .Contents) := by
  obtain ⟨s, σ, k, C, I, D⟩ := resolved R hf hok
  have hn : s.heap.next = h.next := C.relabel.1
  have hP : ∀ x, Pending s.heap x ↔ Pending h x := C.relabel.pending
  have hfix : ∀ x, ¬ Pending h x → σ x = x := fun x hp => I.fix x (fun H => hp ((hP x).mp H.2))
  have hfresh : ∀ x ∈ t.pre, Pending h x → h.next ≤ σ x := fun x hx hp => by
    rw [← hn]; exact (I.fresh x hx ((hP x).mpr hp)).1
  have M : MapCls h s1.heap t σ := by
    refine ⟨?_, ?_⟩
    · intro x hx hp
      rw [hfix x hp]
      exact (I.cls_old (by rw [hn]; exact R.doc.bound x hx)).trans (C.relabel.cls x)
    · intro x hx hp
      exact I.cls_new hx ((hP x).mpr hp)
  refine ⟨σ, D, M, by rw [← hn]; exact I.next, ?_, ?_, ?_, ?_, ?_⟩
  · intro x hx
    have h1 := I.old x (by rw [hn]; exact hx)
    simp only at h1
    rw [h1, C.relabel.2 x]
    rfl
  · rw [pre_map]
    refine filter_map_fix (fun x _ hq => hfix x (by simpa using hq)) ?_
    intro x hx
    by_cases hp : Pending h x
    · have := hfresh x hx hp
      simp [hp, this]
    · simp [hp, hfix x hp, R.doc.bound x hx]
  · intro z hz
    rw [pre_map] at hz
    obtain ⟨x, hx, rfl⟩ := List.mem_map.mp hz
    by_cases hp : Pending h x
    · refine .inr ⟨hfresh x hx hp, ?_⟩
      rcases M.new x hx hp with e | e | e <;> rw [e] <;> decide
    · exact .inl (by rw [hfix x hp]; exact hx)
  · intro hcite
    -- the label of each node of the result
    have hlab : ∀ pre x post, t.pre = pre ++ x :: post → (s1.heap.get (σ x)).label =
        if Pending h x then
          if (h.get x).cls = .PendingCite then citeLabel (citations s.heap pre).length else []
        else (s.heap.get x).label := by
      intro pre x post e
      have hx : x ∈ t.pre := by rw [e]; simp
      split
      · rename_i hp
        have hr := I.desc pre x post e ((hP x).mpr hp)
        unfold ReplacementOf at hr
        rw [C.relabel.cls] at hr
        rcases hp with hp | hp | hp
        · simp only [hp] at hr
          rw [hp, if_neg (by decide)]
          split at hr <;> exact (congrArg NodeRec.label hr :)
        · simp only [hp] at hr
          obtain ⟨ts, hr, -⟩ := hr
          rw [if_pos hp]
          exact (congrArg NodeRec.label hr :)
        · simp only [hp] at hr
          obtain ⟨q, -, hr⟩ := hr
          rw [hp, if_neg (by decide)]
          exact (congrArg NodeRec.label hr :)
      · rename_i hp
        rw [hfix x hp]
        have h1 := I.old x (by rw [hn]; exact R.doc.bound x hx)
        simp only at h1
        rw [h1]
    have hauthor : ∀ x ∈ t.pre, ¬ CiteForm (s.heap.get x).label := by
      intro x hx
      by_cases hfc : FirstCarrier h t x
      · rw [C.keep x (.inr hfc)]; exact hcite x hx
      · rw [C.drop x hx hfc]
        rintro ⟨n, e⟩
        simp at e
    -- citations are counted, so later ones have a larger count
    have hlt : ∀ pre x mid y post, t.pre = pre ++ x :: (mid ++ y :: post) →
        (h.get x).cls = .PendingCite →
        (citations s.heap pre).length < (citations s.heap (pre ++ x :: mid)).length := by
      intro pre x mid y post _ hx
      rw [length_citations, length_citations, List.filter_append, List.filter_cons_of_pos]
      · simp
      · rw [C.relabel.cls]; simpa using hx
    have main : ∀ pre x mid y post, t.pre = pre ++ x :: (mid ++ y :: post) →
        (s1.heap.get (σ x)).label = (s1.heap.get (σ y)).label →
        (s1.heap.get (σ x)).label ≠ [] → False := by
      intro pre x mid y post e hxy hne
      have hx : x ∈ t.pre := by rw [e]; simp
      have hy : y ∈ t.pre := by rw [e]; simp
      have lx := hlab pre x _ e
      have ly := hlab (pre ++ x :: mid) y post (by rw [e]; simp)
      by_cases px : Pending h x
      · rw [if_pos px] at lx
        by_cases cx : (h.get x).cls = .PendingCite
        · rw [if_pos cx] at lx
          by_cases py : Pending h y
          · rw [if_pos py] at ly
            by_cases cy : (h.get y).cls = .PendingCite
            · rw [if_pos cy] at ly
              have h1 := hlt pre x mid y post e cx
              rw [lx, ly] at hxy
              have := citeLabel_inj hxy
              omega
            · rw [if_neg cy] at ly
              exact hne (hxy.trans ly)
          · rw [if_neg py] at ly
            exact hauthor y hy ⟨_, ly.symm.trans (hxy.symm.trans lx)⟩
        · rw [if_neg cx] at lx
          exact hne lx
      · rw [if_neg px] at lx
        by_cases py : Pending h y
        · rw [if_pos py] at ly
          by_cases cy : (h.get y).cls = .PendingCite
          · rw [if_pos cy] at ly
            exact hauthor x hx ⟨_, lx.symm.trans (hxy.trans ly)⟩
          · rw [if_neg cy] at ly
            exact hne (hxy.trans ly)
        · rw [if_neg py] at ly
          have := C.unique x hx y hy (by rw [← lx, ← ly]; exact hxy) (by rw [← lx]; exact hne)
          have hnd := R.doc.nodup
          rw [e] at hnd
          subst this
          have := (List.nodup_append.mp hnd).2.1
          simp at this
    intro a ha b hb hab hne
    rw [pre_map] at ha hb
    obtain ⟨x, hx, rfl⟩ := List.mem_map.mp ha
    obtain ⟨y, hy, rfl⟩ := List.mem_map.mp hb
    by_cases hxy : x = y
    · rw [hxy]
    exfalso
    obtain ⟨pre, post, e⟩ := List.append_of_mem hx
    rw [e] at hy
    rcases List.mem_append.mp hy with hy | hy
    · obtain ⟨p1, p2, e2⟩ := List.append_of_mem hy
      exact main p1 y p2 x post (by rw [e, e2]; simp) hab.symm (by rw [← hab]; exact hne)
    · rcases List.mem_cons.mp hy with hy | hy
      · exact hxy hy.symm
      · obtain ⟨p1, p2, e2⟩ := List.append_of_mem hy
        exact main pre x p1 y p2 (by rw [e, e2]) hab hne
  · rw [pre_map]
    refine filter_map_fix ?_ ?_
    · intro x _ hq
      refine hfix x ?_
      have : (h.get x).cls = .Contents := by simpa using hq
      unfold Pending
      rw [this]
      decide
    · intro x hx
      by_cases hp : Pending h x
      · have h1 : (h.get x).cls ≠ .Contents := by
          rcases hp with e | e | e <;> rw [e] <;> decide
        have h2 : (s1.heap.get (σ x)).cls ≠ .Contents := by
          rcases M.new x hx hp with e | e | e <;> rw [e] <;> decide
        simp [h1, h2]
      · rw [M.same x hx hp]

end RSM
