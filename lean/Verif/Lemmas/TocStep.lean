import Verif.Lemmas.Graft

/-! Helper lemmas for `make_toc`: one round of the second loop. -/

namespace RSM
open PyM Tree Transformer

/-! ### Full numbers depend on the ancestors only -/

theorem Ancestors.congr {h h' : Heap} {P : Ref → Prop}
    (hcl : ∀ z, P z → ∀ p, h.parent z = some p → P p)
    (hp : ∀ z, P z → h'.parent z = h.parent z) {r : Ref} {l : List Ref} (hr : P r)
    (ha : Ancestors h r l) : Ancestors h' r l ∧ ∀ a ∈ l, P a := by
  induction l generalizing r with
  | nil => exact ⟨by rw [Ancestors, hp r hr]; exact ha, by simp⟩
  | cons p l ih =>
    obtain ⟨h1, h2⟩ := ha
    have hP := hcl r hr p h1
    obtain ⟨h3, h4⟩ := ih hP h2
    refine ⟨⟨by rw [hp r hr]; exact h1, h3⟩, ?_⟩
    intro a ha
    rcases List.mem_cons.mp ha with rfl | ha
    · exact hP
    · exact h4 a ha

theorem FullNumber.congr {h h' : Heap} {P : Ref → Prop}
    (hcl : ∀ z, P z → ∀ p, h.parent z = some p → P p)
    (hp : ∀ z, P z → h'.parent z = h.parent z)
    (hc : ∀ z, P z → (h'.get z).core = (h.get z).core) {r : Ref} {o : Option Str} (hr : P r)
    (hf : FullNumber h r o) : FullNumber h' r o := by
  have hcls : ∀ z, P z → (h'.get z).cls = (h.get z).cls := fun z hz => cls_of_core (hc z hz)
  have hnum : ∀ z, P z → (h'.get z).number = (h.get z).number := fun z hz => by
    have := congrArg NodeRec.number (hc z hz); exact this
  have hnon : ∀ z, P z → (h'.get z).nonum = (h.get z).nonum := fun z hz => by
    have := congrArg NodeRec.nonum (hc z hz); exact this
  have hfirst : ∀ {Q Q' : Ref → Prop} {l : List Ref} {s : Ref}, (∀ a ∈ l, (Q a ↔ Q' a)) →
      IsFirstWith Q l (some s) → IsFirstWith Q' l (some s) := by
    rintro Q Q' l s hq ⟨h1, b, a, rfl, h2⟩
    exact ⟨(hq s (by simp)).mp h1, b, a, rfl, fun x hx h3 => h2 x hx ((hq x (by simp [hx])).mpr h3)⟩
  have hscope : ∀ {r l s}, P r → (∀ a ∈ l, P a) →
      (IsFirstWith (fun a => (h.get a).cls ∈ (h.get r).cls.numberWithin) l (some s) ∨
        (∀ a ∈ l, (h.get a).cls ∉ (h.get r).cls.numberWithin) ∧
          IsFirstWith (fun a => (h.get a).cls = .Manuscript) l (some s)) →
      (IsFirstWith (fun a => (h'.get a).cls ∈ (h'.get r).cls.numberWithin) l (some s) ∨
        (∀ a ∈ l, (h'.get a).cls ∉ (h'.get r).cls.numberWithin) ∧
          IsFirstWith (fun a => (h'.get a).cls = .Manuscript) l (some s)) ∧ s ∈ l := by
    intro r l s hr hl hs
    have hm : ∀ {Q : Ref → Prop}, IsFirstWith Q l (some s) → s ∈ l := by
      rintro Q ⟨-, b, a, rfl, -⟩; simp
    rcases hs with hs | ⟨h1, hs⟩
    · refine ⟨.inl (hfirst ?_ hs), hm hs⟩
      intro a ha; rw [hcls a (hl a ha), hcls r hr]
    · refine ⟨.inr ⟨?_, hfirst ?_ hs⟩, hm hs⟩
      · intro a ha; rw [hcls a (hl a ha), hcls r hr]; exact h1 a ha
      · intro a ha; rw [hcls a (hl a ha)]
  induction hf with
  | manuscript h1 => exact .manuscript (by rw [hcls _ hr]; exact h1)
  | nonum h1 h2 => exact .nonum (by rw [hcls _ hr]; exact h1) (by rw [hnon _ hr]; exact h2)
  | inScope h1 h2 h3 h4 h5 h6 ih =>
    obtain ⟨g1, g2⟩ := Ancestors.congr hcl hp hr h3
    obtain ⟨g3, g4⟩ := hscope hr g2 h4
    rw [← hnum _ hr]
    exact .inScope (by rw [hcls _ hr]; exact h1) (by rw [hnon _ hr]; exact h2) g1 g3
      (ih (g2 _ g4)) h6
  | unnumberedScope h1 h2 h3 h4 h5 h6 ih =>
    obtain ⟨g1, g2⟩ := Ancestors.congr hcl hp hr h3
    obtain ⟨g3, g4⟩ := hscope hr g2 h4
    rw [← hnum _ hr]
    exact .unnumberedScope (by rw [hcls _ hr]; exact h1) (by rw [hnon _ hr]; exact h2) g1 g3
      (ih (g2 _ g4)) h6
  | noScope h1 h2 h3 h4 =>
    obtain ⟨g1, g2⟩ := Ancestors.congr hcl hp hr h3
    rw [← hnum _ hr]
    refine .noScope (by rw [hcls _ hr]; exact h1) (by rw [hnon _ hr]; exact h2) g1 ?_
    intro a ha
    rw [hcls a (g2 a ha), hcls _ hr]
    exact h4 a ha

theorem Doc.parent_closed {h : Heap} {root t} (D : Doc h root t) :
    ∀ z, z ∈ t.pre → ∀ p, h.parent z = some p → p ∈ t.pre := fun z hz p hp => by
  obtain ⟨l, h1, -, h3⟩ := D.ancestors hz
  cases l with
  | nil => rw [Ancestors, hp] at h1; cases h1
  | cons q l =>
    have := h1.1
    rw [hp] at this
    injection this with this
    subst this
    exact h3 _ (by simp)

theorem TocText.congr {h h' : Heap} {root : Ref} {t : Tree} (D : Doc h root t)
    (hp : ∀ z ∈ t.pre, h'.parent z = h.parent z)
    (hc : ∀ z ∈ t.pre, (h'.get z).core = (h.get z).core) {r : Ref} {o : Str} (hr : r ∈ t.pre)
    (hf : TocText h r o) : TocText h' r o := by
  have hnon : (h'.get r).nonum = (h.get r).nonum := by
    have := congrArg NodeRec.nonum (hc r hr); exact this
  have htit : (h'.get r).title = (h.get r).title := by
    have := congrArg NodeRec.title (hc r hr); exact this
  unfold TocText at *
  rw [hnon, htit]
  split
  · rename_i hn; rw [if_pos hn] at hf; exact hf
  · rename_i hn
    rw [if_neg hn] at hf
    obtain ⟨full, h1, h2⟩ := hf
    exact ⟨full, h1.congr (P := fun z => z ∈ t.pre) D.parent_closed hp hc hr, h2⟩

theorem tocText_spec {h : Heap} {root t} (D : Doc h root t) {r} (hr : r ∈ t.pre) {fuel}
    (hf : t.size ≤ fuel) :
    ∃ txt, tocText fuel h r = some txt ∧ TocText h r txt := by
  unfold tocText TocText
  by_cases hn : (h.get r).nonum
  · rw [if_pos hn]; exact ⟨_, rfl, by rw [if_pos hn]⟩
  · rw [if_neg hn]
    obtain ⟨l, h1, h2, -⟩ := D.ancestors hr
    obtain ⟨o, h3, h4⟩ := fullNumber_spec h1 (Nat.lt_of_lt_of_le h2 hf)
    rw [h3]
    simp only
    have : ∃ full, o = some full := by
      cases h4 with
      | manuscript => exact ⟨_, rfl⟩
      | nonum _ h6 => exact absurd h6 hn
      | inScope => exact ⟨_, rfl⟩
      | unnumberedScope => exact ⟨_, rfl⟩
      | noScope => exact ⟨_, rfl⟩
    obtain ⟨full, rfl⟩ := this
    refine ⟨_, rfl, ?_⟩
    rw [if_neg hn]
    exact ⟨full, h4, rfl⟩

/-! ### Growing heaps -/

/-- New nodes were made, the old ones were left alone. -/
structure Grow (h h' : Heap) : Prop where
  next : h.next ≤ h'.next
  core : ∀ z < h.next, (h'.get z).core = (h.get z).core
  children : ∀ z < h.next, h'.children z = h.children z
  parent : ∀ z < h.next, h'.parent z = h.parent z

theorem Grow.alloc (h : Heap) (n : NodeRec) : Grow h (h.alloc n).2 :=
  ⟨(Ext.alloc h n).next, fun z hz => by rw [(Ext.alloc h n).get z hz],
    fun _ hz => (Ext.alloc h n).children hz, fun _ hz => (Ext.alloc h n).parent hz⟩

theorem Grow.trans {a b c : Heap} (g1 : Grow a b) (g2 : Grow b c) : Grow a c :=
  ⟨Nat.le_trans g1.next g2.next,
    fun z hz => by rw [g2.core z (Nat.lt_of_lt_of_le hz g1.next), g1.core z hz],
    fun z hz => by rw [g2.children z (Nat.lt_of_lt_of_le hz g1.next), g1.children z hz],
    fun z hz => by rw [g2.parent z (Nat.lt_of_lt_of_le hz g1.next), g1.parent z hz]⟩

theorem Doc.grow {h h' : Heap} {root t} (D : Doc h root t) (G : Grow h h') : Doc h' root t :=
  ⟨D.root_eq, D.tree.congr (fun z hz => G.parent z (D.bound z hz))
    (fun z hz => G.children z (D.bound z hz)), D.nodup,
    fun z hz => Nat.lt_of_lt_of_le (D.bound z hz) G.next⟩

/-- A new item with a new reference in it. -/
theorem item_new (h : Heap) (rec : NodeRec) (hp : rec.parent = none) (hk : rec.kids = [])
    (hc : rec.cls = .Reference) :
    ∃ h', Nodes.append h.next (h.next + 1) ((h.alloc (NodeRec.new .Item)).2.alloc rec).2 = .ok () h' ∧
      h'.next = h.next + 2 ∧ Grow h h' ∧
      IsTree h' none (.node h.next [.node (h.next + 1) []]) ∧
      (h'.get h.next).core = NodeRec.new .Item ∧ (h'.get (h.next + 1)).core = rec := by
  have G := (Grow.alloc h (NodeRec.new .Item)).trans (Grow.alloc _ rec)
  have g0 : ((h.alloc (NodeRec.new .Item)).2.alloc rec).2.get h.next = NodeRec.new .Item := by
    simp [Heap.alloc]
  have g1 : ((h.alloc (NodeRec.new .Item)).2.alloc rec).2.get (h.next + 1) = rec := by
    simp [Heap.alloc]
  have n2 : ((h.alloc (NodeRec.new .Item)).2.alloc rec).2.next = h.next + 2 := rfl
  generalize ((h.alloc (NodeRec.new .Item)).2.alloc rec).2 = k at *
  obtain ⟨h', e⟩ := (C03_append_succeeds_iff k h.next (h.next + 1)).mpr
    ⟨by unfold HasChildList Heap.isInst; rw [g0]; decide, by unfold Heap.parent; rw [g1, hp],
      .inl (by rw [g1, hc]; decide)⟩
  obtain ⟨a1, a2, a3, a4, a5⟩ := C03_append k h' _ _ e
  have hpk : ∀ m : NodeRec, m.parent = none → m.kids = [] → m.core = m := by
    intro m h1 h2; cases m; simp only at h1 h2; subst h1; subst h2; rfl
  refine ⟨h', e, by rw [a5.1, n2], ⟨?_, ?_, ?_, ?_⟩, ?_, ?_, ?_⟩
  · rw [a5.1, n2]; omega
  · intro z hz; rw [a5.core, G.core z hz]
  · intro z hz; rw [a3 z (by omega), G.children z hz]
  · intro z hz; rw [a4 z (by omega), G.parent z hz]
  · rw [isTree_node]
    refine ⟨?_, ?_, ?_⟩
    · rw [a4 _ (by omega)]; unfold Heap.parent; rw [g0]; rfl
    · rw [a1]
      have : k.children h.next = [] := by unfold Heap.children; rw [g0]; simp [NodeRec.new]
      rw [this]; rfl
    · intro t ht
      simp only [List.mem_singleton] at ht
      subst ht
      rw [isTree_node]
      refine ⟨a2, ?_, by simp⟩
      rw [a3 _ (by omega)]
      unfold Heap.children; rw [g1, hk]; simp
  · rw [a5.core, g0]; rfl
  · rw [a5.core, g1, hpk rec hp hk]

/-! ### The invariant of the second loop -/

/-- The heap during the second loop: the document `t1` with the entries `items` below `toc`. -/
structure TocInv (h1 : Heap) (root : Ref) (t1 : Tree) (toc : Ref) (h : Heap) (items : List Tree) :
    Prop where
  next : h1.next ≤ h.next
  core : ∀ z < h1.next, (h.get z).core = (h1.get z).core
  parent : ∀ z < h1.next, h.parent z = h1.parent z
  doc : Doc h root (t1.graft toc items)
  fresh : ∀ z ∈ preL items, h1.next ≤ z
  nosec : ∀ z ∈ preL items, ¬ IsSec h z
  other : ∀ z < h1.next, z ∉ t1.pre → h.children z = h1.children z

/-- Nodes made and appended, the old ones left where they are. -/
structure TocExt (h h' : Heap) : Prop where
  next : h.next ≤ h'.next
  core : ∀ z < h.next, (h'.get z).core = (h.get z).core
  parent : ∀ z < h.next, h'.parent z = h.parent z

theorem TocExt.refl (h : Heap) : TocExt h h := ⟨Nat.le_refl _, fun _ _ => rfl, fun _ _ => rfl⟩

theorem TocExt.trans {a b c : Heap} (g1 : TocExt a b) (g2 : TocExt b c) : TocExt a c :=
  ⟨Nat.le_trans g1.next g2.next,
    fun z hz => by rw [g2.core z (Nat.lt_of_lt_of_le hz g1.next), g1.core z hz],
    fun z hz => by rw [g2.parent z (Nat.lt_of_lt_of_le hz g1.next), g1.parent z hz]⟩

/-- Where an entry is put. -/
def addAt (toc c : Ref) (items : List Tree) (it : Tree) : List Tree :=
  if c = toc then items ++ [it] else graftL c [it] items

theorem isSec_of_core {h h' : Heap} {z : Ref} (hc : (h'.get z).core = (h.get z).core) :
    IsSec h' z ↔ IsSec h z := by
  unfold IsSec; rw [cls_of_core hc]

/-- Append a new detached tree to `toc` or to a node below it. -/
theorem TocInv.attach {h1 : Heap} {root toc : Ref} {t1 : Tree} {h hC : Heap} {items : List Tree}
    (I : TocInv h1 root t1 toc h items) (h1b : ∀ z ∈ t1.pre, z < h1.next) (htoc : toc ∈ t1.pre)
    (h1n : t1.pre.Nodup)
    (G : Grow h hC) {c : Ref} (hc : c = toc ∨ c ∈ preL items) {it : Tree}
    (hit : IsTree hC none it) (hnd : it.pre.Nodup)
    (hrange : ∀ z ∈ it.pre, h.next ≤ z ∧ z < hC.next) (hns : ∀ z ∈ it.pre, ¬ IsSec hC z)
    (hlist : HasChildList hC c) (hmay : MayHaveParent hC it.root c) :
    ∃ h', Nodes.append c it.root hC = .ok () h' ∧ h'.next = hC.next ∧
      TocInv h1 root t1 toc h' (addAt toc c items it) ∧ TocExt h h' ∧
      (∀ z, (h'.get z).core = (hC.get z).core) ∧ h'.parent it.root = some c ∧
      (∀ z, z ≠ it.root → h'.parent z = hC.parent z) := by
  obtain ⟨h', e⟩ := (C03_append_succeeds_iff hC c it.root).mpr ⟨hlist, hit.parent_root, hmay⟩
  obtain ⟨a1, a2, a3, a4, a5⟩ := C03_append hC h' _ _ e
  have htocf : toc ∉ preL items := fun hm => by
    have := I.fresh _ hm; have := h1b _ htoc; omega
  have hperm := pre_graft_perm (xs := items) h1n htoc
  have hT : ∀ z ∈ (t1.graft toc items).pre, z < h.next := I.doc.bound
  have hdis : ∀ z ∈ it.pre, z ∉ (t1.graft toc items).pre := fun z hz hz' => by
    have := hT z hz'; have := hrange z hz; omega
  have hcT : c ∈ (t1.graft toc items).pre := by
    rw [hperm.mem_iff, List.mem_append]
    rcases hc with rfl | hc
    · exact .inl htoc
    · exact .inr hc
  have hclt : c < h.next := hT c hcT
  have hrootlt : ∀ z < h.next, z ≠ it.root := fun z hz => by
    have := hrange _ (root_mem_pre it); omega
  have D := Doc.graft (I.doc.grow G) hcT hit hdis hnd (fun z hz => (hrange z hz).2) e
  have hext : TocExt h h' := by
    refine ⟨by rw [a5.1]; exact G.next, ?_, ?_⟩
    · intro z hz; rw [a5.core, G.core z hz]
    · intro z hz; rw [a4 z (hrootlt z hz), G.parent z hz]
  have hTeq : (t1.graft toc items).graft c [it] = t1.graft toc (addAt toc c items it) := by
    unfold addAt
    by_cases hct : c = toc
    · subst hct
      rw [if_pos rfl, graft_graft_same htocf]
    · rw [if_neg hct]
      apply graft_graft_inner
      rcases hc with h | h
      · exact absurd h hct
      · intro hm
        have := I.fresh _ h; have := h1b _ hm; omega
  have hmem : ∀ z ∈ preL (addAt toc c items it), z ∈ preL items ∨ z ∈ it.pre := by
    intro z hz
    have h2 : (preL (addAt toc c items it)).Perm (preL items ++ it.pre) := by
      unfold addAt
      by_cases hct : c = toc
      · rw [if_pos hct]; simp
      · rw [if_neg hct]
        have hci : c ∈ preL items := by
          rcases hc with h | h
          · exact absurd h hct
          · exact h
        have hndi : (preL items).Nodup := by
          have := (hperm.nodup_iff).mp I.doc.nodup
          exact (List.nodup_append.mp this).2.1
        -- use the lemma for one tree
        have hx : c ∈ (Tree.node toc items).pre := by simp [hci]
        have hy : (Tree.node toc items).pre.Nodup := by
          rw [pre_node, List.nodup_cons]; exact ⟨htocf, hndi⟩
        have := pre_graft_perm (xs := [it]) hy hx
        rw [graft_node, if_neg (fun e => hct e.symm), List.append_nil, ← graftL_eq, pre_node,
          pre_node, List.cons_append] at this
        simpa using this.cons_inv
    exact List.mem_append.mp (h2.mem_iff.mp hz)
  have hnl := I.next
  have hgl := G.next
  refine ⟨h', e, a5.1, ⟨?_, ?_, ?_, ?_, ?_, ?_, ?_⟩, hext, fun z => a5.core z, a2, a4⟩
  · have := hext.next; omega
  · intro z hz; rw [hext.core z (by omega), I.core z hz]
  · intro z hz; rw [hext.parent z (by omega), I.parent z hz]
  · rw [← hTeq]; exact D
  · intro z hz
    rcases hmem z hz with h | h
    · exact I.fresh z h
    · have := (hrange z h).1; omega
  · intro z hz
    rcases hmem z hz with h2 | h2
    · rw [isSec_of_core (hext.core z (hT z (by rw [hperm.mem_iff]; simp [h2])))]
      exact I.nosec z h2
    · rw [isSec_of_core (a5.core z)]; exact hns z h2
  · intro z hz hzt
    rw [a3 z ?_, G.children z (by omega), I.other z hz hzt]
    rintro rfl
    rcases hc with rfl | h
    · exact hzt htoc
    · have := I.fresh _ h; omega

end RSM
