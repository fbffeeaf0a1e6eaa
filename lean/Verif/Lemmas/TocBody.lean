import Verif.Lemmas.TocStep
import Verif.Props.Reading

/-! Helper lemmas for `make_toc`: the body of the second loop, by class of section. -/

namespace RSM
open PyM Tree Transformer

/-- What stays fixed during the second loop. -/
structure TocFixed (h1 : Heap) (root : Ref) (t1 : Tree) (toc : Ref) (fuel : Nat) : Prop where
  doc : Doc h1 root t1
  mem : toc ∈ t1.pre
  contents : (h1.get toc).cls = .Contents
  fuel : t1.size ≤ fuel

/-- The state `s` with another heap. -/
def Transformer.TocState.withHeap (s : TocState) (h : Heap) : TocState := { s with t := { s.t with heap := h } }

@[simp] theorem Transformer.TocState.withHeap_heap (s : TocState) (h : Heap) : (s.withHeap h).t.heap = h := rfl
@[simp] theorem Transformer.TocState.withHeap_current (s : TocState) (h : Heap) : (s.withHeap h).current = s.current := rfl
@[simp] theorem Transformer.TocState.withHeap_withHeap (s : TocState) (h h' : Heap) :
    (s.withHeap h).withHeap h' = s.withHeap h' := rfl

theorem TocInv.text {h1 : Heap} {root toc : Ref} {t1 : Tree} {fuel : Nat}
    (F : TocFixed h1 root t1 toc fuel) {h : Heap} {items : List Tree}
    (I : TocInv h1 root t1 toc h items) {sec : Ref} (hs : sec ∈ t1.pre) :
    ∃ txt, tocText fuel (h.alloc (NodeRec.new .Item)).2 sec = some txt ∧ TocText h1 sec txt := by
  have hb := F.doc.bound
  have G := Grow.alloc h (NodeRec.new .Item)
  have hp : ∀ z ∈ t1.pre, (h.alloc (NodeRec.new .Item)).2.parent z = h1.parent z := fun z hz => by
    rw [G.parent z (Nat.lt_of_lt_of_le (hb z hz) I.next), I.parent z (hb z hz)]
  have hc : ∀ z ∈ t1.pre, ((h.alloc (NodeRec.new .Item)).2.get z).core = (h1.get z).core :=
    fun z hz => by
      rw [G.core z (Nat.lt_of_lt_of_le (hb z hz) I.next), I.core z (hb z hz)]
  -- compute in `h1` and carry over
  obtain ⟨txt, e1, e2⟩ := tocText_spec F.doc hs F.fuel
  refine ⟨txt, ?_, e2⟩
  have hnon : ((h.alloc (NodeRec.new .Item)).2.get sec).nonum = (h1.get sec).nonum := by
    have := congrArg NodeRec.nonum (hc sec hs); exact this
  have htit : ((h.alloc (NodeRec.new .Item)).2.get sec).title = (h1.get sec).title := by
    have := congrArg NodeRec.title (hc sec hs); exact this
  unfold tocText at e1 ⊢
  rw [hnon, htit]
  split
  · rename_i hn; rw [if_pos hn] at e1; exact e1
  · rename_i hn
    rw [if_neg hn] at e1
    obtain ⟨l, a1, a2, -⟩ := F.doc.ancestors hs
    obtain ⟨o, f1, f2⟩ := fullNumber_spec a1 (Nat.lt_of_lt_of_le a2 F.fuel)
    rw [f1] at e1
    have a1' := (Ancestors.congr (P := fun z => z ∈ t1.pre) F.doc.parent_closed hp hs a1).1
    have f2' := f2.congr (P := fun z => z ∈ t1.pre) F.doc.parent_closed hp hc hs
    rw [C12_full_number_complete _ _ _ a1' fuel (Nat.lt_of_lt_of_le a2 F.fuel) o f2']
    exact e1

/-- The entry that the body makes and where it goes. -/
structure Entry (h1 : Heap) (root : Ref) (t1 : Tree) (toc : Ref) (items : List Tree) (h h' : Heap)
    (sec c : Ref) : Prop where
  inv : TocInv h1 root t1 toc h' (addAt toc c items (.node h.next [.node (h.next + 1) []]))
  ext : TocExt h h'
  next : h'.next = h.next + 2
  item : (h'.get h.next).core = NodeRec.new .Item
  ref : TocRef h1 h' sec (h.next + 1)
  parent : h'.parent h.next = some c

theorem entry {h1 : Heap} {root toc : Ref} {t1 : Tree} {fuel : Nat}
    (F : TocFixed h1 root t1 toc fuel) {h : Heap} {items : List Tree}
    (I : TocInv h1 root t1 toc h items) {sec : Ref} (hs : sec ∈ t1.pre) {c : Ref}
    (hc : c = toc ∨ c ∈ preL items ∧ (h.get c).cls = .Itemize) :
    ∃ txt hC h', tocText fuel (h.alloc (NodeRec.new .Item)).2 sec = some txt ∧
      Nodes.append h.next (h.next + 1) ((h.alloc (NodeRec.new .Item)).2.alloc
        { NodeRec.new .Reference with target := .node sec, overwriteReftext := txt }).2 = .ok () hC ∧
      Nodes.append c h.next hC = .ok () h' ∧ Entry h1 root t1 toc items h h' sec c := by
  obtain ⟨txt, e1, e2⟩ := I.text F hs
  obtain ⟨hC, e3, g1, g2, g3, g4, g5⟩ := item_new h
    { NodeRec.new .Reference with target := .node sec, overwriteReftext := txt } rfl rfl rfl
  have hperm := pre_graft_perm (xs := items) F.doc.nodup F.mem
  have hclt : c < h.next := I.doc.bound c (by
    rw [hperm.mem_iff, List.mem_append]
    rcases hc with rfl | hc
    · exact .inl F.mem
    · exact .inr hc.1)
  have hccls : (hC.get c).cls = .Contents ∨ (hC.get c).cls = .Itemize := by
    rw [cls_of_core (g2.core c hclt)]
    rcases hc with rfl | hc
    · rw [cls_of_core (I.core c (F.doc.bound c F.mem))]; exact .inl F.contents
    · exact .inr hc.2
  obtain ⟨h', e4, n1, I', X, k1, k2, k3⟩ := I.attach F.doc.bound F.mem F.doc.nodup g2
    (hc.imp id And.left) (it := .node h.next [.node (h.next + 1) []]) g3 (by simp)
    (by
      intro z hz
      simp only [pre_node, preL_cons, preL_nil, List.append_nil, List.mem_cons, List.not_mem_nil,
        or_false] at hz
      omega)
    (by
      intro z hz
      simp only [pre_node, preL_cons, preL_nil, List.append_nil, List.mem_cons, List.not_mem_nil,
        or_false] at hz
      unfold IsSec
      rcases hz with rfl | rfl
      · rw [core_cls g4]; decide
      · rw [core_cls g5]; simp [NodeRec.new])
    (by
      unfold HasChildList Heap.isInst
      rcases hccls with h | h <;> rw [h] <;> decide)
    (by
      right
      rw [root_node, core_cls g4]
      rcases hccls with h | h <;> rw [h] <;> decide)
  refine ⟨txt, hC, h', e1, e3, e4, I', X, by rw [n1, g1], by rw [k1, g4], ?_, k2⟩
  refine ⟨by have := I.next; omega, by omega, txt, e2, ?_⟩
  exact (k1 _).trans g5

/-- The list that is opened below an entry. -/
theorem openList_spec {h1 : Heap} {root toc : Ref} {t1 : Tree} {fuel : Nat}
    (F : TocFixed h1 root t1 toc fuel) {h : Heap} {items : List Tree}
    (I : TocInv h1 root t1 toc h items) {x : Ref} (hx : x ∈ preL items)
    (hcx : (h.get x).cls = .Item) (s : TocState) (hs : s.t.heap = h) :
    ∃ h', openList x s = .ok () { s.withHeap h' with current := some h.next } ∧
      h'.next = h.next + 1 ∧ TocInv h1 root t1 toc h' (graftL x [.node h.next []] items) ∧
      TocExt h h' ∧ (h'.get h.next).core = NodeRec.new .Itemize ∧ h'.parent h.next = some x := by
  have G := Grow.alloc h (NodeRec.new .Itemize)
  have g0 : (h.alloc (NodeRec.new .Itemize)).2.get h.next = NodeRec.new .Itemize := by
    simp [Heap.alloc]
  have hperm := pre_graft_perm (xs := items) F.doc.nodup F.mem
  have hxlt : x < h.next := I.doc.bound x (by
    rw [hperm.mem_iff, List.mem_append]; exact .inr hx)
  have hxt : x ≠ toc := by
    rintro rfl
    have := I.fresh _ hx; have := F.doc.bound _ F.mem; omega
  obtain ⟨h', e4, n1, I', X, k1, k2, k3⟩ := I.attach F.doc.bound F.mem F.doc.nodup G
    (.inr hx) (it := .node h.next [])
    (by
      rw [isTree_node]
      refine ⟨by unfold Heap.parent; rw [g0]; rfl, ?_, by simp⟩
      unfold Heap.children; rw [g0]; simp [NodeRec.new])
    (by simp)
    (by
      intro z hz
      simp only [pre_node, preL_nil, List.mem_cons, List.not_mem_nil, or_false] at hz
      subst hz
      exact ⟨Nat.le_refl _, Nat.lt_succ_self _⟩)
    (by
      intro z hz
      simp only [pre_node, preL_nil, List.mem_cons, List.not_mem_nil, or_false] at hz
      subst hz
      unfold IsSec
      rw [g0]; decide)
    (by
      unfold HasChildList Heap.isInst
      rw [cls_of_core (G.core x hxlt), hcx]; decide)
    (by
      left
      rw [root_node, g0]; decide)
  refine ⟨h', ?_, by rw [n1]; rfl, ?_, X, by rw [k1, g0]; rfl, k2⟩
  · unfold openList tocHeap zoom
    subst hs
    simp only [bind_apply]
    have : Nodes.new (NodeRec.new .Itemize) s.t.heap =
        .ok s.t.heap.next (s.t.heap.alloc (NodeRec.new .Itemize)).2 := rfl
    simp only [this]
    simp only [root_node] at e4
    simp only [e4, modify_apply]
    rfl
  · unfold addAt at I'
    rwa [if_neg hxt] at I'

/-- `current_parent = current_parent.parent.parent`. -/
theorem climb_spec {s : TocState} {l y : Ref} (hc : s.current = some l)
    (h1 : s.t.heap.parent l = some y) :
    climb s = .ok () { s with current := s.t.heap.parent y } := by
  unfold climb parentOf
  simp only [bind_apply, get_apply, hc, pure_apply, h1, modify_apply]

theorem isLastInParent_spec {s : TocState} {sec p : Ref} {c : Cls} (hp : s.t.heap.parent sec = some p) :
    isLastInParent sec c s = .ok ((s.t.heap.lastOfType p [c]).map (·.1) == some sec) s := by
  unfold isLastInParent parentOf
  simp only [bind_apply, get_apply, pure_apply, hp]

theorem appendCurrent_spec {s : TocState} {c item : Ref} {h' : Heap} (hc : s.current = some c)
    (he : Nodes.append c item s.t.heap = .ok () h') :
    appendCurrent item s = .ok () (s.withHeap h') := by
  unfold appendCurrent tocHeap zoom
  simp only [bind_apply, get_apply, hc, he]
  rw [← hc]
  rfl

/-- The beginning of the body. -/
theorem tocBody_begin {fuel : Nat} {toc sec : Ref} {s : TocState} {txt : Str} {hC : Heap}
    (h1 : tocText fuel (s.t.heap.alloc (NodeRec.new .Item)).2 sec = some txt)
    (h2 : Nodes.append s.t.heap.next (s.t.heap.next + 1)
      ((s.t.heap.alloc (NodeRec.new .Item)).2.alloc
        { NodeRec.new .Reference with target := .node sec, overwriteReftext := txt }).2 = .ok () hC)
    (hlt : sec < s.t.heap.next) :
    tocBody fuel toc sec s =
      (if s.t.heap.isInst sec .Subsubsection then (do
        appendCurrent s.t.heap.next
        let last ← isLastInParent sec .Subsubsection
        if last then climb else pure () : PyM TocState Unit)
      else if s.t.heap.isInst sec .Subsection then do
        appendCurrent s.t.heap.next
        let s' ← get
        if (s'.t.heap.firstOfType sec [.Subsubsection]).isSome then openList s.t.heap.next
        else do
          let last ← isLastInParent sec .Subsection
          if last then climb else pure ()
      else if s.t.heap.isInst sec .Section then do
        tocHeap (Nodes.append toc s.t.heap.next)
        let s' ← get
        if (s'.t.heap.firstOfType sec [.Subsection]).isSome then openList s.t.heap.next else pure ()
      else throw .rsmTransformerError) (s.withHeap hC) := by
  have e1 : Nodes.new (NodeRec.new .Item) s.t.heap =
      .ok s.t.heap.next (s.t.heap.alloc (NodeRec.new .Item)).2 := rfl
  have e2 : ∀ rec, Nodes.new rec (s.t.heap.alloc (NodeRec.new .Item)).2 =
      .ok (s.t.heap.next + 1) ((s.t.heap.alloc (NodeRec.new .Item)).2.alloc rec).2 := fun _ => rfl
  have e3 : ∀ c, (s.t.heap.alloc (NodeRec.new .Item)).2.isInst sec c = s.t.heap.isInst sec c := by
    intro c
    unfold Heap.isInst
    rw [(Ext.alloc s.t.heap (NodeRec.new .Item)).get sec hlt]
  unfold tocBody
  simp only [bind_apply]
  simp only [tocHeap, zoom, e1, get_apply, h1, bind_apply, e2, h2, e3]
  rfl

end RSM
