import Verif.Lemmas.TocBody

/-! Helper lemmas for `make_toc`: the three kinds of section. -/

namespace RSM
open PyM Tree Transformer

theorem isSub_subsubsection (c : Cls) : c.isSub .Subsubsection = (c == .Subsubsection) := by
  cases c <;> decide

theorem isSub_subsection (c : Cls) : c.isSub .Subsection = (c == .Subsection) := by
  cases c <;> decide

theorem isSub_section (c : Cls) :
    c.isSub .Section = (c == .Section || c == .Subsection || c == .Subsubsection) := by
  cases c <;> decide

theorem isInst_section (h : Heap) (r : Ref) : h.isInst r .Section = true ↔ IsSec h r := by
  unfold Heap.isInst IsSec
  rw [isSub_section]
  simp [or_assoc]

theorem isInst_subsection (h : Heap) (r : Ref) :
    h.isInst r .Subsection = true ↔ (h.get r).cls = .Subsection := by
  unfold Heap.isInst; rw [isSub_subsection]; simp

theorem isInst_subsubsection (h : Heap) (r : Ref) :
    h.isInst r .Subsubsection = true ↔ (h.get r).cls = .Subsubsection := by
  unfold Heap.isInst; rw [isSub_subsubsection]; simp

theorem zipIdx_find?_fst (P : Ref → Bool) (l : List Ref) (k : Nat) :
    ((l.zipIdx k).find? fun ci => P ci.1).map (·.1) = l.find? P := by
  induction l generalizing k with
  | nil => rfl
  | cons a l ih =>
    simp only [List.zipIdx_cons, List.find?_cons]
    cases h : P a with
    | true => rfl
    | false => exact ih (k + 1)

theorem firstOfType_isSome {h : Heap} {r : Ref} {c : Cls} :
    (h.firstOfType r [c]).isSome = (h.children r).any fun x => h.isInst x c := by
  unfold Heap.firstOfType Heap.isInstAny Heap.isInst Cls.isSubAny
  have := zipIdx_find?_fst (fun x => List.any [c] (h.get x).cls.isSub) (h.children r) 0
  rw [← Option.isSome_map (f := (·.1)), this, Bool.eq_iff_iff, List.find?_isSome, List.any_eq_true]
  simp

theorem lastOfType_fst {h : Heap} {r : Ref} {c : Cls} :
    (h.lastOfType r [c]).map (·.1) = (h.children r).reverse.find? fun x => h.isInst x c := by
  unfold Heap.lastOfType Heap.isInstAny Heap.isInst Cls.isSubAny
  have := zipIdx_find?_fst (fun x => List.any [c] (h.get x).cls.isSub) (h.children r).reverse 0
  rw [Option.map_map]
  refine Eq.trans ?_ (this.trans ?_)
  · rfl
  · congr 1; funext x; simp

/-- `sec` is the last child of its class iff no later child is. -/
theorem lastOfType_iff {h : Heap} {r : Ref} {c : Cls} {a b : List Ref} {sec : Ref}
    (hk : h.children r = a ++ sec :: b) (hs : h.isInst sec c = true) (hnd : sec ∉ b) :
    ((h.lastOfType r [c]).map (·.1) == some sec) = !(b.any fun x => h.isInst x c) := by
  rw [lastOfType_fst, hk, List.reverse_append, List.reverse_cons, List.append_assoc,
    List.find?_append]
  cases hb : (b.any fun x => h.isInst x c) with
  | true =>
    obtain ⟨x, hx, hx'⟩ := List.any_eq_true.mp hb
    have : (b.reverse.find? fun x => h.isInst x c).isSome := by
      rw [List.find?_isSome]; exact ⟨x, by simpa using hx, hx'⟩
    obtain ⟨y, hy⟩ := Option.isSome_iff_exists.mp this
    rw [hy]
    have hym : y ∈ b := by simpa using List.mem_of_find?_eq_some hy
    have hne : y ≠ sec := by rintro rfl; exact hnd hym
    simpa using hne
  | false =>
    have : (b.reverse.find? fun x => h.isInst x c) = none := by
      rw [List.find?_eq_none]
      intro x hx
      rw [List.any_eq_false] at hb
      exact hb x (by simpa using hx)
    rw [this]
    simp [hs]

/-- The children of a node of the document. -/
theorem TocInv.children {h1 : Heap} {root toc : Ref} {t1 : Tree} {h : Heap} {items : List Tree}
    (I : TocInv h1 root t1 toc h items) {i : Ref} {ks : List Tree}
    (hsub : .node i ks ∈ t1.subtrees) (hne : i ≠ toc) : h.children i = ks.map Tree.root := by
  have := mem_subtrees_graft (c := toc) (xs := items) hsub
  rw [graft_node, if_neg hne, List.append_nil] at this
  rw [I.doc.tree.kids_of_subtree this, map_root_graft]

/-- Where the loop is: the current list and what is above it. -/
structure AtList (toc : Ref) (h : Heap) (items : List Tree) (c y q : Ref) : Prop where
  mem : c ∈ preL items
  cls : (h.get c).cls = .Itemize
  up : h.parent c = some y
  up2 : h.parent y = some q
  ne : c ≠ toc

section
variable {h1 : Heap} {root toc : Ref} {t1 : Tree} {fuel : Nat}

theorem TocInv.isInst (F : TocFixed h1 root t1 toc fuel) {h : Heap} {items : List Tree}
    (I : TocInv h1 root t1 toc h items) {z : Ref} (hz : z ∈ t1.pre) (c : Cls) :
    h.isInst z c = h1.isInst z c := by
  unfold Heap.isInst
  rw [cls_of_core (I.core z (F.doc.bound z hz))]

theorem TocInv.any (F : TocFixed h1 root t1 toc fuel) {h : Heap} {items : List Tree}
    (I : TocInv h1 root t1 toc h items) {ks : List Tree} (hks : ∀ k ∈ ks, k.root ∈ t1.pre) (c : Cls) :
    ((ks.map Tree.root).any fun x => h.isInst x c) = ks.any fun k => h1.isInst k.root c := by
  rw [Bool.eq_iff_iff, List.any_eq_true, List.any_eq_true]
  constructor
  · rintro ⟨x, hx, h2⟩
    obtain ⟨k, hk, rfl⟩ := List.mem_map.mp hx
    exact ⟨k, hk, by rw [← I.isInst F (hks k hk)]; exact h2⟩
  · rintro ⟨k, hk, h2⟩
    exact ⟨k.root, List.mem_map_of_mem hk, by rw [I.isInst F (hks k hk)]; exact h2⟩

theorem kid_root_mem {p : Ref} {ks : List Tree} (hp : .node p ks ∈ t1.subtrees) :
    ∀ k ∈ ks, k.root ∈ t1.pre := fun k hk =>
  mem_pre_of_subtree hp (by simp only [pre_node, List.mem_cons]; exact .inr (mem_preL.mpr ⟨k, hk, root_mem_pre k⟩))

theorem kid_subtree {p : Ref} {ks : List Tree} (hp : .node p ks ∈ t1.subtrees) :
    ∀ k ∈ ks, k ∈ t1.subtrees := fun k hk =>
  subtrees_trans hp (mem_subtrees_node.mpr (.inr ⟨k, hk, self_mem_subtrees k⟩))

theorem kid_not_later (hn : t1.pre.Nodup) {p : Ref} {a b : List Tree} {k : Tree}
    (hp : .node p (a ++ k :: b) ∈ t1.subtrees) : k.root ∉ b.map Tree.root := by
  intro hm
  obtain ⟨k', hk', e⟩ := List.mem_map.mp hm
  have h1 : (Tree.node p (a ++ k :: b)).pre.Nodup := (pre_infix hp).sublist.nodup hn
  rw [pre_node, List.nodup_cons, preL_append, preL_cons, List.nodup_append, List.nodup_append] at h1
  exact h1.2.2.1.2.2 _ (root_mem_pre k) k.root
    (mem_preL.mpr ⟨k', hk', by rw [← e]; exact root_mem_pre k'⟩) rfl

/-- A subsubsection. -/
theorem body3 (F : TocFixed h1 root t1 toc fuel) {s : TocState} {items : List Tree}
    (I : TocInv h1 root t1 toc s.t.heap items) {p : Ref} {a b : List Tree} {k : Tree}
    (hp : .node p (a ++ k :: b) ∈ t1.subtrees) (hpt : p ≠ toc)
    (hcls : (h1.get k.root).cls = .Subsubsection)
    {c y q : Ref} (hcur : s.current = some c) (A : AtList toc s.t.heap items c y q) :
    ∃ h', Entry h1 root t1 toc items s.t.heap h' k.root c ∧
      tocBody fuel toc k.root s = .ok () { s.withHeap h' with
        current := if (b.any fun k => h1.isInst k.root .Subsubsection) then some c else some q } := by
  have hm := kid_root_mem hp
  have hkm := hm k (by simp)
  obtain ⟨txt, hC, h', e1, e2, e3, E⟩ := entry F I hkm (.inr ⟨A.mem, A.cls⟩)
  refine ⟨h', E, ?_⟩
  have hlt := Nat.lt_of_lt_of_le (F.doc.bound _ hkm) I.next
  rw [tocBody_begin e1 e2 hlt, if_pos ((isInst_subsubsection _ _).mpr (by
    rw [cls_of_core (I.core _ (F.doc.bound _ hkm))]; exact hcls))]
  simp only [bind_apply]
  rw [appendCurrent_spec (c := c) (h' := h') (by simpa using hcur) (by simpa using e3)]
  simp only [TocState.withHeap_withHeap]
  have hpar : h'.parent k.root = some p := by
    rw [E.inv.parent _ (F.doc.bound _ hkm)]
    obtain ⟨o, ho⟩ := F.doc.tree.subtree hp
    rw [isTree_node] at ho
    exact (ho.2.2 k (by simp)).parent_root
  have hins : h'.isInst k.root .Subsubsection = true := by
    rw [E.inv.isInst F hkm, isInst_subsubsection]; exact hcls
  have hl := isLastInParent_spec (s := s.withHeap h') (sec := k.root) (p := p)
    (c := .Subsubsection) (by simpa using hpar)
  rw [TocState.withHeap_heap, lastOfType_iff (a := a.map Tree.root) (b := b.map Tree.root)
    (by rw [E.inv.children hp hpt]; simp) hins (kid_not_later F.doc.nodup hp),
    E.inv.any F (fun k hk => hm k (by simp [hk]))] at hl
  rw [hl]
  simp only
  cases hb : (b.any fun k => h1.isInst k.root .Subsubsection) with
  | true =>
    simp only [Bool.not_true, Bool.false_eq_true, if_false, if_true, pure_apply]
    rw [← hcur]; rfl
  | false =>
    simp only [Bool.not_false, Bool.false_eq_true, if_false, if_true]
    have hclt : c < s.t.heap.next := I.doc.bound c (by
      rw [(pre_graft_perm (xs := items) F.doc.nodup F.mem).mem_iff]; simp [A.mem])
    have hylt : y < s.t.heap.next := by
      have hmT : c ∈ (t1.graft toc items).pre := by
        rw [(pre_graft_perm (xs := items) F.doc.nodup F.mem).mem_iff]; simp [A.mem]
      exact I.doc.bound y (I.doc.parent_closed c hmT y A.up)
    rw [climb_spec (l := c) (y := y) (by simpa using hcur)
      (by rw [TocState.withHeap_heap, E.ext.parent c hclt]; exact A.up)]
    rw [TocState.withHeap_heap, E.ext.parent y hylt, A.up2]

/-- The state after opening a list. -/
structure Opened (h1 : Heap) (root : Ref) (t1 : Tree) (toc : Ref) (items : List Tree) (h h' : Heap)
    (sec c : Ref) : Prop where
  inv : TocInv h1 root t1 toc h'
    (graftL h.next [.node (h.next + 2) []] (addAt toc c items (.node h.next [.node (h.next + 1) []])))
  ext : TocExt h h'
  next : h'.next = h.next + 3
  item : (h'.get h.next).core = NodeRec.new .Item
  ref : TocRef h1 h' sec (h.next + 1)
  list : (h'.get (h.next + 2)).core = NodeRec.new .Itemize
  up : h'.parent (h.next + 2) = some h.next
  up2 : h'.parent h.next = some c

theorem mem_graft {c z : Ref} {xs : List Tree} (hz : z ∈ preL xs) {t : Tree} (hc : c ∈ t.pre) :
    z ∈ (t.graft c xs).pre := by
  induction t using Tree.induct with
  | _ i ks ih =>
    rw [graft_node, pre_node, preL_append]
    simp only [pre_node, List.mem_cons, List.mem_append] at hc ⊢
    rcases hc with rfl | hc
    · simp [hz]
    · obtain ⟨k, hk, hck⟩ := mem_preL.mp hc
      exact .inr (.inl (mem_preL.mpr ⟨_, List.mem_map_of_mem hk, ih k hk hck⟩))

theorem mem_addAt {items : List Tree} {c : Ref} (hc : c = toc ∨ c ∈ preL items) {it : Tree} {z : Ref}
    (hz : z ∈ it.pre) : z ∈ preL (addAt toc c items it) := by
  unfold addAt
  split
  · rw [preL_append]; simp [hz]
  · rename_i hne
    obtain ⟨k, hk, hck⟩ := mem_preL.mp (hc.resolve_left hne)
    rw [graftL_eq]
    exact mem_preL.mpr ⟨_, List.mem_map_of_mem hk, mem_graft (by simpa using hz) hck⟩

theorem Entry.open_ {items : List Tree} {h hE : Heap} {sec c : Ref}
    (E : Entry h1 root t1 toc items h hE sec c) (F : TocFixed h1 root t1 toc fuel)
    (hm : h.next ∈ preL (addAt toc c items (.node h.next [.node (h.next + 1) []])))
    (s : TocState) (hs : s.t.heap = hE) :
    ∃ h', Opened h1 root t1 toc items h h' sec c ∧
      openList h.next s = .ok () { s.withHeap h' with current := some (h.next + 2) } := by
  obtain ⟨h', e1, e2, I', X, g1, g2⟩ := openList_spec F E.inv hm (by rw [core_cls E.item]; rfl) s hs
  have en := E.next
  rw [en] at e1 g1 g2 I'
  refine ⟨h', ⟨I', E.ext.trans X, by omega, ?_, ?_, g1, g2, ?_⟩, e1⟩
  · rw [X.core _ (by omega)]; exact E.item
  · obtain ⟨r1, r2, txt, r3, r4⟩ := E.ref
    refine ⟨r1, by omega, txt, r3, ?_⟩
    exact (X.core _ (by omega)).trans r4
  · rw [X.parent _ (by omega)]; exact E.parent

/-- A subsection. -/
theorem body2 (F : TocFixed h1 root t1 toc fuel) {s : TocState} {items : List Tree}
    (I : TocInv h1 root t1 toc s.t.heap items) {p i : Ref} {a b ks : List Tree}
    (hp : .node p (a ++ .node i ks :: b) ∈ t1.subtrees) (hpt : p ≠ toc) (hit : i ≠ toc)
    (hcls : (h1.get i).cls = .Subsection)
    {c y q : Ref} (hcur : s.current = some c) (A : AtList toc s.t.heap items c y q) :
    ((ks.any fun k => h1.isInst k.root .Subsubsection) = true ∧
      ∃ h', Opened h1 root t1 toc items s.t.heap h' i c ∧
        tocBody fuel toc i s =
          .ok () { s.withHeap h' with current := some (s.t.heap.next + 2) }) ∨
    ((ks.any fun k => h1.isInst k.root .Subsubsection) = false ∧
      ∃ h', Entry h1 root t1 toc items s.t.heap h' i c ∧
      tocBody fuel toc i s = .ok () { s.withHeap h' with
        current := if (b.any fun k => h1.isInst k.root .Subsection) then some c else some q }) := by
  have hm := kid_root_mem hp
  have hkm : i ∈ t1.pre := hm (.node i ks) (by simp)
  have hsub := kid_subtree hp (.node i ks) (by simp)
  obtain ⟨txt, hC, h', e1, e2, e3, E⟩ := entry F I hkm (.inr ⟨A.mem, A.cls⟩)
  have hlt := Nat.lt_of_lt_of_le (F.doc.bound _ hkm) I.next
  have hc1 : (s.t.heap.get i).cls = .Subsection := by
    rw [cls_of_core (I.core _ (F.doc.bound _ hkm))]; exact hcls
  have hn : ¬ (s.t.heap.isInst i .Subsubsection = true) := by
    rw [isInst_subsubsection, hc1]; decide
  rw [tocBody_begin e1 e2 hlt, if_neg hn, if_pos ((isInst_subsection _ _).mpr hc1)]
  have e4 : appendCurrent s.t.heap.next (s.withHeap hC) = .ok () (s.withHeap h') :=
    appendCurrent_spec (c := c) (h' := h') (by simpa using hcur) (by simpa using e3)
  simp only [bind_apply, e4, get_apply]
  have hany : (h'.firstOfType i [.Subsubsection]).isSome =
      ks.any fun k => h1.isInst k.root .Subsubsection := by
    rw [firstOfType_isSome, E.inv.children hsub hit, E.inv.any F (kid_root_mem hsub)]
  cases hk : (ks.any fun k => h1.isInst k.root .Subsubsection) with
  | true =>
    left
    refine ⟨rfl, ?_⟩
    rw [hk] at hany
    obtain ⟨h2, O, e⟩ := E.open_ F (mem_addAt (.inr A.mem) (by simp)) (s.withHeap h') rfl
    refine ⟨h2, O, ?_⟩
    rw [if_pos (show ((s.withHeap h').t.heap.firstOfType i [.Subsubsection]).isSome = true from hany), e]
    rfl
  | false =>
    right
    refine ⟨rfl, h', E, ?_⟩
    rw [hk] at hany
    rw [if_neg (show ¬ ((s.withHeap h').t.heap.firstOfType i [.Subsubsection]).isSome = true by
      rw [TocState.withHeap_heap, hany]; decide)]
    simp only [bind_apply]
    have hpar : h'.parent i = some p := by
      rw [E.inv.parent _ (F.doc.bound _ hkm)]
      obtain ⟨o, ho⟩ := F.doc.tree.subtree hp
      rw [isTree_node] at ho
      exact (ho.2.2 (.node i ks) (by simp)).parent_root
    have hins : h'.isInst i .Subsection = true := by
      rw [E.inv.isInst F hkm, isInst_subsection]; exact hcls
    have hl := isLastInParent_spec (s := s.withHeap h') (sec := i) (p := p)
      (c := .Subsection) (by simpa using hpar)
    rw [TocState.withHeap_heap, lastOfType_iff (a := a.map Tree.root) (b := b.map Tree.root)
      (by rw [E.inv.children hp hpt]; simp) hins (kid_not_later F.doc.nodup hp),
      E.inv.any F (fun k hk => hm k (by simp [hk]))] at hl
    rw [hl]
    simp only
    cases hb : (b.any fun k => h1.isInst k.root .Subsection) with
    | true =>
      simp only [Bool.not_true, Bool.false_eq_true, if_false, if_true, pure_apply]
      rw [← hcur]; rfl
    | false =>
      simp only [Bool.not_false, Bool.false_eq_true, if_false, if_true]
      have hmT : c ∈ (t1.graft toc items).pre := by
        rw [(pre_graft_perm (xs := items) F.doc.nodup F.mem).mem_iff]; simp [A.mem]
      have hclt := I.doc.bound c hmT
      have hylt := I.doc.bound y (I.doc.parent_closed c hmT y A.up)
      rw [climb_spec (l := c) (y := y) (by simpa using hcur)
        (by rw [TocState.withHeap_heap, E.ext.parent c hclt]; exact A.up)]
      rw [TocState.withHeap_heap, E.ext.parent y hylt, A.up2]

/-- A section. -/
theorem body1 (F : TocFixed h1 root t1 toc fuel) {s : TocState} {items : List Tree}
    (I : TocInv h1 root t1 toc s.t.heap items) {i : Ref} {ks : List Tree}
    (hsub : .node i ks ∈ t1.subtrees) (hit : i ≠ toc) (hcls : (h1.get i).cls = .Section) :
    ((ks.any fun k => h1.isInst k.root .Subsection) = true ∧
      ∃ h', Opened h1 root t1 toc items s.t.heap h' i toc ∧
        tocBody fuel toc i s =
          .ok () { s.withHeap h' with current := some (s.t.heap.next + 2) }) ∨
    ((ks.any fun k => h1.isInst k.root .Subsection) = false ∧
      ∃ h', Entry h1 root t1 toc items s.t.heap h' i toc ∧
      tocBody fuel toc i s = .ok () (s.withHeap h')) := by
  have hkm : i ∈ t1.pre := mem_pre_of_subtree hsub (by simp)
  obtain ⟨txt, hC, h', e1, e2, e3, E⟩ := entry F I hkm (.inl rfl)
  have hlt := Nat.lt_of_lt_of_le (F.doc.bound _ hkm) I.next
  have hc1 : (s.t.heap.get i).cls = .Section := by
    rw [cls_of_core (I.core _ (F.doc.bound _ hkm))]; exact hcls
  have hn : ¬ (s.t.heap.isInst i .Subsubsection = true) := by
    rw [isInst_subsubsection, hc1]; decide
  have hn2 : ¬ (s.t.heap.isInst i .Subsection = true) := by
    rw [isInst_subsection, hc1]; decide
  rw [tocBody_begin e1 e2 hlt, if_neg hn, if_neg hn2,
    if_pos ((isInst_section _ _).mpr (.inl hc1))]
  have e4 : tocHeap (Nodes.append toc s.t.heap.next) (s.withHeap hC) = .ok () (s.withHeap h') := by
    unfold tocHeap zoom
    simp only [TocState.withHeap_heap, e3]
    rfl
  simp only [bind_apply, e4, get_apply]
  have hany : (h'.firstOfType i [.Subsection]).isSome =
      ks.any fun k => h1.isInst k.root .Subsection := by
    rw [firstOfType_isSome, E.inv.children hsub hit, E.inv.any F (kid_root_mem hsub)]
  cases hk : (ks.any fun k => h1.isInst k.root .Subsection) with
  | true =>
    left
    refine ⟨rfl, ?_⟩
    rw [hk] at hany
    obtain ⟨h2, O, e⟩ := E.open_ F (mem_addAt (.inl rfl) (by simp)) (s.withHeap h') rfl
    refine ⟨h2, O, ?_⟩
    rw [if_pos (show ((s.withHeap h').t.heap.firstOfType i [.Subsection]).isSome = true from hany), e]
    rfl
  | false =>
    right
    refine ⟨rfl, h', E, ?_⟩
    rw [hk] at hany
    rw [if_neg (show ¬ ((s.withHeap h').t.heap.firstOfType i [.Subsection]).isSome = true by
      rw [TocState.withHeap_heap, hany]; decide)]
    rfl

end
end RSM
