import Verif.Model.Normalize
import Verif.Lemmas.Edits
import Verif.Lemmas.Traverse

/-! Helper lemmas for text normalisation: trees with attributes, and how the edits act on them. -/

namespace RSM
namespace Normalize
open PyM Nodes Heap

/-- A tree of nodes with their attributes (parent and children left out). -/
inductive LTree
  | node (id : Ref) (attrs : NodeRec) (kids : List LTree)

namespace LTree

def root : LTree → Ref
  | node i _ _ => i
def attrs : LTree → NodeRec
  | node _ a _ => a
def kids : LTree → List LTree
  | node _ _ ks => ks

mutual
/-- Forget the attributes. -/
def tree : LTree → Tree
  | node i _ ks => .node i (treeL ks)
def treeL : List LTree → List Tree
  | [] => []
  | t :: ts => t.tree :: treeL ts
end

mutual
/-- Document order. -/
def refs : LTree → List Ref
  | node i _ ks => i :: refsL ks
def refsL : List LTree → List Ref
  | [] => []
  | t :: ts => t.refs ++ refsL ts
end

theorem treeL_eq (ts : List LTree) : treeL ts = ts.map tree := by
  induction ts with
  | nil => rfl
  | cons t ts ih => simp [treeL, ih]

theorem refsL_eq (ts : List LTree) : refsL ts = ts.flatMap refs := by
  induction ts with
  | nil => rfl
  | cons t ts ih => simp [refsL, ih]

@[simp] theorem refsL_nil : refsL [] = [] := rfl
@[simp] theorem refsL_cons (t ts) : refsL (t :: ts) = t.refs ++ refsL ts := rfl
@[simp] theorem refs_node (i a ks) : (node i a ks).refs = i :: refsL ks := rfl
@[simp] theorem refsL_append (a b : List LTree) : refsL (a ++ b) = refsL a ++ refsL b := by
  simp [refsL_eq]
@[simp] theorem root_mk (i a ks) : (node i a ks).root = i := rfl
@[simp] theorem attrs_mk (i a ks) : (node i a ks).attrs = a := rfl
@[simp] theorem kids_mk (i a ks) : (node i a ks).kids = ks := rfl
theorem root_mem_refs (t : LTree) : t.root ∈ t.refs := by cases t; simp
theorem mem_refsL {x ts} : x ∈ refsL ts ↔ ∃ t ∈ ts, x ∈ t.refs := by simp [refsL_eq]

@[simp] theorem root_tree (t : LTree) : t.tree.root = t.root := by cases t; rfl
theorem map_root_treeL (ts : List LTree) : (treeL ts).map Tree.root = ts.map root := by
  simp [treeL_eq]

mutual
theorem pre_tree (t : LTree) : t.tree.pre = t.refs := by
  match t with
  | node i a ks => simp [tree, refs, pre_treeL ks]
theorem pre_treeL (ts : List LTree) : Tree.preL (treeL ts) = refsL ts := by
  match ts with
  | [] => rfl
  | t :: ts => simp [treeL, refsL, pre_tree t, pre_treeL ts]
end

mutual
theorem induct_aux {P : LTree → Prop} (h : ∀ i a ks, (∀ k ∈ ks, P k) → P (node i a ks)) (t : LTree) :
    P t := by
  match t with
  | node i a ks => exact h i a ks (inductL_aux h ks)
theorem inductL_aux {P : LTree → Prop} (h : ∀ i a ks, (∀ k ∈ ks, P k) → P (node i a ks))
    (ts : List LTree) : ∀ k ∈ ts, P k := by
  match ts with
  | [] => intro k hk; cases hk
  | t :: ts =>
    have h1 := induct_aux h t
    have h2 := inductL_aux h ts
    intro k hk
    rcases List.mem_cons.mp hk with rfl | hk
    · exact h1
    · exact h2 k hk
end

/-- `isinstance(_, Text)`. -/
def isT (t : LTree) : Bool := t.attrs.cls.isSub .Text

def mapText (f : Str → Str) : LTree → LTree
  | node i a ks => node i { a with text := f a.text } ks

@[simp] theorem root_mapText (f t) : (mapText f t).root = t.root := by cases t; rfl
@[simp] theorem refs_mapText (f t) : (mapText f t).refs = t.refs := by cases t; rfl
@[simp] theorem isT_mapText (f t) : (mapText f t).isT = t.isT := by cases t; rfl
@[simp] theorem cls_mapText (f t) : (mapText f t).attrs.cls = t.attrs.cls := by cases t; rfl
@[simp] theorem kids_mapText (f t) : (mapText f t).kids = t.kids := by cases t; rfl
theorem mapText_mapText (f g t) : mapText f (mapText g t) = mapText (f ∘ g) t := by cases t; rfl

end LTree
open LTree

/-- The attributes of a node, without its links. -/
def bare (n : NodeRec) : NodeRec := { n with parent := none, kids := [] }

@[simp] theorem cls_bare (n : NodeRec) : (bare n).cls = n.cls := rfl

mutual
/-- The heap holds the tree, hanging from `p`. -/
def Holds (h : Heap) (p : Option Ref) : LTree → Prop
  | .node i a ks =>
    h.parent i = p ∧ h.children i = ks.map root ∧ bare (h.get i) = a ∧ HoldsL h (some i) ks
def HoldsL (h : Heap) (p : Option Ref) : List LTree → Prop
  | [] => True
  | t :: ts => Holds h p t ∧ HoldsL h p ts
end

theorem holdsL_iff {h : Heap} {p ts} : HoldsL h p ts ↔ ∀ t ∈ ts, Holds h p t := by
  induction ts with
  | nil => simp [HoldsL]
  | cons t ts ih => simp [HoldsL, ih]

theorem Holds.parent {h : Heap} {p t} (H : Holds h p t) : h.parent t.root = p := by
  cases t; exact H.1
theorem Holds.children {h : Heap} {p t} (H : Holds h p t) : h.children t.root = t.kids.map root := by
  cases t; exact H.2.1
theorem Holds.attrs {h : Heap} {p t} (H : Holds h p t) : bare (h.get t.root) = t.attrs := by
  cases t; exact H.2.2.1
theorem Holds.kids {h : Heap} {p t} (H : Holds h p t) : ∀ k ∈ t.kids, Holds h (some t.root) k := by
  cases t; exact holdsL_iff.mp H.2.2.2
theorem Holds.cls {h : Heap} {p t} (H : Holds h p t) : (h.get t.root).cls = t.attrs.cls := by
  rw [← H.attrs]; rfl
theorem Holds.isInst {h : Heap} {p t} (H : Holds h p t) (c) :
    h.isInst t.root c = t.attrs.cls.isSub c := by
  unfold Heap.isInst; rw [H.cls]

mutual
theorem Holds.isTree {h : Heap} {p t} (H : Holds h p t) : IsTree h p t.tree := by
  match t with
  | .node i a ks => exact ⟨H.1, by rw [map_root_treeL]; exact H.2.1, HoldsL.isForest H.2.2.2⟩
theorem HoldsL.isForest {h : Heap} {p ts} (H : HoldsL h p ts) : IsForest h p (treeL ts) := by
  match ts with
  | [] => exact trivial
  | t :: ts => exact ⟨Holds.isTree H.1, HoldsL.isForest H.2⟩
end

mutual
/-- Read the attributes of a tree off the heap. -/
def label (h : Heap) : Tree → LTree
  | .node i ks => .node i (bare (h.get i)) (labelL h ks)
def labelL (h : Heap) : List Tree → List LTree
  | [] => []
  | t :: ts => label h t :: labelL h ts
end

mutual
theorem tree_label (h : Heap) (t : Tree) : (label h t).tree = t := by
  match t with
  | .node i ks => simp [label, tree, treeL_labelL h ks]
theorem treeL_labelL (h : Heap) (ts : List Tree) : treeL (labelL h ts) = ts := by
  match ts with
  | [] => rfl
  | t :: ts => simp [labelL, treeL, tree_label h t, treeL_labelL h ts]
end

mutual
theorem holds_label {h : Heap} {p t} (H : IsTree h p t) : Holds h p (label h t) := by
  match t with
  | .node i ks =>
    refine ⟨H.1, ?_, rfl, holdsL_label H.2.2⟩
    rw [H.2.1, ← map_root_treeL, treeL_labelL]
theorem holdsL_label {h : Heap} {p ts} (H : IsForest h p ts) : HoldsL h p (labelL h ts) := by
  match ts with
  | [] => exact trivial
  | t :: ts => exact ⟨holds_label H.1, holdsL_label H.2⟩
end

/-- The node `x` looks the same in both heaps. -/
structure SameNode (h h' : Heap) (x : Ref) : Prop where
  attrs : bare (h'.get x) = bare (h.get x)
  parent : h'.parent x = h.parent x
  children : h'.children x = h.children x

theorem SameNode.refl (h x) : SameNode h h x := ⟨rfl, rfl, rfl⟩
theorem SameNode.trans {a b c x} (h1 : SameNode a b x) (h2 : SameNode b c x) : SameNode a c x :=
  ⟨h2.1.trans h1.1, h2.2.trans h1.2, h2.3.trans h1.3⟩
theorem SameNode.of_get {h h' : Heap} {x} (e : h'.get x = h.get x) : SameNode h h' x :=
  ⟨by rw [e], by unfold Heap.parent; rw [e], by unfold Heap.children Heap.isInst; rw [e]⟩
theorem SameNode.cls {h h' : Heap} {x} (s : SameNode h h' x) : (h'.get x).cls = (h.get x).cls := by
  simpa using congrArg NodeRec.cls s.attrs

theorem Holds.congr {h h' : Heap} {t : LTree} : ∀ {p}, Holds h p t →
    (∀ x ∈ t.refs, SameNode h h' x) → Holds h' p t := by
  apply induct_aux (P := fun t => ∀ {p}, Holds h p t → (∀ x ∈ t.refs, SameNode h h' x) → Holds h' p t)
  intro i a ks ih p H hs
  have h0 := hs i (by simp)
  refine ⟨h0.parent.trans H.1, h0.children.trans H.2.1, h0.attrs.trans H.2.2.1, ?_⟩
  rw [holdsL_iff]
  intro k hk
  exact ih k hk (holdsL_iff.mp H.2.2.2 k hk) fun x hx => hs x (by simp [mem_refsL]; exact .inr ⟨k, hk, hx⟩)

/-- The heap holds the trees `ts` as the last children of `p`, after `done`. -/
structure Good (h : Heap) (p : Option Ref) (done : List Ref) (ts : List LTree) : Prop where
  holds : ∀ t ∈ ts, Holds h p t
  nodup : (refsL ts).Nodup
  bound : ∀ x ∈ refsL ts, x < h.next
  top : p = none → done = [] ∧ ts.length ≤ 1
  kids : ∀ q, p = some q → h.children q = done ++ ts.map root
  sep : ∀ q, p = some q → q ∉ refsL ts
  old : ∀ q, p = some q → q < h.next
  dsep : ∀ x ∈ done, x ∉ refsL ts
  dnodup : done.Nodup
  psep : ∀ q, p = some q → q ∉ done

/-- Only nodes of `D` and the children list of `p` have changed, apart from new nodes. -/
structure Frame (h h' : Heap) (p : Option Ref) (D : List Ref) : Prop where
  same : ∀ x, x < h.next → x ∉ D → p ≠ some x → SameNode h h' x
  par : ∀ q, p = some q → q ∉ D → bare (h'.get q) = bare (h.get q) ∧ h'.parent q = h.parent q
  next : h.next ≤ h'.next

theorem Frame.refl (h p D) : Frame h h p D := ⟨fun _ _ _ _ => .refl _ _, fun _ _ _ => ⟨rfl, rfl⟩, le_refl _⟩

theorem Frame.trans {h h1 h2 : Heap} {p D D1} (f : Frame h h1 p D) (g : Frame h1 h2 p D1)
    (hD : ∀ x ∈ D1, x ∈ D ∨ h.next ≤ x) (hp : ∀ q, p = some q → q < h.next) : Frame h h2 p D := by
  have key : ∀ x, x < h.next → x ∉ D → x ∉ D1 := by
    intro x hx hn hm
    rcases hD x hm with h1 | h1
    · exact hn h1
    · omega
  refine ⟨fun x hx hn hne => (f.same x hx hn hne).trans
      (g.same x (Nat.lt_of_lt_of_le hx f.next) (key x hx hn) hne), ?_, f.next.trans g.next⟩
  intro q hq hn
  obtain ⟨a, b⟩ := f.par q hq hn
  obtain ⟨c, d⟩ := g.par q hq (key q (hp q hq) hn)
  exact ⟨c.trans a, d.trans b⟩

/-- One or more edits of the children of `i`. -/
structure Steps (h : Heap) (i : Ref) (ks : List LTree) (h' : Heap) (ks' : List LTree) : Prop where
  good : Good h' (some i) [] ks'
  frame : Frame h h' (some i) (refsL ks)
  sub : ∀ x ∈ refsL ks', x ∈ refsL ks ∨ h.next ≤ x

theorem Steps.refl {h i ks} (G : Good h (some i) [] ks) : Steps h i ks h ks :=
  ⟨G, .refl _ _ _, fun _ => .inl⟩

theorem Steps.trans {h i ks h1 ks1 h2 ks2} (G : Good h (some i) [] ks) (a : Steps h i ks h1 ks1)
    (b : Steps h1 i ks1 h2 ks2) : Steps h i ks h2 ks2 := by
  refine ⟨b.good, a.frame.trans b.frame a.sub G.old, ?_⟩
  intro x hx
  rcases b.sub x hx with h3 | h3
  · exact a.sub x h3
  · exact .inr (a.frame.next.trans h3)

/-- Text nodes have no children. -/
theorem Holds.text_kids {h : Heap} {p t} (H : Holds h p t) (ht : t.isT = true) : t.kids = [] := by
  have h1 := H.children
  have h2 : h.children t.root = [] := by
    unfold Heap.children
    rw [H.isInst]
    have : t.attrs.cls.isSub .NodeWithChildren = false := by
      unfold LTree.isT at ht
      generalize t.attrs.cls = c at ht
      revert ht; cases c <;> decide
    simp [this]
  rw [h2] at h1
  exact List.map_eq_nil_iff.mp h1.symm

theorem Good.nwc {h i k ks done} (G : Good h (some i) done (k :: ks)) :
    h.isInst i .NodeWithChildren = true :=
  isNWC_of_mem_children (c := k.root) (by rw [G.kids i rfl]; simp)

theorem Good.nwc_of_mem {h i k ks done} (G : Good h (some i) done ks) (hk : k ∈ ks) :
    h.isInst i .NodeWithChildren = true := by
  refine isNWC_of_mem_children (c := k.root) ?_
  rw [G.kids i rfl]
  exact List.mem_append_right _ (List.mem_map_of_mem hk)

/-- Assigning the text of a child. -/
theorem Steps.setText {h i a k b} (f : Str → Str) (G : Good h (some i) [] (a ++ k :: b))
    (hk : k.isT = true) :
    ∃ h', Normalize.setText k.root f h = .ok () h' ∧
      Steps h i (a ++ k :: b) h' (a ++ k.mapText f :: b) := by
  refine ⟨_, rfl, ?_⟩
  have hkm : k ∈ a ++ k :: b := by simp
  have Hk := G.holds k hkm
  have hkids := Hk.text_kids hk
  have hroot : k.refs = [k.root] := by
    cases k with
    | node c ca ck => simp only [kids_mk] at hkids; subst hkids; rfl
  have hrefs : refsL (a ++ k.mapText f :: b) = refsL (a ++ k :: b) := by simp
  have hroots : (a ++ k.mapText f :: b).map root = (a ++ k :: b).map root := by simp
  have hch : ∀ x, (h.update k.root fun n => { n with text := f n.text }).children x = h.children x :=
    Heap.children_update h k.root (fun n => { n with text := f n.text }) (fun _ => rfl) (fun _ => rfl)
  have hpa : ∀ x, (h.update k.root fun n => { n with text := f n.text }).parent x = h.parent x :=
    Heap.parent_update h k.root (fun n => { n with text := f n.text }) (fun _ => rfl)
  have hsame : ∀ x, x ≠ k.root →
      SameNode h (h.update k.root fun n => { n with text := f n.text }) x :=
    fun x hx => .of_get (get_update_of_ne _ _ hx)
  have hnd := G.nodup
  rw [refsL_append, refsL_cons, hroot] at hnd
  have hi : i ≠ k.root := by
    intro e
    apply G.sep i rfl
    rw [e, mem_refsL]; exact ⟨k, hkm, root_mem_refs k⟩
  refine ⟨⟨?_, by rw [hrefs]; exact G.nodup, by rw [hrefs]; exact G.bound, by simp, ?_,
    by rw [hrefs]; exact G.sep, G.old, by simp, by simp, by simp⟩, ⟨?_, ?_, le_refl _⟩,
    by rw [hrefs]; exact fun _ => .inl⟩
  · intro t ht
    rcases List.mem_append.mp ht with h1 | h1
    · refine (G.holds t (by simp [h1])).congr fun x hx => hsame x ?_
      rintro rfl
      have := List.nodup_append.mp hnd
      exact this.2.2 _ (mem_refsL.mpr ⟨t, h1, hx⟩) _ (by simp) rfl
    · rcases List.mem_cons.mp h1 with rfl | h1
      · cases k with
        | node c ca ck =>
          simp only [kids_mk] at hkids
          subst hkids
          refine ⟨?_, ?_, ?_, trivial⟩
          · exact (hpa _).trans Hk.parent
          · exact (hch _).trans Hk.children
          · have h3 : (h.update c fun n => { n with text := f n.text }).get c =
                { h.get c with text := f (h.get c).text } := Heap.get_update_self _ _ _
            show bare ((h.update c fun n => { n with text := f n.text }).get c) = _
            rw [h3]
            have := Hk.attrs
            simp only [root_mk, attrs_mk] at this
            rw [← this]; rfl
      · refine (G.holds t (by simp [h1])).congr fun x hx => hsame x ?_
        rintro rfl
        have := (List.nodup_append.mp hnd).2.1
        simp only [List.cons_append, List.nil_append, List.nodup_cons] at this
        exact this.1 (mem_refsL.mpr ⟨t, h1, hx⟩)
  · intro q hq
    cases hq
    rw [hroots, hch, G.kids i rfl]
  · intro x hx hn hne
    refine hsame x ?_
    rintro rfl
    exact hn (mem_refsL.mpr ⟨k, hkm, root_mem_refs k⟩)
  · intro q hq hn
    cases hq
    exact ⟨(hsame i hi).attrs, (hsame i hi).parent⟩

theorem roots_nodup {ts : List LTree} (h : (refsL ts).Nodup) : (ts.map root).Nodup := by
  induction ts with
  | nil => simp
  | cons t ts ih =>
    rw [refsL_cons, List.nodup_append] at h
    rw [List.map_cons, List.nodup_cons]
    refine ⟨?_, ih h.2.1⟩
    intro hm
    obtain ⟨u, hu, e⟩ := List.mem_map.mp hm
    exact h.2.2 _ (root_mem_refs t) _ (mem_refsL.mpr ⟨u, hu, root_mem_refs u⟩) e.symm

/-- `remove_self` of a child. -/
theorem Steps.remove {h i a k b} (G : Good h (some i) [] (a ++ k :: b)) :
    ∃ h', removeSelf k.root h = .ok () h' ∧ Steps h i (a ++ k :: b) h' (a ++ b) := by
  have hkm : k ∈ a ++ k :: b := by simp
  have Hk := G.holds k hkm
  have hnw := G.nwc_of_mem hkm
  have hki : k.root ≠ i := by
    intro e
    apply G.sep i rfl
    rw [← e, mem_refsL]; exact ⟨k, hkm, root_mem_refs k⟩
  have hkids : (h.get i).kids = (a ++ k :: b).map root := by
    rw [← children_eq_kids _ _ hnw]; exact G.kids i rfl
  have hmem : k.root ∈ (h.get i).kids := by rw [hkids]; simp
  have hnotin : k.root ∉ a.map root := by
    intro hm
    obtain ⟨u, hu, e⟩ := List.mem_map.mp hm
    have := G.nodup
    rw [refsL_append, refsL_cons, List.nodup_append] at this
    exact this.2.2 _ (mem_refsL.mpr ⟨u, hu, root_mem_refs u⟩) _
      (List.mem_append_left _ (root_mem_refs k)) e
  have herase : ((a ++ k :: b).map root).erase k.root = (a ++ b).map root := by
    rw [List.map_append, List.map_cons, List.erase_append_right _ hnotin]
    simp
  have hop : removeSelf k.root h = .ok ()
      (((h.withKids i (·.erase k.root)).withParent k.root none).withParent k.root none) := by
    unfold removeSelf
    simp only [bind_apply, get_apply]
    rw [Hk.parent]
    simp only [bind_apply, remove_apply, hnw, hmem, Bool.true_eq_false, if_false, if_true]
    rfl
  generalize hh : ((h.withKids i (·.erase k.root)).withParent k.root none).withParent k.root none = h'
    at hop
  have hgs : ∀ x, x ≠ i → x ≠ k.root → SameNode h h' x := by
    intro x h1 h2
    subst hh
    apply SameNode.of_get
    simp only [withParent, withKids, get_update, h1, h2, if_false]
  have hpar : ∀ x, x ≠ k.root → h'.parent x = h.parent x := by
    intro x h1
    subst hh
    rw [parent_withParent, parent_withParent, parent_withKids]; simp [h1]
  have hbare : bare (h'.get i) = bare (h.get i) := by
    subst hh
    simp only [withParent, withKids, get_update, Ne.symm hki, if_false, if_true, bare]
  have hchi : h'.children i = (a ++ b).map root := by
    subst hh
    rw [children_withParent, children_withParent, children_withKids _ _ _ _ hnw]
    simp only [if_true, G.kids i rfl, List.nil_append, herase]
  have hsub : (refsL (a ++ b)).Sublist (refsL (a ++ k :: b)) := by
    simp only [refsL_append, refsL_cons]
    exact List.Sublist.append_left (List.sublist_append_right _ _) _
  have hnd := G.nodup
  rw [refsL_append, refsL_cons, List.nodup_append] at hnd
  have hnext : h'.next = h.next := by subst hh; rfl
  refine ⟨h', hop, ⟨?_, G.nodup.sublist hsub, fun x hx => by rw [hnext]; exact G.bound x (hsub.subset hx),
    by simp, fun q hq => by cases hq; simpa using hchi, fun q hq hm => G.sep q hq (hsub.subset hm),
    fun q hq => by rw [hnext]; exact G.old q hq, by simp, by simp, by simp⟩, ⟨?_, ?_, by rw [hnext]⟩,
    fun x hx => .inl (hsub.subset hx)⟩
  · intro t ht
    have ht' : t ∈ a ++ k :: b := by
      rcases List.mem_append.mp ht with h1 | h1 <;> simp [h1]
    refine (G.holds t ht').congr fun x hx => hgs x ?_ ?_
    · rintro rfl
      exact G.sep x rfl (mem_refsL.mpr ⟨t, ht', hx⟩)
    · rintro rfl
      rcases List.mem_append.mp ht with h1 | h1
      · exact hnd.2.2 _ (mem_refsL.mpr ⟨t, h1, hx⟩) _ (List.mem_append_left _ (root_mem_refs k)) rfl
      · exact (List.nodup_append.mp hnd.2.1).2.2 _ (root_mem_refs k) _ (mem_refsL.mpr ⟨t, h1, hx⟩) rfl
  · intro x hx hn hne
    refine hgs x (fun e => hne (by rw [e])) ?_
    rintro rfl
    exact hn (mem_refsL.mpr ⟨k, hkm, root_mem_refs k⟩)
  · intro q hq hn
    cases hq
    exact ⟨hbare, hpar i (Ne.symm hki)⟩

end Normalize
end RSM
