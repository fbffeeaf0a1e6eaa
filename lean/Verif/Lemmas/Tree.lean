import Verif.Spec.Tree

/-! Helper lemmas about trees. -/

namespace RSM
namespace Tree

/-- Induction on trees with the hypothesis for every child. -/
theorem induct {P : Tree → Prop} (h : ∀ i ks, (∀ k ∈ ks, P k) → P (node i ks)) : ∀ t, P t := by
  intro t
  refine Tree.rec (motive_1 := P) (motive_2 := fun ks => ∀ k ∈ ks, P k) ?_ ?_ ?_ t
  · intro i ks ih; exact h i ks ih
  · simp
  · intro t ts h1 h2 k hk
    rcases List.mem_cons.mp hk with rfl | hk
    · exact h1
    · exact h2 k hk

theorem preL_eq (ts : List Tree) : preL ts = ts.flatMap pre := by
  induction ts with
  | nil => rfl
  | cons t ts ih => simp [preL, ih]

theorem subtreesL_eq (ts : List Tree) : subtreesL ts = ts.flatMap subtrees := by
  induction ts with
  | nil => rfl
  | cons t ts ih => simp [subtreesL, ih]

@[simp] theorem preL_append (a b : List Tree) : preL (a ++ b) = preL a ++ preL b := by
  simp [preL_eq]

@[simp] theorem preL_nil : preL [] = [] := rfl
@[simp] theorem preL_cons (t ts) : preL (t :: ts) = t.pre ++ preL ts := rfl
@[simp] theorem pre_node (i ks) : (node i ks).pre = i :: preL ks := rfl
@[simp] theorem root_node (i ks) : (node i ks).root = i := rfl
@[simp] theorem kids_node (i ks) : (node i ks).kids = ks := rfl
@[simp] theorem size_node (i ks) : (node i ks).size = sizeL ks + 1 := rfl
@[simp] theorem sizeL_nil : sizeL [] = 0 := rfl
@[simp] theorem sizeL_cons (t ts) : sizeL (t :: ts) = t.size + sizeL ts := rfl

theorem pre_eq (t : Tree) : t.pre = t.root :: preL t.kids := by cases t; rfl

theorem length_pre (t : Tree) : t.pre.length = t.size := by
  induction t using Tree.induct with
  | _ i ks ih =>
    simp only [pre_node, List.length_cons, size_node, Nat.add_right_cancel_iff]
    clear i
    induction ks with
    | nil => rfl
    | cons k ks ih2 =>
      simp only [preL_cons, List.length_append, sizeL_cons]
      rw [ih k (by simp), ih2 (fun k' hk' => ih k' (by simp [hk']))]

theorem length_preL (ts : List Tree) : (preL ts).length = sizeL ts := by
  induction ts with
  | nil => rfl
  | cons k ks ih => simp [length_pre, ih]

theorem sizeL_append (a b : List Tree) : sizeL (a ++ b) = sizeL a + sizeL b := by
  simp [← length_preL]

theorem size_pos (t : Tree) : 0 < t.size := by cases t; simp

theorem root_mem_pre (t : Tree) : t.root ∈ t.pre := by cases t; simp

theorem mem_preL {r : Ref} {ts : List Tree} : r ∈ preL ts ↔ ∃ t ∈ ts, r ∈ t.pre := by
  simp [preL_eq]

theorem pre_eq_subtrees_map (t : Tree) : t.pre = t.subtrees.map root := by
  induction t using Tree.induct with
  | _ i ks ih =>
    simp only [pre_node, subtrees, List.map_cons, root_node, List.cons.injEq, true_and]
    clear i
    induction ks with
    | nil => rfl
    | cons k ks ih2 =>
      simp only [preL_cons, subtreesL, List.map_append]
      rw [ih k (by simp), ih2 (fun k' hk' => ih k' (by simp [hk']))]

theorem mem_subtreesL {s : Tree} {ts : List Tree} :
    s ∈ subtreesL ts ↔ ∃ t ∈ ts, s ∈ t.subtrees := by
  simp [subtreesL_eq]

theorem self_mem_subtrees (t : Tree) : t ∈ t.subtrees := by cases t; simp [subtrees]

theorem mem_subtrees_node {s : Tree} {i ks} :
    s ∈ (node i ks).subtrees ↔ s = node i ks ∨ ∃ k ∈ ks, s ∈ k.subtrees := by
  simp [subtrees, mem_subtreesL]

theorem mem_pre_of_subtree {s t : Tree} (hs : s ∈ t.subtrees) {r} (hr : r ∈ s.pre) : r ∈ t.pre := by
  induction t using Tree.induct with
  | _ i ks ih =>
    rcases mem_subtrees_node.mp hs with rfl | ⟨k, hk, hsk⟩
    · exact hr
    · simp only [pre_node, List.mem_cons, mem_preL]
      exact .inr ⟨k, hk, ih k hk hsk⟩

theorem pre_infix {t u : Tree} (hu : u ∈ t.subtrees) : u.pre <:+: t.pre := by
  induction t using Tree.induct with
  | _ i ks ih =>
    rcases mem_subtrees_node.mp hu with rfl | ⟨k, hk, hsk⟩
    · exact List.infix_rfl
    · refine (ih k hk hsk).trans ?_
      obtain ⟨a, b, rfl⟩ := List.append_of_mem hk
      exact ⟨i :: preL a, preL b, by simp [preL_append, preL_cons]⟩

theorem subtrees_trans {s u t : Tree} (hu : u ∈ t.subtrees) (hs : s ∈ u.subtrees) :
    s ∈ t.subtrees := by
  induction t using Tree.induct with
  | _ i ks ih =>
    rcases mem_subtrees_node.mp hu with rfl | ⟨k, hk, huk⟩
    · exact hs
    · exact mem_subtrees_node.mpr (.inr ⟨k, hk, ih k hk huk⟩)

/-- The children of a node come after it in document order. -/
theorem kid_after {t : Tree} (hnd : t.pre.Nodup) {i ks} (hu : node i ks ∈ t.subtrees) {a b}
    (hab : t.pre = a ++ i :: b) {c} (hc : c ∈ ks.map root) : c ∉ a := by
  obtain ⟨p, q, hpq⟩ := pre_infix hu
  rw [pre_node] at hpq
  have hc' : c ∈ preL ks := by
    obtain ⟨k, hk, rfl⟩ := List.mem_map.mp hc
    exact mem_preL.mpr ⟨k, hk, root_mem_pre k⟩
  have hi : i ∉ p := by
    rw [← hpq, List.append_assoc] at hnd
    exact fun hm => (List.nodup_append.mp hnd).2.2 _ hm i (by simp) rfl
  have hi' : i ∉ a := by
    rw [hab] at hnd
    exact fun hm => (List.nodup_append.mp hnd).2.2 _ hm i (by simp) rfl
  have : a = p := by
    have e : a ++ i :: b = p ++ i :: (preL ks ++ q) := by
      rw [← hab, ← hpq]; simp
    rcases List.append_eq_append_iff.mp e with ⟨as, h1, h2⟩ | ⟨bs, h1, h2⟩
    · cases as with
      | nil => simpa using h1.symm
      | cons x as =>
        simp only [List.cons_append, List.cons.injEq] at h2
        exact absurd (by rw [h1, h2.1]; simp) hi
    · cases bs with
      | nil => simpa using h1
      | cons x as =>
        simp only [List.cons_append, List.cons.injEq] at h2
        exact absurd (by rw [h1, h2.1]; simp) hi'
  subst this
  rw [← hpq, List.append_assoc] at hnd
  exact fun hm => (List.nodup_append.mp hnd).2.2 _ hm c (by simp [hc']) rfl

end Tree

open Tree

theorem isForest_iff {h : Heap} {p} {ts : List Tree} :
    IsForest h p ts ↔ ∀ t ∈ ts, IsTree h p t := by
  induction ts with
  | nil => simp [IsForest]
  | cons t ts ih => simp [IsForest, ih]

theorem isTree_node {h : Heap} {p i ks} :
    IsTree h p (.node i ks) ↔
      h.parent i = p ∧ h.children i = ks.map root ∧ ∀ k ∈ ks, IsTree h (some i) k := by
  simp [IsTree, isForest_iff]

theorem IsTree.parent_root {h : Heap} {p t} (ht : IsTree h p t) : h.parent t.root = p := by
  cases t; exact ht.1

theorem IsTree.children_root {h : Heap} {p t} (ht : IsTree h p t) :
    h.children t.root = t.kids.map root := by
  cases t; exact ht.2.1

theorem IsTree.subtree {h : Heap} {p t} (ht : IsTree h p t) {s} (hs : s ∈ t.subtrees) :
    ∃ q, IsTree h q s := by
  induction t using Tree.induct generalizing p with
  | _ i ks ih =>
    rcases mem_subtrees_node.mp hs with rfl | ⟨k, hk, hsk⟩
    · exact ⟨p, ht⟩
    · exact ih k hk ((isTree_node.mp ht).2.2 k hk) hsk

/-- Tree structure depends only on the links of the nodes in the tree. -/
theorem IsTree.congr {h h' : Heap} {p t} (ht : IsTree h p t)
    (hp : ∀ r ∈ t.pre, h'.parent r = h.parent r)
    (hc : ∀ r ∈ t.pre, h'.children r = h.children r) : IsTree h' p t := by
  induction t using Tree.induct generalizing p with
  | _ i ks ih =>
    rw [isTree_node] at ht ⊢
    refine ⟨by rw [hp i (by simp), ht.1], by rw [hc i (by simp), ht.2.1], ?_⟩
    intro k hk
    refine ih k hk (ht.2.2 k hk) (fun r hr => hp r ?_) (fun r hr => hc r ?_) <;>
    · simp only [pre_node, List.mem_cons, mem_preL]; exact .inr ⟨k, hk, hr⟩

/-- `traverse` on a forest on the stack. -/
theorem traverse_forest (h : Heap) (cond : Ref → Bool) (ts : List Tree)
    (hf : ∀ t ∈ ts, ∃ p, IsTree h p t) (fuel : Nat) (hfuel : sizeL ts < fuel) :
    h.traverse cond fuel (ts.map root) = some ((preL ts).filter cond) := by
  induction fuel generalizing ts with
  | zero => omega
  | succ n ih =>
    cases ts with
    | nil => rfl
    | cons t ts =>
      obtain ⟨i, ks⟩ := t
      obtain ⟨p, ht⟩ := hf _ (List.mem_cons_self ..)
      have ht' := isTree_node.mp ht
      rw [List.map_cons, Heap.traverse, root_node, ht'.2.1, ← List.map_append]
      rw [ih (ks ++ ts)]
      · simp only [preL_append, List.filter_append, preL_cons, pre_node, List.cons_append]
        rw [List.filter_cons]
        split <;> simp
      · intro t ht2
        rcases List.mem_append.mp ht2 with h1 | h1
        · exact ⟨_, ht'.2.2 t h1⟩
        · exact hf t (by simp [h1])
      · simp only [sizeL_cons, size_node] at hfuel
        rw [sizeL_append]; omega

theorem traverse_tree {h : Heap} (cond : Ref → Bool) {p t} (ht : IsTree h p t) {fuel : Nat}
    (hfuel : t.size < fuel) :
    h.traverse cond fuel [t.root] = some (t.pre.filter cond) := by
  have := traverse_forest h cond [t] (by simpa using ⟨p, ht⟩) fuel (by simpa using hfuel)
  simpa using this

end RSM
