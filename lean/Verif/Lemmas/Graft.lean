import Verif.Lemmas.Subproofs

/-! Helper lemmas about adding subtrees to a tree and removing them. -/

namespace RSM
open PyM Tree

namespace Tree

theorem graftL_eq (c : Ref) (xs ks : List Tree) : graftL c xs ks = ks.map (graft c xs) := by
  induction ks with
  | nil => rfl
  | cons k ks ih => simp [graftL, ih]

theorem graft_node (c : Ref) (xs : List Tree) (i : Ref) (ks : List Tree) :
    graft c xs (node i ks) = node i (ks.map (graft c xs) ++ if i = c then xs else []) := by
  rw [graft, graftL_eq]

theorem root_graft (c : Ref) (xs : List Tree) (t : Tree) : (t.graft c xs).root = t.root := by
  cases t; rw [graft_node]; rfl

theorem graft_of_not_mem {c : Ref} {xs : List Tree} {t : Tree} (h : c ∉ t.pre) : t.graft c xs = t := by
  induction t using Tree.induct with
  | _ i ks ih =>
    simp only [pre_node, List.mem_cons, not_or, mem_preL, not_exists, not_and] at h
    rw [graft_node, if_neg (fun e => h.1 e.symm), List.append_nil]
    congr 1
    have : ks.map (graft c xs) = ks.map id :=
      List.map_congr_left fun k hk => ih k hk (h.2 k hk)
    rw [this, List.map_id]

theorem graftL_of_not_mem {c : Ref} {xs ks : List Tree} (h : c ∉ preL ks) : graftL c xs ks = ks := by
  rw [graftL_eq]
  have : ks.map (graft c xs) = ks.map id :=
    List.map_congr_left fun k hk => graft_of_not_mem fun hc => h (mem_preL.mpr ⟨k, hk, hc⟩)
  rw [this, List.map_id]

theorem graftL_append (c : Ref) (xs a b : List Tree) :
    graftL c xs (a ++ b) = graftL c xs a ++ graftL c xs b := by
  simp [graftL_eq]

/-- Two grafts at the same place. -/
theorem graft_graft_same {c : Ref} {xs ys : List Tree} (h : c ∉ preL xs) (t : Tree) :
    (t.graft c xs).graft c ys = t.graft c (xs ++ ys) := by
  induction t using Tree.induct with
  | _ i ks ih =>
    rw [graft_node, graft_node, graft_node, List.map_append, List.map_map]
    congr 1
    have e1 : ks.map (graft c ys ∘ graft c xs) = ks.map (graft c (xs ++ ys)) :=
      List.map_congr_left fun k hk => ih k hk
    rw [e1, List.append_assoc]
    congr 1
    split
    · rw [← graftL_eq, graftL_of_not_mem h]
    · rfl

/-- A graft inside what was grafted. -/
theorem graft_graft_inner {c d : Ref} {xs ys : List Tree} {t : Tree} (h : d ∉ t.pre) :
    (t.graft c xs).graft d ys = t.graft c (graftL d ys xs) := by
  induction t using Tree.induct with
  | _ i ks ih =>
    simp only [pre_node, List.mem_cons, not_or, mem_preL, not_exists, not_and] at h
    rw [graft_node, graft_node, graft_node, List.map_append, List.map_map,
      if_neg (c := i = d) (fun e => h.1 e.symm), List.append_nil]
    congr 1
    have e1 : ks.map (graft d ys ∘ graft c xs) = ks.map (graft c (graftL d ys xs)) :=
      List.map_congr_left fun k hk => ih k hk (h.2 k hk)
    rw [e1]
    congr 1
    split
    · rw [← graftL_eq]
    · rfl

theorem preL_map_perm {f g : Tree → List Ref} {ks : List Tree}
    (h : ∀ k ∈ ks, (f k).Perm (g k)) : (ks.flatMap f).Perm (ks.flatMap g) := by
  induction ks with
  | nil => exact .refl _
  | cons k ks ih =>
    simp only [List.flatMap_cons]
    exact (h k (by simp)).append (ih fun k hk => h k (by simp [hk]))

/-- The nodes after a graft at a node that occurs once. -/
theorem pre_graft_perm {c : Ref} {xs : List Tree} {t : Tree} (hnd : t.pre.Nodup) (hc : c ∈ t.pre) :
    (t.graft c xs).pre.Perm (t.pre ++ preL xs) := by
  induction t using Tree.induct with
  | _ i ks ih =>
    rw [graft_node, pre_node, pre_node, List.cons_append]
    refine List.Perm.cons _ ?_
    rw [preL_append]
    simp only [pre_node, List.nodup_cons] at hnd
    by_cases hic : i = c
    · subst hic
      rw [if_pos rfl, ← graftL_eq, graftL_of_not_mem hnd.1]
    · rw [if_neg hic, preL_nil, List.append_nil]
      have hm : c ∈ preL ks := by
        rcases List.mem_cons.mp hc with h | h
        · exact absurd h.symm hic
        · exact h
      have hnd2 := hnd.2
      clear hnd hc hic
      induction ks with
      | nil => simp at hm
      | cons k ks ih2 =>
        rw [preL_cons, List.nodup_append] at hnd2
        rw [List.map_cons, preL_cons, preL_cons]
        by_cases hk : c ∈ k.pre
        · have hks : c ∉ preL ks := fun h => hnd2.2.2 c hk c h rfl
          rw [← graftL_eq, graftL_of_not_mem hks]
          refine ((ih k (by simp) hnd2.1 hk).append_right _).trans ?_
          rw [List.append_assoc, List.append_assoc]
          exact (List.perm_append_comm).append_left _
        · rw [graft_of_not_mem hk, List.append_assoc]
          refine List.Perm.append_left _ ?_
          refine ih2 (fun k hk => ih k (by simp [hk])) ?_ hnd2.2.1
          rw [preL_cons] at hm
          rcases List.mem_append.mp hm with h | h
          · exact absurd h hk
          · exact h

/-- A subtree of a graft is a graft of a subtree or a subtree of what was grafted. -/
theorem mem_subtrees_graft {c : Ref} {xs : List Tree} {t u : Tree} (hu : u ∈ t.subtrees) :
    u.graft c xs ∈ (t.graft c xs).subtrees := by
  induction t using Tree.induct with
  | _ i ks ih =>
    rcases mem_subtrees_node.mp hu with rfl | ⟨k, hk, huk⟩
    · exact self_mem_subtrees _
    · rw [graft_node]
      exact mem_subtrees_node.mpr (.inr ⟨k.graft c xs, by simp; exact .inl ⟨k, hk, rfl⟩, ih k hk huk⟩)

theorem map_root_graft (c : Ref) (xs ks : List Tree) :
    (ks.map (graft c xs)).map root = ks.map root := by
  rw [List.map_map]
  exact List.map_congr_left fun k _ => root_graft c xs k

end Tree

/-- Appending a detached tree to a node of a tree. -/
theorem IsTree.graft {h h' : Heap} {c : Ref} {it : Tree} {p : Option Ref} {t : Tree}
    (ht : IsTree h p t) (hnd : t.pre.Nodup) (hit : IsTree h' (some c) it)
    (hdis : ∀ z ∈ it.pre, z ∉ t.pre)
    (hcc : h'.children c = h.children c ++ [it.root])
    (hco : ∀ z ∈ t.pre, z ≠ c → h'.children z = h.children z)
    (hpo : ∀ z ∈ t.pre, h'.parent z = h.parent z) : IsTree h' p (t.graft c [it]) := by
  induction t using Tree.induct generalizing p with
  | _ i ks ih =>
    rw [isTree_node] at ht
    rw [graft_node, isTree_node]
    simp only [pre_node, List.nodup_cons] at hnd
    refine ⟨by rw [hpo i (by simp), ht.1], ?_, ?_⟩
    · rw [List.map_append, map_root_graft]
      split
      · rename_i e; subst e; rw [hcc, ht.2.1]; rfl
      · rename_i e; rw [hco i (by simp) e, ht.2.1]; simp
    · intro k hk
      rcases List.mem_append.mp hk with hk' | hk'
      · obtain ⟨k0, hk0, rfl⟩ := List.mem_map.mp hk'
        have hm : ∀ z ∈ k0.pre, z ∈ (Tree.node i ks).pre := fun z hz => by
          rw [pre_node]; exact List.mem_cons_of_mem _ (mem_preL.mpr ⟨k0, hk0, hz⟩)
        have hndk : k0.pre.Nodup := by
          obtain ⟨u, v, huv⟩ := List.append_of_mem hk0
          have := hnd.2
          rw [huv, preL_append, preL_cons] at this
          exact (List.nodup_append.mp (List.nodup_append.mp this).2.1).1
        exact ih k0 hk0 (ht.2.2 k0 hk0) hndk (fun z hz hz' => hdis z hz (hm z hz'))
          (fun z hz => hco z (hm z hz)) (fun z hz => hpo z (hm z hz))
      · split at hk'
        · rename_i e
          subst e
          simp only [List.mem_singleton] at hk'
          subst hk'
          exact hit
        · simp at hk'

/-- Appending a detached tree to a node of the document. -/
theorem Doc.graft {h h' : Heap} {root c : Ref} {it t : Tree} (D : Doc h root t) (hc : c ∈ t.pre)
    (hit : IsTree h none it) (hdis : ∀ z ∈ it.pre, z ∉ t.pre) (hndi : it.pre.Nodup)
    (hb : ∀ z ∈ it.pre, z < h.next) (hok : Nodes.append c it.root h = .ok () h') :
    Doc h' root (t.graft c [it]) := by
  obtain ⟨a1, a2, a3, a4, a5⟩ := C03_append h h' c it.root hok
  have hci : ∀ z ∈ t.pre, z ≠ it.root := by
    rintro z hz rfl; exact hdis _ (root_mem_pre it) hz
  have hp := pre_graft_perm (xs := [it]) D.nodup hc
  constructor
  · rw [root_graft, D.root_eq]
  · refine D.tree.graft D.nodup ?_ hdis a1 (fun z _ hzc => a3 z hzc) (fun z hz => a4 z (hci z hz))
    refine hit.reparent hndi a2 (fun z hz => a3 z ?_) (fun z _ hz => a4 z hz)
    rintro rfl
    exact hdis _ hz hc
  · rw [hp.nodup_iff, List.nodup_append]
    refine ⟨D.nodup, by simpa using hndi, ?_⟩
    rintro z hz _ hz' rfl
    exact hdis z (by simpa using hz') hz
  · intro z hz
    rw [a5.1]
    rcases List.mem_append.mp (hp.mem_iff.mp hz) with hz | hz
    · exact D.bound z hz
    · exact hb z (by simpa using hz)

end RSM
