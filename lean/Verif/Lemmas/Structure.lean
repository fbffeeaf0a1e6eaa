import Verif.Lemmas.ParserPage
import Verif.Lemmas.SourceLinks
import Verif.Spec.Structure

/-! Sources that can be transformed (helper lemmas for C79). -/

namespace RSM

/-- Only the last of the classes may be a subproof. -/
abbrev SubLast (l : List Cls) : Prop := l.Pairwise fun a _ => a ≠ .Subproof

namespace Normalize
open PyM Nodes Heap LTree

/-! ## Subproofs that are last stay last -/

theorem mergeGroup_cls (g : Bool × List LTree) :
    ((mergeGroup g).map fun k => k.attrs.cls).Sublist (g.2.map fun k => k.attrs.cls) := by
  obtain ⟨b, run⟩ := g
  cases b with
  | false => cases run <;> exact List.Sublist.refl _
  | true =>
    cases run with
    | nil => exact List.Sublist.refl _
    | cons k rest =>
      have : (mergeGroup (true, k :: rest)).map (fun k => k.attrs.cls) = [k.attrs.cls] := by
        rw [mergeGroup]
        cases k
        rfl
      rw [this]
      simp

theorem groupRuns_cls {α : Type} (key : α → Bool) : ∀ l : List α, (groupRuns key l).flatMap (·.2) = l
  | [] => rfl
  | x :: xs => by
    have ih := groupRuns_cls key xs
    rw [groupRuns]
    cases hg : groupRuns key xs with
    | nil => rw [hg] at ih; simp at ih; simp [ih]
    | cons g rest =>
      obtain ⟨b, run⟩ := g
      rw [hg] at ih
      simp only
      split
      · rw [List.flatMap_cons] at ih ⊢; rw [← ih]; rfl
      · rw [List.flatMap_cons, ih]; rfl

theorem mergeL_cls (ks : List LTree) : ((mergeL ks).map fun k => k.attrs.cls).Sublist (ks.map fun k => k.attrs.cls) := by
  have : ∀ gs : List (Bool × List LTree), ((gs.flatMap mergeGroup).map fun k => k.attrs.cls).Sublist
      ((gs.flatMap (·.2)).map fun k => k.attrs.cls) := by
    intro gs
    induction gs with
    | nil => exact List.Sublist.refl _
    | cons g gs ih =>
      rw [List.flatMap_cons, List.flatMap_cons, List.map_append, List.map_append]
      exact (mergeGroup_cls g).append ih
  have h := this (groupRuns isT ks)
  rw [groupRuns_cls] at h
  exact h

theorem stripL_cls (ks : List LTree) : (stripL ks).map (fun k => k.attrs.cls) = ks.map fun k => k.attrs.cls := by
  have h1 : (mapHead lstrip ks).map (fun k => k.attrs.cls) = ks.map fun k => k.attrs.cls := by
    cases ks <;> simp [mapHead]
  rw [← h1]
  unfold stripL
  generalize mapHead lstrip ks = l
  rcases List.eq_nil_or_concat l with rfl | ⟨a, k, rfl⟩
  · rfl
  · rw [List.concat_eq_append, mapLast_append]; simp

theorem shaped_subLast {n0 a ks ks4} (sh : Shaped n0 a ks ks4) (hc : a.cls = .Step) (h : SubLast (ks.map fun k => k.attrs.cls)) :
    SubLast (ks4.map fun k => k.attrs.cls) := by
  cases sh with
  | plain _ =>
    rw [List.map_map]
    have : (fun k : LTree => k.attrs.cls) ∘ mapIfText squeezeText = fun k => k.attrs.cls := by
      funext k; simp
    rw [this, stripL_cls]
    exact List.Pairwise.sublist (mergeL_cls ks) h
  | construct h1 => rw [hc] at h1; exact absurd h1 (by decide)

theorem Norm.subLast {n0 ts ts'} (N : Norm n0 ts ts') (h : SubLast (ts.map fun k => k.attrs.cls)) :
    SubLast (ts'.map fun k => k.attrs.cls) := by
  induction N with
  | nil => exact h
  | @cons i a ks ts ks4 ks5 ts' ex sh N4 Nt sp tl ih4 iht =>
    rw [List.map_cons] at h
    have h0 := List.pairwise_cons.mp h
    have hi := iht h0.2
    rw [List.map_cons, List.map_append]
    refine List.pairwise_cons.mpr ⟨fun b hb => ?_, List.pairwise_append.mpr ⟨?_, hi, fun x hx y _ => ?_⟩⟩
    · intro (hc : a.cls = .Subproof)
      cases ts with
      | nil =>
        have := Nt.nil_iff
        subst this
        rcases sp with ⟨e, _⟩ | ⟨_, rfl⟩
        · cases e
        · cases hb
      | cons t ts => exact h0.1 t.attrs.cls (by simp) hc
    · rcases sp with ⟨_, e, he, rfl⟩ | ⟨_, rfl⟩
      · exact List.pairwise_singleton _ _
      · exact List.Pairwise.nil
    · rcases sp with ⟨_, e, he, rfl⟩ | ⟨_, rfl⟩
      · rw [List.map_cons, List.map_nil, List.mem_singleton] at hx
        rw [hx]
        exact (by decide : Cls.Text ≠ .Subproof)
      · cases hx

mutual
/-- One mark for each step in which something comes after a subproof. -/
def subT : LTree → List Unit
  | .node _ a ks => if a.cls.isSub .Text then [] else
      (if a.cls = .Step ∧ ¬ SubLast (ks.map fun k => k.attrs.cls) then [()] else []) ++ subL ks
def subL : List LTree → List Unit
  | [] => []
  | t :: ts => subT t ++ subL ts
end

theorem subL_eq : ∀ ts : List LTree, subL ts = ts.flatMap subT
  | [] => by rw [subL]; rfl
  | t :: ts => by rw [subL, subL_eq ts]; rfl

theorem subT_ignores : Ignores subT where
  text k hk := by
    obtain ⟨i, a, ks⟩ := k
    have ha : a.cls.isSub .Text = true := hk
    rw [subT, if_pos ha]
  kw n w := by
    rw [kwTree, subT, if_neg (by decide), subL, subL, subT, if_pos (show (textAttrs w).cls.isSub .Text = true from rfl)]
    rfl

theorem Norm.sub {n0 ts ts'} (N : Norm n0 ts ts') (hw : subL ts = []) : subL ts' = [] := by
  induction N with
  | nil => rfl
  | @cons i a ks ts ks4 ks5 ts' ex sh N4 _ sp _ ih4 iht =>
    rw [subL, List.append_eq_nil_iff] at hw
    have hex : ex.flatMap subT = [] := by
      rcases sp with ⟨_, e, he, rfl⟩ | ⟨_, rfl⟩
      · simp only [List.flatMap_cons, List.flatMap_nil, List.append_nil]
        exact subT_ignores.text _ (by rfl)
      · rfl
    rw [subL, subL_eq, List.flatMap_append, hex, List.nil_append, ← subL_eq, iht hw.2, List.append_nil, subT]
    show (if a.cls.isSub .Text then [] else
      (if a.cls = .Step ∧ ¬ SubLast (ks5.map fun k => k.attrs.cls) then [()] else []) ++ subL ks5) = _
    by_cases hT : a.cls.isSub .Text = true
    · rw [if_pos hT]
    rw [if_neg hT]
    have hw1 := hw.1
    rw [subT, if_neg hT, List.append_eq_nil_iff] at hw1
    have h4 : subL ks4 = [] := by rw [subL_eq, subT_ignores.shaped sh, ← subL_eq]; exact hw1.2
    rw [ih4 h4, List.append_nil, if_neg]
    rintro ⟨hc, hk⟩
    refine hk (N4.subLast (shaped_subLast sh hc ?_))
    by_contra hn
    have := hw1.1
    rw [if_pos ⟨hc, hn⟩] at this
    cases this

theorem sub_holds {h : Heap} : ∀ {t : LTree} {p}, Holds h p t →
    (subT t = [] ↔ ∀ x ∈ t.tree.pre, (h.get x).cls = .Step → SubLast ((h.children x).map fun y => (h.get y).cls)) := by
  intro t
  induction t using LTree.rec (motive_2 := fun ts => ∀ {p}, HoldsL h p ts →
    ((subL ts = [] ↔ ∀ x ∈ Tree.preL (treeL ts), (h.get x).cls = .Step → SubLast ((h.children x).map fun y => (h.get y).cls)) ∧
      (ts.map root).map (fun y => (h.get y).cls) = ts.map fun k => k.attrs.cls)) with
  | node i a ks ih =>
    intro p H
    have hcls : (h.get i).cls = a.cls := H.cls
    have hch : h.children i = ks.map root := H.children
    obtain ⟨ih, hroots⟩ := ih H.2.2.2
    rw [LTree.tree, Tree.pre, subT]
    by_cases hT : a.cls.isSub .Text = true
    · have hk : ks = [] := H.text_kids hT
      subst hk
      rw [if_pos hT]
      simp [treeL, hch]
    · rw [if_neg hT, List.append_eq_nil_iff, ih]
      simp only [List.mem_cons, forall_eq_or_imp, hcls, hch, hroots]
      refine and_congr_left fun _ => ?_
      by_cases hc : a.cls = .Step <;> by_cases hk : SubLast (ks.map fun k => k.attrs.cls) <;> simp [hc, hk]
  | nil => simp [subL, treeL]
  | cons t ts iht ihts =>
    rename_i H
    obtain ⟨g1, g2⟩ := ihts H.2
    refine ⟨?_, ?_⟩
    · rw [subL, treeL, Tree.preL, List.append_eq_nil_iff, iht H.1, g1]
      simp only [List.mem_append, or_imp, forall_and]
    · rw [List.map_cons, List.map_cons, List.map_cons, g2]
      obtain ⟨i, a, ks⟩ := t
      exact congrArg (· :: _) H.1.cls

/-- Subproofs that are the last in their steps stay so. -/
theorem sub_run {h h' : Heap} {root : Ref} {t t' : Tree} (D : Doc h root t) {fuel : Nat}
    (hfuel : 4 * t.size < fuel) (hrun : normalizeText fuel root h = .ok () h') (D' : Doc h' root t')
    (he : ∀ x ∈ t.pre, (h.get x).cls = .Step → SubLast ((h.children x).map fun y => (h.get y).cls)) :
    ∀ x ∈ t'.pre, (h'.get x).cls = .Step → SubLast ((h'.children x).map fun y => (h'.get y).cls) := by
  obtain ⟨t5, N, H, D5, _⟩ := run_inv D hfuel hrun
  have e := D'.unique D5
  subst e
  have Hl : Holds h none (label h t) := (good_label D).holds _ (by simp)
  have h1 : subT (label h t) = [] := (sub_holds Hl).mpr (by rw [tree_label]; exact he)
  have h2 := N.sub (by rw [subL, subL, h1]; rfl)
  rw [subL, subL, List.append_nil] at h2
  exact (sub_holds H).mp h2

end Normalize

namespace Parser
open PyM Nodes Heap

/-! ## Subproofs before normalisation -/

theorem classOf_step {kind : Str} (h : classOf kind = .Step) : kind = "step".toList := by
  unfold classOf at h
  split at h
  · cases h
  split at h
  · cases h
  cases hl : classTable.lookup kind with
  | none => rw [hl] at h; cases h
  | some c =>
    rw [hl] at h
    have h : c = .Step := h
    subst h
    have : ∀ q ∈ classTable, q.2 = .Step → q.1 = "step".toList := by decide +kernel
    exact this _ (mem_of_lookup hl) rfl

theorem classOf_subproof {kind : Str} (h : classOf kind = .Subproof) : kind = "subproof".toList := by
  unfold classOf at h
  split at h
  · cases h
  split at h
  · cases h
  cases hl : classTable.lookup kind with
  | none => rw [hl] at h; cases h
  | some c =>
    rw [hl] at h
    have h : c = .Subproof := h
    subst h
    have : ∀ q ∈ classTable, q.2 = .Subproof → q.1 = "subproof".toList := by decide +kernel
    exact this _ (mem_of_lookup hl) rfl

theorem SubproofLast.pairwise : ∀ {ps : List Part}, SubproofLast ps → (ps.map subP).Pairwise fun a _ => a = false
  | [], _ => .nil
  | .node kind d qs :: ps, h => by
    rw [List.map_cons]
    refine List.pairwise_cons.mpr ⟨fun b hb => ?_, SubproofLast.pairwise fun a d' qs' b e => h (.node kind d qs :: a) d' qs' b (by rw [e]; rfl)⟩
    cases hs : subP (.node kind d qs) with
    | false => rfl
    | true =>
      have hk := classOf_subproof (of_decide_eq_true hs)
      subst hk
      have := h [] d qs ps rfl
      subst this
      cases hb

/-- What the source has to say about subproofs. -/
abbrev SubsLast (src : List Part) : Prop := ∀ d ps, .node "step".toList d ps ∈ src → SubproofLast ps

theorem Origin.subLast {src : List Part} (hs : SubsLast src) {n : NodeRec} {ks : List Item} (o : Origin src n ks)
    (hn : n.cls = .Step) : SubLast (ks.map fun i => i.rec'.cls) := by
  cases o with
  | part hm hc _ _ hk =>
    rw [hn] at hc
    have hkd := classOf_step hc.symm
    subst hkd
    have h := List.Pairwise.sublist (hk.2 rfl) (hs _ _ hm).pairwise
    rw [List.pairwise_map] at h
    refine List.pairwise_map.mpr ?_
    exact h.imp fun {a _} (e : subI a = false) => of_decide_eq_false e
  | claim c => cases hn
  | asis h _ _ => exact .nil
  | code => exact .nil
  | entry _ hb => exact .nil

theorem built_cls {h : Heap} {lo hi : Nat} {p : Option Ref} : ∀ {items : List Item} {rs : List Ref},
    BuiltL h lo hi p items rs → rs.map (fun y => (h.get y).cls) = items.map fun i => i.rec'.cls
  | items, [], B => by
    cases items with
    | nil => rfl
    | cons i is => obtain ⟨n, ks⟩ := i; rw [BuiltL] at B; obtain ⟨_, _, e, _⟩ := B; cases e
  | items, r :: rs, B => by
    obtain ⟨n, is, rest, rfl, _, _, e, _, B1, B2⟩ := builtL_cons B
    rw [List.map_cons, List.map_cons, built_cls B2]
    exact congrArg (· :: _) (bare_field NodeRec.cls (fun _ => rfl) e)

/-- Without bibliographies, all roots count. -/
theorem rootsL_all {h : Heap} : ∀ {ks : List Tree}, (∀ k ∈ ks, isBib h k.root = false) → rootsL h ks = ks.map Tree.root
  | [], _ => rfl
  | k :: ks, hk => by
    rw [rootsL_cons, hk k (by simp), if_neg (by simp), rootsL_all fun l hl => hk l (by simp [hl])]
    rfl

theorem forest_parent {h : Heap} {p : Option Ref} : ∀ {ks : List Tree}, IsForest h p ks → ∀ k ∈ ks, h.parent k.root = p
  | k :: ks, T, l, hl => by
    rw [IsForest] at T
    rcases List.mem_cons.mp hl with rfl | hl
    · obtain ⟨r, ls⟩ := l
      have := T.1
      rw [IsTree] at this
      exact this.1
    · exact forest_parent T.2 l hl

theorem built_subs {h : Heap} {lo hi : Nat} {src : List Part} (hs : SubsLast src) :
    ∀ {ts : List Tree} {p : Ref} {items : List Item},
    IsForest h (some p) ts → BuiltL h lo hi (some p) items (rootsL h ts) → BibsFine src h ts →
    OriginL src (h.get p).cls items → ∀ x ∈ Tree.preL ts, (h.get x).cls = .Step →
      SubLast ((h.children x).map fun y => (h.get y).cls)
  | [], p, items, _, B, _, _, x, hx => by rw [Tree.preL] at hx; cases hx
  | .node y ks :: ts, p, items, T, B, bl, U, x, hx => by
    rw [IsForest] at T
    have T1 := T.1
    rw [IsTree] at T1
    rw [rootsL_cons, Tree.root] at B
    have mt : ∀ z ∈ Tree.preL ts, z ∈ Tree.preL (.node y ks :: ts) := fun z hz => by
      rw [Tree.preL]; exact List.mem_append_right _ hz
    have mk : ∀ z ∈ Tree.preL ks, z ∈ Tree.preL (.node y ks :: ts) := fun z hz => by
      rw [Tree.preL, Tree.pre]; exact List.mem_append_left _ (List.mem_cons_of_mem _ hz)
    have my : y ∈ Tree.preL (.node y ks :: ts) := by
      rw [Tree.preL, Tree.pre]; exact List.mem_append_left _ List.mem_cons_self
    have bt : BibsFine src h ts := ⟨fun z hz => bl.entries z (mt z hz), fun z hz => bl.top z (mt z hz), fun z hz => bl.bare z (mt z hz),
      fun z hz => bl.kw z (mt z hz)⟩
    have bk : BibsFine src h ks := ⟨fun z hz => bl.entries z (mk z hz), fun z hz => bl.top z (mk z hz), fun z hz => bl.bare z (mk z hz),
      fun z hz => bl.kw z (mk z hz)⟩
    rw [Tree.preL, Tree.pre, List.mem_append, List.mem_cons] at hx
    cases hb : isBib h y with
    | true =>
      rw [hb, if_pos rfl] at B
      have hcls : (h.get y).cls = .Bibliography := of_decide_eq_true hb
      rcases hx with (rfl | hx) | hx
      · intro hc; rw [hcls] at hc; cases hc
      · intro hc
        rw [bibitems_pre T1.2.2 (fun k hk => by
          obtain ⟨c, n, _, hn, e⟩ := bl.entries y my hb k.root (by rw [T1.2.1]; exact List.mem_map_of_mem hk)
          exact (bare_field NodeRec.cls (fun _ => rfl) e).trans (bibRecord_ok hn).2) x hx] at hc
        cases hc
      · exact built_subs hs T.2 B bt U x hx
    | false =>
      rw [hb, if_neg (by simp)] at B
      obtain ⟨n, is, rest, rfl, _, _, e, _, B1, B2⟩ := builtL_cons B
      rw [skids_tree T.1 hb] at B1
      rw [OriginL, OriginI] at U
      have hcl : (h.get y).cls = n.cls := bare_field NodeRec.cls (fun _ => rfl) e
      rcases hx with (rfl | hx) | hx
      · intro hc
        have hsl := U.1.1.subLast hs (hcl.symm.trans hc)
        have hall : rootsL h ks = ks.map Tree.root := by
          refine rootsL_all fun k hk => ?_
          cases hkb : isBib h k.root with
          | false => rfl
          | true =>
            obtain ⟨q, hq, hm⟩ := bk.top _ (Tree.mem_preL.mpr ⟨k, hk, Tree.root_mem_pre _⟩) hkb
            rw [forest_parent T1.2.2 k hk] at hq
            cases hq
            rw [hc] at hm
            cases hm
        rw [hall] at B1
        rw [T1.2.1, built_cls B1]
        exact hsl
      · refine built_subs hs T1.2.2 B1 bk ?_ x hx
        rw [hcl]
        exact U.1.2.2
      · exact built_subs hs T.2 B2 bt U.2 x hx

/-- In the tree of a manuscript, a subproof is the last in its step, if it is so in the source. -/
theorem parse_subs {c : Cst} {fuel : Nat} {s s' : ParserState} {r : Ref} {t : Tree} (S : Source c) (F : Forest s.heap)
    (hf : 12 * c.size < fuel) (h : parse fuel c s = .ok r s') (DT : Doc s'.heap r t)
    (hs : SubsLast (walks (sourceParts c))) : ∀ x ∈ t.pre, (s'.heap.get x).cls = .Step →
      SubLast ((s'.heap.children x).map fun y => (s'.heap.get y).cls) := by
  have R := parse_run S hf F
  cases he : evRoot c with
  | error e =>
    rw [he] at R
    obtain ⟨_, h1, _⟩ := R
    rw [h1] at h; cases h
  | ok no =>
    obtain ⟨n, o⟩ := no
    rw [he] at R
    obtain ⟨fr, hcls, s1, t0, D, I, P, N, hfuel, hnew, hold, h1⟩ := R
    rw [h1] at h
    cases hn : Normalize.normalizeText fuel s.heap.next s1.heap with
    | err e h' => rw [hn] at h; cases h
    | ok u h' =>
      rw [hn] at h
      cases h
      obtain ⟨t6, D6, -⟩ := Normalize.C57_nodes_kept D hfuel hn
      have e6 := DT.unique (src_doc (v := c.text) D6)
      subst e6
      have h0 : ∀ x ∈ t0.pre, (s1.heap.get x).cls = .Step → SubLast ((s1.heap.children x).map fun y => (s1.heap.get y).cls) := by
        obtain ⟨x0, ks⟩ := t0
        obtain ⟨rfl, T2, hb, hE, hO⟩ := loop_built S he fr hcls D I P N hnew
        intro x hx hc
        rw [Tree.pre] at hx
        rcases List.mem_cons.mp hx with rfl | hx
        · rw [I.root_cls] at hc; cases hc
        · exact built_subs hs T2 hb hE hO x hx hc
      intro x hx hc
      have hc : ((setSrc h' s.heap.next c.text).get x).cls = .Step := hc
      rw [src_field NodeRec.cls (fun _ _ => rfl)] at hc
      show SubLast (((setSrc h' s.heap.next c.text).children x).map fun y => ((setSrc h' s.heap.next c.text).get y).cls)
      rw [src_children, show (fun y => ((setSrc h' s.heap.next c.text).get y).cls) = fun y => (h'.get y).cls from
        funext fun y => src_field NodeRec.cls (fun _ _ => rfl) y]
      exact Normalize.sub_run D hfuel hn D6 h0 x hx hc

end Parser
end RSM
