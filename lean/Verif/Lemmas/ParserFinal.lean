import Verif.Lemmas.NormSkel
import Verif.Lemmas.ParserSay2
import Verif.Lemmas.ParserWhole
import Verif.Props.Normalize

/-! The document that the parser returns (helper lemmas). -/

namespace RSM
namespace Parser
open PyM Nodes Heap

/-! ## The outline -/

mutual
/-- The outline of a labelled tree. -/
def outT (f : NodeRec → NodeRec) : Normalize.LTree → List Outline
  | .node _ a ks => if leftOut a then [] else [.node (lookR (f a)) (outTL f ks)]
def outTL (f : NodeRec → NodeRec) : List Normalize.LTree → List Outline
  | [] => []
  | t :: ts => outT f t ++ outTL f ts
end

theorem outTL_append (f : NodeRec → NodeRec) : ∀ a b, outTL f (a ++ b) = outTL f a ++ outTL f b
  | [], b => by rw [outTL]; rfl
  | t :: a, b => by rw [List.cons_append, outTL, outTL, outTL_append f a b, List.append_assoc]

theorem leftOut_cls {a b : NodeRec} (h : a.cls = b.cls) : leftOut a = leftOut b := by
  unfold leftOut; rw [h]

mutual
theorem outT_skel {f g : NodeRec → NodeRec} (hf : ∀ a, (f a).cls = a.cls) : ∀ t : Normalize.LTree,
    outTL g (Normalize.skel f t) = outT (g ∘ f) t
  | .node i a ks => by
    rw [Normalize.skel, outT]
    by_cases h : a.cls.isSub .Text = true ∨ a.cls = .Keyword
    · rw [if_pos h, outTL, if_pos]
      unfold leftOut
      rcases h with h | h
      · rw [h]; rfl
      · rw [decide_eq_true h]; simp
    · rw [if_neg h, outTL, outTL, outT, List.append_nil, leftOut_cls (hf a)]
      split
      · rfl
      · rw [outTL_skel hf ks]; rfl
theorem outTL_skel {f g : NodeRec → NodeRec} (hf : ∀ a, (f a).cls = a.cls) : ∀ ts : List Normalize.LTree,
    outTL g (Normalize.skelL f ts) = outTL (g ∘ f) ts
  | [] => by rw [Normalize.skelL, outTL, outTL]
  | t :: ts => by rw [Normalize.skelL, outTL_append, outTL, outT_skel hf t, outTL_skel hf ts]
end

theorem norm_out {n0 ts ts'} (N : Normalize.Norm n0 ts ts') : outTL id ts' = outTL Normalize.unescAttrs ts := by
  have h1 := outTL_skel (f := id) (g := id) (fun _ => rfl) ts'
  have h2 := outTL_skel (f := Normalize.unescAttrs) (g := id) (fun _ => rfl) ts
  rw [N.skel, h2] at h1
  exact h1.symm

mutual
theorem outline_holds {h : Heap} : ∀ {t : Normalize.LTree} {p}, Normalize.Holds h p t →
    outlineOf h t.tree = outT id t
  | .node i a ks, p, H => by
    obtain ⟨_, _, ha, hk⟩ := H
    rw [Normalize.LTree.tree, outlineOf, outT, outline_holdsL hk]
    have hl : look h i = lookR (id a) := by rw [← ha]; rfl
    have hc : (h.get i).cls = a.cls := by rw [← ha]; rfl
    rw [hl, hc]
    unfold Heap.isInst leftOut
    rw [hc]
    by_cases h1 : a.cls.isSub .Text = true
    · rw [if_pos (.inl h1), h1]; rfl
    by_cases h2 : a.cls = .Keyword
    · rw [if_pos (.inr (.inl h2)), decide_eq_true h2, if_pos (by simp)]
    by_cases h3 : a.cls = .Bibliography
    · rw [if_pos (.inr (.inr h3)), decide_eq_true h3, if_pos (by simp)]
    · rw [if_neg (by rintro (h | h | h); exacts [h1 h, h2 h, h3 h]), if_neg (by simp [h1, h2, h3])]
theorem outline_holdsL {h : Heap} : ∀ {ts : List Normalize.LTree} {p}, Normalize.HoldsL h p ts →
    outlinesOf h (Normalize.LTree.treeL ts) = outTL id ts
  | [], p, _ => by rw [Normalize.LTree.treeL, outlinesOf, outTL]
  | t :: ts, p, H => by
    rw [Normalize.LTree.treeL, outlinesOf, outTL, outline_holds H.1, outline_holdsL H.2]
end

theorem nbare_of_bare {a n : NodeRec} {p : Option Ref} (h : bare a = bare { n with parent := p }) :
    Normalize.bare a = Normalize.bare n := by
  have := congrArg Normalize.bare h
  exact this

theorem bare_field {β : Type} (g : NodeRec → β) (hg : ∀ n, g (Normalize.bare n) = g n) {a n : NodeRec} {p : Option Ref}
    (h : bare a = bare { n with parent := p }) : g a = g n := by
  rw [← hg a, ← hg n, nbare_of_bare h]

theorem builtL_nil {h : Heap} {lo hi : Nat} {p : Option Ref} {items : List Item} (B : BuiltL h lo hi p items []) :
    items = [] := by
  cases items with
  | nil => rfl
  | cons i is =>
    rw [BuiltL] at B
    obtain ⟨r, rest, e, _⟩ := B
    cases e

theorem builtL_cons {h : Heap} {lo hi : Nat} {p : Option Ref} {items : List Item} {r : Ref} {rs : List Ref}
    (B : BuiltL h lo hi p items (r :: rs)) : ∃ n ks is, items = .node n ks :: is ∧ lo ≤ r ∧ r < hi ∧
      bare (h.get r) = bare { n with parent := p } ∧ n.cls ≠ .Bibliography ∧
      BuiltL h lo hi (some r) ks (skids h r) ∧ BuiltL h lo hi p is rs := by
  cases items with
  | nil => rw [BuiltL] at B; cases B
  | cons i is =>
    rw [BuiltL] at B
    obtain ⟨r', rest, e, b1, b2⟩ := B
    cases e
    obtain ⟨n, ks⟩ := i
    rw [Built] at b1
    exact ⟨n, ks, is, rfl, b1.1, b1.2.1, b1.2.2.1, b1.2.2.2.1, b1.2.2.2.2, b2⟩

/-- The references of trees that are not bibliographies. -/
def rootsL (h : Heap) (ts : List Tree) : List Ref := (ts.map Tree.root).filter fun y => !isBib h y

theorem skids_tree {h : Heap} {p : Option Ref} {x : Ref} {ks : List Tree} (T : IsTree h p (.node x ks))
    (hb : isBib h x = false) : skids h x = rootsL h ks := by
  rw [IsTree] at T
  unfold skids rootsL
  rw [hb, T.2.1]
  rfl

theorem rootsL_cons (h : Heap) (t : Tree) (ts : List Tree) :
    rootsL h (t :: ts) = if isBib h t.root then rootsL h ts else t.root :: rootsL h ts := by
  unfold rootsL
  rw [List.map_cons, List.filter_cons]
  cases isBib h t.root <;> rfl

theorem isBib_leftOut {h : Heap} {r : Ref} (hb : isBib h r = true) : leftOut (Normalize.bare (h.get r)) = true := by
  have : (h.get r).cls = .Bibliography := of_decide_eq_true hb
  unfold leftOut
  rw [Normalize.cls_bare, this]
  rfl

mutual
theorem built_outT {h : Heap} {lo hi : Nat} : ∀ {t : Tree} {p q : Option Ref} {n : NodeRec} {ks : List Item},
    IsTree h p t → isBib h t.root = false → bare (h.get t.root) = bare { n with parent := q } →
    BuiltL h lo hi (some t.root) ks (skids h t.root) →
    outT Normalize.unescAttrs (Normalize.label h t) = outI (.node n ks)
  | .node x ts, p, q, n, ks, T, hb, e, B => by
    rw [Tree.root] at hb e B
    rw [skids_tree T hb] at B
    rw [IsTree] at T
    rw [Normalize.label, outT, outI, built_out T.2.2 B, nbare_of_bare e, leftOut_cls (Normalize.cls_bare n)]
    rfl
theorem built_out {h : Heap} {lo hi : Nat} : ∀ {ts : List Tree} {p q : Option Ref} {items : List Item},
    IsForest h p ts → BuiltL h lo hi q items (rootsL h ts) →
    outTL Normalize.unescAttrs (Normalize.labelL h ts) = outIL items
  | [], p, q, items, _, B => by rw [builtL_nil B, Normalize.labelL, outTL, outIL]
  | .node x ks :: ts, p, q, items, T, B => by
    rw [IsForest] at T
    rw [rootsL_cons, Tree.root] at B
    rw [Normalize.labelL, outTL]
    cases hb : isBib h x with
    | true =>
      rw [hb, if_pos rfl] at B
      rw [built_out T.2 B, Normalize.label, outT, if_pos (isBib_leftOut hb)]
      rfl
    | false =>
      rw [hb, if_neg (by simp)] at B
      obtain ⟨n, is, rest, rfl, _, _, e, _, B1, B2⟩ := builtL_cons B
      rw [outIL, built_out T.2 B2, built_outT (t := .node x ks) T.1 hb e B1]
end

/-! ## The text -/

/-- How a run of texts can go on. -/
def RunOk (run : Option Bool) (items : List Item) : Prop :=
  items = [] ∨ run = none ∧ (NoAsis items ∨ items.length ≤ 1) ∨ run = some false ∧ NoAsis items

theorem RunOk.none {items : List Item} {run : Option Bool} (h : RunOk run items) : RunOk none items := by
  rcases h with h | ⟨_, h⟩ | ⟨_, h⟩
  · exact .inl h
  · exact .inr (.inl ⟨rfl, h⟩)
  · exact .inr (.inl ⟨rfl, .inl h⟩)

theorem NoAsis.tail {i : Item} {is : List Item} (h : NoAsis (i :: is)) : NoAsis is := fun j hj => h j (by simp [hj])

/-- The bibliographies among the trees show nothing. -/
def Blind (h : Heap) (ts : List Tree) : Prop :=
  ∀ x ∈ Tree.preL ts, isBib h x = true → ∀ ks, IsForest h (some x) ks → h.children x = ks.map Tree.root →
    Normalize.readForest h none ks = []

theorem Blind.cons {h : Heap} {t : Tree} {ts : List Tree} (B : Blind h (t :: ts)) : Blind h ts := fun x hx =>
  B x (by rw [Tree.preL]; exact List.mem_append_right _ hx)

theorem Blind.head {h : Heap} {x : Ref} {ks ts : List Tree} (B : Blind h (.node x ks :: ts)) : Blind h ks := fun y hy =>
  B y (by rw [Tree.preL, Tree.pre]; simp [hy])

theorem built_read {h : Heap} {lo hi : Nat} : ∀ {ts : List Tree} {p q : Option Ref} {items : List Item}
    {run : Option Bool}, IsForest h p ts → BuiltL h lo hi q items (rootsL h ts) → Blind h ts → UniL items →
    RunOk run items → Normalize.readForest h run ts = readIL items
  | [], p, q, items, run, _, B, _, _, _ => by rw [builtL_nil B, Normalize.readForest, readIL]
  | .node x ks :: ts, p, q, items, run, T, B, bl, U, R => by
    rw [IsForest] at T
    have T1 := T.1
    rw [IsTree] at T1
    rw [rootsL_cons, Tree.root] at B
    rw [Normalize.readForest]
    cases hb : isBib h x with
    | true =>
      rw [hb, if_pos rfl] at B
      have hc : (h.get x).cls = .Bibliography := of_decide_eq_true hb
      rw [if_neg (by unfold Heap.isInst; rw [hc]; decide), built_read T.2 B bl.cons U R.none,
        bl x (by rw [Tree.preL, Tree.pre]; simp) hb ks T1.2.2 T1.2.1]
      rfl
    | false =>
      rw [hb, if_neg (by simp)] at B
      obtain ⟨n, is, rest, rfl, _, _, e, _, B1, B2⟩ := builtL_cons B
      rw [skids_tree T.1 hb] at B1
      rw [UniL, Uni] at U
      have hcls : (h.get x).cls = n.cls := bare_field NodeRec.cls (fun _ => rfl) e
      have hasis : (h.get x).asis = n.asis := bare_field NodeRec.asis (fun _ => rfl) e
      have htext : (h.get x).text = n.text := bare_field NodeRec.text (fun _ => rfl) e
      have hk : Normalize.readForest h none ks = readIL is :=
        built_read T1.2.2 B1 bl.head U.1.2 (.inr (.inl ⟨rfl, U.1.1⟩))
      rw [readIL, readI, hk]
      unfold Heap.isInst
      rw [hcls, hasis, htext]
      by_cases ht : n.cls.isSub .Text = true
      · rw [if_pos ht, if_pos ht]
        have hrun : run.getD n.asis = n.asis := by
          rcases R with h | ⟨h, _⟩ | ⟨h, h'⟩
          · cases h
          · rw [h]; rfl
          · rw [h]
            have := h' (.node n is) (by simp) ht
            exact (show n.asis = false from this).symm
        rw [hrun, built_read T.2 B2 bl.cons U.2]
        rcases R with h | ⟨_, h⟩ | ⟨_, h⟩
        · cases h
        · rcases h with h | h
          · have := h (.node n is) (by simp) ht
            exact .inr (.inr ⟨by rw [show n.asis = false from this], h.tail⟩)
          · left
            cases rest with
            | nil => rfl
            | cons _ _ => simp at h
        · have := h (.node n is) (by simp) ht
          exact .inr (.inr ⟨by rw [show n.asis = false from this], h.tail⟩)
      · rw [if_neg ht, if_neg ht, built_read T.2 B2 bl.cons U.2, List.nil_append]
        rcases R with h | ⟨_, h⟩ | ⟨_, h⟩
        · cases h
        · rcases h with h | h
          · exact .inr (.inl ⟨rfl, .inl h.tail⟩)
          · left
            cases rest with
            | nil => rfl
            | cons _ _ => simp at h
        · exact .inr (.inl ⟨rfl, .inl h.tail⟩)

/-! ## The bibliographies -/

/-- The bibliographies among the trees, with their entries. -/
def bibsT (ts : List Normalize.LTree) : List (List Ref) :=
  (ts.filter fun k => k.attrs.cls = .Bibliography).map fun k =>
    (k.kids.filter fun x => x.attrs.cls = .Bibitem).map Normalize.LTree.root

theorem filter_cls {C : Cls} (i : Ref) (a : NodeRec) (ks ts : List Normalize.LTree) :
    ((Normalize.LTree.node i a ks :: ts).filter fun x => x.attrs.cls = C) =
      if a.cls = C then .node i a ks :: ts.filter fun x => x.attrs.cls = C
      else ts.filter fun x => x.attrs.cls = C := by
  rw [List.filter_cons]
  by_cases h : a.cls = C
  · rw [if_pos h, if_pos (decide_eq_true (show (Normalize.LTree.node i a ks).attrs.cls = C from h))]
  · rw [if_neg h, if_neg]
    intro h'
    exact h (of_decide_eq_true h')

theorem filter_skel {f : NodeRec → NodeRec} (hf : ∀ a, (f a).cls = a.cls) {C : Cls} (hC : C.isSub .Text = false ∧ C ≠ .Keyword) :
    ∀ ts : List Normalize.LTree, ((Normalize.skelL f ts).filter fun x => x.attrs.cls = C).map Normalize.LTree.root =
      (ts.filter fun x => x.attrs.cls = C).map Normalize.LTree.root
  | [] => by rw [Normalize.skelL]
  | .node i a ks :: ts => by
    rw [Normalize.skelL, Normalize.skel, List.filter_append, List.map_append, filter_skel hf hC ts, filter_cls]
    by_cases h : a.cls.isSub .Text = true ∨ a.cls = .Keyword
    · rw [if_pos h, if_neg]
      · rfl
      · rintro rfl
        rcases h with h | h
        · rw [hC.1] at h; cases h
        · exact hC.2 h
    · rw [if_neg h, filter_cls, hf]
      split <;> rfl

theorem bibsT_skel {f : NodeRec → NodeRec} (hf : ∀ a, (f a).cls = a.cls) : ∀ ts : List Normalize.LTree,
    bibsT (Normalize.skelL f ts) = bibsT ts
  | [] => by rw [Normalize.skelL]
  | .node i a ks :: ts => by
    have ih := bibsT_skel hf ts
    unfold bibsT at ih ⊢
    rw [Normalize.skelL, Normalize.skel, List.filter_append, List.map_append, ih, filter_cls]
    by_cases h : a.cls.isSub .Text = true ∨ a.cls = .Keyword
    · rw [if_pos h, if_neg]
      · rfl
      · intro e
        rw [e] at h
        exact absurd h (by decide)
    · rw [if_neg h, filter_cls, hf]
      split
      · rw [List.map_cons, List.map_cons]
        show _ :: _ = _ :: _
        congr 1
        exact filter_skel hf (C := .Bibitem) (by decide) ks
      · rfl

theorem holds_filter {h : Heap} {p : Option Ref} (C : Cls) : ∀ {ts : List Normalize.LTree}, Normalize.HoldsL h p ts →
    ((ts.map Normalize.LTree.root).filter fun x => (h.get x).cls = C) =
      (ts.filter fun x => x.attrs.cls = C).map Normalize.LTree.root
  | [], _ => rfl
  | t :: ts, H => by
    rw [List.map_cons, List.filter_cons, List.filter_cons, holds_filter C H.2, H.1.cls]
    split <;> rfl

theorem bibs_holds {h : Heap} {p : Option Ref} {i a ks} (H : Normalize.Holds h p (.node i a ks)) :
    bibliographiesOf h i = bibsT ks := by
  obtain ⟨_, hc, _, hk⟩ := H
  unfold bibliographiesOf bibsT
  rw [hc, holds_filter .Bibliography hk, List.map_map]
  refine List.map_congr_left fun k hk' => ?_
  have Hk := Normalize.holdsL_iff.mp hk k (List.mem_filter.mp hk').1
  simp only [Function.comp]
  rw [Hk.children]
  exact holds_filter .Bibitem (Normalize.holdsL_iff.mpr Hk.kids)

theorem norm_bibs {n0 : Nat} {i a ks t'} (N : Normalize.Norm n0 [.node i a ks] [t'])
    (ha : ¬ (a.cls.isSub .Text = true ∨ a.cls = .Keyword)) : t'.root = i ∧ bibsT t'.kids = bibsT ks := by
  have hs := N.skel
  obtain ⟨j, b, ks'⟩ := t'
  rw [Normalize.skelL, Normalize.skelL, Normalize.skelL, Normalize.skelL, Normalize.skel, Normalize.skel,
    if_neg ha] at hs
  split at hs
  · simp at hs
  · simp only [List.append_nil, List.cons.injEq, Normalize.LTree.node.injEq, and_true] at hs
    obtain ⟨e1, _, e2⟩ := hs
    refine ⟨e1, ?_⟩
    rw [← bibsT_skel (f := Normalize.unescAttrs) (fun _ => rfl) ks, ← e2, bibsT_skel (f := id) (fun _ => rfl)]
    rfl

end Parser
end RSM
