import Verif.Lemmas.ParserOrigin

/-! The nodes of a parsed manuscript and the parts of the source that they come of (helper lemmas). -/

namespace RSM
namespace Normalize
open PyM Nodes Heap LTree

/-! ## Tables of contents stay empty -/

mutual
/-- One mark for each table of contents with children. -/
def tocT : LTree → List Unit
  | .node _ a ks => if a.cls.isSub .Text then [] else
      (if a.cls = .Contents ∧ ks ≠ [] then [()] else []) ++ tocL ks
def tocL : List LTree → List Unit
  | [] => []
  | t :: ts => tocT t ++ tocL ts
end

theorem tocL_eq : ∀ ts : List LTree, tocL ts = ts.flatMap tocT
  | [] => by rw [tocL]; rfl
  | t :: ts => by rw [tocL, tocL_eq ts]; rfl

theorem tocT_ignores : Ignores tocT where
  text k hk := by
    obtain ⟨i, a, ks⟩ := k
    have ha : a.cls.isSub .Text = true := hk
    rw [tocT, if_pos ha]
  kw n w := by
    rw [kwTree, tocT, if_neg (by decide), tocL, tocL, tocT, if_pos (show (textAttrs w).cls.isSub .Text = true from rfl)]
    rfl

theorem Norm.toc {n0 ts ts'} (N : Norm n0 ts ts') (hw : tocL ts = []) : tocL ts' = [] := by
  induction N with
  | nil => rfl
  | @cons i a ks ts ks4 ks5 ts' ex sh N4 _ sp _ ih4 iht =>
    rw [tocL, List.append_eq_nil_iff] at hw
    have hex : ex.flatMap tocT = [] := by
      rcases sp with ⟨_, e, he, rfl⟩ | ⟨_, rfl⟩
      · simp only [List.flatMap_cons, List.flatMap_nil, List.append_nil]
        exact tocT_ignores.text _ (by rfl)
      · rfl
    rw [tocL, tocL_eq, List.flatMap_append, hex, List.nil_append, ← tocL_eq, iht hw.2, List.append_nil, tocT]
    show (if a.cls.isSub .Text then [] else (if a.cls = .Contents ∧ ks5 ≠ [] then [()] else []) ++ tocL ks5) = _
    by_cases hT : a.cls.isSub .Text = true
    · rw [if_pos hT]
    rw [if_neg hT]
    have hw1 := hw.1
    rw [tocT, if_neg hT, List.append_eq_nil_iff] at hw1
    have h4 : tocL ks4 = [] := by rw [tocL_eq, tocT_ignores.shaped sh, ← tocL_eq]; exact hw1.2
    rw [ih4 h4, List.append_nil, if_neg]
    rintro ⟨hc, hk⟩
    have hks : ks = [] := by
      cases ks with
      | nil => rfl
      | cons k ks => have := hw1.1; rw [if_pos ⟨hc, by simp⟩] at this; cases this
    subst hks
    cases sh with
    | plain => exact hk N4.nil_iff
    | construct h1 => rw [hc] at h1; exact absurd h1 (by decide)

theorem toc_holds {h : Heap} : ∀ {t : LTree} {p}, Holds h p t →
    (tocT t = [] ↔ ∀ x ∈ t.tree.pre, (h.get x).cls = .Contents → h.children x = []) := by
  intro t
  induction t using LTree.rec (motive_2 := fun ts => ∀ {p}, HoldsL h p ts →
    (tocL ts = [] ↔ ∀ x ∈ Tree.preL (treeL ts), (h.get x).cls = .Contents → h.children x = [])) with
  | node i a ks ih =>
    intro p H
    have hcls : (h.get i).cls = a.cls := H.cls
    have hch : h.children i = ks.map root := H.children
    have ih := ih H.2.2.2
    rw [LTree.tree, Tree.pre, tocT]
    by_cases hT : a.cls.isSub .Text = true
    · have hk : ks = [] := H.text_kids hT
      subst hk
      rw [if_pos hT]
      simp [treeL, hch]
    · rw [if_neg hT, List.append_eq_nil_iff, ih]
      simp only [List.mem_cons, forall_eq_or_imp, hcls, hch, List.map_eq_nil_iff]
      refine and_congr_left fun _ => ?_
      by_cases hc : a.cls = .Contents <;> by_cases hk : ks = [] <;> simp [hc, hk]
  | nil => simp [tocL, treeL]
  | cons t ts iht ihts =>
    rename_i H
    rw [tocL, treeL, Tree.preL, List.append_eq_nil_iff, iht H.1, ihts H.2]
    simp only [List.mem_append, or_imp, forall_and]

/-- Tables of contents that are empty stay empty. -/
theorem toc_run {h h' : Heap} {root : Ref} {t t' : Tree} (D : Doc h root t) {fuel : Nat}
    (hfuel : 4 * t.size < fuel) (hrun : normalizeText fuel root h = .ok () h') (D' : Doc h' root t')
    (he : ∀ x ∈ t.pre, (h.get x).cls = .Contents → h.children x = []) :
    ∀ x ∈ t'.pre, (h'.get x).cls = .Contents → h'.children x = [] := by
  obtain ⟨t5, N, H, D5, _⟩ := run_inv D hfuel hrun
  have e := D'.unique D5
  subst e
  have Hl : Holds h none (label h t) := (good_label D).holds _ (by simp)
  have h1 : tocT (label h t) = [] := (toc_holds Hl).mpr (by rw [tree_label]; exact he)
  have h2 := N.toc (by rw [tocL, tocL, h1]; rfl)
  rw [tocL, tocL, List.append_nil] at h2
  exact (toc_holds H).mp h2
end Normalize

namespace Parser
open PyM Nodes Heap

/-- A record without its links and without the texts that normalisation changes. -/
def core (r : NodeRec) : NodeRec := { r with parent := none, kids := [], text := [], title := [], src := [] }

/-- The record of a node below a node of class `p`, in the finished manuscript. -/
inductive Given (src : List Part) (p : Cls) (a : NodeRec) : Prop
  | added : a.cls = .Text ∨ a.cls = .Keyword → core a = core (NodeRec.new a.cls) → Given src p a
  | bibliography : core a = core (NodeRec.new .Bibliography) → p = .Manuscript → Given src p a
  | entry {c n} : p = .Bibliography → HasEntry src c → bibRecord c = .ok n → core a = core n → Given src p a
  | made {n ks} : p ≠ .Bibliography → p ≠ .Keyword → Origin src n ks → mayHold p n.cls = true ∧ n.cls ≠ .Bibliography →
      core a = core n → Given src p a

theorem core_cls {a b : NodeRec} (h : core a = core b) : a.cls = b.cls := by
  have : (core a).cls = (core b).cls := by rw [h]
  exact this

theorem core_of_bare {a n : NodeRec} {p : Option Ref} (h : bare a = bare { n with parent := p }) : core a = core n := by
  have h1 : core (bare a) = core (bare { n with parent := p }) := by rw [h]
  exact h1

theorem core_of_norm {a n : NodeRec} (h : Normalize.bare a = Normalize.bare n) : core a = core n := by
  have h1 : core (Normalize.bare a) = core (Normalize.bare n) := by rw [h]
  exact h1

theorem Below.given {src : List Part} {p : Cls} {a b : NodeRec} (h : Below src p a) (hb : core b = core a) : Given src p b := by
  cases h with
  | bibliography h1 h2 => exact .bibliography (hb.trans (core_of_norm h1)) h2
  | entry h1 h0 h2 h3 => exact .entry h1 h0 h2 (hb.trans (core_of_bare h3))
  | made h1 h2 h3 h4 h5 => exact .made h1 h2 h3 h4 (hb.trans (core_of_bare h5))

theorem Given.core {src : List Part} {p : Cls} {a b : NodeRec} (h : Given src p a) (hb : core b = core a) : Given src p b := by
  have hc : b.cls = a.cls := core_cls hb
  cases h with
  | added h h' => exact .added (hc ▸ h) (by rw [hc]; exact hb.trans h')
  | bibliography h1 h2 => exact .bibliography (hb.trans h1) h2
  | entry h1 h0 h2 h3 => exact .entry h1 h0 h2 (hb.trans h3)
  | made h1 h2 h3 h4 h5 => exact .made h1 h2 h3 h4 (hb.trans h5)

theorem pm {h : Heap} {root : Ref} {t : Tree} (D : Doc h root t) {x q : Ref} (hx : x ∈ t.pre) (hq : h.parent x = some q) :
    q ∈ t.pre := by
  by_cases hr : x = root
  · have := D.parent_root_none
    rw [← hr, hq] at this
    cases this
  · obtain ⟨p, h2, h1, _⟩ := D.parent_mem hx hr
    rw [hq] at h1
    cases h1
    exact h2

/-- Where the nodes of a parsed manuscript come from. -/
theorem parse_given {c : Cst} {fuel : Nat} {s s' : ParserState} {r : Ref} {t : Tree} (S : Source c) (F : Forest s.heap)
    (hf : 12 * c.size < fuel) (h : parse fuel c s = .ok r s') (DT : Doc s'.heap r t) :
    (∀ x ∈ t.pre, ∀ q, s'.heap.parent x = some q → Given (walks (sourceParts c)) (s'.heap.get q).cls (s'.heap.get x)) ∧
    (TocsEmpty (walks (sourceParts c)) → ∀ x ∈ t.pre, (s'.heap.get x).cls = .Contents → s'.heap.children x = []) ∧
    (∀ x ∈ t.pre, s'.heap.isInst x .Construct = true → ∃ w, Normalize.keywordTable.lookup (s'.heap.get x).kind = some w) ∧
    (s'.heap.get r).cls = .Manuscript := by
  have R := parse_run S hf F
  cases he : evRoot c with
  | error e =>
    rw [he] at R
    obtain ⟨_, h1, _⟩ := R
    rw [h1] at h; cases h
  | ok no =>
    obtain ⟨n, o⟩ := no
    rw [he] at R
    obtain ⟨fr, hcls, s1, t0, D, I, P, N, hfuel, hnew, hold, h1⟩ := R
    rw [h1] at h
    cases hn : Normalize.normalizeText fuel s.heap.next s1.heap with
    | err e h' => rw [hn] at h; cases h
    | ok u h' =>
      rw [hn] at h
      cases h
      obtain ⟨hb, ht⟩ := loop_below S he fr hcls D I P N hnew
      obtain ⟨t6, D6, hmem, -, hkept, -⟩ := Normalize.C57_nodes_kept D hfuel hn
      obtain ⟨t7, D7, hmade⟩ := Normalize.new_nodes D hfuel hn
      have e7 := D7.unique D6
      subst e7
      obtain ⟨t8, D8, hkey⟩ := Normalize.C61_keyword D hfuel hn
      have e8 := D8.unique D7
      subst e8
      have e6 := DT.unique (src_doc (v := c.text) D8)
      subst e6
      have hcore : ∀ x ∈ t.pre, x < s1.heap.next → core (h'.get x) = core (s1.heap.get x) := by
        intro x hx hlt
        obtain ⟨_, ks, te, ti, e, _⟩ := hkept x hx hlt
        rw [e]
        rfl
      refine ⟨?_, ?_, ?_, ?_⟩
      · intro x hx q hq
        have hq : (setSrc h' s.heap.next c.text).parent x = some q := hq
        rw [src_parent] at hq
        have e1 : ((setSrc h' s.heap.next c.text).get q).cls = (h'.get q).cls := src_field NodeRec.cls (fun _ _ => rfl) q
        have e2 : core ((setSrc h' s.heap.next c.text).get x) = core (h'.get x) := src_field core (fun _ _ => rfl) x
        refine Given.core ?_ e2
        show Given _ ((setSrc h' s.heap.next c.text).get q).cls _
        rw [e1]
        by_cases hlt : x < s1.heap.next
        · have hp := (hkept x hx hlt).1
          rw [hq] at hp
          have hxt := ((hmem x).mp ⟨hx, hlt⟩).1
          have hqt : q ∈ t.pre := pm D8 hx hq
          have hqt0 : q ∈ t0.pre := pm D hxt hp.symm
          have hqc : (h'.get q).cls = (s1.heap.get q).cls :=
            core_cls (hcore q hqt (D.bound q hqt0))
          rw [hqc]
          exact (hb x hxt q hp.symm).given (hcore x hx hlt)
        · obtain ⟨hm, w, hw⟩ := hmade x hx (Nat.le_of_not_lt hlt)
          refine .added ?_ ((core_of_norm hw).trans rfl)
          rcases hm with h | h | h
          · exact .inl h.1
          · exact .inr h
          · exact .inl h.1
      · intro hT x hx hc
        have hc : ((setSrc h' s.heap.next c.text).get x).cls = .Contents := hc
        rw [src_field NodeRec.cls (fun _ _ => rfl)] at hc
        show (setSrc h' s.heap.next c.text).children x = []
        rw [src_children]
        exact Normalize.toc_run D hfuel hn D8 (ht hT) x hx hc
      · intro x hx hc
        have hc : (setSrc h' s.heap.next c.text).isInst x .Construct = true := hc
        rw [src_inst] at hc
        obtain ⟨_, _, w, _, _, _, _, _, _, _, hw, _⟩ := hkey x hx hc
        refine ⟨w, ?_⟩
        show Normalize.keywordTable.lookup ((setSrc h' s.heap.next c.text).get x).kind = some w
        rw [src_field NodeRec.kind (fun _ _ => rfl)]
        exact hw
      · refine (src_field NodeRec.cls (fun _ _ => rfl) s.heap.next).trans ?_
        have hm : s.heap.next ∈ t.pre := by rw [← D8.root_eq]; exact Tree.root_mem_pre _
        have hm0 : s.heap.next ∈ t0.pre := by rw [← D.root_eq]; exact Tree.root_mem_pre _
        exact (core_cls (hcore _ hm (D.bound _ hm0))).trans I.root_cls

end Parser
end RSM
