import Verif.Lemmas.Structure
import Verif.Lemmas.Resolve

/-! References to earlier steps and letters (helper lemmas for C79). -/

namespace RSM
namespace Parser
open PyM Nodes Heap Tree Tr

/-! ## References to earlier steps -/

section
variable {h : Heap} {src : List Part}

/-- The innermost step among the nodes, which list a node and what is around it, has that many steps before it. -/
def StepsAt (h : Heap) (l : List Ref) (steps : Option Nat) : Prop :=
  ∀ k, steps = some k → ∃ a ls, IsFirstWith (fun y => (h.get y).cls = .Step) l (some a) ∧ StepsBefore h a ls ∧ ls.length = k

/-- A reference to an earlier step that finds it. -/
def Finds (h : Heap) (x : Ref) : Prop :=
  ∃ a ls n, InnermostStep h x a ∧ StepsBefore h a ls ∧ Transformer.prevCount (h.get x) = some n ∧ n.toNat ≤ ls.length

theorem isFirstWith_skip {P : Ref → Prop} {y : Ref} {l : List Ref} {a : Ref} (hy : ¬ P y) :
    IsFirstWith P (y :: l) (some a) ↔ IsFirstWith P l (some a) := by
  constructor
  · rintro ⟨h1, before, after, e, h2⟩
    cases before with
    | nil => injection e with e _; subst e; exact absurd h1 hy
    | cons b before =>
      injection e with e1 e2
      exact ⟨h1, before, after, e2, fun x hx => h2 x (List.mem_cons_of_mem _ hx)⟩
  · rintro ⟨h1, before, after, rfl, h2⟩
    exact ⟨h1, y :: before, after, rfl, fun x hx => by
      rcases List.mem_cons.mp hx with rfl | hx
      · exact hy
      · exact h2 x hx⟩

theorem finds_of {x : Ref} {anc : List Ref} {steps : Option Nat} (hx : (h.get x).cls = .PendingPrev)
    (ha : Ancestors h x anc) (hst : StepsAt h (x :: anc) steps) (hc : canGoBack steps (look h x) = true) : Finds h x := by
  have ht : (look h x).target = (h.get x).target := rfl
  have hb : stepsBack (look h x) = (Transformer.prevCount (h.get x)).map Int.toNat := by
    unfold stepsBack Transformer.prevCount
    rw [ht]
    cases (h.get x).target <;> rfl
  unfold canGoBack at hc
  rw [hb] at hc
  cases steps with
  | none => cases hc
  | some k =>
    cases hn : Transformer.prevCount (h.get x) with
    | none => rw [hn] at hc; cases hc
    | some n =>
      rw [hn] at hc
      obtain ⟨a, ls, h1, h2, h3⟩ := hst k rfl
      refine ⟨a, ls, n, ⟨anc, ha, (isFirstWith_skip (by rw [hx]; decide)).mp h1⟩, h2, hn, ?_⟩
      rw [h3]
      exact of_decide_eq_true hc

mutual
theorem finds_tree : ∀ {t : Tree} {p : Option Ref} {anc : List Ref} {steps : Option Nat}, IsTree h p t → AllGiven h src t.pre →
    t.pre.Nodup → Ancestors h t.root anc → StepsAt h (t.root :: anc) steps →
    (∀ o ∈ outlineOf h t, prevsFine steps o = true) → ∀ x ∈ t.pre, (h.get x).cls = .PendingPrev → Finds h x
  | .node i ks, p, anc, steps, T, G, nd, ha, hst, hn, x, hx => by
    have T' := T
    rw [IsTree] at T'
    have Gk : AllGiven h src (Tree.preL ks) := fun y hy => G y (by rw [Tree.pre]; exact List.mem_cons_of_mem _ hy)
    rw [outlineOf] at hn
    by_cases hl : h.isInst i .Text = true ∨ (h.get i).cls = .Keyword ∨ (h.get i).cls = .Bibliography
    · have hu := unseen_tree T G (by
        show Unseen (h.get i).cls
        rcases hl with hl | hl | hl
        · exact .inl hl
        · exact .inr (.inl hl)
        · exact .inr (.inr (.inl hl))) x hx
      intro hc
      rw [hc] at hu
      exact absurd hu (by decide)
    rw [if_neg hl] at hn
    have hn := hn _ List.mem_cons_self
    rw [prevsFine, Bool.and_eq_true] at hn
    rw [Tree.root] at ha hst
    rw [Tree.pre, List.mem_cons] at hx
    rw [Tree.pre] at nd
    rcases hx with rfl | hx
    · intro hc
      refine finds_of hc ha hst ?_
      have := hn.1
      have e : (look h x).cls = .PendingPrev := hc
      rw [e] at this
      simpa using this
    · have nk := (List.nodup_cons.mp nd).2
      refine finds_forest (before := []) T'.2.2 Gk nk ha hst ?_ ?_ hn.2 x hx
      · rw [T'.2.1]; exact roots_nodup nk
      · rw [T'.2.1]; rfl
theorem finds_forest : ∀ {ts : List Tree} {i : Ref} {anc before : List Ref} {steps : Option Nat}, IsForest h (some i) ts →
    AllGiven h src (Tree.preL ts) → (Tree.preL ts).Nodup → Ancestors h i anc → StepsAt h (i :: anc) steps →
    (h.children i).Nodup → h.children i = before ++ ts.map Tree.root →
    prevsFineL steps (before.filter fun y => (h.get y).cls = .Step).length (outlinesOf h ts) = true →
    ∀ x ∈ Tree.preL ts, (h.get x).cls = .PendingPrev → Finds h x
  | [], i, anc, before, steps, T, G, nd, ha, hst, hc, hk, hn, x, hx => by rw [Tree.preL] at hx; cases hx
  | .node y ks :: ts, i, anc, before, steps, T, G, nd, ha, hst, hc, hk, hn, x, hx => by
    rw [IsForest] at T
    rw [Tree.preL] at G hx nd
    rw [List.nodup_append] at nd
    have G1 : AllGiven h src (Tree.node y ks).pre := fun z hz => G z (List.mem_append_left _ hz)
    have G2 : AllGiven h src (Tree.preL ts) := fun z hz => G z (List.mem_append_right _ hz)
    have hpar : h.parent y = some i := T.1.parent_root
    have hk' : h.children i = (before ++ [y]) ++ ts.map Tree.root := by rw [hk]; simp
    have hyb : y ∉ before := by
      rw [hk] at hc
      intro hy
      exact (List.nodup_append.mp hc).2.2 y hy y (by simp) rfl
    rw [outlinesOf, outlineOf] at hn
    by_cases hl : h.isInst y .Text = true ∨ (h.get y).cls = .Keyword ∨ (h.get y).cls = .Bibliography
    · rw [if_pos hl, List.nil_append] at hn
      rcases List.mem_append.mp hx with hx | hx
      · have hu := unseen_tree T.1 G1 (by
          show Unseen (h.get y).cls
          rcases hl with hl | hl | hl
          · exact .inl hl
          · exact .inr (.inl hl)
          · exact .inr (.inr (.inl hl))) x hx
        intro hc
        rw [hc] at hu
        exact absurd hu (by decide)
      · refine finds_forest (before := before ++ [y]) T.2 G2 nd.2.1 ha hst hc hk' ?_ x hx
        rw [List.filter_append]
        have : (h.get y).cls ≠ .Step := by
          intro e
          unfold Heap.isInst at hl
          rw [e] at hl
          exact absurd hl (by decide)
        simp only [List.filter_cons, this, List.filter_nil, decide_false]
        simpa using hn
    · have he : outlineOf h (.node y ks) = [.node (look h y) (outlinesOf h ks)] := by rw [outlineOf, if_neg hl]
      rw [if_neg hl, List.singleton_append, prevsFineL, Bool.and_eq_true] at hn
      have ec : (Outline.node (look h y) (outlinesOf h ks)).cls = (h.get y).cls := rfl
      rw [ec] at hn
      rcases List.mem_append.mp hx with hx | hx
      · refine finds_tree (anc := i :: anc) (steps := if (h.get y).cls = .Step then
          some (before.filter fun y => (h.get y).cls = .Step).length else steps) T.1 G1 nd.1 ⟨hpar, ha⟩ ?_ ?_ x hx
        · show StepsAt h (y :: i :: anc) _
          by_cases hs : (h.get y).cls = .Step
          · rw [if_pos hs]
            rintro k ⟨⟩
            exact ⟨y, _, ⟨hs, [], i :: anc, rfl, nofun⟩, .inr ⟨i, before, ts.map Tree.root, hpar, hk, hyb, rfl⟩, rfl⟩
          · rw [if_neg hs]
            intro k e
            obtain ⟨a, ls, h1, h2, h3⟩ := hst k e
            exact ⟨a, ls, (isFirstWith_skip hs).mpr h1, h2, h3⟩
        · intro o ho
          rw [he, List.mem_singleton] at ho
          rw [ho]
          exact hn.1
      · refine finds_forest (before := before ++ [y]) T.2 G2 nd.2.1 ha hst hc hk' ?_ x hx
        have : ((before ++ [y]).filter fun y => decide ((h.get y).cls = .Step)).length =
            if (h.get y).cls = .Step then (before.filter fun y => decide ((h.get y).cls = .Step)).length + 1
            else (before.filter fun y => decide ((h.get y).cls = .Step)).length := by
          rw [List.filter_append, List.length_append]
          by_cases hs : (h.get y).cls = .Step <;> simp [hs]
        rw [this]
        exact hn.2
end

theorem isFirstWith_unique {P : Ref → Prop} : ∀ {l : List Ref} {a b : Ref}, IsFirstWith P l (some a) → IsFirstWith P l (some b) → a = b
  | [], a, b, h1, _ => by
    obtain ⟨_, b1, a1, e, _⟩ := h1
    cases b1 <;> cases e
  | x :: l, a, b, h1, h2 => by
    by_cases hx : P x
    · obtain ⟨_, b1, a1, e1, g1⟩ := h1
      obtain ⟨_, b2, a2, e2, g2⟩ := h2
      cases b1 with
      | cons z b1 => injection e1 with e _; subst e; exact absurd hx (g1 _ List.mem_cons_self)
      | nil =>
        cases b2 with
        | cons z b2 => injection e2 with e _; subst e; exact absurd hx (g2 _ List.mem_cons_self)
        | nil => injection e1 with e1 _; injection e2 with e2 _; exact e1.symm.trans e2
    · exact isFirstWith_unique ((isFirstWith_skip hx).mp h1) ((isFirstWith_skip hx).mp h2)

theorem innermost_unique {x a b : Ref} (h1 : InnermostStep h x a) (h2 : InnermostStep h x b) : a = b := by
  obtain ⟨l1, g1, f1⟩ := h1
  obtain ⟨l2, g2, f2⟩ := h2
  have := g1.unique g2
  subst this
  exact isFirstWith_unique f1 f2

theorem stepsBefore_unique {a : Ref} {l l' : List Ref} (h1 : StepsBefore h a l) (h2 : StepsBefore h a l') : l = l' := by
  rcases h1 with ⟨g, rfl⟩ | ⟨p, b, c, g, e, n, rfl⟩ <;> rcases h2 with ⟨g', rfl⟩ | ⟨p', b', c', g', e', n', rfl⟩
  · rfl
  · rw [g] at g'; cases g'
  · rw [g] at g'; cases g'
  · rw [g] at g'
    cases g'
    rw [e] at e'
    congr 1
    have : ∀ (b b' : List Ref), b ++ a :: c = b' ++ a :: c' → a ∉ b → a ∉ b' → b = b' := by
      intro b
      induction b with
      | nil =>
        intro b' e _ n'
        cases b' with
        | nil => rfl
        | cons z b' => injection e with e _; subst e; exact absurd List.mem_cons_self n'
      | cons y b ih =>
        intro b' e n n'
        cases b' with
        | nil => injection e with e _; subst e; exact absurd List.mem_cons_self n
        | cons z b' =>
          injection e with e1 e2
          rw [e1, ih b' e2 (fun h => n (List.mem_cons_of_mem _ h)) (fun h => n' (List.mem_cons_of_mem _ h))]
    exact this b b' e' n n'

/-- A reference that finds its step does not raise. -/
theorem Finds.fine {t : Tree} {x : Ref} (hx : (h.get x).cls = .PendingPrev) (f : Finds h x) (e : PyErr) : ¬ Fails h t x e := by
  obtain ⟨a, ls, n, h1, h2, h3, h4⟩ := f
  intro hf
  cases hf with
  | cite g => rw [hx] at g; cases g
  | outside _ g1 g2 =>
    obtain ⟨l, k1, k2, b, c, rfl, _⟩ := h1
    have := k1.unique g1
    subst this
    exact g2 a (by simp) k2
  | count _ _ g => rw [h3] at g; cases g
  | tooFew _ g1 g2 g3 g4 =>
    have := innermost_unique h1 g1
    subst this
    have := stepsBefore_unique h2 g3
    subst this
    rw [h3] at g2
    cases g2
    omega
  | typed g => rw [hx] at g; cases g

end

variable {c : Cst} {fuel : Nat} {s s' : ParserState} {r : Ref} {t : Tree}

/-- References to earlier steps find them, if they do so in the source. -/
theorem parse_prevs (S : Source c) (F : Forest s.heap) (hf : 12 * c.size < fuel) (h : parse fuel c s = .ok r s')
    (D : Doc s'.heap r t) (ho : outlineOf s'.heap t = [sourceOutline c])
    (hp : prevsFine none (sourceOutline c) = true) :
    ∀ x ∈ t.pre, (s'.heap.get x).cls = .PendingPrev → ∀ e, ¬ Fails s'.heap t x e := by
  obtain ⟨G, -, -, hM⟩ := parse_given S F hf h D
  intro x hx hc
  refine Finds.fine hc (finds_tree (anc := []) (steps := none) D.tree G D.nodup ?_ nofun ?_ x hx hc)
  · rw [D.root_eq]; exact D.parent_root_none
  · rw [ho]
    intro o hm
    rw [List.mem_singleton] at hm
    rw [hm]
    exact hp

/-! ## Subproofs -/

theorem parse_subproofs (S : Source c) (F : Forest s.heap) (hf : 12 * c.size < fuel) (h : parse fuel c s = .ok r s')
    (D : Doc s'.heap r t) (hs : SubsLast (walks (sourceParts c))) : SubproofsLast s'.heap t := by
  intro i ks hi hc a k b hks _ hk
  have hm : i ∈ t.pre := Tree.mem_pre_of_subtree hi (by rw [Tree.pre]; exact List.mem_cons_self)
  obtain ⟨p, T⟩ := D.tree.subtree hi
  have := parse_subs S F hf h D hs i hm hc
  rw [(isTree_node.mp T).2.1, hks, List.map_append, List.map_append, List.map_cons, List.map_cons] at this
  have h2 := (List.pairwise_cons.mp (List.pairwise_append.mp this).2.1).1
  cases b with
  | nil => rfl
  | cons l b => exact absurd hk (h2 (s'.heap.get l.root).cls (by simp))

/-! ## Letters -/

theorem sinceLast_self (P : Ref → Prop) [DecidablePred P] : ∀ l : List Ref, (sinceLast P l).Sublist l
  | [] => List.Sublist.refl _
  | x :: l => by
    rw [sinceLast]
    split
    · exact (sinceLast_self P l).cons x
    · exact List.Sublist.refl _

theorem sinceLast_after {P : Ref → Prop} [DecidablePred P] {a : Ref} {l2 : List Ref} (ha : P a) :
    ∀ l1 : List Ref, (sinceLast P (l1 ++ a :: l2)).Sublist l2
  | [] => by
    rw [List.nil_append, sinceLast, if_pos (.inr ha)]
    exact sinceLast_self P l2
  | x :: l1 => by
    rw [List.cons_append, sinceLast, if_pos (.inl ⟨a, by simp, ha⟩)]
    exact sinceLast_after ha l1

theorem last_split {P : Ref → Prop} [DecidablePred P] : ∀ {l : List Ref}, (∃ a ∈ l, P a) →
    ∃ l1 a l2, l = l1 ++ a :: l2 ∧ P a ∧ ∀ b ∈ l2, ¬ P b
  | [], h => by obtain ⟨a, ha, _⟩ := h; cases ha
  | x :: l, h => by
    by_cases hl : ∃ a ∈ l, P a
    · obtain ⟨l1, a, l2, e, h1, h2⟩ := last_split hl
      exact ⟨x :: l1, a, l2, by rw [e]; rfl, h1, h2⟩
    · obtain ⟨a, ha, hp⟩ := h
      rcases List.mem_cons.mp ha with rfl | ha
      · exact ⟨[], a, l, rfl, hp, fun b hb hpb => hl ⟨b, hb, hpb⟩⟩
      · exact absurd ⟨a, ha, hp⟩ hl

theorem within_family (a : Cls) : a.numberWithin = a.numberAs.numberWithin := by cases a <;> decide

theorem family_bibitem {a : Cls} (h : a.numberAs = .Bibitem) : a = .Bibitem := by revert h; cases a <;> decide

theorem leftOut_number {h : Heap} {x : Ref} (hl : LeftOut h x) :
    (h.get x).cls.autonumber = false ∧ (h.get x).cls ≠ .Appendix ∧ (h.get x).cls ≠ .Bibitem := by
  unfold LeftOut Heap.isInst at hl
  revert hl
  generalize (h.get x).cls = a
  cases a <;> decide

/-- Letters that suffice for looks suffice for what has them. -/
theorem suffices_filter {L : List Look} (hL : LettersSuffice L) {kind : Cls} {X Y Z : List Look} {a : Look}
    (he : (L.filter fun b => b.cls = .Appendix || lettered b && b.cls.numberAs = kind) = X ++ (a :: (Y ++ Z)))
    (ha : a.cls = .Appendix) (hY : ∀ b ∈ Y, b.cls ≠ .Appendix) : Y.length ≤ 26 := by
  obtain ⟨L1, L2, rfl, e1, e2⟩ := List.filter_eq_append_iff.mp he
  obtain ⟨n1, L3, rfl, -, -, e3⟩ := List.filter_eq_cons_iff.mp e2
  obtain ⟨mid, L4, rfl, e4, e5⟩ := List.filter_eq_append_iff.mp e3
  have hm : ∀ b ∈ mid, b.cls ≠ .Appendix := by
    intro b hb hc
    have : b ∈ Y := by
      rw [← e4]
      exact List.mem_filter.mpr ⟨hb, by simp [hc]⟩
    exact hY b this hc
  have := hL (L1 ++ n1) a mid L4 (by simp) ha hm kind
  refine Nat.le_trans (Nat.le_of_eq ?_) this
  rw [← e4]
  congr 1
  refine List.filter_congr fun b hb => ?_
  simp [hm b hb]

/-- A node that outlines leave out, or an entry below a bibliography. -/
def OffB (h : Heap) (x : Ref) : Prop :=
  LeftOut h x ∨ (h.get x).cls = .Bibitem ∧ ∃ q, h.parent x = some q ∧ (h.get q).cls = .Bibliography

theorem offB_closed (S : Source c) (F : Forest s.heap) (hf : 12 * c.size < fuel) (h : parse fuel c s = .ok r s')
    (D : Doc s'.heap r t) : ∀ u ∈ t.subtrees, OffB s'.heap u.root → ∀ k ∈ u.kids, OffB s'.heap k.root := by
  obtain ⟨G, -, -, -⟩ := parse_given S F hf h D
  rintro ⟨i, ks⟩ hu hi k hk
  have g := given_kid D G hu hk
  obtain ⟨p, hp⟩ := D.tree.subtree hu
  have hpar : s'.heap.parent k.root = some i := ((isTree_node.mp hp).2.2 k hk).parent_root
  have hn : (s'.heap.get i).cls.isSub .NodeWithChildren = true := by
    refine children_nwc ?_
    rw [(isTree_node.mp hp).2.1]
    intro e
    rw [List.map_eq_nil_iff] at e
    exact List.ne_nil_of_mem hk e
  have hi : (s'.heap.get i).cls = .Keyword ∨ (s'.heap.get i).cls = .Bibliography := by
    rcases hi with (hi | hi | hi) | ⟨hi, -⟩
    · exfalso
      revert hi hn
      unfold Heap.isInst
      rw [Tree.root]
      generalize (s'.heap.get i).cls = cl
      cases cl <;> decide
    · exact .inl hi
    · exact .inr hi
    · rw [Tree.root] at hi
      rw [hi] at hn
      exact absurd hn (by decide)
  cases g with
  | added h1 =>
    rcases h1 with h1 | h1
    · exact .inl (.inl (by unfold Heap.isInst; rw [h1]; decide))
    · exact .inl (.inr (.inl h1))
  | bibliography _ h2 => rw [h2] at hi; rcases hi with hi | hi <;> cases hi
  | entry h0 h1 h2 h3 => exact .inr ⟨(core_cls h3).trans (bibRecord_ok h2).2, i, hpar, h0⟩
  | made h1 h2 => rcases hi with hi | hi; exacts [absurd hi h2, absurd hi h1]

theorem forall₂_flatten_length {α β : Type} {R : α → β → Prop} {l : List (List α)} {m : List (List β)}
    (h : List.Forall₂ (List.Forall₂ R) l m) : l.flatten.length = m.flatten.length := by
  induction h with
  | nil => rfl
  | cons h1 _ ih => rw [List.flatten_cons, List.flatten_cons, List.length_append, List.length_append, h1.length_eq, ih]

theorem parse_looks (S : Source c) (F : Forest s.heap) (hf : 12 * c.size < fuel) (h : parse fuel c s = .ok r s')
    (D : Doc s'.heap r t) : sourceLooks c = (seen s'.heap t).map (look s'.heap) := by
  obtain ⟨_, _, _, _, _, t1, d⟩ := parse_ok S F hf h
  have e := D.unique d.doc
  subst e
  rw [← looks_seen, d.outl, looksL, looksL, List.append_nil]
  rfl

/-- There are no more entries in the manuscript than the source has. -/
theorem parse_entries (S : Source c) (F : Forest s.heap) (hf : 12 * c.size < fuel) (h : parse fuel c s = .ok r s')
    (D : Doc s'.heap r t) : (t.pre.filter fun x => (s'.heap.get x).cls = .Bibitem).length ≤ entryCount c := by
  obtain ⟨_, _, _, _, _, t1, d⟩ := parse_ok S F hf h
  have e := D.unique d.doc
  subst e
  have hL := parse_looks S F hf h D
  have hfil := filter_seen (h := s'.heap) (H := OffB s'.heap)
    (p := fun x => open Classical in decide ((s'.heap.get x).cls = .Bibitem ∧ ¬ OffB s'.heap x)) (fun x hx => .inl hx)
    (fun x hx => by simp [hx]) t (offB_closed S F hf h D)
  have hsub : ∀ x ∈ t.pre.filter fun x => (s'.heap.get x).cls = .Bibitem,
      x ∈ (bibliographiesOf s'.heap r).flatten ++ (seen s'.heap t).filter fun x => (s'.heap.get x).cls = .Bibitem := by
    intro x hx
    obtain ⟨hxt, hxc⟩ := List.mem_filter.mp hx
    have hxc : (s'.heap.get x).cls = .Bibitem := of_decide_eq_true hxc
    rw [List.mem_append]
    by_cases ho : OffB s'.heap x
    · left
      rcases ho with ho | ⟨_, q, hq, hqc⟩
      · exact absurd hxc (leftOut_number ho).2.2
      have hxr : x ≠ r := fun e => by rw [e, d.root_cls] at hxc; cases hxc
      obtain ⟨q', hqt, hq', hqk⟩ := D.parent_mem hxt hxr
      rw [hq] at hq'
      cases hq'
      refine List.mem_flatten.mpr ⟨_, List.mem_map.mpr ⟨q, List.mem_filter.mpr ⟨d.bibin q hqt hqc, by simp [hqc]⟩, rfl⟩, ?_⟩
      exact List.mem_filter.mpr ⟨hqk, by simp [hxc]⟩
    · right
      have hm : x ∈ t.pre.filter fun x => open Classical in decide ((s'.heap.get x).cls = .Bibitem ∧ ¬ OffB s'.heap x) :=
        List.mem_filter.mpr ⟨hxt, by simp [hxc, ho]⟩
      rw [hfil] at hm
      exact List.mem_filter.mpr ⟨(List.mem_filter.mp hm).1, by simp [hxc]⟩
  have hle := (List.Nodup.subperm (D.nodup.filter _) hsub).length_le
  refine Nat.le_trans hle ?_
  rw [List.length_append, forall₂_flatten_length d.bibs]
  unfold entryCount
  rw [hL, List.filter_map, List.length_map]
  exact Nat.le_refl _

/-- There are letters for everything, if there are for the source. -/
theorem parse_letters (S : Source c) (F : Forest s.heap) (hf : 12 * c.size < fuel) (h : parse fuel c s = .ok r s')
    (D : Doc s'.heap r t) (hl : LettersSuffice (sourceLooks c))
    (he : (∀ a ∈ sourceLooks c, a.cls ≠ .Appendix) ∨ entryCount c ≤ 26) : ¬ LettersRunOut s'.heap t.pre := by
  rintro ⟨before, x, after, e, hx, hw, hap, hcount⟩
  have hL := parse_looks S F hf h D
  obtain ⟨b1, a, b2, rfl, ha, hb2⟩ := last_split hap
  have hcl := offB_closed S F hf h D
  have h26 : 26 ≤ (b2.filter fun q => decide (Numbered s'.heap q ∧ SameFamily s'.heap q x)).length := by
    refine Nat.le_trans hcount ?_
    unfold earlierInScope
    exact ((sinceLast_after (P := StartsScope s'.heap .Manuscript) (.inr ⟨ha, rfl⟩) b1).filter _).length_le
  by_cases hk : (s'.heap.get x).cls.numberAs = .Bibitem
  · have h1 := parse_entries S F hf h D
    have h2 : entryCount c ≤ 26 := by
      refine he.resolve_left fun hno => ?_
      have hfil := filter_seen (h := s'.heap) (H := OffB s'.heap)
        (p := fun x => decide ((s'.heap.get x).cls = .Appendix)) (fun x hx => .inl hx)
        (fun y hy => by
          rcases hy with hy | ⟨hy, _⟩
          · simp [(leftOut_number hy).2.1]
          · simp [hy]) t hcl
      have ha : (s'.heap.get a).cls = .Appendix := ha
      have hm : a ∈ t.pre.filter fun x => decide ((s'.heap.get x).cls = .Appendix) :=
        List.mem_filter.mpr ⟨by rw [e]; simp, by simp [ha]⟩
      rw [hfil] at hm
      exact hno (look s'.heap a) (by rw [hL]; exact List.mem_map_of_mem (List.mem_filter.mp hm).1) ha
    have h3 : 27 ≤ (t.pre.filter fun x => decide ((s'.heap.get x).cls = .Bibitem)).length := by
      have hxc := family_bibitem hk
      have hle : (b2.filter fun q => decide (Numbered s'.heap q ∧ SameFamily s'.heap q x)).length ≤
          (b2.filter fun q => decide ((s'.heap.get q).cls = .Bibitem)).length := by
        refine (List.monotone_filter_right b2 fun q hq => ?_).length_le
        have hq := (of_decide_eq_true hq).2
        unfold SameFamily at hq
        rw [hk] at hq
        simp [family_bibitem hq]
      rw [e, List.filter_append, List.filter_append, List.filter_cons, List.filter_cons, if_pos (by simp [hxc] : decide ((s'.heap.get x).cls = .Bibitem) = true)]
      simp only [List.length_append, List.length_cons]
      split
      · simp only [List.length_cons]; omega
      · omega
    omega
  · -- another family
    let kind := (s'.heap.get x).cls.numberAs
    let p : Look → Bool := fun b => b.cls = .Appendix || lettered b && b.cls.numberAs = kind
    have hlook : ∀ q, Numbered s'.heap q → SameFamily s'.heap q x →
        (lettered (look s'.heap q) && decide ((look s'.heap q).cls.numberAs = kind)) = true := by
      intro q hq hs
      have hw' : (s'.heap.get q).cls.numberWithin = [.Manuscript] := by
        rw [within_family, show (s'.heap.get q).cls.numberAs = (s'.heap.get x).cls.numberAs from hs, ← within_family, hw]
      have e1 : (look s'.heap q).cls = (s'.heap.get q).cls := rfl
      have e2 : (look s'.heap q).nonum = (s'.heap.get q).nonum := rfl
      unfold lettered
      rw [e1, e2, hq.1, hq.2.1, hw']
      have : (s'.heap.get q).cls.numberAs = kind := hs
      simp [this, hq.2.2]
    have hfil := filter_seen (h := s'.heap) (H := OffB s'.heap) (p := fun x => p (look s'.heap x)) (fun x hx => .inl hx)
      (fun y hy => by
        have e1 : (look s'.heap y).cls = (s'.heap.get y).cls := rfl
        show (decide ((look s'.heap y).cls = .Appendix) || lettered (look s'.heap y) && decide ((look s'.heap y).cls.numberAs = kind)) = false
        unfold lettered
        rw [e1]
        rcases hy with hy | ⟨hy, _⟩
        · obtain ⟨h1, h2, _⟩ := leftOut_number hy
          simp [h1, h2]
        · rw [hy]
          have : Cls.Bibitem.numberAs ≠ kind := fun e => hk (by rw [← show Cls.Bibitem.numberAs = (s'.heap.get x).cls.numberAs from e]; decide)
          simp [this]) t hcl
    have hmap : (sourceLooks c).filter p = (t.pre.filter fun x => p (look s'.heap x)).map (look s'.heap) := by
      rw [hL, List.filter_map, hfil]
      rfl
    have hpx : p (look s'.heap x) = true := by
      show (_ || _) = true
      rw [hlook x hx rfl, Bool.or_true]
    have hpa : p (look s'.heap a) = true := by
      have : (look s'.heap a).cls = .Appendix := ha
      show (decide _ || _) = true
      rw [this]
      rfl
    rw [e, show b1 ++ a :: b2 ++ x :: after = b1 ++ (a :: ((b2 ++ [x]) ++ after)) by simp, List.filter_append,
      List.filter_cons, if_pos hpa, List.filter_append, List.map_append, List.map_cons, List.map_append] at hmap
    have hnx : (s'.heap.get x).cls ≠ .Appendix := by
      intro ex
      have := hx.1
      rw [ex] at this
      exact absurd this (by decide)
    have := suffices_filter hl hmap ha (by
      intro b hb
      obtain ⟨q, hq, rfl⟩ := List.mem_map.mp hb
      have hq := (List.mem_filter.mp hq).1
      rcases List.mem_append.mp hq with hq | hq
      · exact hb2 q hq
      · rw [List.mem_singleton] at hq
        rw [hq]
        exact hnx)
    rw [List.length_map, List.filter_append, List.length_append, List.filter_cons, if_pos hpx] at this
    have hle : (b2.filter fun q => decide (Numbered s'.heap q ∧ SameFamily s'.heap q x)).length ≤
        (b2.filter fun q => p (look s'.heap q)).length := by
      refine (List.monotone_filter_right b2 fun q hq => ?_).length_le
      obtain ⟨q1, q2⟩ := of_decide_eq_true hq
      show (_ || _) = true
      rw [hlook q q1 q2, Bool.or_true]
    simp only [List.length_cons] at this
    omega

/-! ## How to check it -/

/-- Nothing but the last of the parts is a subproof. -/
def subLastB (ps : List Part) : Bool :=
  ps.dropLast.all fun | .node kind _ _ => kind ≠ "subproof".toList

theorem subproofLast_of {ps : List Part} (h : subLastB ps = true) : SubproofLast ps := by
  rintro a d qs b rfl
  cases hb : b with
  | nil => rfl
  | cons y b' =>
    have hm : Part.node "subproof".toList d qs ∈ (a ++ .node "subproof".toList d qs :: b).dropLast := by
      rw [hb, List.dropLast_append_of_ne_nil (by simp), List.dropLast_cons_of_ne_nil (by simp)]
      simp
    have := List.all_eq_true.mp h _ hm
    simp at this

theorem structured_of (h1 : CitesEntries c) (h2 : prevsFine none (sourceOutline c) = true)
    (h3 : ((walks (sourceParts c)).all fun | .node kind _ ps => kind ≠ "step".toList || subLastB ps) = true)
    (h4 : ((sourceLooks c).filter lettered).length ≤ 26) (h5 : entryCount c ≤ 26) : Structured c where
  cites := h1
  prevs := h2
  subproofs d ps hp := by
    have := List.all_eq_true.mp h3 _ hp
    exact subproofLast_of (by simpa using this)
  letters := by
    intro before a mid after e _ _ kind
    refine Nat.le_trans ?_ h4
    rw [e, List.filter_append, List.filter_append, List.filter_cons, List.length_append, List.length_append]
    have h1 : (mid.filter fun b => lettered b && decide (b.cls.numberAs = kind)).length ≤ (mid.filter lettered).length :=
      (List.monotone_filter_right mid fun b hb => (Bool.and_eq_true_iff.mp hb).1).length_le
    split
    · simp only [List.length_cons]; omega
    · omega
  entries := .inr h5

end Parser
end RSM
