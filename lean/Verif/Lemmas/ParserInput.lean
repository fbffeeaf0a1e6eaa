import Verif.Lemmas.ParserGiven
import Verif.Lemmas.Outcome

/-! Parsed manuscripts are what the transformer expects (helper lemmas). -/

namespace RSM
namespace Parser
open PyM Nodes Heap

section
variable {h : Heap} {src : List Part}

/-- The classes of nodes that are not in the outline, and of what is below them. -/
def Unseen (c : Cls) : Prop := c.isSub .Text = true ∨ c = .Keyword ∨ c = .Bibliography ∨ c = .Bibitem

instance (c : Cls) : Decidable (Unseen c) := inferInstanceAs (Decidable (_ ∨ _))

theorem Unseen.ne {c : Cls} (hc : Unseen c) : c ≠ .Section ∧ c ≠ .Subsection ∧ c ≠ .Subsubsection ∧ c ≠ .Contents := by
  revert hc
  cases c <;> decide

theorem Unseen.child {c : Cls} {a : NodeRec} (hc : Unseen c) (hn : c.isSub .NodeWithChildren = true)
    (g : Given src c a) : Unseen a.cls := by
  cases g with
  | added h => rcases h with h | h <;> rw [h] <;> decide
  | bibliography h => rw [core_cls h]; decide
  | entry _ _ h2 h3 => rw [core_cls h3, (bibRecord_ok h2).2]; decide
  | made h1 h2 =>
    exfalso
    revert hc hn h1 h2
    cases c <;> decide

theorem children_nwc {i : Ref} (hi : h.children i ≠ []) : (h.get i).cls.isSub .NodeWithChildren = true := by
  unfold Heap.children Heap.isInst at hi
  by_cases e : (h.get i).cls.isSub .NodeWithChildren = true
  · exact e
  · simp [e] at hi

/-- All nodes below others come of the source. -/
def AllGiven (h : Heap) (src : List Part) (l : List Ref) : Prop :=
  ∀ x ∈ l, ∀ q, h.parent x = some q → Given src (h.get q).cls (h.get x)

mutual
theorem unseen_tree : ∀ {t : Tree} {p : Option Ref}, IsTree h p t → AllGiven h src t.pre →
    Unseen (h.get t.root).cls → ∀ x ∈ t.pre, Unseen (h.get x).cls
  | .node i ks, p, T, G, hu, x, hx => by
    rw [IsTree] at T
    rw [Tree.pre, List.mem_cons] at hx
    rcases hx with rfl | hx
    · exact hu
    · refine unseen_forest T.2.2 (fun y hy => G y (by rw [Tree.pre]; exact List.mem_cons_of_mem _ hy)) ?_ hu x hx
      refine children_nwc ?_
      rw [T.2.1]
      intro e
      rw [List.map_eq_nil_iff.mp e, Tree.preL] at hx
      cases hx
theorem unseen_forest : ∀ {ts : List Tree} {q : Ref}, IsForest h (some q) ts → AllGiven h src (Tree.preL ts) →
    (h.get q).cls.isSub .NodeWithChildren = true → Unseen (h.get q).cls → ∀ x ∈ Tree.preL ts, Unseen (h.get x).cls
  | [], _, _, _, _, _, x, hx => by rw [Tree.preL] at hx; cases hx
  | .node i ks :: ts, q, T, G, hn, hu, x, hx => by
    rw [IsForest] at T
    rw [Tree.preL] at hx G
    rcases List.mem_append.mp hx with hx | hx
    · refine unseen_tree T.1 (fun y hy => G y (List.mem_append_left _ hy)) ?_ x hx
      have hp : h.parent i = some q := by have := T.1; rw [IsTree] at this; exact this.1
      exact hu.child hn (G i (List.mem_append_left _ (by rw [Tree.pre]; exact List.mem_cons_self)) q hp)
    · exact unseen_forest T.2 (fun y hy => G y (List.mem_append_right _ hy)) hn hu x hx
end

/-- The sections lie as they should, among the trees below a node of class `pc`. -/
structure NestFacts (h : Heap) (pc : Cls) (inside : Bool) (ts : List Tree) : Prop where
  sub : ∀ k ∈ ts, (h.get k.root).cls = .Subsection → pc = .Section
  subsub : ∀ k ∈ ts, (h.get k.root).cls = .Subsubsection → pc = .Subsection
  inner : inside = true → ∀ j ∈ Tree.preL ts, (h.get j).cls ≠ .Section
  all : ∀ i ks, .node i ks ∈ Tree.subtreesL ts →
    (∀ k ∈ ks, (h.get k.root).cls = .Subsection → (h.get i).cls = .Section) ∧
    (∀ k ∈ ks, (h.get k.root).cls = .Subsubsection → (h.get i).cls = .Subsection) ∧
    (IsSec h i → ∀ j ∈ Tree.preL ks, (h.get j).cls ≠ .Section)

theorem nestedL_append {p : Cls} {b : Bool} : ∀ {xs ys : List Outline},
    nestedL p b (xs ++ ys) = (nestedL p b xs && nestedL p b ys)
  | [], ys => by rw [nestedL]; simp
  | x :: xs, ys => by rw [List.cons_append, nestedL, nestedL, nestedL_append, Bool.and_assoc]

theorem NestFacts.cons {pc : Cls} {b : Bool} {t : Tree} {ts : List Tree} (h1 : NestFacts h pc b [t])
    (h2 : NestFacts h pc b ts) : NestFacts h pc b (t :: ts) where
  sub k hk := by
    rcases List.mem_cons.mp hk with rfl | hk
    · exact h1.sub k (by simp)
    · exact h2.sub k hk
  subsub k hk := by
    rcases List.mem_cons.mp hk with rfl | hk
    · exact h1.subsub k (by simp)
    · exact h2.subsub k hk
  inner hb j hj := by
    rw [Tree.preL] at hj
    rcases List.mem_append.mp hj with hj | hj
    · exact h1.inner hb j (by rw [Tree.preL, Tree.preL, List.append_nil]; exact hj)
    · exact h2.inner hb j hj
  all i ks hi := by
    rw [Tree.subtreesL] at hi
    rcases List.mem_append.mp hi with hi | hi
    · exact h1.all i ks (by rw [Tree.subtreesL, Tree.subtreesL, List.append_nil]; exact hi)
    · exact h2.all i ks hi

theorem nest_unseen {pc : Cls} {b : Bool} {t : Tree} (hu : ∀ x ∈ t.pre, Unseen (h.get x).cls) : NestFacts h pc b [t] := by
  have hr := (hu t.root (Tree.root_mem_pre t)).ne
  refine ⟨?_, ?_, ?_, ?_⟩
  · intro k hk e
    rw [List.mem_singleton] at hk
    subst hk
    exact absurd e hr.2.1
  · intro k hk e
    rw [List.mem_singleton] at hk
    subst hk
    exact absurd e hr.2.2.1
  · intro _ j hj
    rw [Tree.preL, Tree.preL, List.append_nil] at hj
    exact (hu j hj).ne.1
  · intro i ks hi
    rw [Tree.subtreesL, Tree.subtreesL, List.append_nil] at hi
    have hs : ∀ {x}, x ∈ (Tree.node i ks).pre → x ∈ t.pre := Tree.mem_pre_of_subtree hi
    have hk : ∀ k ∈ ks, k.root ∈ t.pre := fun k hk => hs (by
      rw [Tree.pre]
      exact List.mem_cons_of_mem _ (Tree.mem_preL.mpr ⟨k, hk, Tree.root_mem_pre k⟩))
    refine ⟨fun k h1 e => absurd e (hu _ (hk k h1)).ne.2.1, fun k h1 e => absurd e (hu _ (hk k h1)).ne.2.2.1, ?_⟩
    intro _ j hj
    exact (hu j (hs (by rw [Tree.pre]; exact List.mem_cons_of_mem _ hj))).ne.1

mutual
theorem nest_tree : ∀ {t : Tree} {p : Option Ref} {pc : Cls} {b : Bool}, IsTree h p t → AllGiven h src t.pre →
    nestedL pc b (outlineOf h t) = true → NestFacts h pc b [t]
  | .node i ks, p, pc, b, T, G, hn => by
    have T' := T
    rw [IsTree] at T'
    have Gk : AllGiven h src (Tree.preL ks) := fun y hy => G y (by rw [Tree.pre]; exact List.mem_cons_of_mem _ hy)
    rw [outlineOf] at hn
    by_cases hl : h.isInst i .Text = true ∨ (h.get i).cls = .Keyword ∨ (h.get i).cls = .Bibliography
    · refine nest_unseen (unseen_tree T G ?_)
      rcases hl with hl | hl | hl
      · exact .inl hl
      · exact .inr (.inl hl)
      · exact .inr (.inr (.inl hl))
    rw [if_neg hl, nestedL, nestedL, Bool.and_true, nested] at hn
    simp only [Bool.and_eq_true] at hn
    obtain ⟨⟨⟨h1, h2⟩, h3⟩, h4⟩ := hn
    have e : (look h i).cls = (h.get i).cls := rfl
    rw [e] at h1 h2 h3 h4
    have ih := nest_forest T'.2.2 Gk h4
    refine ⟨?_, ?_, ?_, ?_⟩
    · intro k hk ek
      rw [List.mem_singleton] at hk
      subst hk
      rw [Tree.root] at ek
      simpa [ek] using h1
    · intro k hk ek
      rw [List.mem_singleton] at hk
      subst hk
      rw [Tree.root] at ek
      simpa [ek] using h2
    · intro hb j hj
      rw [Tree.preL, Tree.preL, List.append_nil, Tree.pre, List.mem_cons] at hj
      rcases hj with rfl | hj
      · intro ej
        simp [ej, hb] at h3
      · exact ih.inner (by simp [hb]) j hj
    · intro j ls hj
      rw [Tree.subtreesL, Tree.subtreesL, List.append_nil, Tree.subtrees, List.mem_cons] at hj
      rcases hj with hj | hj
      · cases hj
        refine ⟨ih.sub, ih.subsub, fun hs => ih.inner ?_⟩
        rcases hs with hs | hs | hs <;> simp [hs]
      · exact ih.all j ls hj
theorem nest_forest : ∀ {ts : List Tree} {p : Option Ref} {pc : Cls} {b : Bool}, IsForest h p ts →
    AllGiven h src (Tree.preL ts) → nestedL pc b (outlinesOf h ts) = true → NestFacts h pc b ts
  | [], p, pc, b, T, G, hn => by
    refine ⟨fun k hk => absurd hk (by simp), fun k hk => absurd hk (by simp), fun _ j hj => ?_, fun i ks hi => ?_⟩
    · rw [Tree.preL] at hj; cases hj
    · rw [Tree.subtreesL] at hi; cases hi
  | t :: ts, p, pc, b, T, G, hn => by
    rw [IsForest] at T
    rw [Tree.preL] at G
    rw [outlinesOf, nestedL_append, Bool.and_eq_true] at hn
    exact (nest_tree T.1 (fun y hy => G y (List.mem_append_left _ hy)) hn.1).cons
      (nest_forest T.2 (fun y hy => G y (List.mem_append_right _ hy)) hn.2)
end
end

theorem core_label {a b : NodeRec} (h : core a = core b) : a.label = b.label := by
  have : (core a).label = (core b).label := by rw [h]
  exact this

theorem core_target {a b : NodeRec} (h : core a = core b) : a.target = b.target := by
  have : (core a).target = (core b).target := by rw [h]
  exact this

theorem classOf_eq_error {kind : Str} (h : classOf kind = .Error) : kind = "ERROR".toList := by
  unfold classOf at h
  split at h
  · assumption
  split at h
  · cases h
  cases hl : classTable.lookup kind with
  | none => rw [hl] at h; cases h
  | some c =>
    rw [hl] at h
    have h : c = .Error := h
    subst h
    have : ∀ q ∈ classTable, q.2 ≠ .Error := by decide +kernel
    exact absurd rfl (this _ (mem_of_lookup hl))

theorem targetOf_str (kind : Str) (c : Cst) (r : Ref) : targetOf kind c ≠ .node r := by
  unfold targetOf
  split
  · cases c.namedChildren[1]? <;> exact fun h => nomatch h
  split
  · exact fun h => nomatch h
  split
  · exact fun h => nomatch h
  split
  · exact fun h => nomatch h
  · exact fun h => nomatch h

theorem lookOf_target (kind : Str) (c : Cst) (r : Ref) : (lookOf kind c).target ≠ .node r := by
  unfold lookOf
  split
  · exact fun h => nomatch h
  · exact targetOf_str kind c r

section
variable {c : Cst} {fuel : Nat} {s s' : ParserState} {r : Ref} {t : Tree}

theorem given_kid {h : Heap} {src : List Part} {r i : Ref} {ks : List Tree} (D : Doc h r t) (G : AllGiven h src t.pre)
    (hi : .node i ks ∈ t.subtrees) {k : Tree} (hk : k ∈ ks) : Given src (h.get i).cls (h.get k.root) := by
  obtain ⟨p, T⟩ := D.tree.subtree hi
  have hp : h.parent k.root = some i := ((isTree_node.mp T).2.2 k hk).parent_root
  have hm : k.root ∈ t.pre := Tree.mem_pre_of_subtree hi (by
    rw [Tree.pre]
    exact List.mem_cons_of_mem _ (Tree.mem_preL.mpr ⟨k, hk, Tree.root_mem_pre k⟩))
  exact G _ hm _ hp

theorem given_step {h : Heap} {src : List Part} {r : Ref} (D : Doc h r t) (G : AllGiven h src t.pre) : StepKidsAllowed h t := by
  intro i ks hi hc k hk
  have g := given_kid D G hi hk
  rw [hc] at g
  cases g with
  | added h => left; rcases h with h | h <;> rw [h] <;> rfl
  | bibliography _ h => cases h
  | entry h => cases h
  | @made n _ _ _ _ h4 h5 =>
    rw [core_cls h5]
    have h4 := h4.1
    unfold mayHold at h4
    simp only [Bool.or_eq_true, List.isEmpty_iff, List.contains_iff_mem] at h4
    rcases h4 with (h4 | h4) | h4
    · exact absurd h4 (by decide)
    · exact .inl h4
    · exact .inr h4

/-- A node of a class that only parts have is made of a part. -/
theorem Given.of_part {src : List Part} {p : Cls} {a : NodeRec} (g : Given src p a)
    (hc : a.cls ∉ [.Text, .Keyword, .Bibliography, .Bibitem, .SourceCode, .ClaimBlock]) :
    ∃ kind d ps, .node kind d ps ∈ src ∧ a.cls = classOf kind ∧ a.label = (lookOf kind d).label ∧
      a.target = (lookOf kind d).target ∧ (a.mustCloseP = false ∧ a.followedByDot = false) ∧ a.cls ≠ .Node := by
  simp only [List.mem_cons, List.not_mem_nil, or_false, not_or] at hc
  obtain ⟨c1, c2, c3, c4, c5, c6⟩ := hc
  cases g with
  | added h => rcases h with h | h; exacts [absurd h c1, absurd h c2]
  | bibliography h => exact absurd (core_cls h) c3
  | entry _ _ h2 h3 => exact absurd ((core_cls h3).trans (bibRecord_ok h2).2) c4
  | @made n ks _ _ h3 _ h5 =>
    cases h3 with
    | @part kind d ps _ _ g1 g2 g3 g4 _ =>
      have e1 : n.label = (lookOf kind d).label := by rw [← g3]; rfl
      have e2 : n.target = (lookOf kind d).target := by rw [← g3]; rfl
      exact ⟨kind, d, ps, g1, (core_cls h5).trans g2, (core_label h5).trans e1, (core_target h5).trans e2,
        Bool.or_eq_false_iff.mp (show noted (Parser.core a) = false by rw [h5]; exact g4.1.1), by rw [core_cls h5]; exact g4.1.2⟩
    | claim => exact absurd (core_cls h5) c6
    | asis h => exact absurd ((core_cls h5).trans h) c1
    | code _ _ h _ => exact absurd ((core_cls h5).trans h) c5
    | entry _ h2 => exact absurd ((core_cls h5).trans (bibRecord_ok h2).2) c4

/-- A proof is made of a part, and has no number unless it is given one. -/
theorem Given.of_proof {src : List Part} {p : Cls} {a : NodeRec} (g : Given src p a) (hc : a.cls = .Proof) :
    ∃ kind d ps, .node kind d ps ∈ src ∧ classOf kind = .Proof ∧ (metaText d "number".toList = none → a.number = .none) := by
  cases g with
  | added h => rcases h with h | h <;> rw [hc] at h <;> cases h
  | bibliography h => have := core_cls h; rw [hc] at this; cases this
  | entry _ _ h2 h3 =>
    have := (core_cls h3).trans (bibRecord_ok h2).2
    rw [hc] at this; cases this
  | @made n ks _ _ h3 _ h5 =>
    have hn := core_cls h5
    rw [hc] at hn
    cases h3 with
    | @part kind d ps _ _ g1 g2 g3 g4 _ =>
      refine ⟨kind, d, ps, g1, g2.symm.trans hn.symm, fun h => ?_⟩
      have e : (Parser.core a).number = (Parser.core n).number := congrArg NodeRec.number h5
      exact e.trans (g4.2.2 hn.symm h)
    | claim => cases hn
    | asis h => rw [h] at hn; cases hn
    | code _ _ h _ => rw [h] at hn; cases hn
    | entry _ h2 => rw [(bibRecord_ok h2).2] at hn; cases hn

/-- Source code is made of a part. -/
theorem Given.of_code {src : List Part} {p : Cls} {a : NodeRec} (g : Given src p a) (hc : a.cls = .SourceCode) :
    ∃ kind d ps, .node kind d ps ∈ src ∧ (kind = "code".toList ∨ kind = "codeblock".toList) := by
  cases g with
  | added h => rcases h with h | h <;> rw [hc] at h <;> cases h
  | bibliography h => have := core_cls h; rw [hc] at this; cases this
  | entry _ _ h2 h3 =>
    have := (core_cls h3).trans (bibRecord_ok h2).2
    rw [hc] at this; cases this
  | @made n ks _ _ h3 _ h5 =>
    have hn := core_cls h5
    rw [hc] at hn
    cases h3 with
    | @part kind d ps _ _ g1 g2 g3 g4 _ =>
      rw [← hn] at g2
      exfalso
      unfold classOf at g2
      split at g2
      · cases g2
      split at g2
      · cases g2
      cases hl : classTable.lookup kind with
      | none => rw [hl] at g2; cases g2
      | some c =>
        rw [hl] at g2
        have : ∀ q ∈ classTable, q.2 ≠ .SourceCode := by decide +kernel
        exact this _ (mem_of_lookup hl) g2.symm
    | claim => cases hn
    | asis h => rw [← hn] at h; cases h
    | code h1 h2 _ _ => exact ⟨_, _, _, h1, h2⟩
    | entry _ h2 => rw [(bibRecord_ok h2).2] at hn; cases hn

theorem lookOf_label {kind : Str} {d : Cst} (h : kind ≠ "bibitem".toList) :
    (lookOf kind d).label = (metaText d "label".toList).getD [] := by
  unfold lookOf
  rw [if_neg h]

/-- What the transformer needs. -/
theorem parse_input (S : Source c) (F : Forest s.heap) (hf : 12 * c.size < fuel) (h : parse fuel c s = .ok r s')
    (D : Doc s'.heap r t) (ho : outlineOf s'.heap t = [sourceOutline c]) :
    StepKidsAllowed s'.heap t ∧ KindsGiven s'.heap t ∧
    (∀ x ∈ t.pre, ∀ y, (s'.heap.get x).cls = .PendingReference → (s'.heap.get x).target ≠ .node y) ∧
    (ErrorsUnlabelled c → ResolveInput s'.heap r t) ∧ (TocFine c → TocInput s'.heap t) := by
  obtain ⟨G, hT, hK, hM⟩ := parse_given S F hf h D
  have G : AllGiven s'.heap (walks (sourceParts c)) t.pre := G
  have up : ∀ x ∈ t.pre, (s'.heap.get x).cls ≠ .Manuscript → ∃ q, Given (walks (sourceParts c)) q (s'.heap.get x) := by
    intro x hx hc
    by_cases hr : x = r
    · rw [hr] at hc; exact absurd hM hc
    · obtain ⟨q, _, hq, _⟩ := D.parent_mem hx hr
      exact ⟨_, G x hx q hq⟩
  refine ⟨given_step D G, ?_, ?_, ?_, ?_⟩
  · intro x hx hc hk
    obtain ⟨w, hw⟩ := hK x hx (by unfold Heap.isInst Cls.isSub; simpa using hc)
    rw [hk] at hw
    have : Normalize.keywordTable.lookup [] = none := by decide +kernel
    rw [this] at hw
    cases hw
  · intro x hx y hc ht
    obtain ⟨q, g⟩ := up x hx (by rw [hc]; decide)
    obtain ⟨kind, d, ps, _, _, _, e, _⟩ := g.of_part (by rw [hc]; decide)
    rw [ht] at e
    exact lookOf_target kind d y e.symm
  · intro hE
    refine ⟨D, ?_, ?_⟩
    · unfold Pending
      rw [hM]
      decide
    · intro x hx hc
      obtain ⟨q, g⟩ := up x hx (by rw [hc]; decide)
      obtain ⟨kind, d, ps, hm, hk, e, _⟩ := g.of_part (by rw [hc]; decide)
      rw [hc] at hk
      have hk := classOf_eq_error hk.symm
      rw [e, lookOf_label (by rw [hk]; decide), hE kind d ps hm hk]
      rfl
  · rintro hF ⟨x, hx, hc⟩
    obtain ⟨q, g⟩ := up x hx (by rw [hc]; decide)
    obtain ⟨kind, d, ps, hm, hk, _, _, _⟩ := g.of_part (by rw [hc]; decide)
    rw [hc] at hk
    obtain ⟨hE, hN⟩ := hF ⟨kind, d, ps, hm, classOf_contents hk.symm⟩
    constructor
    · have N := nest_tree (pc := .Node) (b := false) D.tree G (by rw [ho, nestedL, nestedL, Bool.and_true]; exact hN)
      have hs : ∀ {u}, u ∈ t.subtrees → u ∈ Tree.subtreesL [t] := fun hu => by
        rw [Tree.subtreesL, Tree.subtreesL, List.append_nil]; exact hu
      refine ⟨?_, fun i ks hi => (N.all i ks (hs hi)).1, fun i ks hi => (N.all i ks (hs hi)).2.1,
        fun i ks hi => (N.all i ks (hs hi)).2.2⟩
      rw [D.root_eq, hM]
      decide
    · intro i ks hi hc
      obtain ⟨p, T⟩ := D.tree.subtree hi
      rw [IsTree] at T
      have := hT hE i (Tree.mem_pre_of_subtree hi (by rw [Tree.pre]; exact List.mem_cons_self)) hc
      rw [T.2.1] at this
      exact List.map_eq_nil_iff.mp this
end

end Parser
end RSM
