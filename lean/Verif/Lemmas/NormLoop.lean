import Verif.Lemmas.NormBody

/-! Helper lemmas for text normalisation: the loop. -/

namespace RSM
namespace Normalize
open PyM Nodes Heap LTree Transformer

/-- Both the node and the sibling after it are inline nodes. -/
def spacedPair (a : NodeRec) : List LTree → Bool
  | [] => false
  | t :: _ => spacedClasses.contains a.cls && spacedClasses.contains t.attrs.cls

/-- What is inserted after a node. -/
def Spacer (n0 : Nat) (a : NodeRec) (ts ex : List LTree) : Prop :=
  (spacedPair a ts = true ∧ ∃ e, n0 ≤ e ∧ ex = [.node e (textAttrs [' ']) []]) ∨
  (spacedPair a ts = false ∧ ex = [])

theorem nextSibling_eq {h : Heap} {i q : Ref} {done rs : List Ref} (hp : h.parent i = some q)
    (hq : h.children q = done ++ i :: rs) (hi : i ∉ done) :
    h.nextSibling i .any = .ok rs.head? := by
  unfold Heap.nextSibling
  rw [hp]
  simp only [hq]
  rw [Nodes.idxOf?_split.mpr ⟨done, rs, rfl, hi, rfl⟩]
  cases rs with
  | nil =>
    have : List.drop (done.length + 1) (done ++ [i]) = [] := by simp
    simp only [this]; simp
  | cons r rs =>
    have : done.length < (done ++ i :: r :: rs).length - 1 := by simp
    simp only
    rw [if_pos this]
    simp

theorem spaceAfter_run {h : Heap} {i p done} {a : NodeRec} {ts : List LTree} (hin : i < h.next)
    (ha : (h.get i).cls = a.cls) (hp : h.parent i = p) (htop : p = none → ts = [])
    (hq : ∀ q, p = some q → h.children q = done ++ i :: ts.map root ∧ q < h.next ∧ q ≠ i)
    (hi : i ∉ done) (hts : ∀ t ∈ ts, (h.get t.root).cls = t.attrs.cls) :
    ∃ h' ex, Spacer h.next a ts ex ∧ spaceAfter i h = .ok () h' ∧
      (∀ e ∈ ex, Holds h' p e ∧ e.refs = [e.root] ∧ h.next ≤ e.root ∧ e.root < h'.next) ∧
      ex.length ≤ 1 ∧ h.next ≤ h'.next ∧
      (∀ x, x < h.next → p ≠ some x → SameNode h h' x) ∧
      (∀ q, p = some q → bare (h'.get q) = bare (h.get q) ∧ h'.parent q = h.parent q ∧
        h'.children q = done ++ i :: ex.map root ++ ts.map root) := by
  have hsib : h.nextSibling i .any = .ok (ts.map root).head? := by
    cases p with
    | none =>
      rw [htop rfl]
      unfold Heap.nextSibling; rw [hp]; rfl
    | some q => exact nextSibling_eq hp (hq q rfl).1 hi
  have hneeds : needsSpace h i (ts.map root).head? = spacedPair a ts := by
    cases ts with
    | nil => rfl
    | cons t ts => simp only [List.map_cons, List.head?_cons, needsSpace, spacedPair, ha, hts t (by simp)]
  have hrun : spaceAfter i h = (if spacedPair a ts then (do
      let t ← newText [' ']
      replaceSelf i [i, t]) else pure ()) h := by
    unfold spaceAfter
    simp only [bind_apply, get_apply, hsib, liftSib, pure_apply, hneeds]
  by_cases hs : spacedPair a ts = true
  · rw [hs, if_pos rfl] at hrun
    have hts1 : ts ≠ [] := by rintro rfl; simp [spacedPair] at hs
    obtain ⟨q, rfl⟩ : ∃ q, p = some q := by
      cases p with
      | none => exact absurd (htop rfl) hts1
      | some q => exact ⟨q, rfl⟩
    obtain ⟨hch, hqn, hqi⟩ := hq q rfl
    have hcls : a.cls.possibleParents = [] := by
      have : spacedClasses.contains a.cls = true := by
        cases ts with
        | nil => exact absurd rfl hts1
        | cons t ts => simp only [spacedPair, Bool.and_eq_true] at hs; exact hs.1
      revert this
      generalize a.cls = c
      cases c <;> decide
    let h1 := (h.alloc (textAttrs [' '])).2
    have hs1 : ∀ x, x < h.next → SameNode h h1 x := fun x hx => .alloc h _ hx
    have hn1 : h1.next = h.next + 1 := rfl
    have hp1 : h1.parent i = some q := (hs1 i hin).parent.trans hp
    have hch1 : h1.children q = done ++ i :: ts.map root := (hs1 q hqn).children.trans hch
    have hnw1 : h1.isInst q .NodeWithChildren = true :=
      isNWC_of_mem_children (c := i) (by rw [hch1]; simp)
    have hki : i ∈ (h1.get q).kids := by
      rw [← children_eq_kids _ _ hnw1, hch1]; simp
    have hrem : remove q i h1 = .ok () ((h1.withKids q (·.erase i)).withParent i none) := by
      rw [remove_apply]; simp [hnw1, hki]
    generalize hh2 : (h1.withKids q (·.erase i)).withParent i none = h2 at hrem
    have hch2 : h2.children q = done ++ ts.map root := by
      subst hh2
      rw [children_withParent, children_withKids _ _ _ _ hnw1, if_pos rfl, hch1,
        List.erase_append_right _ hi]
      simp
    have hch2' : ∀ x, x ≠ q → h2.children x = h1.children x := by
      intro x hx
      subst hh2
      rw [children_withParent, children_withKids _ _ _ _ hnw1, if_neg hx]
    have hp2 : ∀ x, x ≠ i → h2.parent x = h1.parent x := by
      intro x hx
      subst hh2
      rw [parent_withParent, parent_withKids, if_neg hx]
    have hat2 : SameAttributes h1 h2 := by
      subst hh2
      exact (SameAttributes.withKids _ _ _).trans (SameAttributes.withParent _ _ _)
    have hgt : h1.get h.next = textAttrs [' '] := by simp [h1, Heap.alloc]
    have hal : ∀ r ∈ [i, h.next], h2.Allowed r q := by
      intro r hr
      left
      rw [hat2.cls]
      simp only [List.mem_cons, List.not_mem_nil, or_false] at hr
      rcases hr with rfl | rfl
      · rw [(hs1 _ hin).cls, ha]; exact hcls
      · rw [hgt]; rfl
    obtain ⟨h3, e3, c1, c2, c3, c4⟩ := insertReplacements_spec q [i, h.next] done (ts.map root) h2
      (by unfold Heap.isInst; rw [hat2.cls]; exact hnw1) hch2 hal
    have hn3 : h3.next = h.next + 1 := by rw [c4.1, hat2.1]; rfl
    have hine : i ≠ h.next := by omega
    have hbare : ∀ x, bare (h3.get x) = bare (h1.get x) := fun x => (hat2.trans c4).2 x
    have hpar3 : ∀ x, x < h.next → h3.parent x = h1.parent x := by
      intro x hx
      rw [c3 x]
      by_cases hxi : x = i
      · subst hxi; simp [hp1]
      · have : x ≠ h.next := by omega
        simp only [List.mem_cons, hxi, this, List.not_mem_nil, or_self, if_false]
        exact hp2 x hxi
    have hsame : ∀ x, x < h.next → x ≠ q → SameNode h h3 x := by
      intro x hx hxq
      refine (hs1 x hx).trans ⟨hbare x, hpar3 x hx, ?_⟩
      rw [c2 x hxq, hch2' x hxq]
    refine ⟨h3, [.node h.next (textAttrs [' ']) []], .inl ⟨hs, h.next, le_refl _, rfl⟩, ?_, ?_, by simp,
      by rw [hn3]; omega, fun x hx hxq => hsame x hx fun e => hxq (by rw [e]), ?_⟩
    · rw [hrun]
      unfold newText
      rw [bind_apply, new_apply]
      simp only
      rw [show (h.alloc { NodeRec.new .Text with text := [' '] }).2 = h1 from rfl, replaceSelf_apply,
        hp1]
      simp only [hch1]
      rw [Nodes.idxOf?_split.mpr ⟨done, ts.map root, rfl, hi, rfl⟩]
      simp only [hrem]
      exact e3
    · intro e he
      simp only [List.mem_singleton] at he
      subst he
      refine ⟨⟨?_, ?_, ?_, trivial⟩, rfl, le_refl _, by rw [hn3]; simp⟩
      · rw [c3]; simp
      · rw [c2 _ (by omega), hch2' _ (by omega)]
        exact children_new_text h [' ']
      · rw [hbare, hgt]; exact textAttrs_bare _
    · intro q' hq'
      cases hq'
      refine ⟨(hbare _).trans (hs1 _ hqn).attrs, (hpar3 _ hqn).trans (hs1 _ hqn).parent, ?_⟩
      rw [c1]; simp
  · have hs' : spacedPair a ts = false := by simpa using hs
    rw [hs'] at hrun
    refine ⟨h, [], .inr ⟨hs', rfl⟩, hrun, by simp, by simp, le_refl _, fun _ _ _ => .refl _ _, ?_⟩
    intro q hq'
    exact ⟨rfl, rfl, by simpa using (hq q hq').1⟩

theorem bare_unescAttrs (n : NodeRec) : bare (unescAttrs n) = unescAttrs (bare n) := rfl

theorem Good.head {h : Heap} {p done t ts} (G : Good h p done (t :: ts)) :
    Good h (some t.root) [] t.kids := by
  cases t with
  | node i a ks =>
    have H := G.holds (.node i a ks) (by simp)
    have hnd := G.nodup
    simp only [refsL_cons, refs_node, List.cons_append, List.nodup_cons, List.mem_append,
      List.nodup_append] at hnd
    refine ⟨H.kids, hnd.2.1, fun x hx => G.bound x (by simp [show x ∈ refsL ks from hx]), by simp, ?_, ?_,
      ?_, by simp, by simp, by simp⟩
    · intro q hq; cases hq; simpa using H.children
    · intro q hq; cases hq; exact fun hm => hnd.1 (.inl hm)
    · intro q hq; cases hq; exact G.bound i (by simp)

/-- The body of the loop on the first of the trees. -/
theorem body_run {h : Heap} {p done i a ks ts} {n0} (G : Good h p done (.node i a ks :: ts))
    (hn0 : n0 ≤ h.next) :
    ((a.cls.isSub .Construct = true → keywordOf a.kind ≠ none) →
      ∃ h7 ks4 ex, Shaped n0 a ks ks4 ∧ Spacer n0 a ts ex ∧ normalizeNode i h = .ok () h7 ∧
        Good h7 (some i) [] ks4 ∧ (∀ x ∈ refsL ks4, x ∈ refsL ks ∨ h.next ≤ x) ∧
        h7.parent i = p ∧ bare (h7.get i) = unescAttrs a ∧ h.next ≤ h7.next ∧ ex.length ≤ 1 ∧
        (∀ x, x < h.next → x ∉ refsL ks → x ≠ i → p ≠ some x → SameNode h h7 x) ∧
        (∀ q, p = some q → bare (h7.get q) = bare (h.get q) ∧ h7.parent q = h.parent q ∧
          h7.children q = done ++ i :: ex.map root ++ ts.map root) ∧
        (∀ e ∈ ex, Holds h7 p e ∧ e.refs = [e.root] ∧ h.next ≤ e.root ∧ e.root < h7.next ∧
          e.root ∉ refsL ks4)) ∧
    (a.cls.isSub .Construct = true → keywordOf a.kind = none →
      ∃ h7, normalizeNode i h = .err .keyError h7) := by
  have H := G.holds (.node i a ks) (by simp)
  have Gk : Good h (some i) [] ks := G.head
  have hin : i < h.next := Gk.old i rfl
  have hnd := G.nodup
  simp only [refsL_cons, refs_node, List.cons_append, List.nodup_cons, List.mem_append,
    List.nodup_append] at hnd
  obtain ⟨sh, shErr⟩ := shape_steps (n0 := n0) Gk H.attrs hn0
  constructor
  · intro hk
    obtain ⟨h5, ks4, shaped, S, e5⟩ := sh hk
    have hb5 := attrs_of_frame S.frame (Gk.sep i rfl)
    have hp5 : h5.parent i = p := by
      rw [(S.frame.par i rfl (Gk.sep i rfl)).2]; exact H.parent
    have hcls5 : (h5.get i).cls = a.cls := by
      have := congrArg NodeRec.cls hb5
      rw [show bare (h.get i) = a from H.attrs] at this
      exact this
    have hq5 : ∀ q, p = some q → q ∉ refsL ks ∧ q ≠ i ∧ q < h.next := by
      intro q hq
      have h1 := G.sep q hq
      simp only [refsL_cons, refs_node, List.cons_append, List.mem_cons, List.mem_append, not_or] at h1
      exact ⟨h1.2.1, h1.1, G.old q hq⟩
    have hs5 : ∀ x, x < h.next → x ∉ refsL ks → x ≠ i → SameNode h h5 x :=
      fun x hx hn hne => S.frame.same x hx hn (by simpa using Ne.symm hne)
    have htsref : ∀ t ∈ ts, t.root < h.next ∧ t.root ∉ refsL ks ∧ t.root ≠ i := by
      intro t ht
      have hm : t.root ∈ refsL ts := mem_refsL.mpr ⟨t, ht, root_mem_refs t⟩
      refine ⟨G.bound _ (by simp [hm]), fun hm' => hnd.2.2.2 _ hm' _ hm rfl, ?_⟩
      intro e
      exact hnd.1 (.inr (e ▸ hm))
    obtain ⟨h6, ex, spacer, e6, hex, hexl, hn6, hs6, hq6⟩ := spaceAfter_run (h := h5) (i := i) (p := p)
      (done := done) (a := a) (ts := ts) (Nat.lt_of_lt_of_le hin S.frame.next) hcls5 hp5
      (fun hp => by have := (G.top hp).2; simp at this; exact this)
      (fun q hq => ⟨by
        rw [(hs5 q (hq5 q hq).2.2 (hq5 q hq).1 (hq5 q hq).2.1).children, G.kids q hq]; simp,
        Nat.lt_of_lt_of_le (hq5 q hq).2.2 S.frame.next, (hq5 q hq).2.1⟩)
      (fun hm => G.dsep i hm (by simp))
      (fun t ht => by
        obtain ⟨h1, h2, h3⟩ := htsref t ht
        rw [(hs5 _ h1 h2 h3).cls]
        exact (G.holds t (by simp [ht])).cls)
    have hs67 : ∀ x, x ≠ i → SameNode h6 (h6.update i unescAttrs) x :=
      fun x hx => .of_get (get_update_of_ne _ _ hx)
    have hch7 : ∀ x, (h6.update i unescAttrs).children x = h6.children x :=
      Heap.children_update h6 i unescAttrs (fun _ => rfl) (fun _ => rfl)
    have hpa7 : ∀ x, (h6.update i unescAttrs).parent x = h6.parent x :=
      Heap.parent_update h6 i unescAttrs (fun _ => rfl)
    have hpi : p ≠ some i := by
      intro e; exact (hq5 i e).2.1 rfl
    have hs6i := hs6 i (Nat.lt_of_lt_of_le hin S.frame.next) hpi
    have hks4 : ∀ x ∈ refsL ks4, x < h5.next ∧ p ≠ some x ∧ x ≠ i := by
      intro x hx
      refine ⟨S.good.bound x hx, ?_, ?_⟩
      · intro e
        rcases S.sub x hx with h1 | h1
        · exact (hq5 x e).1 h1
        · have := (hq5 x e).2.2; omega
      · rintro rfl; exact S.good.sep x rfl hx
    refine ⟨h6.update i unescAttrs, ks4, ex, shaped, ?_, ?_, ?_, S.sub, ?_, ?_,
      S.frame.next.trans hn6, hexl, ?_, ?_, ?_⟩
    · rcases spacer with ⟨h1, e, h2, h3⟩ | h1
      · exact .inl ⟨h1, e, hn0.trans (S.frame.next.trans h2), h3⟩
      · exact .inr h1
    · unfold normalizeNode
      rw [e5, bind_apply, e6]
      rfl
    · refine S.good.mono hn6 ?_ ?_
      · intro x hx
        obtain ⟨h1, h2, h3⟩ := hks4 x hx
        exact (hs6 x h1 h2).trans (hs67 x h3)
      · intro q hq; cases hq
        rw [hch7, hs6i.children]
    · rw [hpa7, hs6i.parent, hp5]
    · rw [Heap.get_update_self, bare_unescAttrs, hs6i.attrs, hb5]
      rw [show bare (h.get i) = a from H.attrs]
    · intro x hx hn hne hpx
      exact ((hs5 x hx hn hne).trans (hs6 x (Nat.lt_of_lt_of_le hx S.frame.next) hpx)).trans (hs67 x hne)
    · intro q hq
      obtain ⟨h1, h2, h3⟩ := hq5 q hq
      obtain ⟨g1, g2, g3⟩ := hq6 q hq
      have s5 := hs5 q h3 h1 h2
      have s7 := hs67 q h2
      exact ⟨s7.attrs.trans (g1.trans s5.attrs), s7.parent.trans (g2.trans s5.parent),
        s7.children.trans g3⟩
    · intro e he
      obtain ⟨H1, H2, H3, H4⟩ := hex e he
      have hei : e.root ≠ i := by
        have := S.frame.next
        omega
      refine ⟨H1.congr ?_, H2, S.frame.next.trans H3, H4, fun hm => ?_⟩
      · intro x hx
        rw [H2] at hx
        simp only [List.mem_singleton] at hx
        subst hx
        exact hs67 _ hei
      · have := S.good.bound _ hm; omega
  · intro hc hk
    obtain ⟨h7, e7⟩ := shErr hc hk
    exact ⟨h7, by unfold normalizeNode; rw [e7]⟩

mutual
/-- Number of nodes, plus three for each construct. -/
def cost : LTree → Nat
  | .node _ a ks => 1 + (if a.cls.isSub .Construct then 3 else 0) + costL ks
def costL : List LTree → Nat
  | [] => 0
  | t :: ts => cost t + costL ts
end

@[simp] theorem costL_nil : costL [] = 0 := rfl
@[simp] theorem costL_cons (t ts) : costL (t :: ts) = cost t + costL ts := rfl
@[simp] theorem costL_append (a b : List LTree) : costL (a ++ b) = costL a + costL b := by
  induction a with
  | nil => simp
  | cons t a ih => simp [ih]; omega
@[simp] theorem cost_mapText (f k) : cost (mapText f k) = cost k := by cases k; rfl
@[simp] theorem cost_mapIfText (f k) : cost (mapIfText f k) = cost k := by
  unfold mapIfText; split <;> simp
@[simp] theorem costL_mapHead (f ks) : costL (mapHead f ks) = costL ks := by
  cases ks <;> simp [mapHead]
@[simp] theorem costL_mapLast (f ks) : costL (mapLast f ks) = costL ks := by
  cases hl : ks.getLast? with
  | none => rw [List.getLast?_eq_none_iff] at hl; subst hl; rfl
  | some k =>
    obtain ⟨a, rfl⟩ := List.getLast?_eq_some_iff.mp hl
    rw [mapLast_append]; simp
theorem costL_map (f ks) : costL (ks.map (mapIfText f)) = costL ks := by
  induction ks with
  | nil => rfl
  | cons k ks ih => simp [ih]

theorem costL_mergeGroup (g : Bool × List LTree) : costL (mergeGroup g) ≤ costL g.2 := by
  obtain ⟨b, run⟩ := g
  cases b with
  | false => simp [mergeGroup]
  | true =>
    cases run with
    | nil => simp [mergeGroup]
    | cons k run => simp [mergeGroup]

theorem costL_mergeL (ks : List LTree) : costL (mergeL ks) ≤ costL ks := by
  unfold mergeL
  conv_rhs => rw [← groupRuns_flat isT ks]
  generalize groupRuns isT ks = gs
  induction gs with
  | nil => simp
  | cons g gs ih =>
    simp only [List.flatMap_cons, costL_append]
    have := costL_mergeGroup g
    omega

theorem cost_kwTree (n w) : cost (kwTree n w) = 2 := rfl

theorem cost_textLeaf (n s) : cost (.node n (textAttrs s) []) = 1 := rfl

theorem Shaped.cost {n0 a ks ks4} (S : Shaped n0 a ks ks4) :
    costL ks4 ≤ costL ks + if a.cls.isSub .Construct then 3 else 0 := by
  have hm := costL_mergeL ks
  cases S with
  | plain hc =>
    rw [costL_map]; simp only [stripL, costL_mapLast, costL_mapHead]; omega
  | construct hc hw hn =>
    rw [costL_map, hc, if_pos rfl]
    have hst : costL (stripL (mergeL ks)) ≤ costL ks := by
      simp only [stripL, costL_mapLast, costL_mapHead]; exact hm
    generalize stripL (mergeL ks) = l at hst
    cases l with
    | nil => simp [openL, cost_kwTree]
    | cons k l =>
      simp only [openL]
      split
      · simp only [costL_cons, cost_kwTree, cost_textLeaf, costL_mapHead] at hst ⊢; omega
      · simp only [costL_cons, cost_kwTree, costL_mapHead] at hst ⊢; omega

mutual
/-- Every construct has a kind with a keyword. -/
def KnownT : LTree → Prop
  | .node _ a ks => (a.cls.isSub .Construct = true → keywordOf a.kind ≠ none) ∧ KnownL ks
def KnownL : List LTree → Prop
  | [] => True
  | t :: ts => KnownT t ∧ KnownL ts
end

theorem knownL_iff {ts} : KnownL ts ↔ ∀ t ∈ ts, KnownT t := by
  induction ts with
  | nil => simp [KnownL]
  | cons t ts ih => simp [KnownL, ih]

@[simp] theorem knownT_mapText (f k) : KnownT (mapText f k) ↔ KnownT k := by cases k; rfl
@[simp] theorem knownT_mapIfText (f k) : KnownT (mapIfText f k) ↔ KnownT k := by
  unfold mapIfText; split <;> simp
theorem knownL_mapHead (f ks) : KnownL (mapHead f ks) ↔ KnownL ks := by
  cases ks <;> simp [mapHead, KnownL]
theorem knownL_append {a b} : KnownL (a ++ b) ↔ KnownL a ∧ KnownL b := by
  simp only [knownL_iff, List.mem_append]
  exact ⟨fun h => ⟨fun t ht => h t (.inl ht), fun t ht => h t (.inr ht)⟩,
    fun h t ht => ht.elim (h.1 t) (h.2 t)⟩
theorem knownL_mapLast (f ks) : KnownL (mapLast f ks) ↔ KnownL ks := by
  cases hl : ks.getLast? with
  | none => rw [List.getLast?_eq_none_iff] at hl; subst hl; rfl
  | some k =>
    obtain ⟨a, rfl⟩ := List.getLast?_eq_some_iff.mp hl
    rw [mapLast_append]; simp [knownL_append, KnownL]
theorem knownL_map (f ks) : KnownL (ks.map (mapIfText f)) ↔ KnownL ks := by
  induction ks with
  | nil => rfl
  | cons k ks ih => simp [KnownL, ih]

theorem knownT_text {k : LTree} (hk : k.isT = true) (hl : k.kids = []) : KnownT k := by
  cases k with
  | node i a ks =>
    simp only [kids_mk] at hl
    subst hl
    refine ⟨fun hc => ?_, trivial⟩
    exfalso
    unfold LTree.isT at hk
    simp only [attrs_mk] at hk
    generalize a.cls = c at hk hc
    revert hk hc; cases c <;> decide

/-- Text nodes have no children. -/
def TextLeaf (ks : List LTree) : Prop := ∀ k ∈ ks, k.isT = true → k.kids = []

theorem Good.textLeaf {h p done ts} (G : Good h p done ts) : TextLeaf ts :=
  fun k hk ht => (G.holds k hk).text_kids ht

theorem knownL_mergeL {ks} (hl : TextLeaf ks) : KnownL (mergeL ks) ↔ KnownL ks := by
  have hflat := groupRuns_flat isT ks
  have hkey := groupRuns_key isT ks
  unfold mergeL
  rw [← hflat] at hl
  conv_rhs => rw [← hflat]
  generalize groupRuns isT ks = gs at hl hkey
  induction gs with
  | nil => rfl
  | cons g gs ih =>
    simp only [List.flatMap_cons, knownL_append]
    rw [ih (fun k hk => hl k (by rw [List.flatMap_cons]; exact List.mem_append_right _ hk))
      (fun g' hg' => hkey g' (by simp [hg']))]
    suffices KnownL (mergeGroup g) ↔ KnownL g.2 by rw [this]
    obtain ⟨b, run⟩ := g
    cases b with
    | false => simp [mergeGroup]
    | true =>
      have hrun : ∀ k ∈ run, KnownT k := fun k hk =>
        knownT_text (hkey (true, run) (by simp) k hk)
          (hl k (by rw [List.flatMap_cons]; exact List.mem_append_left _ hk)
            (hkey (true, run) (by simp) k hk))
      have h2 : KnownL run := knownL_iff.mpr hrun
      cases run with
      | nil => rfl
      | cons k run =>
        simp only [mergeGroup, KnownL, knownT_mapText, and_true]
        exact ⟨fun h => ⟨h, h2.2⟩, fun h => h.1⟩

theorem Shaped.known {n0 a ks ks4} (S : Shaped n0 a ks ks4) (hl : TextLeaf ks) :
    KnownL ks4 ↔ KnownL ks := by
  have hst : KnownL (stripL (mergeL ks)) ↔ KnownL ks := by
    unfold stripL
    rw [knownL_mapLast, knownL_mapHead, knownL_mergeL hl]
  have hkw : ∀ n w, KnownT (kwTree n w) := by
    intro n w
    have h1 : Cls.isSub .Keyword .Construct = false := by decide
    have h2 : Cls.isSub .Text .Construct = false := by decide
    refine ⟨fun h => ?_, ⟨fun h => ?_, trivial⟩, trivial⟩
    · rw [show (NodeRec.new .Keyword).cls = .Keyword from rfl, h1] at h; cases h
    · rw [show (textAttrs w).cls = .Text from rfl, h2] at h; cases h
  have htx : ∀ n s, KnownT (.node n (textAttrs s) []) := by
    intro n s
    have h2 : Cls.isSub .Text .Construct = false := by decide
    refine ⟨fun h => ?_, trivial⟩
    rw [show (textAttrs s).cls = .Text from rfl, h2] at h; cases h
  cases S with
  | plain hc => rw [knownL_map, hst]
  | construct hc hw hn =>
    rw [knownL_map, ← hst]
    generalize stripL (mergeL ks) = l
    cases l with
    | nil => simp [openL, KnownL, hkw]
    | cons k l =>
      simp only [openL]
      split
      · simp only [KnownL, hkw, htx, knownL_mapHead, true_and]
      · simp only [KnownL, hkw, knownL_mapHead, true_and]

/-- What normalisation makes of a list of sibling trees; new references are at least `n0`. -/
inductive Norm (n0 : Nat) : List LTree → List LTree → Prop
  | nil : Norm n0 [] []
  | cons {i a ks ts ks4 ks5 ts' ex} : Shaped n0 a ks ks4 → Norm n0 ks4 ks5 → Norm n0 ts ts' →
      Spacer n0 a ts ex → TextLeaf ks →
      Norm n0 (.node i a ks :: ts) (.node i (unescAttrs a) ks5 :: (ex ++ ts'))

/-- The loop, abbreviated. -/
abbrev loop := travLoop (σ := Heap) id (fun _ _ => true) normalizeNode

theorem loop_cons_ok {n i stack} {h h7 : Heap} (e : normalizeNode i h = .ok () h7) :
    loop (n + 1) (i :: stack) h = loop n (h7.children i ++ stack) h7 := by
  simp [loop, travLoop, e]

theorem loop_cons_err {n i stack x} {h h7 : Heap} (e : normalizeNode i h = .err x h7) :
    loop (n + 1) (i :: stack) h = .err x h7 := by
  simp [loop, travLoop, e]

theorem loop_norm (n0 : Nat) (N : Nat) : ∀ (ts : List LTree) (h : Heap) (p : Option Ref)
    (done : List Ref), costL ts ≤ N → Good h p done ts → n0 ≤ h.next →
    (∀ x ∈ done, x < h.next) →
    (KnownL ts → ∃ h' ts' m, m ≤ costL ts ∧
      (∀ n stack, loop (m + n) (ts.map root ++ stack) h = loop n stack h') ∧
      Norm n0 ts ts' ∧ Good h' p done ts' ∧ Frame h h' p (refsL ts) ∧
      (∀ x ∈ refsL ts', x ∈ refsL ts ∨ h.next ≤ x)) ∧
    (¬ KnownL ts → ∃ h', ∀ n stack, loop (costL ts + n) (ts.map root ++ stack) h = .err .keyError h') := by
  induction N with
  | zero =>
    intro ts h p done hN G hn0 hdl
    have : ts = [] := by
      cases ts with
      | nil => rfl
      | cons t ts => cases t; simp [cost] at hN
    subst this
    exact ⟨fun _ => ⟨h, [], 0, by simp, by simp, .nil, G, .refl _ _ _, fun _ => .inl⟩, by simp [KnownL]⟩
  | succ N ih =>
    intro ts h p done hN G hn0 hdl
    cases ts with
    | nil => exact ⟨fun _ => ⟨h, [], 0, by simp, by simp, .nil, G, .refl _ _ _, fun _ => .inl⟩, by simp [KnownL]⟩
    | cons t ts =>
      obtain ⟨i, a, ks⟩ := t
      obtain ⟨bok, berr⟩ := body_run G hn0
      have Gk : Good h (some i) [] ks := G.head
      have hin : i < h.next := Gk.old i rfl
      have hnd := G.nodup
      simp only [refsL_cons, refs_node, List.cons_append, List.nodup_cons, List.mem_append,
        List.nodup_append] at hnd
      by_cases hkn : a.cls.isSub .Construct = true → keywordOf a.kind ≠ none
      case neg =>
        have hc : a.cls.isSub .Construct = true := Classical.byContradiction fun hc => hkn fun h => absurd h hc
        have hk : keywordOf a.kind = none := Classical.byContradiction fun hk => hkn fun _ => hk
        obtain ⟨h7, e7⟩ := berr hc hk
        refine ⟨fun h => absurd h.1.1 hkn, fun _ => ⟨h7, fun n stack => ?_⟩⟩
        have : costL (.node i a ks :: ts) + n = ((if a.cls.isSub .Construct then 3 else 0) + costL ks +
            costL ts + n) + 1 := by simp [cost]; omega
        rw [this, List.map_cons, List.cons_append]
        exact loop_cons_err e7
      case pos =>
        obtain ⟨h7, ks4, ex, shaped, spacer, e7, G7, sub4, hp7, hb7, hn7, hexl, hs7, hq7, hex⟩ := bok hkn
        have hsc := shaped.cost
        have hcost : costL (.node i a ks :: ts) =
            1 + (if a.cls.isSub .Construct then 3 else 0) + costL ks + costL ts := by simp [cost]
        rw [hcost] at hN
        have hN4 : costL ks4 ≤ N := by omega
        have hNts : costL ts ≤ N := by omega
        have hch7 : h7.children i = ks4.map root := by simpa using G7.kids i rfl
        obtain ⟨kok, kerr⟩ := ih ks4 h7 (some i) [] hN4 G7 (hn0.trans hn7) (by simp)
        have hknown := shaped.known (Gk.textLeaf)
        by_cases hK4 : KnownL ks4
        case neg =>
          obtain ⟨h8, e8⟩ := kerr hK4
          refine ⟨fun h => absurd (hknown.mpr h.1.2) hK4, fun _ => ⟨h8, fun n stack => ?_⟩⟩
          obtain ⟨d, hd⟩ : ∃ d, costL ks + (if a.cls.isSub .Construct then 3 else 0) = costL ks4 + d :=
            ⟨_, (Nat.add_sub_of_le hsc).symm⟩
          have : costL (.node i a ks :: ts) + n = costL ks4 + (d + costL ts + n) + 1 := by
            rw [hcost]; omega
          rw [this, List.map_cons, List.cons_append, root_mk, loop_cons_ok e7, hch7, e8]
        case pos =>
          obtain ⟨h8, ks5, m1, hm1, e8, N8, G8, F8, sub8⟩ := kok hK4
          -- the state before the remaining siblings
          have hts7 : ∀ x ∈ refsL ts, x < h.next ∧ x ∉ refsL ks ∧ x ≠ i ∧ p ≠ some x := by
            intro x hx
            refine ⟨G.bound x (by simp [hx]), fun hm => hnd.2.2.2 _ hm _ hx rfl, ?_, ?_⟩
            · rintro rfl; exact hnd.1 (.inr hx)
            · intro e; exact G.sep x e (by simp [hx])
          have hnot4 : ∀ x, x < h.next → x ∉ refsL ks → x ∉ refsL ks4 := by
            intro x hx hn hm
            rcases sub4 x hm with h1 | h1
            · exact hn h1
            · omega
          have hs8 : ∀ x, x < h.next → x ∉ refsL ks → x ≠ i → p ≠ some x → SameNode h h8 x := by
            intro x h1 h2 h3 h4
            exact (hs7 x h1 h2 h3 h4).trans
              (F8.same x (Nat.lt_of_lt_of_le h1 hn7) (hnot4 x h1 h2) (by simpa using Ne.symm h3))
          have hqfacts : ∀ q, p = some q → q < h.next ∧ q ∉ refsL ks ∧ q ≠ i ∧ q ∉ refsL ts := by
            intro q hq
            have h1 := G.sep q hq
            simp only [refsL_cons, refs_node, List.cons_append, List.mem_cons, List.mem_append, not_or] at h1
            exact ⟨G.old q hq, h1.2.1, h1.1, h1.2.2⟩
          have hq8 : ∀ q, p = some q → bare (h8.get q) = bare (h.get q) ∧ h8.parent q = h.parent q ∧
              h8.children q = done ++ i :: ex.map root ++ ts.map root := by
            intro q hq
            obtain ⟨h1, h2, h3, h4⟩ := hqfacts q hq
            obtain ⟨g1, g2, g3⟩ := hq7 q hq
            have s := F8.same q (Nat.lt_of_lt_of_le h1 hn7) (hnot4 q h1 h2) (by simpa using Ne.symm h3)
            exact ⟨s.attrs.trans g1, s.parent.trans g2, s.children.trans g3⟩
          have hn8 : h.next ≤ h8.next := hn7.trans F8.next
          have hexr : ∀ x ∈ ex.map root, h.next ≤ x ∧ x < h7.next ∧ x ∉ refsL ks4 := by
            intro x hx
            obtain ⟨e, he, rfl⟩ := List.mem_map.mp hx
            obtain ⟨_, _, a1, a2, a3⟩ := hex e he
            exact ⟨a1, a2, a3⟩
          have hexnd : (ex.map root).Nodup := by
            match ex, hexl with
            | [], _ => simp
            | [e], _ => simp
          obtain ⟨done', G9, hd9, hdl9⟩ : ∃ done', Good h8 p done' ts ∧
              (∀ q, p = some q → done' = done ++ i :: ex.map root) ∧ (∀ x ∈ done', x < h8.next) := by
            cases p with
            | none =>
              have : ts = [] := by have := (G.top rfl).2; simp at this; exact this
              subst this
              exact ⟨[], ⟨by simp, by simp [refsL], by simp [refsL], by simp, by simp, by simp, by simp,
                by simp, by simp, by simp⟩, by simp, by simp⟩
            | some q =>
              obtain ⟨q1, q2, q3, q4⟩ := hqfacts q rfl
              refine ⟨done ++ i :: ex.map root, ⟨?_, hnd.2.2.1, ?_, by simp, ?_, ?_, ?_, ?_, ?_, ?_⟩,
                fun q hq => by cases hq; rfl, ?_⟩
              · intro t ht
                refine (G.holds t (by simp [ht])).congr fun x hx => ?_
                obtain ⟨a1, a2, a3, a4⟩ := hts7 x (mem_refsL.mpr ⟨t, ht, hx⟩)
                exact hs8 x a1 a2 a3 a4
              · exact fun x hx => Nat.lt_of_lt_of_le (hts7 x hx).1 hn8
              · intro q' hq'; cases hq'
                rw [(hq8 _ rfl).2.2]
              · intro q' hq'; cases hq'; exact q4
              · intro q' hq'; cases hq'; omega
              · intro x hx hm
                rcases List.mem_append.mp hx with h1 | h1
                · exact G.dsep x h1 (by simp [hm])
                · rcases List.mem_cons.mp h1 with rfl | h1
                  · exact hnd.1 (.inr hm)
                  · have := (hexr x h1).1
                    have := (hts7 x hm).1
                    omega
              · rw [List.nodup_append]
                refine ⟨G.dnodup, ?_, ?_⟩
                · rw [List.nodup_cons]
                  refine ⟨fun hm => ?_, hexnd⟩
                  have := (hexr i hm).1
                  omega
                · intro x hx y hy e
                  subst e
                  rcases List.mem_cons.mp hy with rfl | hy
                  · exact G.dsep _ hx (by simp)
                  · have := (hexr x hy).1
                    have := hdl x hx
                    omega
              · intro q' hq'; cases hq'
                intro hm
                rcases List.mem_append.mp hm with h1 | h1
                · exact G.psep q rfl h1
                · rcases List.mem_cons.mp h1 with h1 | h1
                  · exact q3 h1
                  · have := (hexr q h1).1
                    omega
              · intro x hx
                rcases List.mem_append.mp hx with h1 | h1
                · exact Nat.lt_of_lt_of_le (hdl x h1) hn8
                · rcases List.mem_cons.mp h1 with rfl | h1
                  · omega
                  · have := (hexr x h1).2.1
                    have := F8.next
                    omega
          obtain ⟨tok, terr⟩ := ih ts h8 p done' hNts G9 (hn0.trans hn8) hdl9
          by_cases hKt : KnownL ts
          case neg =>
            obtain ⟨h9, e9⟩ := terr hKt
            refine ⟨fun h => absurd h.2 hKt, fun _ => ⟨h9, fun n stack => ?_⟩⟩
            obtain ⟨d, hd⟩ : ∃ d, costL ks + (if a.cls.isSub .Construct then 3 else 0) = m1 + d :=
              ⟨_, (Nat.add_sub_of_le (hm1.trans hsc)).symm⟩
            have : costL (.node i a ks :: ts) + n = m1 + (costL ts + (d + n)) + 1 := by
              rw [hcost]; omega
            rw [this, List.map_cons, List.cons_append, root_mk, loop_cons_ok e7, hch7, e8, e9]
          case pos =>
            obtain ⟨h9, ts', m2, hm2, e9, N9, G9', F9, sub9⟩ := tok hKt
            have hn9 : h8.next ≤ h9.next := F9.next
            have hpi : p ≠ some i := fun e => (hqfacts i e).2.2.1 rfl
            have hi8 : bare (h8.get i) = unescAttrs a ∧ h8.parent i = p := by
              obtain ⟨a1, a2⟩ := F8.par i rfl (G7.sep i rfl)
              exact ⟨a1.trans hb7, a2.trans hp7⟩
            have hks5 : ∀ x ∈ refsL ks5, (x ∈ refsL ks ∨ h.next ≤ x) := by
              intro x hx
              rcases sub8 x hx with h1 | h1
              · exact sub4 x h1
              · exact .inr (hn7.trans h1)
            have hT8 : Holds h8 p (.node i (unescAttrs a) ks5) :=
              ⟨hi8.2, by simpa using G8.kids i rfl, hi8.1, holdsL_iff.mpr G8.holds⟩
            have hTrefs : ∀ x ∈ (LTree.node i (unescAttrs a) ks5).refs,
                x < h8.next ∧ x ∉ refsL ts ∧ p ≠ some x := by
              intro x hx
              rw [refs_node] at hx
              rcases List.mem_cons.mp hx with rfl | hx
              · exact ⟨by omega, fun hm => hnd.1 (.inr hm), hpi⟩
              · refine ⟨G8.bound x hx, fun hm => ?_, fun e => ?_⟩
                · obtain ⟨a1, a2, _, _⟩ := hts7 x hm
                  rcases hks5 x hx with h1 | h1
                  · exact a2 h1
                  · omega
                · obtain ⟨a1, a2, _, _⟩ := hqfacts x e
                  rcases hks5 x hx with h1 | h1
                  · exact a2 h1
                  · omega
            have hexF : ∀ x ∈ ex.map root, x < h8.next ∧ x ∉ refsL ts ∧ p ≠ some x ∧ x ≠ i ∧
                x ∉ refsL ks5 := by
              intro x hx
              obtain ⟨a1, a2, a3⟩ := hexr x hx
              have := F8.next
              refine ⟨by omega, fun hm => ?_, fun e => ?_, by omega, fun hm => ?_⟩
              · have := (hts7 x hm).1; omega
              · have := (hqfacts x e).1; omega
              · rcases sub8 x hm with h1 | h1
                · exact a3 h1
                · omega
            have hex8 : ∀ e ∈ ex, Holds h8 p e := by
              intro e he
              obtain ⟨H1, H2, _, H4, H5⟩ := hex e he
              have hm : e.root ∈ ex.map root := List.mem_map.mpr ⟨e, he, rfl⟩
              refine H1.congr fun x hx => ?_
              rw [H2, List.mem_singleton] at hx
              subst hx
              exact F8.same _ H4 H5 (by simpa using Ne.symm (hexF _ hm).2.2.2.1)
            have hexrefs : refsL ex = ex.map root := by
              clear spacer hexl hexnd hq7 hq8 hd9 hexr hexF hex8
              induction ex with
              | nil => rfl
              | cons e ex ihe =>
                rw [refsL_cons, (hex e (by simp)).2.1, ihe fun e he => hex e (by simp [he])]
                rfl
            have hrefs' : refsL (.node i (unescAttrs a) ks5 :: (ex ++ ts')) =
                i :: (refsL ks5 ++ (ex.map root ++ refsL ts')) := by
              simp [hexrefs]
            have hts'lt : ∀ x ∈ refsL ts', x ∈ refsL ts ∨ h8.next ≤ x := sub9
            refine ⟨fun _ => ⟨h9, .node i (unescAttrs a) ks5 :: (ex ++ ts'), 1 + m1 + m2, ?_, ?_,
              .cons shaped N8 N9 spacer Gk.textLeaf, ?_, ?_, ?_⟩, fun h => absurd ⟨⟨hkn, hknown.mp hK4⟩, hKt⟩ h⟩
            · rw [hcost]; omega
            · intro n stack
              rw [show 1 + m1 + m2 + n = m1 + (m2 + n) + 1 by omega, List.map_cons, List.cons_append,
                root_mk, loop_cons_ok e7, hch7, e8, e9]
            · refine ⟨?_, ?_, ?_, ?_, ?_, ?_, ?_, ?_, G.dnodup, G.psep⟩
              · intro t ht
                rcases List.mem_cons.mp ht with rfl | ht
                · refine hT8.congr fun x hx => ?_
                  obtain ⟨a1, a2, a3⟩ := hTrefs x hx
                  exact F9.same x a1 a2 a3
                · rcases List.mem_append.mp ht with ht | ht
                  · refine (hex8 t ht).congr fun x hx => ?_
                    rw [(hex t ht).2.1, List.mem_singleton] at hx
                    subst hx
                    obtain ⟨a1, a2, a3, _⟩ := hexF _ (List.mem_map.mpr ⟨t, ht, rfl⟩)
                    exact F9.same _ a1 a2 a3
                  · exact G9'.holds t ht
              · rw [hrefs', List.nodup_cons]
                refine ⟨?_, ?_⟩
                · intro hm
                  rcases List.mem_append.mp hm with h1 | h1
                  · exact G8.sep i rfl h1
                  · rcases List.mem_append.mp h1 with h1 | h1
                    · exact (hexF i h1).2.2.2.1 rfl
                    · rcases hts'lt i h1 with h1 | h1
                      · exact hnd.1 (.inr h1)
                      · omega
                · rw [List.nodup_append]
                  refine ⟨G8.nodup, ?_, ?_⟩
                  · rw [List.nodup_append]
                    refine ⟨hexnd, G9'.nodup, ?_⟩
                    intro x hx y hy e
                    subst e
                    obtain ⟨a1, a2, _⟩ := hexF x hx
                    rcases hts'lt x hy with h1 | h1
                    · exact a2 h1
                    · omega
                  · intro x hx y hy e
                    subst e
                    rcases List.mem_append.mp hy with hy | hy
                    · exact (hexF x hy).2.2.2.2 hx
                    · obtain ⟨a1, a2, _⟩ := hTrefs x (by simp [hx])
                      rcases hts'lt x hy with h1 | h1
                      · exact a2 h1
                      · omega
              · intro x hx
                rw [hrefs'] at hx
                rcases List.mem_cons.mp hx with rfl | hx
                · omega
                · rcases List.mem_append.mp hx with hx | hx
                  · have := G8.bound x hx; omega
                  · rcases List.mem_append.mp hx with hx | hx
                    · have := (hexF x hx).1; omega
                    · exact G9'.bound x hx
              · intro hp
                have hts : ts = [] := by have := (G.top hp).2; simp at this; exact this
                subst hts
                refine ⟨(G.top hp).1, ?_⟩
                cases N9
                rcases spacer with ⟨h1, _⟩ | ⟨_, rfl⟩
                · simp [spacedPair] at h1
                · simp
              · intro q hq
                rw [G9'.kids q hq, hd9 q hq]; simp
              · intro q hq hm
                obtain ⟨a1, a2, a3, a4⟩ := hqfacts q hq
                rw [hrefs'] at hm
                rcases List.mem_cons.mp hm with hm | hm
                · exact a3 hm
                · rcases List.mem_append.mp hm with hm | hm
                  · rcases hks5 q hm with h1 | h1
                    · exact a2 h1
                    · omega
                  · rcases List.mem_append.mp hm with hm | hm
                    · exact (hexF q hm).2.2.1 hq
                    · exact G9'.sep q hq hm
              · intro q hq
                have := (hqfacts q hq).1
                omega
              · intro x hx hm
                have hxl := hdl x hx
                have hxs := G.dsep x hx
                simp only [refsL_cons, refs_node, List.cons_append, List.mem_cons, List.mem_append,
                  not_or] at hxs
                rw [hrefs'] at hm
                rcases List.mem_cons.mp hm with hm | hm
                · exact hxs.1 hm
                · rcases List.mem_append.mp hm with hm | hm
                  · rcases hks5 x hm with h1 | h1
                    · exact hxs.2.1 h1
                    · omega
                  · rcases List.mem_append.mp hm with hm | hm
                    · have := (hexr x hm).1
                      omega
                    · rcases hts'lt x hm with h1 | h1
                      · exact hxs.2.2 h1
                      · omega
            · refine ⟨?_, ?_, hn8.trans hn9⟩
              · intro x hx hn hne
                simp only [refsL_cons, refs_node, List.cons_append, List.mem_cons, List.mem_append,
                  not_or] at hn
                exact (hs8 x hx hn.2.1 hn.1 hne).trans
                  (F9.same x (Nat.lt_of_lt_of_le hx hn8) hn.2.2 hne)
              · intro q hq hn
                obtain ⟨g1, g2, _⟩ := hq8 q hq
                obtain ⟨f1, f2⟩ := F9.par q hq (hqfacts q hq).2.2.2
                exact ⟨f1.trans g1, f2.trans g2⟩
            · intro x hx
              rw [hrefs'] at hx
              simp only [refsL_cons, refs_node, List.cons_append, List.mem_cons, List.mem_append]
              rcases List.mem_cons.mp hx with hx | hx
              · exact .inl (.inl hx)
              · rcases List.mem_append.mp hx with hx | hx
                · rcases hks5 x hx with h1 | h1
                  · exact .inl (.inr (.inl h1))
                  · exact .inr h1
                · rcases List.mem_append.mp hx with hx | hx
                  · exact .inr (hexr x hx).1
                  · rcases hts'lt x hx with h1 | h1
                    · exact .inl (.inr (.inr h1))
                    · exact .inr (hn8.trans h1)

end Normalize
end RSM
