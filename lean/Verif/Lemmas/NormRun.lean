import Verif.Lemmas.NormKeep

/-! Helper lemmas for text normalisation: from documents to trees with attributes and back. -/

namespace RSM
namespace Normalize
open PyM Nodes Heap LTree Transformer

/-! ### The run -/

mutual
theorem cost_le (t : LTree) : cost t ≤ 4 * t.tree.size := by
  match t with
  | .node i a ks =>
    have := costL_le ks
    simp only [cost, tree, Tree.size]
    split <;> omega
theorem costL_le (ts : List LTree) : costL ts ≤ 4 * Tree.sizeL (treeL ts) := by
  match ts with
  | [] => simp
  | t :: ts =>
    have h1 := cost_le t
    have h2 := costL_le ts
    simp only [costL, treeL, Tree.sizeL]
    omega
end

theorem keyword_known (k : Str) : keywordOf k ≠ none ↔ ∃ w, (k, w) ∈ keywordTable := by
  have e : keywordOf k = keywordTable.lookup k := rfl
  rw [e]
  generalize keywordTable = l
  induction l with
  | nil => simp
  | cons a l ih =>
    obtain ⟨k0, w0⟩ := a
    rw [List.lookup_cons]
    split
    · rename_i h
      have : k = k0 := by simpa using h
      subst this
      simp only [ne_eq, reduceCtorEq, not_false_eq_true, true_iff]
      exact ⟨w0, by simp⟩
    · rename_i h
      have hne : k ≠ k0 := by simpa using h
      refine ih.trans ?_
      simp [hne]

mutual
theorem knownT_label (h : Heap) (t : Tree) : KnownT (label h t) ↔ KnownKinds h t := by
  match t with
  | .node i ks =>
    have := knownL_label h ks
    simp only [label, KnownT, this, KnownKinds, Tree.pre, List.mem_cons, keyword_known]
    constructor
    · rintro ⟨h1, h2⟩ x (rfl | hx)
      · exact h1
      · exact h2 x hx
    · intro h1
      exact ⟨h1 i (.inl rfl), fun x hx => h1 x (.inr hx)⟩
theorem knownL_label (h : Heap) (ts : List Tree) :
    KnownL (labelL h ts) ↔ ∀ x ∈ Tree.preL ts, h.isInst x .Construct = true →
      ∃ w, ((h.get x).kind, w) ∈ keywordTable := by
  match ts with
  | [] => simp [labelL, KnownL, Tree.preL]
  | t :: ts =>
    have h1 := knownT_label h t
    have h2 := knownL_label h ts
    simp only [labelL, KnownL, h1, h2, KnownKinds, Tree.preL, List.mem_append]
    constructor
    · rintro ⟨a, b⟩ x (hx | hx)
      · exact a x hx
      · exact b x hx
    · intro a
      exact ⟨fun x hx => a x (.inl hx), fun x hx => a x (.inr hx)⟩
end

theorem good_label {h : Heap} {root t} (D : Doc h root t) : Good h none [] [label h t] := by
  have e : refsL [label h t] = t.pre := by
    rw [refsL_cons, refsL_nil, List.append_nil, ← pre_tree, tree_label]
  refine ⟨?_, ?_, ?_, by simp, by simp, by simp, by simp, by simp, by simp, by simp⟩
  · intro s hs
    simp only [List.mem_singleton] at hs
    subst hs
    exact holds_label D.tree
  · rw [e]; exact D.nodup
  · rw [e]; exact D.bound

theorem root_label (h : Heap) (t : Tree) : (label h t).root = t.root := by cases t; rfl

theorem normalize_run {h : Heap} {root t fuel} (D : Doc h root t) (hf : 4 * t.size < fuel) :
    (KnownKinds h t → ∃ h' t5, normalizeText fuel root h = .ok () h' ∧ Norm h.next [label h t] [t5] ∧
      Good h' none [] [t5] ∧ t5.root = root ∧ Frame h h' none t.pre) ∧
    (¬ KnownKinds h t → ∃ h', normalizeText fuel root h = .err .keyError h') := by
  have G := good_label D
  have hc := cost_le (label h t)
  rw [tree_label] at hc
  have hc' : costL [label h t] = cost (label h t) := by simp
  have hroots : [label h t].map LTree.root = [root] := by
    rw [List.map_cons, List.map_nil, root_label, D.root_eq]
  have hk : KnownL [label h t] ↔ KnownKinds h t := by simp [KnownL, knownT_label]
  obtain ⟨ok, err⟩ := loop_norm h.next _ [label h t] h none [] le_rfl G le_rfl (by simp)
  constructor
  · intro hK
    obtain ⟨h', ts', m, hm, e, N, G', F, _⟩ := ok (hk.mpr hK)
    obtain ⟨t5, rfl⟩ : ∃ t5, ts' = [t5] := by
      have h1 := (G'.top rfl).2
      have h2 : ts' ≠ [] := by
        generalize [label h t] = l, (List.cons_ne_nil (label h t) []) = hne at N
        cases N
        · exact absurd rfl hne
        · simp
      match ts', h1, h2 with
      | [t5], _, _ => exact ⟨t5, rfl⟩
      | [], _, h2 => exact absurd rfl h2
    obtain ⟨n, rfl⟩ : ∃ n, fuel = m + (n + 1) := ⟨fuel - m - 1, by omega⟩
    refine ⟨h', t5, ?_, N, G', ?_, ?_⟩
    · have := e (n + 1) []
      rw [hroots, List.append_nil] at this
      unfold normalizeText
      rw [show travLoop id (fun _ _ => true) normalizeNode (m + (n + 1)) [root] h = _ from this]
      rfl
    · obtain ⟨i, a, ks, ks5, h1, h2⟩ := N.head rfl
      simp only [List.head?_cons, Option.some.injEq] at h1
      rw [h2, root_mk, ← D.root_eq, ← root_label h, h1]; rfl
    · have e : refsL [label h t] = t.pre := by
        rw [refsL_cons, refsL_nil, List.append_nil, ← pre_tree, tree_label]
      rw [← e]; exact F
  · intro hK
    obtain ⟨h', e⟩ := err (fun hh => hK (hk.mp hh))
    obtain ⟨n, rfl⟩ : ∃ n, fuel = costL [label h t] + n := ⟨fuel - costL [label h t], by omega⟩
    refine ⟨h', ?_⟩
    have := e n []
    rw [hroots, List.append_nil] at this
    exact this

theorem doc_of_good {h : Heap} {t : LTree} {r} (G : Good h none [] [t]) (hr : t.root = r) :
    Doc h r t.tree := by
  refine ⟨by rw [root_tree, hr], (G.holds t (by simp)).isTree, ?_, ?_⟩
  · rw [pre_tree]; simpa using G.nodup
  · rw [pre_tree]; intro x hx; exact G.bound x (by simp [hx])

/-- A node of the tree, as a subtree. -/
theorem mem_pre_subs {h : Heap} {p t x} (H : Holds h p t) (hx : x ∈ t.tree.pre) :
    ∃ s ∈ subs t, ∃ q, s.root = x ∧ Holds h q s := by
  rw [pre_tree, ← map_root_subs] at hx
  obtain ⟨s, hs, rfl⟩ := List.mem_map.mp hx
  obtain ⟨q, hq⟩ := holds_subs H s hs
  exact ⟨s, hs, q, rfl, hq⟩

theorem classes_of_holds {h : Heap} {q s} (H : Holds h q s) :
    (h.children s.root).map (fun x => (h.get x).cls) = classes s.kids := by
  rw [H.children, List.map_map]
  refine List.map_congr_left fun k hk => ?_
  exact (H.kids k hk).cls

/-! ### What stays -/

theorem follows_iff {h : Heap} {q b : Ref} {done rest : List Ref} (hp : h.parent b = some q)
    (hc : h.children q = done ++ b :: rest) (hd : b ∉ done) (hr : b ∉ rest) :
    FollowsText h b ↔ h.isInst b .Text = true ∧ ∃ a, done.getLast? = some a ∧ h.isInst a .Text = true := by
  constructor
  · rintro ⟨p, a, h1, ⟨l, r, h2⟩, h3, h4⟩
    rw [hp] at h1
    cases h1
    refine ⟨h4, a, ?_, h3⟩
    rw [hc] at h2
    have h5 : done = l ++ [a] := by
      have e1 : (done ++ b :: rest).idxOf b = done.length := by
        rw [List.idxOf_append, if_neg hd]; simp
      have hbl : b ∉ l := by
        intro hm
        have hcount : (done ++ b :: rest).count b = 1 := by
          rw [List.count_append, List.count_cons_self, List.count_eq_zero.mpr hd, List.count_eq_zero.mpr hr]
        rw [h2, List.count_append, List.count_cons, List.count_cons_self] at hcount
        have := List.count_pos_iff.mpr hm
        omega
      have hba : b ≠ a := by
        intro e
        have hcount : (done ++ b :: rest).count b = 1 := by
          rw [List.count_append, List.count_cons_self, List.count_eq_zero.mpr hd, List.count_eq_zero.mpr hr]
        rw [h2, ← e, List.count_append, List.count_cons_self, List.count_cons_self] at hcount
        omega
      have e2 : (l ++ a :: b :: r).idxOf b = l.length + 1 := by
        rw [List.idxOf_append, if_neg hbl, List.idxOf_cons_ne _ (Ne.symm hba)]; simp; omega
      rw [h2, e2] at e1
      have h6 := congrArg (List.take (l.length + 1)) h2
      rw [show l.length + 1 = done.length from e1, List.take_left, ← e1] at h6
      rw [h6, show l ++ a :: b :: r = (l ++ [a]) ++ b :: r by simp,
        show l.length + 1 = (l ++ [a]).length by simp, List.take_left]
    rw [h5]; simp
  · rintro ⟨h1, a, h2, h3⟩
    obtain ⟨l, rfl⟩ := List.getLast?_eq_some_iff.mp h2
    exact ⟨q, a, hp, ⟨l, rest, by rw [hc]; simp⟩, h3, h1⟩

theorem Good.tail {h : Heap} {q done t ts} (G : Good h (some q) done (t :: ts)) :
    Good h (some q) (done ++ [t.root]) ts := by
  have hnd := G.nodup
  simp only [refsL_cons, List.nodup_append] at hnd
  refine ⟨fun s hs => G.holds s (by simp [hs]), hnd.2.1, fun x hx => G.bound x (by simp [hx]), by simp,
    ?_, ?_, G.old, ?_, ?_, ?_⟩
  · intro q' hq'; rw [G.kids q' hq']; simp
  · intro q' hq' hm; exact G.sep q' hq' (by simp [hm])
  · intro x hx hm
    rcases List.mem_append.mp hx with h1 | h1
    · exact G.dsep x h1 (by simp [hm])
    · simp only [List.mem_singleton] at h1
      subst h1
      exact hnd.2.2 _ (root_mem_refs t) _ hm rfl
  · rw [List.nodup_append]
    refine ⟨G.dnodup, by simp, ?_⟩
    intro x hx y hy e
    simp only [List.mem_singleton] at hy
    subst hy; subst e
    exact G.dsep _ hx (by simp [root_mem_refs])
  · intro q' hq' hm
    rcases List.mem_append.mp hm with h1 | h1
    · exact G.psep q' hq' h1
    · simp only [List.mem_singleton] at h1
      exact G.sep q' hq' (by simp [h1, root_mem_refs])

theorem Good.follows {h : Heap} {q done k ks} (G : Good h (some q) done (k :: ks)) :
    FollowsText h k.root ↔ k.isT = true ∧ ∃ a, done.getLast? = some a ∧ h.isInst a .Text = true := by
  have hnd := G.nodup
  simp only [refsL_cons, List.nodup_append] at hnd
  have H := G.holds k (by simp)
  rw [follows_iff H.parent (by rw [G.kids q rfl]; rfl)
    (fun hm => G.dsep _ hm (by simp [root_mem_refs])) ?_]
  · rw [show h.isInst k.root .Text = k.isT from H.isInst .Text]
  · intro hm
    obtain ⟨k', hk', e⟩ := List.mem_map.mp hm
    exact hnd.2.2 _ (root_mem_refs k) _ (mem_refsL.mpr ⟨k', hk', e ▸ root_mem_refs k'⟩) rfl

mutual
theorem kept_iff {h : Heap} (t : LTree) {p} (H : Holds h p t) (G : Good h (some t.root) [] t.kids) (x : Ref) :
    x ∈ (kept p t).map (·.1) ↔ x = t.root ∨ (x ∈ refsL t.kids ∧ ¬ FollowsText h x) := by
  match t with
  | .node i a ks =>
    simp only [kept, List.map_cons, List.mem_cons, root_mk, kids_mk] at G ⊢
    rw [keptL_iff ks G false (by simp) x]
theorem keptL_iff {h : Heap} (ts : List LTree) {q done} (G : Good h (some q) done ts) (prev : Bool)
    (hprev : prev = true ↔ ∃ a, done.getLast? = some a ∧ h.isInst a .Text = true) (x : Ref) :
    x ∈ (keptL (some q) prev ts).map (·.1) ↔ x ∈ refsL ts ∧ ¬ FollowsText h x := by
  match ts with
  | [] => simp [keptL]
  | k :: ks =>
    have hfol := G.follows
    have hH := G.holds k (by simp)
    have h1 := kept_iff k hH G.head x
    have hlast : k.isT = true ↔ ∃ a, (done ++ [k.root]).getLast? = some a ∧ h.isInst a .Text = true := by
      rw [show k.isT = h.isInst k.root .Text from (hH.isInst .Text).symm]; simp
    rw [keptL_cons]
    split
    · rename_i hs
      simp only [Bool.and_eq_true] at hs
      have h2 := keptL_iff ks G.tail true (by rw [← hlast]; simp [hs.2]) x
      rw [h2]
      have hleaf : k.refs = [k.root] := by
        have := hH.text_kids hs.2
        cases k with
        | node i a kk => simp only [kids_mk] at this; subst this; rfl
      have hf : FollowsText h k.root := hfol.mpr ⟨hs.2, hprev.mp hs.1⟩
      simp only [refsL_cons, hleaf, List.mem_append, List.mem_singleton]
      constructor
      · rintro ⟨a, b⟩; exact ⟨.inr a, b⟩
      · rintro ⟨rfl | a, b⟩
        · exact absurd hf b
        · exact ⟨a, b⟩
    · rename_i hs
      have h2 := keptL_iff ks G.tail k.isT hlast x
      rw [List.map_append, List.mem_append, h1, h2]
      have hf : ¬ FollowsText h k.root := by
        rw [hfol, ← hprev]
        intro e; exact hs (by rw [e.1, e.2]; rfl)
      have hr : k.refs = k.root :: refsL k.kids := by cases k; rfl
      simp only [refsL_cons, hr, List.cons_append, List.mem_cons, List.mem_append]
      constructor
      · rintro ((rfl | ⟨a, b⟩) | ⟨a, b⟩)
        · exact ⟨.inl rfl, hf⟩
        · exact ⟨.inr (.inl a), b⟩
        · exact ⟨.inr (.inr a), b⟩
      · rintro ⟨rfl | a | a, b⟩
        · exact .inl (.inl rfl)
        · exact .inl (.inr ⟨a, b⟩)
        · exact .inr ⟨a, b⟩
end

mutual
theorem kept_sublist (p) (t : LTree) : ((kept p t).map (·.1)).Sublist t.refs := by
  match t with
  | .node i a ks =>
    simp only [kept, List.map_cons, refs_node]
    exact (keptL_sublist (some i) false ks).cons_cons i
theorem keptL_sublist (p prev) (ts : List LTree) : ((keptL p prev ts).map (·.1)).Sublist (refsL ts) := by
  match ts with
  | [] => simp [keptL]
  | k :: ks =>
    have h1 := kept_sublist p k
    have h2 := keptL_sublist p true ks
    have h3 := keptL_sublist p k.isT ks
    rw [keptL_cons]
    split
    · exact h2.trans (List.sublist_append_right _ _)
    · rw [List.map_append]; exact h1.append h3
end

mutual
theorem kept_mem {h : Heap} {p} (t : LTree) (H : Holds h p t) : ∀ r ∈ kept p t,
    h.parent r.1 = r.2.1 ∧ r.2.2 = dropText (unescAttrs (bare (h.get r.1))) := by
  match t with
  | .node i a ks =>
    have h2 := keptL_mem ks H.2.2.2 false
    intro r hr
    simp only [kept, List.mem_cons] at hr
    rcases hr with rfl | hr
    · exact ⟨H.1, by rw [H.2.2.1]⟩
    · exact h2 r hr
theorem keptL_mem {h : Heap} {p} (ts : List LTree) (H : HoldsL h p ts) (prev) : ∀ r ∈ keptL p prev ts,
    h.parent r.1 = r.2.1 ∧ r.2.2 = dropText (unescAttrs (bare (h.get r.1))) := by
  match ts with
  | [] => intro r hr; rw [keptL] at hr; cases hr
  | k :: ks =>
    have h1 := kept_mem k H.1
    have h2 := keptL_mem ks H.2 true
    have h3 := keptL_mem ks H.2 k.isT
    intro r hr
    rw [keptL_cons] at hr
    split at hr
    · exact h2 r hr
    · rcases List.mem_append.mp hr with hr | hr
      · exact h1 r hr
      · exact h3 r hr
end

mutual
theorem recs_mem {h : Heap} {p} (t : LTree) (H : Holds h p t) : ∀ r ∈ recs p t,
    h.parent r.1 = r.2.1 ∧ r.2.2 = dropText (bare (h.get r.1)) := by
  match t with
  | .node i a ks =>
    have h2 := recsL_mem ks H.2.2.2
    intro r hr
    simp only [recs, List.mem_cons] at hr
    rcases hr with rfl | hr
    · exact ⟨H.1, by rw [H.2.2.1]⟩
    · exact h2 r hr
theorem recsL_mem {h : Heap} {p} (ts : List LTree) (H : HoldsL h p ts) : ∀ r ∈ recsL p ts,
    h.parent r.1 = r.2.1 ∧ r.2.2 = dropText (bare (h.get r.1)) := by
  match ts with
  | [] => intro r hr; cases hr
  | k :: ks =>
    have h1 := recs_mem k H.1
    have h3 := recsL_mem ks H.2
    intro r hr
    simp only [recsL, List.mem_append] at hr
    rcases hr with hr | hr
    · exact h1 r hr
    · exact h3 r hr
end

mutual
theorem recs_fst (p) (t : LTree) : (recs p t).map (·.1) = t.refs := by
  match t with
  | .node i a ks => simp only [recs, List.map_cons, refs_node, recsL_fst (some i) ks]
theorem recsL_fst (p) (ts : List LTree) : (recsL p ts).map (·.1) = refsL ts := by
  match ts with
  | [] => rfl
  | k :: ks => simp only [recsL, List.map_append, refsL_cons, recs_fst p k, recsL_fst p ks]
end

/-! ### The non-blank characters -/

mutual
theorem shownT_eq {h : Heap} {n0 p} (t : LTree) (H : Holds h p t) :
    shownT n0 t = (t.refs.filter (· < n0)).flatMap (shownInk h) := by
  match t with
  | .node i a ks =>
    have ih := shownL_eq (n0 := n0) ks H.2.2.2
    have hi : h.isInst i .Text = a.cls.isSub .Text := by
      have := H.isInst .Text; exact this
    have ht : a.text = (h.get i).text := by
      have := congrArg NodeRec.text H.2.2.1; exact this.symm
    rw [shownT, refs_node, List.filter_cons, ih]
    by_cases hin : i < n0
    · simp only [hin, decide_true, Bool.and_true, if_true, List.flatMap_cons]
      rw [shownInk, hi, ht]
    · simp [hin]
theorem shownL_eq {h : Heap} {n0 p} (ts : List LTree) (H : HoldsL h p ts) :
    shownL n0 ts = ((refsL ts).filter (· < n0)).flatMap (shownInk h) := by
  match ts with
  | [] => rfl
  | k :: ks =>
    have h1 := shownT_eq (n0 := n0) k H.1
    have h2 := shownL_eq (n0 := n0) ks H.2
    rw [shownL, refsL_cons, List.filter_append, List.flatMap_append, h1, h2]
end

mutual
theorem readT_label {h : Heap} {n0} (t : Tree) (hb : ∀ x ∈ t.pre, x < n0) :
    readT n0 (label h t) = readTree h t := by
  match t with
  | .node i ks =>
    have ih := readL_label (h := h) (n0 := n0) ks none (fun x hx => hb x (by simp [hx]))
    have hi := hb i (by simp)
    rw [label, readT, readTree]
    rw [show readL n0 none (labelL h ks) = _ from ih]
    congr 1
    unfold readInk reader Heap.isInst
    rw [if_pos hi]; rfl
theorem readL_label {h : Heap} {n0} (ts : List Tree) (run : Option Bool) (hb : ∀ x ∈ Tree.preL ts, x < n0) :
    readL n0 (run.map fun v => R v) (labelL h ts) = readForest h run ts := by
  match ts with
  | [] => rw [labelL, readL, readForest]
  | .node i ks :: ts =>
    have hi := hb i (by simp)
    have h1 := readL_label (h := h) (n0 := n0) ks none (fun x hx => hb x (by simp [hx]))
    have h2 := readL_label (h := h) (n0 := n0) ts none (fun x hx => hb x (by simp [hx]))
    have h3 := readL_label (h := h) (n0 := n0) ts (some (run.getD (h.get i).asis))
      (fun x hx => hb x (by simp [hx]))
    rw [labelL, label, readL, readForest]
    have hcl : (bare (h.get i)).cls.isSub .Text = h.isInst i .Text := rfl
    rw [hcl]
    have hrd : (run.map fun v => R v).getD (reader n0 i (bare (h.get i))) = R (run.getD (h.get i).asis) := by
      cases run with
      | none => simp only [Option.map_none, Option.getD_none, reader]; rw [if_pos hi]; rfl
      | some v => rfl
    rw [hrd]
    simp only [Option.map_none, Option.map_some] at h1 h2 h3
    rw [h1, h2, h3]
    rfl
end

mutual
theorem readTree_uniform {h : Heap} {p} (t : Tree) (T : IsTree h p t)
    (hu : UniformRuns h t) : readTree h t = t.pre.flatMap (readInk h) := by
  match t with
  | .node i ks =>
    rw [readTree, Tree.pre, List.flatMap_cons,
      readForest_uniform ks (q := i) (done := []) T.2.2 (by simpa using T.2.1)
        (fun a b hab => hu i (by simp) a b hab) (fun p hp => hu p (by simp [hp])) none (by simp)]
theorem readForest_uniform {h : Heap} {q : Ref} {done : List Ref} (ts : List Tree) (T : IsForest h (some q) ts)
    (hc : h.children q = done ++ ts.map Tree.root)
    (hq : ∀ a b, Adjacent h q a b → h.isInst a .Text = true → h.isInst b .Text = true →
      (h.get a).asis = (h.get b).asis)
    (hu : ∀ p ∈ Tree.preL ts, ∀ a b, Adjacent h p a b → h.isInst a .Text = true →
      h.isInst b .Text = true → (h.get a).asis = (h.get b).asis)
    (run : Option Bool) (hrun : ∀ v ∈ run, ∃ a, done.getLast? = some a ∧ h.isInst a .Text = true ∧
      (h.get a).asis = v) :
    readForest h run ts = (Tree.preL ts).flatMap (readInk h) := by
  match ts with
  | [] => rw [readForest]; rfl
  | .node i ks :: ts =>
    have h1 := readForest_uniform ks (q := i) (done := []) T.1.2.2 (by simpa using T.1.2.1)
      (fun a b hab => hu i (by simp) a b hab) (fun p hp => hu p (by simp [hp])) none (by simp)
    have hc' : h.children q = (done ++ [i]) ++ ts.map Tree.root := by rw [hc]; simp [Tree.root]
    have h2 := fun run hrun => readForest_uniform ts (q := q) (done := done ++ [i]) T.2 hc' hq
      (fun p hp => hu p (by simp [hp])) run hrun
    rw [readForest]
    simp only [Tree.preL, Tree.pre, List.cons_append, List.flatMap_cons, List.flatMap_append]
    by_cases hi : h.isInst i .Text = true
    · rw [if_pos hi]
      have hv : run.getD (h.get i).asis = (h.get i).asis := by
        cases run with
        | none => rfl
        | some v =>
          obtain ⟨a, ha1, ha2, ha3⟩ := hrun v rfl
          obtain ⟨l, rfl⟩ := List.getLast?_eq_some_iff.mp ha1
          rw [Option.getD_some, ← ha3]
          exact hq a i ⟨l, ts.map Tree.root, by rw [hc]; simp [Tree.root]⟩ ha2 hi
      rw [hv, h1, h2 (some (h.get i).asis) (fun v hv => by
        cases hv; exact ⟨i, by simp, hi, rfl⟩)]
      rw [readInk, if_pos hi]
      simp
    · rw [if_neg hi, h1, h2 none (by simp)]
      rw [readInk, if_neg hi]
      simp
end

/-! ### New nodes -/

mutual
theorem out_new {h : Heap} {n0 p} (t : LTree) (H : Holds h p t) (ho : Out n0 t) : ∀ x ∈ t.refs, n0 ≤ x →
    (((h.get x).cls = .Text ∧ (h.get x).text = [' ']) ∨ (h.get x).cls = .Keyword ∨
    ((h.get x).cls = .Text ∧ ∃ k, h.parent x = some k ∧ n0 ≤ k ∧ (h.get k).cls = .Keyword)) ∧
    ∃ w, bare (h.get x) = bare { NodeRec.new (h.get x).cls with text := w } := by
  match t with
  | .node i a ks =>
    intro x hx hn
    generalize hs : LTree.node i a ks = s at ho
    cases ho with
    | old hi hk =>
      cases hs
      have := outL_new ks H.2.2.2 hk
      rw [refs_node] at hx
      rcases List.mem_cons.mp hx with rfl | hx
      · omega
      · exact this x hx hn
    | blank _ =>
      cases hs
      simp only [refs_node, refsL_nil, List.mem_singleton] at hx
      subst hx
      have hb := H.2.2.1
      have h1 := congrArg NodeRec.cls hb
      have h2 := congrArg NodeRec.text hb
      refine ⟨.inl ⟨h1, h2⟩, [' '], ?_⟩
      rw [show (h.get x).cls = .Text from h1]
      exact hb
    | kw hk =>
      unfold kwTree at hs
      cases hs
      simp only [refs_node, refsL_cons, refsL_nil, List.append_nil, List.mem_cons, List.not_mem_nil,
        or_false] at hx
      have hb := H.2.2.1
      have h1 := congrArg NodeRec.cls hb
      rcases hx with rfl | rfl
      · refine ⟨.inr (.inl h1), [], ?_⟩
        rw [show (h.get x).cls = .Keyword from h1]
        exact hb
      · have hb2 := H.2.2.2.1.2.2.1
        have h2 := congrArg NodeRec.cls hb2
        obtain ⟨w, hw⟩ : ∃ w, bare (h.get (i + 1)) = textAttrs w := ⟨_, hb2⟩
        refine ⟨.inr (.inr ⟨h2, i, H.2.2.2.1.1, hk, h1⟩), w, ?_⟩
        rw [show (h.get (i + 1)).cls = .Text from h2]
        exact hw
theorem outL_new {h : Heap} {n0 p} (ts : List LTree) (H : HoldsL h p ts) (ho : ∀ t ∈ ts, Out n0 t) :
    ∀ x ∈ refsL ts, n0 ≤ x →
    (((h.get x).cls = .Text ∧ (h.get x).text = [' ']) ∨ (h.get x).cls = .Keyword ∨
    ((h.get x).cls = .Text ∧ ∃ k, h.parent x = some k ∧ n0 ≤ k ∧ (h.get k).cls = .Keyword)) ∧
    ∃ w, bare (h.get x) = bare { NodeRec.new (h.get x).cls with text := w } := by
  match ts with
  | [] => intro x hx; cases hx
  | t :: ts =>
    have h1 := out_new t H.1 (ho t (by simp))
    have h2 := outL_new ts H.2 (fun t ht => ho t (by simp [ht]))
    intro x hx hn
    simp only [refsL_cons, List.mem_append] at hx
    rcases hx with hx | hx
    · exact h1 x hx hn
    · exact h2 x hx hn
end

end Normalize
end RSM
