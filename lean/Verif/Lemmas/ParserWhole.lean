import Verif.Lemmas.ParserNeat

/-! The parser as a whole (helper lemmas). -/

namespace RSM
namespace Parser
open PyM Nodes Heap

/-- What the parser makes of the source. -/
def evRoot (c : Cst) : Except PyErr (NodeRec × Out) := do
  let n ← headingRecord c
  let o ← evs (ev (c.size - 1)) n.cls false (pushSibs c (titleIds c))
  .ok (n, o)

theorem manuscript_lookup : astTypes.lookup "source_file".toList = some .Manuscript := by decide

theorem loop_outcome {c : Cst} (S : Source c) {fuel : Nat} (hf : c.size < fuel) {s : PState}
    (F : Forest s.heap) (hb : s.bib = none) :
    match evRoot c with
    | .error e => ∃ s', buildLoop fuel [⟨none, none, c, none⟩] s = .err e s'
    | .ok (n, o) => Fresh n ∧ n.cls = .Manuscript ∧ ∃ s', buildLoop fuel [⟨none, none, c, none⟩] s = .ok () s' ∧
        Inv s' (o.events.foldl Event.apply []) s.heap.next ∧
        Post s.heap.next (born s.heap n) s'.heap o.items ∧ s'.log = s.log ++ warningsOf o.events ∧
        s'.heap.next ≤ s.heap.next + 3 * c.size := by
  obtain ⟨k, hk⟩ : ∃ k, c.size = k + 1 := ⟨c.size - 1, by have := c.size_eq; omega⟩
  have e0 : buildLoop fuel [⟨none, none, c, none⟩] s = run c.size ⟨none, none, c, none⟩ s := by
    rw [buildLoop_eq fuel c.size _ s (by simp [weight]; omega) (by simp), forEach_cons]
    cases run c.size ⟨none, none, c, none⟩ s <;> rfl
  have hmk := makes_run c.size ⟨none, none, c, none⟩ (Nat.le_refl _) s
  rw [e0]
  have hv : visit ⟨none, none, c, none⟩ = visitHeading ⟨none, none, c, none⟩ := by
    unfold visit
    simp only [S.1]
    rw [if_neg (by decide), if_neg (by rw [show ("source_file".toList = "specialblock".toList) = False by
      simp only [eq_iff_iff, iff_false]; decide]; simp), if_neg (by decide), if_neg (by decide),
      if_pos (by simp)]
  unfold evRoot
  have hrun : run c.size ⟨none, none, c, none⟩ s = match visitHeading ⟨none, none, c, none⟩ s with
      | .ok new s' => forEach (run k) new s'
      | .err e s' => .err e s' := by
    rw [hk, run_succ, hv]
    rfl
  rw [hrun] at hmk ⊢
  unfold visitHeading at hmk ⊢
  rw [bind_apply] at hmk ⊢
  cases hn : headingRecord c with
  | error e => exact ⟨s, rfl⟩
  | ok n =>
    obtain ⟨fr, hl⟩ := headingRecord_ok hn
    rw [S.1, manuscript_lookup] at hl
    have hcls : n.cls = .Manuscript := (Option.some.inj hl).symm
    simp only [hn] at hmk ⊢
    rw [lift_of_ok rfl] at hmk ⊢
    simp only [bind_apply] at hmk ⊢
    rw [onHeap_new] at hmk ⊢
    simp only [bind, Except.bind] at hmk ⊢
    have hnote : noteRoot n s.heap.next { s with heap := born s.heap n } =
        .ok () { s with heap := born s.heap n, root := some s.heap.next } := by
      unfold noteRoot; rw [hcls]; rfl
    rw [hnote] at hmk ⊢
    simp only [attach, pushed_eq] at hmk ⊢
    have I : Inv { s with heap := born s.heap n, root := some s.heap.next } [] s.heap.next := by
      refine ⟨born_forest F fr, rfl, by simp [born_next], ?_, ?_, ?_⟩
      · simp only [born_get_self]; exact hcls
      · simp only [born_children_self _ fr, List.filter_nil]; exact hb
      · simp only [born_children_self _ fr, List.filter_nil]; exact .nil
    have R := runs (claim_all k) (p := s.heap.next) (pushSibs c (titleIds c)) (fun z hz => by
      have := sib_small hz
      exact ⟨by omega, S.2 _ (sibs_mem hz)⟩) I (by simp [born_next])
      (by unfold isBib; simp only [born_get_self]; rw [hcls]; decide)
    simp only [born_get_self, List.isEmpty_nil, Bool.not_true] at R
    rw [show c.size - 1 = k by omega]
    cases he : evs (ev k) n.cls false (pushSibs c (titleIds c)) with
    | error e =>
      rw [he] at R
      exact R
    | ok o =>
      rw [he] at R
      obtain ⟨s', e1, I', P', l'⟩ := R
      have e1' : (match (pure () : ParseM Unit) { s with heap := born s.heap n, root := some s.heap.next } with
        | .ok _ s2 => forEach (run k) ((pushSibs c (titleIds c)).map (entry (some s.heap.next))) s2
        | .err e s2 => .err e s2) = .ok () s' := e1
      refine ⟨fr, hcls, s', e1', I', P', l', ?_⟩
      have hmk' : (forEach (run k) ((pushSibs c (titleIds c)).map (entry (some s.heap.next)))
          { s with heap := born s.heap n, root := some s.heap.next }).state.heap.next ≤
          s.heap.next + 3 * c.size := hmk
      rw [e1] at hmk'
      exact hmk'

theorem visit_source {c : Cst} (S : Source c) (p prev next) :
    visit ⟨p, prev, c, next⟩ = visitHeading ⟨p, prev, c, next⟩ := by
  unfold visit
  simp only [S.1]
  rw [if_neg (by decide), if_neg (by rw [show ("source_file".toList = "specialblock".toList) = False by
    simp only [eq_iff_iff, iff_false]; decide]; simp), if_neg (by decide), if_neg (by decide), if_pos (by simp)]

theorem loop_neat {c : Cst} (S : Source c) {fuel : Nat} {s s' : PState}
    (h : buildLoop fuel [⟨none, none, c, none⟩] s = .ok () s') : Neat s.heap.next s.heap.next s' := by
  cases fuel with
  | zero => cases h
  | succ fuel =>
    rw [buildLoop, bind_apply, visit_source S] at h
    unfold visitHeading at h
    rw [bind_apply] at h
    cases hn : headingRecord c with
    | error e => simp only [hn] at h; cases h
    | ok n =>
      obtain ⟨fr, hl⟩ := headingRecord_ok hn
      have hne := lookup_neat hl
      rw [S.1, manuscript_lookup] at hl
      have hcls : n.cls = .Manuscript := (Option.some.inj hl).symm
      simp only [hn] at h
      rw [lift_of_ok rfl] at h
      simp only [bind_apply] at h
      rw [onHeap_new] at h
      have hnote : noteRoot n s.heap.next { s with heap := born s.heap n } =
          .ok () { s with heap := born s.heap n, root := some s.heap.next } := by
        unfold noteRoot; rw [hcls]; rfl
      simp only [hnote, attach, pure_apply] at h
      refine (tri_loop fuel _ ?_ _ _ _ ?_ trivial h).1
      · intro e he
        rw [List.append_nil, pushed_eq] at he
        obtain ⟨x, hx, rfl⟩ := List.mem_map.mp he
        exact S.2 _ (sibs_mem hx)
      · refine ⟨rfl, fun r h1 h2 => ?_, fun r h1 h2 => ?_⟩
        rotate_left
        · simp only [born_next] at h2
          have : r = s.heap.next := by omega
          subst this
          unfold isBib
          simp only [born_get_self]
          exact fun h => absurd (of_decide_eq_true h) hne.2
        simp only [born_next] at h2
        have : r = s.heap.next := by omega
        subst this
        unfold isBib
        simp only [born_get_self]
        exact ⟨hne.1, fun h => absurd (of_decide_eq_true h) hne.2⟩

/-! ## The tree -/

theorem length_le_of_nodup {l : List Nat} {a b : Nat} (hn : l.Nodup) (h : ∀ x ∈ l, a ≤ x ∧ x < b) :
    l.length ≤ b - a := by
  have hs : l ⊆ List.range' a (b - a) := by
    intro x hx
    obtain ⟨h1, h2⟩ := h x hx
    rw [List.mem_range'_1]; omega
  have := (hn.subperm hs).length_le
  simpa using this

mutual
theorem size_pre : ∀ t : Tree, t.size = t.pre.length
  | .node i ks => by rw [Tree.size, Tree.pre, List.length_cons, sizeL_preL ks]
theorem sizeL_preL : ∀ ts : List Tree, Tree.sizeL ts = (Tree.preL ts).length
  | [] => by rw [Tree.sizeL, Tree.preL]; rfl
  | t :: ts => by rw [Tree.sizeL, Tree.preL, List.length_append, size_pre t, sizeL_preL ts]
end

mutual
theorem pre_new {h : Heap} {n : Nat} (hch : ∀ p, n ≤ p → ∀ y ∈ h.children p, n ≤ y) :
    ∀ (t : Tree) {q : Option Ref}, IsTree h q t → n ≤ t.root → ∀ x ∈ t.pre, n ≤ x
  | .node i ks, q, T, hr, x, hx => by
    rw [IsTree] at T
    rw [Tree.pre] at hx
    rcases List.mem_cons.mp hx with rfl | hx
    · exact hr
    · refine preL_new hch ks T.2.2 (fun k hk => hch i hr _ ?_) x hx
      rw [T.2.1]
      exact List.mem_map_of_mem hk
theorem preL_new {h : Heap} {n : Nat} (hch : ∀ p, n ≤ p → ∀ y ∈ h.children p, n ≤ y) :
    ∀ (ts : List Tree) {q : Option Ref}, IsForest h q ts → (∀ k ∈ ts, n ≤ k.root) →
      ∀ x ∈ Tree.preL ts, n ≤ x
  | [], q, _, _, x, hx => by rw [Tree.preL] at hx; cases hx
  | t :: ts, q, T, hr, x, hx => by
    rw [IsForest] at T
    rw [Tree.preL, List.mem_append] at hx
    rcases hx with hx | hx
    · exact pre_new hch t T.1 (hr t (by simp)) x hx
    · exact preL_new hch ts T.2 (fun k hk => hr k (by simp [hk])) x hx
end

/-- The objects that are not new stay as they are. -/
theorem child_new {h h' : Heap} (F : Forest h) (F' : Forest h')
    (hold : ∀ r < h.next, h'.get r = h.get r) : ∀ p, h.next ≤ p → ∀ y ∈ h'.children p, h.next ≤ y := by
  intro p hp y hy
  by_contra hlt
  have hlt : y < h.next := by omega
  have h1 := (F'.agree y p).mpr hy
  have h2 : h.parent y = some p := by
    rw [← h1]
    unfold Heap.parent
    rw [hold y hlt]
  have := (F.bound y p h2).2
  omega

/-- What `except AttributeError` makes of an exception. -/
def wrapErr (e : PyErr) : PyErr := if e = .attributeError then .rsmParserError else e

theorem parse_eq (fuel : Nat) (c : Cst) (s : ParserState) :
    parse fuel c s = (match abstractify fuel c ⟨s.heap, none, none, s.log⟩ with
      | .ok none s' => .err .rsmParserError ⟨s'.heap, some c, none, s'.log⟩
      | .ok (some r) s' => .ok r ⟨s'.heap.update r fun n => { n with src := c.text }, some c, some r, s'.log⟩
      | .err e s' => .err (wrapErr e) ⟨s'.heap, some c, s.ast, s'.log⟩) := by
  unfold parse
  simp only [bind_apply, modify_apply, guardAttribute, runAbstractify, zoom]
  cases ha : abstractify fuel c ⟨s.heap, none, none, s.log⟩ with
  | ok r s' => cases r <;> rfl
  | err e s' => cases e <;> rfl

theorem abstractify_eq (fuel : Nat) (c : Cst) (s : ParserState) : abstractify fuel c ⟨s.heap, none, none, s.log⟩ =
    (match buildLoop fuel [⟨none, none, c, none⟩] ⟨s.heap, none, none, s.log⟩ with
    | .err e s' => .err e s'
    | .ok _ s' => match s'.root with
      | none => .ok none s'
      | some r => match Normalize.normalizeText fuel r s'.heap with
        | .ok _ h' => .ok (some r) { s' with heap := h' }
        | .err e h' => .err e { s' with heap := h' }) := by
  unfold abstractify
  simp only [bind_apply, modify_apply]
  cases buildLoop fuel [⟨none, none, c, none⟩] ⟨s.heap, none, none, s.log⟩ with
  | err e s' => rfl
  | ok u s' =>
    obtain ⟨h0, r0, b0, l0⟩ := s'
    simp only [get_apply]
    cases r0 with
    | none => rfl
    | some r =>
      simp only [bind_apply, onHeap, zoom]
      cases Normalize.normalizeText fuel r h0 <;> rfl

/-- The parser, up to the normalisation of the text. -/
theorem parse_run {c : Cst} (S : Source c) {fuel : Nat} (hf : 12 * c.size < fuel) {s : ParserState}
    (F : Forest s.heap) :
    match evRoot c with
    | .error e => ∃ s', parse fuel c s = .err (wrapErr e) s' ∧ s'.ast = s.ast ∧
        ∀ r < s.heap.next, s'.heap.get r = s.heap.get r
    | .ok (n, o) => Fresh n ∧ n.cls = .Manuscript ∧ ∃ (s1 : PState) (t : Tree), Doc s1.heap s.heap.next t ∧
        Inv s1 (o.events.foldl Event.apply []) s.heap.next ∧
        Post s.heap.next (born s.heap n) s1.heap o.items ∧ Neat s.heap.next s.heap.next s1 ∧
        4 * t.size < fuel ∧ (∀ x ∈ t.pre, s.heap.next ≤ x) ∧
        (∀ r < s.heap.next, s1.heap.get r = s.heap.get r) ∧
        parse fuel c s = (match Normalize.normalizeText fuel s.heap.next s1.heap with
          | .ok _ h' => .ok s.heap.next
              ⟨h'.update s.heap.next fun n => { n with src := c.text }, some c, some s.heap.next,
                s.log ++ warningsOf o.events⟩
          | .err e h' => .err (wrapErr e) ⟨h', some c, s.ast, s.log ++ warningsOf o.events⟩) := by
  have hsz : c.size < fuel := by have := c.size_eq; omega
  have L := loop_outcome S hsz (s := ⟨s.heap, none, none, s.log⟩) F rfl
  have K := keep_loop s.heap.next fuel [⟨none, none, c, none⟩] (by intro e he r hr; simp at he; subst he; cases hr)
    ⟨s.heap, none, none, s.log⟩ ⟨Nat.le_refl _, by simp, by simp⟩
  have hp := parse_eq fuel c s
  have ha := abstractify_eq fuel c s
  rw [ha] at hp
  cases he : evRoot c with
  | error e =>
    rw [he] at L
    obtain ⟨s', e1⟩ := L
    rw [e1] at hp K
    exact ⟨_, hp, rfl, K.2.1⟩
  | ok no =>
    obtain ⟨n, o⟩ := no
    rw [he] at L
    obtain ⟨fr, hcls, s1, e1, I, P, hlog, hnx⟩ := L
    have hneat := loop_neat S e1
    rw [e1] at hp K
    simp only [I.root_eq] at hp
    have hold := K.2.1
    simp only [Res.state] at hold
    have hpar : s1.heap.parent s.heap.next = none := by
      have := P.old s.heap.next (by simp [born_next])
      have := congrArg NodeRec.parent this
      rw [born_get_self] at this
      exact this.trans fr.1
    obtain ⟨t, D⟩ := I.forest.doc hpar I.root_lt
    have hnew := pre_new (child_new F I.forest hold) t D.tree (by rw [D.root_eq])
    have hlen : t.size ≤ 3 * c.size := by
      have := length_le_of_nodup D.nodup (a := s.heap.next) (b := s1.heap.next)
        fun x hx => ⟨hnew x hx, D.bound x hx⟩
      simp only at hnx
      have e2 : t.size = t.pre.length := size_pre t
      omega
    refine ⟨fr, hcls, s1, t, D, I, P, hneat, by omega, hnew, hold, ?_⟩
    rw [hp]
    simp only at hlog
    cases Normalize.normalizeText fuel s.heap.next s1.heap <;> simp only [hlog]

end Parser
end RSM
