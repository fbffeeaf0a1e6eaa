import Verif.Lemmas.StructureRun

/-! Sources that are refused (helper lemmas for C90): the converses of `Lemmas/StructureRun`. -/

namespace RSM
namespace Parser
open PyM Nodes Heap Tree Tr

/-! ## References to earlier steps -/

section
variable {h : Heap}

/-- As `StepsAt`, and without a number there is no step. -/
def StepsExact (h : Heap) (l : List Ref) (steps : Option Nat) : Prop :=
  StepsAt h l steps ∧ (steps = none → ∀ y ∈ l, (h.get y).cls ≠ .Step)

theorem StepsExact.skip {y : Ref} {l : List Ref} {steps : Option Nat} (hs : StepsExact h l steps) (hy : (h.get y).cls ≠ .Step) :
    StepsExact h (y :: l) steps := by
  refine ⟨fun k e => ?_, fun e z hz => ?_⟩
  · obtain ⟨a, ls, h1, h2, h3⟩ := hs.1 k e
    exact ⟨a, ls, (isFirstWith_skip hy).mpr h1, h2, h3⟩
  · rcases List.mem_cons.mp hz with rfl | hz
    · exact hy
    · exact hs.2 e z hz

theorem stepsBack_look (x : Ref) : stepsBack (look h x) = (Transformer.prevCount (h.get x)).map Int.toNat := by
  have ht : (look h x).target = (h.get x).target := rfl
  unfold stepsBack Transformer.prevCount
  rw [ht]
  cases (h.get x).target <;> rfl

theorem Finds.canGoBack {x : Ref} {anc : List Ref} {steps : Option Nat} (hx : (h.get x).cls = .PendingPrev)
    (ha : Ancestors h x anc) (hst : StepsExact h (x :: anc) steps) (hf : Finds h x) : canGoBack steps (look h x) = true := by
  obtain ⟨a, ls, n, ⟨anc', g1, g2⟩, h2, h3, h4⟩ := hf
  have e := g1.unique ha
  subst e
  unfold Parser.canGoBack
  rw [stepsBack_look, h3]
  cases steps with
  | none =>
    obtain ⟨k1, b, c, rfl, _⟩ := g2
    exact absurd k1 (hst.2 rfl a (by simp))
  | some k =>
    obtain ⟨a', ls', f1, f2, f3⟩ := hst.1 k rfl
    have e := isFirstWith_unique ((isFirstWith_skip (by rw [hx]; decide)).mp f1) g2
    subst e
    have e := stepsBefore_unique f2 h2
    subst e
    exact decide_eq_true (by omega)

mutual
theorem goes_tree : ∀ {t : Tree} {p : Option Ref} {anc : List Ref} {steps : Option Nat}, IsTree h p t →
    t.pre.Nodup → Ancestors h t.root anc → StepsExact h (t.root :: anc) steps →
    (∀ x ∈ t.pre, (h.get x).cls = .PendingPrev → Finds h x) → ∀ o ∈ outlineOf h t, prevsFine steps o = true
  | .node i ks, p, anc, steps, T, nd, ha, hst, hn, o, ho => by
    have T' := T
    rw [IsTree] at T'
    rw [outlineOf] at ho
    by_cases hl : h.isInst i .Text = true ∨ (h.get i).cls = .Keyword ∨ (h.get i).cls = .Bibliography
    · rw [if_pos hl] at ho; cases ho
    rw [if_neg hl, List.mem_singleton] at ho
    subst ho
    rw [Tree.root] at ha hst
    rw [Tree.pre] at nd
    have nk := (List.nodup_cons.mp nd).2
    rw [prevsFine, Bool.and_eq_true]
    constructor
    · by_cases hc : (h.get i).cls = .PendingPrev
      · have := Finds.canGoBack hc ha hst (hn i (by rw [Tree.pre]; exact List.mem_cons_self) hc)
        rw [this, Bool.or_true]
      · have e : (look h i).cls = (h.get i).cls := rfl
        rw [e]
        simp [hc]
    · refine goes_forest (before := []) T'.2.2 nk ha hst ?_ ?_ fun x hx => hn x (by rw [Tree.pre]; exact List.mem_cons_of_mem _ hx)
      · rw [T'.2.1]; exact roots_nodup nk
      · rw [T'.2.1]; rfl
theorem goes_forest : ∀ {ts : List Tree} {i : Ref} {anc before : List Ref} {steps : Option Nat}, IsForest h (some i) ts →
    (Tree.preL ts).Nodup → Ancestors h i anc → StepsExact h (i :: anc) steps →
    (h.children i).Nodup → h.children i = before ++ ts.map Tree.root →
    (∀ x ∈ Tree.preL ts, (h.get x).cls = .PendingPrev → Finds h x) →
    prevsFineL steps (before.filter fun y => (h.get y).cls = .Step).length (outlinesOf h ts) = true
  | [], i, anc, before, steps, T, nd, ha, hst, hc, hk, hn => by rw [outlinesOf, prevsFineL]
  | .node y ks :: ts, i, anc, before, steps, T, nd, ha, hst, hc, hk, hn => by
    rw [IsForest] at T
    rw [Tree.preL] at hn nd
    rw [List.nodup_append] at nd
    have hpar : h.parent y = some i := T.1.parent_root
    have hk' : h.children i = (before ++ [y]) ++ ts.map Tree.root := by rw [hk]; simp
    have hyb : y ∉ before := by
      rw [hk] at hc
      intro hy
      exact (List.nodup_append.mp hc).2.2 y hy y (by simp) rfl
    have rest := goes_forest (before := before ++ [y]) T.2 nd.2.1 ha hst hc hk' fun x hx => hn x (List.mem_append_right _ hx)
    have hlen : ((before ++ [y]).filter fun y => decide ((h.get y).cls = .Step)).length =
        if (h.get y).cls = .Step then (before.filter fun y => decide ((h.get y).cls = .Step)).length + 1
        else (before.filter fun y => decide ((h.get y).cls = .Step)).length := by
      rw [List.filter_append, List.length_append]
      by_cases hs : (h.get y).cls = .Step <;> simp [hs]
    rw [hlen] at rest
    rw [outlinesOf]
    by_cases hl : h.isInst y .Text = true ∨ (h.get y).cls = .Keyword ∨ (h.get y).cls = .Bibliography
    · have : (h.get y).cls ≠ .Step := by
        intro e
        unfold Heap.isInst at hl
        rw [e] at hl
        exact absurd hl (by decide)
      rw [if_neg this] at rest
      rw [outlineOf, if_pos hl, List.nil_append]
      exact rest
    · have he : outlineOf h (.node y ks) = [.node (look h y) (outlinesOf h ks)] := by rw [outlineOf, if_neg hl]
      rw [he, List.singleton_append, prevsFineL, Bool.and_eq_true]
      have ec : (Outline.node (look h y) (outlinesOf h ks)).cls = (h.get y).cls := rfl
      rw [ec]
      refine ⟨?_, rest⟩
      refine goes_tree (anc := i :: anc) (steps := if (h.get y).cls = .Step then
        some (before.filter fun y => (h.get y).cls = .Step).length else steps) T.1 nd.1 ⟨hpar, ha⟩ ?_
        (fun x hx => hn x (List.mem_append_left _ hx)) _ (by rw [he]; exact List.mem_singleton_self _)
      show StepsExact h (y :: i :: anc) _
      by_cases hs : (h.get y).cls = .Step
      · rw [if_pos hs]
        refine ⟨?_, nofun⟩
        rintro k ⟨⟩
        exact ⟨y, _, ⟨hs, [], i :: anc, rfl, nofun⟩, .inr ⟨i, before, ts.map Tree.root, hpar, hk, hyb, rfl⟩, rfl⟩
      · rw [if_neg hs]
        exact hst.skip hs
end

end

variable {c : Cst} {fuel : Nat} {s s' : ParserState} {r : Ref} {t : Tree}

theorem first_with (P : Ref → Prop) : ∀ l : List Ref, (∀ a ∈ l, ¬ P a) ∨ ∃ a, IsFirstWith P l (some a)
  | [] => .inl nofun
  | x :: l => by
    by_cases hx : P x
    · exact .inr ⟨x, hx, [], l, rfl, nofun⟩
    · rcases first_with P l with h | ⟨a, h⟩
      · refine .inl fun a ha => ?_
        rcases List.mem_cons.mp ha with rfl | ha
        · exact hx
        · exact h a ha
      · exact .inr ⟨a, (isFirstWith_skip hx).mpr h⟩

/-- A reference that does not find its step raises. -/
theorem fails_of_not_finds {h : Heap} {root x : Ref} (D : Doc h root t) (hx : x ∈ t.pre) (hc : (h.get x).cls = .PendingPrev)
    (hn : ¬ Finds h x) : ∃ e, e ∈ [PyErr.rsmTransformerError, .valueError] ∧ Fails h t x e := by
  obtain ⟨anc, ha, -, hin⟩ := D.ancestors hx
  rcases first_with (fun y => (h.get y).cls = .Step) anc with h1 | ⟨a, h1⟩
  · exact ⟨_, by decide, .outside hc ha h1⟩
  · have hi : InnermostStep h x a := ⟨anc, ha, h1⟩
    cases hp : Transformer.prevCount (h.get x) with
    | none => exact ⟨_, by decide, .count hc hi hp⟩
    | some n =>
      have hat : a ∈ t.pre := by
        obtain ⟨-, b, e, rfl, -⟩ := h1
        exact hin a (by simp)
      have hb : ∃ l, StepsBefore h a l := by
        cases hpa : h.parent a with
        | none => exact ⟨[], .inl ⟨hpa, rfl⟩⟩
        | some p =>
          have har : a ≠ root := by
            rintro rfl
            rw [D.parent_root_none] at hpa
            cases hpa
          obtain ⟨q, -, hq, hk⟩ := D.parent_mem hat har
          rw [hpa] at hq
          cases hq
          obtain ⟨b, e, he, hnb⟩ := List.eq_append_cons_of_mem hk
          exact ⟨_, .inr ⟨p, b, e, hpa, he, hnb, rfl⟩⟩
      obtain ⟨l, hl⟩ := hb
      by_cases hle : n.toNat ≤ l.length
      · exact absurd ⟨a, l, n, hi, hl, hp, hle⟩ hn
      · exact ⟨_, by decide, .tooFew hc hi hp hl (by omega)⟩

/-- A reference to an earlier step that cannot go back as far in the source raises. -/
theorem parse_prevs_fail (S : Source c) (F : Forest s.heap) (hf : 12 * c.size < fuel) (h : parse fuel c s = .ok r s')
    (D : Doc s'.heap r t) (ho : outlineOf s'.heap t = [sourceOutline c])
    (hp : prevsFine none (sourceOutline c) = false) :
    ∃ x ∈ t.pre, ∃ e, (s'.heap.get x).cls = .PendingPrev ∧ e ∈ [PyErr.rsmTransformerError, .valueError] ∧ Fails s'.heap t x e := by
  by_contra hno
  have := goes_tree (anc := []) (steps := none) D.tree D.nodup (by rw [D.root_eq]; exact D.parent_root_none)
    ⟨nofun, fun _ y hy => ?_⟩ (fun x hx hc => ?_) (sourceOutline c) (by rw [ho]; exact List.mem_singleton_self _)
  · rw [hp] at this; cases this
  · obtain ⟨_, _, _, _, _, t1, d⟩ := parse_ok S F hf h
    have e := D.unique d.doc
    subst e
    rw [List.mem_singleton] at hy
    rw [hy, D.root_eq, d.root_cls]
    decide
  · by_contra hn
    obtain ⟨e, he, hf⟩ := fails_of_not_finds D hx hc hn
    exact hno ⟨x, hx, e, hc, he, hf⟩

/-! ## Letters -/

mutual
theorem seen_parent {h : Heap} : ∀ {t : Tree} {p : Option Ref}, IsTree h p t → ∀ x ∈ seen h t, x = t.root ∨
    ∃ q, h.parent x = some q ∧ ¬ LeftOut h q
  | .node i ks, p, T, x, hx => by
    rw [IsTree] at T
    rw [seen] at hx
    by_cases e : LeftOut h i
    · rw [if_pos e] at hx; cases hx
    · rw [if_neg e] at hx
      rcases List.mem_cons.mp hx with rfl | hx
      · exact .inl rfl
      · exact .inr (seen_parentL e T.2.2 x hx)
theorem seen_parentL {h : Heap} {i : Ref} (hi : ¬ LeftOut h i) : ∀ {ts : List Tree}, IsForest h (some i) ts → ∀ x ∈ seenL h ts,
    ∃ q, h.parent x = some q ∧ ¬ LeftOut h q
  | [], T, x, hx => by rw [seenL] at hx; cases hx
  | t :: ts, T, x, hx => by
    rw [IsForest] at T
    rw [seenL] at hx
    rcases List.mem_append.mp hx with hx | hx
    · rcases seen_parent T.1 x hx with rfl | h1
      · exact ⟨i, T.1.parent_root, hi⟩
      · exact h1
    · exact seen_parentL hi T.2 x hx
end

theorem sinceLast_none {P : Ref → Prop} [DecidablePred P] : ∀ {l : List Ref}, (∀ x ∈ l, ¬ P x) → sinceLast P l = l
  | [], _ => rfl
  | x :: l, h => by
    rw [sinceLast, if_neg]
    rintro (⟨y, hy, h1⟩ | h1)
    · exact h y (List.mem_cons_of_mem _ hy) h1
    · exact h x List.mem_cons_self h1

theorem sinceLast_at {P : Ref → Prop} [DecidablePred P] {a : Ref} {l2 : List Ref} (ha : P a) (h2 : ∀ x ∈ l2, ¬ P x) :
    ∀ l1 : List Ref, sinceLast P (l1 ++ a :: l2) = l2
  | [] => by rw [List.nil_append, sinceLast, if_pos (.inr ha), sinceLast_none h2]
  | x :: l1 => by
    rw [List.cons_append, sinceLast, if_pos (.inl ⟨a, by simp, ha⟩)]
    exact sinceLast_at ha h2 l1

/-- If there are not letters enough for what is in the source, they run out. -/
theorem parse_letters_fail (S : Source c) (F : Forest s.heap) (hf : 12 * c.size < fuel) (h : parse fuel c s = .ok r s')
    (D : Doc s'.heap r t) (hl : ¬ LettersSuffice (sourceLooks c)) : LettersRunOut s'.heap t.pre := by
  unfold LettersSuffice at hl
  push Not at hl
  obtain ⟨before, a, mid, after, hL0, ha, hmid, kind, h26⟩ := hl
  have hL := parse_looks S F hf h D
  have hcl := offB_closed S F hf h D
  let p : Look → Bool := fun b => b.cls = .Appendix || lettered b && b.cls.numberAs = kind
  have hfil := filter_seen (h := s'.heap) (H := OffB s'.heap)
    (p := fun x => open Classical in p (look s'.heap x) && decide (¬ OffB s'.heap x)) (fun x hx => .inl hx)
    (fun y hy => by simp [hy]) t hcl
  have hmap : (sourceLooks c).filter p =
      (t.pre.filter fun x => open Classical in p (look s'.heap x) && decide (¬ OffB s'.heap x)).map (look s'.heap) := by
    rw [hL, List.filter_map, hfil]
    congr 1
    refine List.filter_congr fun x hx => ?_
    show p (look s'.heap x) = _
    by_cases hp : p (look s'.heap x) = true
    · have : ¬ OffB s'.heap x := by
        have e1 : (look s'.heap x).cls = (s'.heap.get x).cls := rfl
        rintro (ho | ⟨hb, q, hq, hqc⟩)
        · obtain ⟨h1, h2, -⟩ := leftOut_number ho
          have hp : (decide ((look s'.heap x).cls = .Appendix) || lettered (look s'.heap x) && decide ((look s'.heap x).cls.numberAs = kind)) = true := hp
          unfold lettered at hp
          rw [e1, h1] at hp
          simp [h2] at hp
        · rcases seen_parent D.tree x hx with rfl | ⟨q', hq', hno⟩
          · obtain ⟨_, _, _, _, _, t1, d⟩ := parse_ok S F hf h
            rw [D.root_eq, d.root_cls] at hb
            cases hb
          · rw [hq] at hq'
            cases hq'
            exact hno (.inr (.inr hqc))
      simp [this]
    · simp [hp]
  have hpa : p a = true := by
    show (decide _ || _) = true
    rw [ha]
    rfl
  have hmidp : mid.filter p = mid.filter fun b => lettered b && decide (b.cls.numberAs = kind) := by
    refine List.filter_congr fun b hb => ?_
    show (decide _ || _) = _
    simp [hmid b hb]
  rw [hL0, List.filter_append, List.filter_append, List.filter_cons, if_pos hpa, hmidp] at hmap
  generalize hM : (mid.filter fun b => lettered b && decide (b.cls.numberAs = kind)) = M at hmap h26
  obtain ⟨M', x0, rfl⟩ : ∃ M' x0, M = M' ++ [x0] := by
    rcases List.eq_nil_or_concat M with rfl | ⟨M', x0, rfl⟩
    · exact absurd h26 (by decide)
    · exact ⟨M', x0, by simp⟩
  rw [List.length_append, List.length_singleton] at h26
  rw [show before.filter p ++ a :: (M' ++ [x0]) ++ after.filter p = (before.filter p ++ a :: M') ++ (x0 :: after.filter p) by simp] at hmap
  obtain ⟨U0, V0, hUV, hU, hV⟩ := List.append_eq_map_iff.mp hmap
  obtain ⟨U1, U2, rfl, hU1, hU2⟩ := List.map_eq_append_iff.mp hU
  obtain ⟨a', Y, rfl, haa, hY⟩ := List.map_eq_cons_iff.mp hU2
  obtain ⟨x, Z, rfl, hxx, hZ⟩ := List.map_eq_cons_iff.mp hV
  obtain ⟨W1, W2, hW, e1, e2⟩ := List.filter_eq_append_iff.mp hUV
  obtain ⟨n1, W3, rfl, g1, g2, g3⟩ := List.filter_eq_cons_iff.mp e2
  obtain ⟨W4, W5, rfl, e4, e5⟩ := List.filter_eq_append_iff.mp e1
  obtain ⟨n2, W6, rfl, k1, k2, k3⟩ := List.filter_eq_cons_iff.mp e5
  have hkind : ∀ b ∈ M' ++ [x0], lettered b = true ∧ b.cls.numberAs = kind := by
    intro b hb
    rw [← hM] at hb
    have := (List.mem_filter.mp hb).2
    rw [Bool.and_eq_true] at this
    exact ⟨this.1, of_decide_eq_true this.2⟩
  have hnum : ∀ q, look s'.heap q ∈ M' ++ [x0] → Numbered s'.heap q ∧ (s'.heap.get q).cls.numberAs = kind ∧
      (s'.heap.get q).cls.numberWithin = [.Manuscript] := by
    intro q hq
    obtain ⟨h1, h2⟩ := hkind _ hq
    have e1 : (look s'.heap q).cls = (s'.heap.get q).cls := rfl
    have e2 : (look s'.heap q).nonum = (s'.heap.get q).nonum := rfl
    unfold lettered at h1
    rw [e1, e2] at h1
    rw [e1] at h2
    simp only [Bool.and_eq_true, Bool.not_eq_true', decide_eq_true_eq, ne_eq] at h1
    exact ⟨⟨h1.1.1.1, h1.1.1.2, h1.1.2⟩, h2, h1.2⟩
  have hx := hnum x (by rw [hxx]; simp)
  have ha' : (s'.heap.get a').cls = .Appendix := by rw [← ha, ← haa]; rfl
  have hnone : ∀ b ∈ W6 ++ n1, (s'.heap.get b).cls ≠ .Appendix := by
    intro b hb hc
    have e1 : (look s'.heap b).cls = .Appendix := hc
    have hpb : p (look s'.heap b) = true := by
      show (decide _ || _) = true
      rw [e1]
      rfl
    have hno : ¬ OffB s'.heap b := by
      rintro (ho | ⟨ho, _⟩)
      · exact (leftOut_number ho).2.1 hc
      · rw [hc] at ho; cases ho
    rcases List.mem_append.mp hb with hb | hb
    · have hm : b ∈ Y := by
        rw [← k3]
        exact List.mem_filter.mpr ⟨hb, by simp [hpb, hno]⟩
      have := (hnum b (by rw [List.mem_append, ← hY]; exact .inl (List.mem_map_of_mem hm))).1.1
      rw [hc] at this
      exact absurd this (by decide)
    · exact g1 b hb (by simp [hpb, hno])
  refine ⟨W4 ++ (n2 ++ a' :: W6) ++ n1, x, W3, by rw [hW]; simp, hx.1, hx.2.2, ⟨a', by simp, ha'⟩, ?_⟩
  unfold earlierInScope
  rw [show W4 ++ (n2 ++ a' :: W6) ++ n1 = (W4 ++ n2) ++ a' :: (W6 ++ n1) by simp, sinceLast_at (.inr ⟨ha', rfl⟩)]
  · have hYl : Y.length = M'.length := by rw [← hY, List.length_map]
    have : Y.length ≤ ((W6 ++ n1).filter fun q => decide (Numbered s'.heap q ∧ SameFamily s'.heap q x)).length := by
      rw [← k3, List.filter_append, List.length_append]
      refine Nat.le_trans ?_ (Nat.le_add_right _ _)
      refine List.Sublist.length_le ?_
      have hs : (W6.filter fun x => open Classical in p (look s'.heap x) && decide (¬ OffB s'.heap x)) =
          (W6.filter fun x => open Classical in p (look s'.heap x) && decide (¬ OffB s'.heap x)).filter
            fun q => decide (Numbered s'.heap q ∧ SameFamily s'.heap q x) := by
        symm
        rw [List.filter_eq_self]
        intro q hq
        rw [k3] at hq
        have := hnum q (by rw [List.mem_append, ← hY]; exact .inl (List.mem_map_of_mem hq))
        exact decide_eq_true ⟨this.1, this.2.1.trans hx.2.1.symm⟩
      rw [hs]
      exact List.filter_sublist.filter _
    omega
  · rintro b hb (⟨h1, h2⟩ | ⟨h1, _⟩)
    · have := h1.1
      rw [h2] at this
      exact absurd this (by decide)
    · exact hnone b hb h1

end Parser
end RSM
