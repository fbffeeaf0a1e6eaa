import Verif.Lemmas.SourceNumbers
import Verif.Spec.SourceSteps

/-! The steps of a source and their numbers (helper lemmas). -/

namespace RSM
namespace Parser
open PyM Nodes Heap Tree

/-- The classes that the number of a step goes on from. -/
def stepScopes : List Cls := [.Proof, .Step]

/-- Steps within `l`, innermost first, go on from `outer`. -/
def GoesOn (h : Heap) (l : List Ref) (outer : Str) : Prop :=
  match l with
  | [] => outer = []
  | a :: _ => ∃ f, FullNumber h a f ∧ f.getD [] = outer

theorem isFirst_of_filter {P : Ref → Prop} [DecidablePred P] : ∀ {l : List Ref} {a : Ref} {r : List Ref},
    l.filter (fun x => decide (P x)) = a :: r → IsFirstWith P l (some a)
  | [], _, _, h => by cases h
  | b :: l, a, r, h => by
    by_cases hb : P b
    · rw [List.filter_cons_of_pos (by simpa using hb)] at h
      cases h
      exact ⟨hb, [], l, rfl, nofun⟩
    · rw [List.filter_cons_of_neg (by simpa using hb)] at h
      exact (isFirstWith_skip hb).mpr (isFirst_of_filter h)

theorem first_or_none (P : Ref → Prop) [DecidablePred P] (l : List Ref) :
    (∀ a ∈ l, ¬ P a) ∨ ∃ a, IsFirstWith P l (some a) := by
  cases e : l.filter (fun x => decide (P x)) with
  | nil =>
    left
    intro a ha hp
    rw [List.filter_eq_nil_iff] at e
    exact e a ha (by simpa using hp)
  | cons a r => exact .inr ⟨a, isFirst_of_filter e⟩

theorem step_full {h : Heap} {x : Ref} {anc : List Ref} {outer : Str} {i : Nat} (hc : (h.get x).cls = .Step)
    (hn : (h.get x).nonum = false) (hi : (h.get x).number = .int (i + 1 : Nat)) (ha : Ancestors h x anc)
    (ho : GoesOn h (anc.filter fun a => decide ((h.get a).cls ∈ stepScopes)) outer) :
    FullNumber h x (some (dotted outer (natStr (i + 1)))) := by
  have hM : (h.get x).cls ≠ .Manuscript := by rw [hc]; decide
  have hw : (h.get x).cls.numberWithin = stepScopes := by rw [hc]; rfl
  have ht : (h.get x).number.truthy = true := by rw [hi]; rfl
  have hf : (h.get x).number.fmt = natStr (i + 1) := by rw [hi]; rfl
  have hlast : (if (h.get x).number.truthy = true then (h.get x).number.fmt else []) = natStr (i + 1) := by rw [if_pos ht, hf]
  cases e : anc.filter (fun a => decide ((h.get a).cls ∈ stepScopes)) with
  | nil =>
    rw [e] at ho
    cases ho
    rw [List.filter_eq_nil_iff] at e
    have hno : ∀ a ∈ anc, (h.get a).cls ∉ (h.get x).cls.numberWithin := fun a h1 h2 => by
      rw [hw] at h2
      exact e a h1 (by simpa using h2)
    rw [show dotted [] (natStr (i + 1)) = natStr (i + 1) from rfl, ← hlast]
    rcases first_or_none (fun a => (h.get a).cls = .Manuscript) anc with h1 | ⟨a, h1⟩
    · exact .noScope hM hn ha fun a h => ⟨hno a h, h1 a h⟩
    · exact .unnumberedScope hM hn ha (.inr ⟨hno, h1⟩) (.manuscript h1.1) (.inr rfl)
  | cons a r =>
    have h1 : IsFirstWith (fun a => (h.get a).cls ∈ (h.get x).cls.numberWithin) anc (some a) := by
      rw [hw]; exact isFirst_of_filter e
    rw [e] at ho
    obtain ⟨f, hf1, hf2⟩ := ho
    by_cases he : outer = []
    · rw [he, show dotted [] (natStr (i + 1)) = natStr (i + 1) from rfl, ← hlast]
      refine .unnumberedScope hM hn ha (.inl h1) hf1 ?_
      cases f with
      | none => exact .inl rfl
      | some o => rw [he] at hf2; exact .inr (congrArg some hf2)
    · cases f with
      | none => exact absurd hf2.symm he
      | some o =>
        have : o = outer := hf2
        subst this
        unfold dotted
        rw [if_neg he, ← hf]
        exact .inScope hM hn ha (.inl h1) hf1 he

theorem proof_full {h : Heap} {x : Ref} {anc : List Ref} (hc : (h.get x).cls = .Proof)
    (hi : (h.get x).number = .none) (ha : Ancestors h x anc) : ∃ f, FullNumber h x f ∧ f.getD [] = [] := by
  have hM : (h.get x).cls ≠ .Manuscript := by rw [hc]; decide
  cases hn : (h.get x).nonum with
  | true => exact ⟨none, .nonum hM hn, rfl⟩
  | false =>
    have hw : (h.get x).cls.numberWithin = [.Manuscript] := by rw [hc]; rfl
    refine ⟨some (if (h.get x).number.truthy then (h.get x).number.fmt else []), ?_, by rw [hi]; rfl⟩
    rcases first_or_none (fun a => (h.get a).cls = .Manuscript) anc with h1 | ⟨a, h1⟩
    · refine .noScope hM hn ha fun a h => ⟨?_, h1 a h⟩
      rw [hw, List.mem_singleton]
      exact h1 a h
    · refine .unnumberedScope hM hn ha (.inl ?_) (.manuscript h1.1) (.inr rfl)
      rw [hw]
      simpa only [List.mem_singleton] using h1

/-- What the numbers of the steps come from. -/
structure StepsRun (h h' : Heap) (t : Tree) : Prop where
  cls : ∀ x ∈ t.pre, (h'.get x).cls = (h.get x).cls ∧ (h'.get x).nonum = (h.get x).nonum
  around : ∀ x ∈ t.pre, (h.get x).cls ∈ stepScopes → ∀ anc, Ancestors h x anc → ∃ anc', Ancestors h' x anc' ∧
    anc'.filter (fun a => decide ((h'.get a).cls ∈ stepScopes)) = anc.filter (fun a => decide ((h.get a).cls ∈ stepScopes))
  steps : ∀ p ∈ t.pre, (h.get p).cls ∈ [.Proof, .Subproof, .Step] → ∀ i (hi : i < (stepChildren h p).length),
    (h'.get (stepChildren h p)[i]).number = .int (i + 1 : Nat)
  proofs : ∀ p ∈ t.pre, (h.get p).cls = .Proof → (h'.get p).number = .none
  held : ∀ p ∈ t.pre, ∀ x ∈ h.children p, (h.get x).cls = .Step → (h.get p).cls ∈ [.Proof, .Subproof, .Step]

/-- The part of what is around that steps go on from. -/
abbrev scopesOf (h : Heap) (l : List Ref) : List Ref := l.filter fun a => decide ((h.get a).cls ∈ stepScopes)

theorem top_outline {h : Heap} {t : Tree} {o : Outline} (ho : o ∈ outlineOf h t) : o.top = look h t.root ∧ outlineOf h t = [o] := by
  obtain ⟨i, ks⟩ := t
  rw [outlineOf] at ho ⊢
  split at ho
  · cases ho
  · rename_i hl
    rw [List.mem_singleton] at ho
    subst ho
    rw [if_neg hl]
    exact ⟨rfl, rfl⟩

theorem root_seen {h : Heap} {t : Tree} {o : Outline} (ho : o ∈ outlineOf h t) : t.root ∈ seen h t := by
  obtain ⟨i, ks⟩ := t
  rw [outlineOf] at ho
  by_cases hl : LeftOut h i
  · rw [if_pos (show _ ∨ _ ∨ _ from hl)] at ho; cases ho
  · rw [seen, if_neg hl]; exact List.mem_cons_self

mutual
theorem steps_tree {h h' : Heap} {t : Tree} (R : StepsRun h h' t) : ∀ {u : Tree} {p : Option Ref} {anc : List Ref} {outer : Str},
    IsTree h p u → (∀ x ∈ u.pre, x ∈ t.pre) → Ancestors h u.root anc →
    GoesOn h' (scopesOf h (u.root :: anc)) (if (h.get u.root).cls = .Proof then [] else outer) →
    ∀ o ∈ outlineOf h u, ∀ q ∈ o.steps outer, ∃ x ∈ seen h u, look h x = q.1 ∧ q.1.cls = .Step ∧ q.1.nonum = false ∧
      FullNumber h' x (some q.2)
  | .node i ks, p, anc, outer, T, hm, ha, hg, o, ho, q, hq => by
    rw [IsTree] at T
    rw [outlineOf] at ho
    by_cases hl : LeftOut h i
    · rw [if_pos (show _ ∨ _ ∨ _ from hl)] at ho; cases ho
    rw [if_neg (show ¬(_ ∨ _ ∨ _) from hl), List.mem_singleton] at ho
    subst ho
    rw [Outline.steps] at hq
    rw [Tree.root] at ha hg
    obtain ⟨x, hx, H⟩ := steps_forest R (i := i) (L := []) T.2.2 (hm i (by rw [Tree.pre]; exact List.mem_cons_self))
      (fun x hx => hm x (by rw [Tree.pre]; exact List.mem_cons_of_mem _ hx)) ha hg T.2.1 q hq
    exact ⟨x, by rw [seen, if_neg hl]; exact List.mem_cons_of_mem _ hx, H⟩
theorem steps_forest {h h' : Heap} {t : Tree} (R : StepsRun h h' t) : ∀ {ts : List Tree} {i : Ref} {anc L : List Ref} {outer : Str},
    IsForest h (some i) ts → i ∈ t.pre → (∀ x ∈ Tree.preL ts, x ∈ t.pre) → Ancestors h i anc →
    GoesOn h' (scopesOf h (i :: anc)) outer → h.children i = L ++ ts.map Tree.root →
    ∀ q ∈ stepsL outer (L.filter fun x => (h.get x).cls = .Step).length (outlinesOf h ts),
      ∃ x ∈ seenL h ts, look h x = q.1 ∧ q.1.cls = .Step ∧ q.1.nonum = false ∧ FullNumber h' x (some q.2)
  | [], i, anc, L, outer, T, hi, hm, ha, hg, hk, q, hq => by rw [outlinesOf, stepsL] at hq; cases hq
  | u :: us, i, anc, L, outer, T, hi, hm, ha, hg, hk, q, hq => by
    rw [IsForest] at T
    have hpar : h.parent u.root = some i := T.1.parent_root
    have hmu : ∀ x ∈ u.pre, x ∈ t.pre := fun x hx => hm x (by rw [Tree.preL]; exact List.mem_append_left _ hx)
    have hut : u.root ∈ t.pre := hmu _ (Tree.root_mem_pre u)
    have hau : Ancestors h u.root (i :: anc) := ⟨hpar, ha⟩
    have rest : ∀ q ∈ stepsL outer ((L ++ [u.root]).filter fun x => (h.get x).cls = .Step).length (outlinesOf h us),
        ∃ x ∈ seenL h (u :: us), look h x = q.1 ∧ q.1.cls = .Step ∧ q.1.nonum = false ∧ FullNumber h' x (some q.2) := by
      intro q hq
      obtain ⟨x, hx, H⟩ := steps_forest R (L := L ++ [u.root]) T.2 hi
        (fun x hx => hm x (by rw [Tree.preL]; exact List.mem_append_right _ hx)) ha hg (by rw [hk]; simp) q hq
      exact ⟨x, by rw [seenL]; exact List.mem_append_right _ hx, H⟩
    have inner : ∀ {outer'}, GoesOn h' (scopesOf h (u.root :: i :: anc)) (if (h.get u.root).cls = .Proof then [] else outer') →
        ∀ o ∈ outlineOf h u, ∀ q ∈ o.steps outer', ∃ x ∈ seenL h (u :: us), look h x = q.1 ∧ q.1.cls = .Step ∧ q.1.nonum = false ∧
          FullNumber h' x (some q.2) := by
      intro outer' hg' o ho q hq
      obtain ⟨x, hx, H⟩ := steps_tree R T.1 hmu hau hg' o ho q hq
      exact ⟨x, by rw [seenL]; exact List.mem_append_left _ hx, H⟩
    rw [outlinesOf] at hq
    cases hot : outlineOf h u with
    | nil =>
      rw [hot, List.nil_append] at hq
      have hl : LeftOut h u.root := by
        obtain ⟨j, js⟩ := u
        rw [outlineOf] at hot
        split at hot
        · assumption
        · cases hot
      have hns : (h.get u.root).cls ≠ .Step := by
        intro e
        rcases hl with hl | hl | hl
        · unfold Heap.isInst at hl
          rw [e] at hl
          exact absurd hl (by decide)
        · rw [e] at hl; cases hl
        · rw [e] at hl; cases hl
      refine rest q ?_
      rw [List.filter_append, List.filter_cons_of_neg (by simpa using hns)]
      simpa using hq
    | cons o os =>
      obtain ⟨htop, hone⟩ := top_outline (h := h) (t := u) (o := o) (by rw [hot]; simp)
      rw [hone, List.singleton_append, stepsL] at hq
      have ho : o ∈ outlineOf h u := by rw [hone]; exact List.mem_singleton_self _
      have hcl : o.top.cls = (h.get u.root).cls := by rw [htop]; rfl
      have hno : o.top.nonum = (h.get u.root).nonum := by rw [htop]; rfl
      by_cases hs : (h.get u.root).cls = .Step
      · rw [if_pos (by rw [hcl]; exact hs), List.mem_append] at hq
        have hsc : (h.get u.root).cls ∈ stepScopes := by rw [hs]; decide
        have hcp : ¬ (h.get u.root).cls = .Proof := by rw [hs]; decide
        have hscp : scopesOf h (u.root :: i :: anc) = u.root :: scopesOf h (i :: anc) :=
          List.filter_cons_of_pos (by simpa using hsc)
        obtain ⟨k1, k2⟩ := R.cls u.root hut
        rcases hq with hq | hq
        · split at hq
          · rename_i hnn
            refine inner (outer' := []) ?_ o ho q hq
            rw [if_neg hcp, hscp]
            exact ⟨none, .nonum (by rw [k1, hs]; decide) (by rw [k2, ← hno]; exact hnn), rfl⟩
          · rename_i hnn
            have hnn : o.top.nonum = false := by simpa using hnn
            have hfull : FullNumber h' u.root (some (dotted outer (natStr ((L.filter fun x => (h.get x).cls = .Step).length + 1)))) := by
              obtain ⟨anc', ha', hf'⟩ := R.around u.root hut hsc _ hau
              refine step_full (by rw [k1]; exact hs) (by rw [k2, ← hno]; exact hnn) ?_ ha' (by rw [hf']; exact hg)
              have hst : stepChildren h i = (L.filter fun x => (h.get x).cls = .Step) ++ u.root ::
                  ((us.map Tree.root).filter fun x => (h.get x).cls = .Step) := by
                unfold stepChildren
                rw [hk, List.filter_append, List.map_cons, List.filter_cons_of_pos (by simpa using hs)]
              have hheld := R.held i hi u.root (by rw [hk]; simp) hs
              have := R.steps i hi hheld (L.filter fun x => (h.get x).cls = .Step).length (by rw [hst]; simp)
              rw [← this]
              simp only [hst]
              congr 2
              simp
            rcases List.mem_cons.mp hq with rfl | hq
            · exact ⟨u.root, by rw [seenL]; exact List.mem_append_left _ (root_seen ho), htop.symm, by rw [← hs, ← hcl],
                hnn, hfull⟩
            · refine inner ?_ o ho q hq
              rw [if_neg hcp, hscp]
              exact ⟨_, hfull, rfl⟩
        · refine rest q ?_
          rw [List.filter_append, List.filter_cons_of_pos (by simpa using hs)]
          simpa using hq
      · rw [if_neg (by rw [hcl]; exact hs), List.mem_append] at hq
        rcases hq with hq | hq
        · refine inner (outer' := outer) ?_ o ho q hq
          by_cases hp : (h.get u.root).cls = .Proof
          · rw [if_pos hp]
            have hsc : (h.get u.root).cls ∈ stepScopes := by rw [hp]; decide
            rw [show scopesOf h (u.root :: i :: anc) = u.root :: scopesOf h (i :: anc) from
              List.filter_cons_of_pos (by simpa using hsc)]
            obtain ⟨anc', ha', -⟩ := R.around u.root hut hsc _ hau
            exact proof_full (by rw [(R.cls u.root hut).1]; exact hp) (R.proofs u.root hut hp) ha'
          · rw [if_neg hp]
            have hsc : (h.get u.root).cls ∉ stepScopes := by
              unfold stepScopes
              simp [hp, hs]
            rw [show scopesOf h (u.root :: i :: anc) = scopesOf h (i :: anc) from
              List.filter_cons_of_neg (by simpa using hsc)]
            exact hg
        · refine rest q ?_
          rw [List.filter_append, List.filter_cons_of_neg (by simpa using hs)]
          simpa using hq
end

variable {c : Cst} {fuel fuel' : Nat} {s s1 : ParserState} {r : Ref} {t : Tree} {log : List TWarning} {s2 : TState}

theorem proof_kind {kind : Str} (h : classOf kind = .Proof) : kind = "proof".toList := by
  unfold classOf at h
  split at h
  · cases h
  split at h
  · cases h
  cases e : classTable.lookup kind with
  | none => rw [e] at h; cases h
  | some cls =>
    rw [e] at h
    have : ∀ p ∈ classTable, p.2 = .Proof → p.1 = "proof".toList := by decide +kernel
    exact this _ (mem_of_lookup e) h

/-- What the numbers of the steps of a manuscript come from. -/
theorem steps_run (S : Source c) (F : Forest s.heap) (hf : 12 * c.size < fuel) (h : parse fuel c s = .ok r s1)
    (hU : ErrorsUnlabelled c) (hT : TocFine c) (hP : ProofsUnnumbered c) (D : Doc s1.heap r t) (hf' : 12 * t.size < fuel')
    (h2 : Transformer.transform fuel' r { heap := s1.heap, log := log } = .ok () s2) : StepsRun s1.heap s2.heap t := by
  obtain ⟨hS, -, -, hR, hI⟩ := C76_input S F hf h D
  have N := numbers_run (hR hU) hS (hI hT) hf' h2
  obtain ⟨G, -, -, hM⟩ := parse_given S F hf h D
  have G : AllGiven s1.heap (walks (sourceParts c)) t.pre := G
  refine ⟨fun x hx => ?_, fun x hx hc => ?_, N.steps, fun x hx hc => ?_, fun p hp x hx hc => ?_⟩
  · obtain ⟨k1, k2, -⟩ := N.same x (D.bound x hx)
    exact ⟨k1, k2⟩
  · refine N.classes stepScopes (by decide) (by decide) x hx ?_ ?_
    · rintro (e | e | e) <;> rw [e] at hc <;> exact absurd hc (by decide)
    · intro H
      have e := (List.mem_filter.mp (List.mem_of_mem_tail H)).2
      rw [decide_eq_true_eq] at e
      rw [e] at hc
      exact absurd hc (by decide)
  · rw [N.proofs x hx hc]
    have hxr : x ≠ r := by
      rintro rfl
      rw [hM] at hc
      cases hc
    obtain ⟨q, _, hq, _⟩ := D.parent_mem hx hxr
    obtain ⟨kind, d, ps, g1, g2, g3⟩ := (G x hx q hq).of_proof hc
    exact g3 (hP kind d ps g1 (proof_kind g2))
  · obtain ⟨hxt, hpar⟩ := D.children_mem hp hx
    have g := G x hxt p hpar
    have hch : (s1.heap.get p).cls.isSub .NodeWithChildren = true := children_nwc (by
      intro e; rw [e] at hx; cases hx)
    cases g with
    | added h => rcases h with h | h <;> rw [hc] at h <;> cases h
    | bibliography h => have := core_cls h; rw [hc] at this; cases this
    | entry _ _ h2 h3 =>
      have := (core_cls h3).trans (bibRecord_ok h2).2
      rw [hc] at this; cases this
    | @made n ks _ _ h3 h4 h5 =>
      have hn := core_cls h5
      rw [hc] at hn
      have h4 := h4.1
      unfold mayHold at h4
      rw [hch, ← hn] at h4
      simp only [Bool.not_true, Bool.false_or, Bool.or_eq_true, List.isEmpty_iff, List.contains_iff_mem] at h4
      rcases h4 with h4 | h4
      · exact absurd h4 (by decide)
      · have : ∀ q ∈ Cls.Step.possibleParents, q ∈ [Cls.Proof, Cls.Subproof, Cls.Step] := by decide
        exact this _ h4

/-- The steps of a source are nodes of the manuscript, with the numbers that the source gives them. -/
theorem stepped (S : Source c) (F : Forest s.heap) (hf : 12 * c.size < fuel) (h : parse fuel c s = .ok r s1)
    (hU : ErrorsUnlabelled c) (hT : TocFine c) (hP : ProofsUnnumbered c) (D : Doc s1.heap r t) (hf' : 12 * t.size < fuel')
    (h2 : Transformer.transform fuel' r { heap := s1.heap, log := log } = .ok () s2)
    {a : Look} {n : Str} (hq : (a, n) ∈ sourceSteps c) :
    ∃ x ∈ seen s1.heap t, look s1.heap x = a ∧ a.cls = .Step ∧ a.nonum = false ∧ FullNumber s2.heap x (some n) := by
  have R := steps_run S F hf h hU hT hP D hf' h2
  obtain ⟨-, -, -, hM⟩ := parse_given S F hf h D
  obtain ⟨_, _, _, _, _, t1, d⟩ := parse_ok S F hf h
  have e := D.unique d.doc
  subst e
  exact steps_tree R (u := t) (anc := []) (outer := []) D.tree (fun _ h => h) (by rw [D.root_eq]; exact D.parent_root_none)
    (by
      rw [D.root_eq, hM]
      show GoesOn s2.heap (scopesOf s1.heap [r]) []
      rw [show scopesOf s1.heap [r] = [] from List.filter_cons_of_neg (by rw [hM]; decide)]
      rfl) (sourceOutline c) (by rw [d.outl]; exact List.mem_singleton_self _) (a, n) hq

end Parser
end RSM
