import Verif.Lemmas.StepPage
import Verif.Lemmas.Refused

/-! The references to earlier steps of a source (helper lemmas). -/

namespace RSM
namespace Parser
open PyM Nodes Heap Tree

/-- `y` is a step of this look with this number. -/
def Counted (h h' : Heap) (t : Tree) (q : Look × Option Str) (y : Ref) : Prop :=
  look h y = q.1 ∧ (h.get y).cls = .Step ∧ FullNumber h' y q.2 ∧ y ∈ t.pre ∧ y ∈ seen h t

/-- Within `l` these are the steps that a reference can lead to. -/
def StepsList (h h' : Heap) (t : Tree) (l : List Ref) (steps : List (Look × Option Str)) : Prop :=
  steps = [] ∨ ∃ a ls, IsFirstWith (fun y => (h.get y).cls = .Step) l (some a) ∧ StepsBefore h a ls ∧
    List.Forall₂ (Counted h h' t) steps (a :: ls.reverse)

theorem StepsList.skip {h h' : Heap} {t : Tree} {y : Ref} {l : List Ref} {steps : List (Look × Option Str)}
    (hs : StepsList h h' t l steps) (hy : (h.get y).cls ≠ .Step) : StepsList h h' t (y :: l) steps := by
  rcases hs with hs | ⟨a, ls, h1, h2, h3⟩
  · exact .inl hs
  · exact .inr ⟨a, ls, (isFirstWith_skip hy).mpr h1, h2, h3⟩

/-- The number of a step. -/
theorem step_counted {h h' : Heap} {t : Tree} (R : StepsRun h h' t) {x i : Ref} {anc L A : List Ref} {outer : Str}
    (hi : i ∈ t.pre) (hx : x ∈ t.pre) (ha : Ancestors h x (i :: anc)) (hg : GoesOn h' (scopesOf h (i :: anc)) outer)
    (hk : h.children i = L ++ x :: A) (hs : (h.get x).cls = .Step) :
    FullNumber h' x (if (h.get x).nonum then none else
      some (dotted outer (natStr ((L.filter fun x => (h.get x).cls = .Step).length + 1)))) := by
  obtain ⟨k1, k2⟩ := R.cls x hx
  cases hn : (h.get x).nonum with
  | true =>
    rw [if_pos rfl]
    exact .nonum (by rw [k1, hs]; decide) (by rw [k2, hn])
  | false =>
    rw [if_neg (by decide)]
    have hsc : (h.get x).cls ∈ stepScopes := by rw [hs]; decide
    obtain ⟨anc', ha', hf'⟩ := R.around x hx hsc _ ha
    refine step_full (by rw [k1]; exact hs) (by rw [k2, hn]) ?_ ha' (by rw [hf']; exact hg)
    have hst : stepChildren h i = (L.filter fun x => (h.get x).cls = .Step) ++ x :: (A.filter fun x => (h.get x).cls = .Step) := by
      unfold stepChildren
      rw [hk, List.filter_append, List.filter_cons_of_pos (by simpa using hs)]
    have hheld := R.held i hi x (by rw [hk]; simp) hs
    have := R.steps i hi hheld (L.filter fun x => (h.get x).cls = .Step).length (by rw [hst]; simp)
    rw [← this]
    simp only [hst]
    congr 2
    simp

mutual
theorem prevs_tree {h h' : Heap} {t : Tree} (R : StepsRun h h' t) : ∀ {u : Tree} {p : Option Ref} {anc : List Ref} {outer : Str}
    {steps : List (Look × Option Str)},
    IsTree h p u → u.pre.Nodup → (∀ x ∈ u.pre, x ∈ t.pre) → (∀ x ∈ seen h u, x ∈ seen h t) → Ancestors h u.root anc →
    GoesOn h' (scopesOf h (u.root :: anc)) (if (h.get u.root).cls = .Proof then [] else outer) →
    StepsList h h' t (u.root :: anc) steps →
    ∀ o ∈ outlineOf h u, ∀ q ∈ o.prevs outer steps, ∃ x ∈ u.pre, look h x = q.1 ∧ q.1.cls = .PendingPrev ∧
      ∃ anc, Ancestors h x anc ∧ StepsList h h' t anc q.2
  | .node i ks, p, anc, outer, steps, T, nd, hm, hse, ha, hg, hst, o, ho, q, hq => by
    rw [IsTree] at T
    rw [outlineOf] at ho
    by_cases hl : LeftOut h i
    · rw [if_pos (show _ ∨ _ ∨ _ from hl)] at ho; cases ho
    rw [if_neg (show ¬(_ ∨ _ ∨ _) from hl), List.mem_singleton] at ho
    subst ho
    rw [Outline.prevs] at hq
    rw [Tree.root] at ha hg hst
    rw [Tree.pre] at nd
    have nk := (List.nodup_cons.mp nd).2
    rcases List.mem_append.mp hq with hq | hq
    · split at hq
      · rename_i hc
        rw [List.mem_singleton] at hq
        subst hq
        refine ⟨i, by rw [Tree.pre]; exact List.mem_cons_self, rfl, hc, anc, ha, ?_⟩
        have hc : (h.get i).cls = .PendingPrev := hc
        rcases hst with hst | ⟨a, ls, h1, h2, h3⟩
        · exact .inl hst
        · exact .inr ⟨a, ls, (isFirstWith_skip (by rw [hc]; decide)).mp h1, h2, h3⟩
      · cases hq
    · obtain ⟨x, hx, H⟩ := prevs_forest R (i := i) (L := []) (earlier := []) T.2.2 nk (by rw [T.2.1]; exact roots_nodup nk)
        (hm i (by rw [Tree.pre]; exact List.mem_cons_self))
        (fun x hx => hm x (by rw [Tree.pre]; exact List.mem_cons_of_mem _ hx))
        (fun x hx => hse x (by rw [seen, if_neg hl]; exact List.mem_cons_of_mem _ hx)) ha hg hst T.2.1 .nil q hq
      exact ⟨x, by rw [Tree.pre]; exact List.mem_cons_of_mem _ hx, H⟩
theorem prevs_forest {h h' : Heap} {t : Tree} (R : StepsRun h h' t) : ∀ {ts : List Tree} {i : Ref} {anc L : List Ref} {outer : Str}
    {earlier steps : List (Look × Option Str)},
    IsForest h (some i) ts → (Tree.preL ts).Nodup → (h.children i).Nodup → i ∈ t.pre → (∀ x ∈ Tree.preL ts, x ∈ t.pre) →
    (∀ x ∈ seenL h ts, x ∈ seen h t) → Ancestors h i anc →
    GoesOn h' (scopesOf h (i :: anc)) outer → StepsList h h' t (i :: anc) steps → h.children i = L ++ ts.map Tree.root →
    List.Forall₂ (Counted h h' t) earlier (L.filter fun x => (h.get x).cls = .Step).reverse →
    ∀ q ∈ prevsL outer earlier steps (outlinesOf h ts), ∃ x ∈ Tree.preL ts, look h x = q.1 ∧ q.1.cls = .PendingPrev ∧
      ∃ anc, Ancestors h x anc ∧ StepsList h h' t anc q.2
  | [], i, anc, L, outer, earlier, steps, T, nd, hc, hi, hm, hse, ha, hg, hst, hk, he, q, hq => by
    rw [outlinesOf, prevsL] at hq; cases hq
  | u :: us, i, anc, L, outer, earlier, steps, T, nd, hc, hi, hm, hse, ha, hg, hst, hk, he, q, hq => by
    rw [IsForest] at T
    rw [Tree.preL, List.nodup_append] at nd
    have hpar : h.parent u.root = some i := T.1.parent_root
    have hmu : ∀ x ∈ u.pre, x ∈ t.pre := fun x hx => hm x (by rw [Tree.preL]; exact List.mem_append_left _ hx)
    have hseu : ∀ x ∈ seen h u, x ∈ seen h t := fun x hx => hse x (by rw [seenL]; exact List.mem_append_left _ hx)
    have hut : u.root ∈ t.pre := hmu _ (Tree.root_mem_pre u)
    have hau : Ancestors h u.root (i :: anc) := ⟨hpar, ha⟩
    have hk1 : h.children i = L ++ u.root :: us.map Tree.root := by rw [hk, List.map_cons]
    have huL : u.root ∉ L := by
      rw [hk1] at hc
      intro hy
      exact (List.nodup_append.mp hc).2.2 _ hy _ (by simp) rfl
    have rest : ∀ {earlier'}, List.Forall₂ (Counted h h' t) earlier' ((L ++ [u.root]).filter fun x => (h.get x).cls = .Step).reverse →
        ∀ q ∈ prevsL outer earlier' steps (outlinesOf h us), ∃ x ∈ Tree.preL (u :: us), look h x = q.1 ∧ q.1.cls = .PendingPrev ∧
          ∃ anc, Ancestors h x anc ∧ StepsList h h' t anc q.2 := by
      intro earlier' he' q hq
      obtain ⟨x, hx, H⟩ := prevs_forest R (L := L ++ [u.root]) T.2 nd.2.1 hc hi
        (fun x hx => hm x (by rw [Tree.preL]; exact List.mem_append_right _ hx))
        (fun x hx => hse x (by rw [seenL]; exact List.mem_append_right _ hx)) ha hg hst (by rw [hk]; simp) he' q hq
      exact ⟨x, by rw [Tree.preL]; exact List.mem_append_right _ hx, H⟩
    have inner : ∀ {outer' steps'}, GoesOn h' (scopesOf h (u.root :: i :: anc)) (if (h.get u.root).cls = .Proof then [] else outer') →
        StepsList h h' t (u.root :: i :: anc) steps' →
        ∀ o ∈ outlineOf h u, ∀ q ∈ o.prevs outer' steps', ∃ x ∈ Tree.preL (u :: us), look h x = q.1 ∧ q.1.cls = .PendingPrev ∧
          ∃ anc, Ancestors h x anc ∧ StepsList h h' t anc q.2 := by
      intro outer' steps' hg' hst' o ho q hq
      obtain ⟨x, hx, H⟩ := prevs_tree R T.1 nd.1 hmu hseu hau hg' hst' o ho q hq
      exact ⟨x, by rw [Tree.preL]; exact List.mem_append_left _ hx, H⟩
    rw [outlinesOf] at hq
    cases hot : outlineOf h u with
    | nil =>
      rw [hot, List.nil_append] at hq
      have hl : LeftOut h u.root := by
        obtain ⟨j, js⟩ := u
        rw [outlineOf] at hot
        split at hot
        · assumption
        · cases hot
      have hns : (h.get u.root).cls ≠ .Step := by
        intro e
        rcases hl with hl | hl | hl
        · unfold Heap.isInst at hl
          rw [e] at hl
          exact absurd hl (by decide)
        · rw [e] at hl; cases hl
        · rw [e] at hl; cases hl
      refine rest ?_ q hq
      rw [List.filter_append, List.filter_cons_of_neg (by simpa using hns)]
      simpa using he
    | cons o os =>
      obtain ⟨htop, hone⟩ := top_outline (h := h) (t := u) (o := o) (by rw [hot]; simp)
      rw [hone, List.singleton_append, prevsL] at hq
      have ho : o ∈ outlineOf h u := by rw [hone]; exact List.mem_singleton_self _
      have hcl : o.top.cls = (h.get u.root).cls := by rw [htop]; rfl
      have hno : o.top.nonum = (h.get u.root).nonum := by rw [htop]; rfl
      by_cases hs : (h.get u.root).cls = .Step
      · rw [if_pos (by rw [hcl]; exact hs), List.mem_append] at hq
        have hsc : (h.get u.root).cls ∈ stepScopes := by rw [hs]; decide
        have hcp : ¬ (h.get u.root).cls = .Proof := by rw [hs]; decide
        have hscp : scopesOf h (u.root :: i :: anc) = u.root :: scopesOf h (i :: anc) :=
          List.filter_cons_of_pos (by simpa using hsc)
        have hlen : earlier.length = (L.filter fun x => (h.get x).cls = .Step).length := by
          rw [he.length_eq, List.length_reverse]
        have hfull := step_counted R hi hut hau hg hk1 hs
        rw [← hno, ← hlen] at hfull
        have hcount : Counted h h' t (o.top, if o.top.nonum then none else some (dotted outer (natStr (earlier.length + 1)))) u.root :=
          ⟨htop.symm, hs, hfull, hut, hseu _ (root_seen ho)⟩
        rcases hq with hq | hq
        · refine inner ?_ ?_ o ho q hq
          · rw [if_neg hcp, hscp]
            exact ⟨_, hfull, rfl⟩
          · exact .inr ⟨u.root, _, ⟨hs, [], i :: anc, rfl, nofun⟩, .inr ⟨i, L, us.map Tree.root, hpar, hk1, huL, rfl⟩,
              .cons hcount he⟩
        · refine rest ?_ q hq
          rw [List.filter_append, List.filter_cons_of_pos (by simpa using hs), List.filter_nil, List.reverse_append]
          exact .cons hcount he
      · rw [if_neg (by rw [hcl]; exact hs), List.mem_append] at hq
        rcases hq with hq | hq
        · refine inner (outer' := outer) ?_ (hst.skip hs) o ho q hq
          by_cases hp : (h.get u.root).cls = .Proof
          · rw [if_pos hp]
            have hsc : (h.get u.root).cls ∈ stepScopes := by rw [hp]; decide
            rw [show scopesOf h (u.root :: i :: anc) = u.root :: scopesOf h (i :: anc) from
              List.filter_cons_of_pos (by simpa using hsc)]
            obtain ⟨anc', ha', -⟩ := R.around u.root hut hsc _ hau
            exact proof_full (by rw [(R.cls u.root hut).1]; exact hp) (R.proofs u.root hut hp) ha'
          · rw [if_neg hp]
            have hsc : (h.get u.root).cls ∉ stepScopes := by
              unfold stepScopes
              simp [hp, hs]
            rw [show scopesOf h (u.root :: i :: anc) = scopesOf h (i :: anc) from
              List.filter_cons_of_neg (by simpa using hsc)]
            exact hg
        · refine rest ?_ q hq
          rw [List.filter_append, List.filter_cons_of_neg (by simpa using hs)]
          simpa using he
end

variable {c : Cst} {fuel fuel' : Nat} {s s1 : ParserState} {r : Ref} {t : Tree} {log : List TWarning} {s2 : TState}

/-- The references to earlier steps are nodes of the manuscript, within the steps that the source gives. -/
theorem preved (S : Source c) (F : Forest s.heap) (hf : 12 * c.size < fuel) (h : parse fuel c s = .ok r s1)
    (hU : ErrorsUnlabelled c) (hT : TocFine c) (hP : ProofsUnnumbered c) (D : Doc s1.heap r t) (hf' : 12 * t.size < fuel')
    (h2 : Transformer.transform fuel' r { heap := s1.heap, log := log } = .ok () s2)
    {q : Look × List (Look × Option Str)} (hq : q ∈ sourcePrevs c) :
    ∃ x ∈ t.pre, look s1.heap x = q.1 ∧ q.1.cls = .PendingPrev ∧
      ∃ anc, Ancestors s1.heap x anc ∧ StepsList s1.heap s2.heap t anc q.2 := by
  have R := steps_run S F hf h hU hT hP D hf' h2
  obtain ⟨-, -, -, hM⟩ := parse_given S F hf h D
  obtain ⟨_, _, _, _, _, t1, d⟩ := parse_ok S F hf h
  have e := D.unique d.doc
  subst e
  exact prevs_tree R (u := t) (anc := []) (outer := []) D.tree D.nodup (fun _ h => h) (fun _ h => h)
    (by rw [D.root_eq]; exact D.parent_root_none)
    (by
      rw [D.root_eq, hM]
      show GoesOn s2.heap (scopesOf s1.heap [r]) []
      rw [show scopesOf s1.heap [r] = [] from List.filter_cons_of_neg (by rw [hM]; decide)]
      rfl) (.inl rfl) (sourceOutline c) (by rw [d.outl]; exact List.mem_singleton_self _) q hq

end Parser

namespace Html
open PyM Tr Parser Nodes Normalize

/-- What a reference to a step shows, also to one without a number. -/
theorem stepref_shown {k : Conf} {x : Ref} {s : TrState} {n : Option Str}
    (ht : (s.heap.get x).reftextTemplate = Cls.Step.classreftext) (hn : s.heap.fullNumber k.fuel x = some n) :
    reftext k x s = .ok ("Step ⟨".toList ++ n.getD "None".toList ++ "⟩".toList) s := by
  unfold reftext
  have h1 := format_step (s.heap.get x).cls.name (n.getD "None".toList)
  rw [show ("Step ⟨{number}⟩".toList : Str) = (s.heap.get x).reftextTemplate by rw [ht]; rfl] at h1
  have h2 : fmtOpt n = n.getD "None".toList := by cases n <;> rfl
  simp only [bind_apply, number_shown hn, get_apply, Tr.lift, pure_apply, h2, h1]
  rw [strip_kept]
  · intro d hd; cases hd; decide
  · exact noTrail_append (by decide) (by decide)

end Html

/-- Collecting labels and resolving references keeps a label or takes it away. -/
theorem label_after {h : Heap} {root : Ref} {t : Tree} {fuel : Nat} {log : List TWarning} {s' : TState} (hr : ResolveInput h root t)
    (hf : t.size < fuel) (hrun : collectAndResolve fuel root { heap := h, log := log } = .ok () s') {x : Ref} (hx : x ∈ t.pre) :
    (s'.heap.get x).label = (h.get x).label ∨ (s'.heap.get x).label = [] := by
  obtain ⟨s, τ, k, C, I, Dτ⟩ := resolved hr hf hrun
  have := congrArg NodeRec.label (I.old x (by rw [C.relabel.1]; exact hr.doc.bound x hx))
  simp only at this
  rw [this]
  by_cases hfc : FirstCarrier h t x
  · left; rw [C.keep x (.inr hfc)]
  · right; rw [C.drop x hx hfc]

end RSM
