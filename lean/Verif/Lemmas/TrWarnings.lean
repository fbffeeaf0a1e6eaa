import Verif.Lemmas.RailsVisit3
import Verif.Spec.Warnings

/-! # Lemmas: what the translators log -/

namespace RSM
namespace Tr
open PyM

/-- A program that logs nothing. -/
structure Hushed {α : Type} (m : TrM α) : Prop where
  hushed : ∀ s, (m s).state.log = s.log

section
variable {α β : Type}

theorem Hushed.pure (a : α) : Hushed (Pure.pure a : TrM α) := ⟨fun _ => rfl⟩
theorem Hushed.throw (e : PyErr) : Hushed (PyM.throw e : TrM α) := ⟨fun _ => rfl⟩
theorem Hushed.get : Hushed (PyM.get : TrM TrState) := ⟨fun _ => rfl⟩
theorem Hushed.node (r : Ref) : Hushed (Tr.node r) := ⟨fun _ => rfl⟩
theorem Hushed.lift (x : Except PyErr α) : Hushed (Tr.lift x) := by
  constructor; intro s; cases x <;> rfl
theorem Hushed.assign (r : Ref) (f : NodeRec → NodeRec) : Hushed (Tr.assign r f) := ⟨fun _ => rfl⟩
theorem Hushed.bind {m : TrM α} {f : α → TrM β} (hm : Hushed m) (hf : ∀ a, Hushed (f a)) :
    Hushed (m >>= f) := by
  constructor
  intro s
  have h := hm.hushed s
  rw [bind_apply]
  cases e : m s with
  | ok a s' => rw [e] at h; exact ((hf a).hushed s').trans h
  | err x s' => rw [e] at h; exact h
theorem Hushed.ite {p : Prop} [Decidable p] {a b : TrM α} (ha : Hushed a) (hb : Hushed b) :
    Hushed (if p then a else b) := by split <;> assumption
theorem leaveNode_hushed : Hushed leaveNode := by
  constructor
  intro s
  unfold leaveNode
  simp only [bind_apply, get_apply]
  cases s.deferred <;> rfl
end

/-- Proves `Hushed` goals structurally. -/
macro "hush" : tactic => `(tactic| repeat' first
  | exact Hushed.pure _ | exact Hushed.throw _ | exact Hushed.get | exact Hushed.node _
  | exact Hushed.lift _ | exact Hushed.assign _ _ | exact leaveNode_hushed
  | assumption
  | (refine Hushed.bind ?_ ?_)
  | (intro _)
  | split
  | (refine Hushed.ite ?_ ?_))

theorem fullNumber_hushed (k r) : Hushed (fullNumber k r) := by unfold fullNumber; hush
theorem reftext_hushed (k r) : Hushed (reftext k r) := by
  have := fullNumber_hushed k r
  unfold reftext; hush
theorem sectionItems_hushed (k r) : Hushed (sectionItems k r) := by
  have := fullNumber_hushed k r
  unfold sectionItems sectionHeading; hush
theorem ahref_hushed (k r t h i a) : Hushed (ahref k r t h i a) := by
  have := reftext_hushed k
  unfold ahref checkTarget linkText addReferenceType; hush
theorem checkTarget_hushed (t) : Hushed (checkTarget t) := by unfold checkTarget; hush
theorem citeTags_hushed (k r) : ∀ i xs, Hushed (citeTags k r i xs)
  | _, [] => Hushed.pure _
  | i, x :: xs => by
    have h1 := citeTags_hushed k r (i + 1) xs
    have h2 := ahref_hushed k r
    unfold citeTags; hush
theorem itemsOf_hushed (c) : Hushed (itemsOf c) := by unfold itemsOf; hush
theorem minimap_hushed (k r f w) : Hushed (minimap k r f w) := by unfold minimap; hush
theorem handrailItems_hushed (k r a c d) : Hushed (handrailItems k r a c d) := by
  have := reftext_hushed k r
  unfold handrailItems; hush
theorem wrapHeading_hushed (k r l) : Hushed (wrapHeading k r l) := by
  have := reftext_hushed k r
  unfold wrapHeading; hush
theorem wrapIf_hushed (k r l) : Hushed (wrapIf k r l) := by
  have := wrapHeading_hushed k r l
  unfold wrapIf; hush
theorem hrLabeled_hushed (k r l c) : Hushed (hrLabeled k r l c) := by
  unfold hrLabeled; hush
theorem theoremItems_hushed (k r) : Hushed (theoremItems k r) := by
  have := fullNumber_hushed k r
  unfold theoremItems theoremNumber; hush
theorem proofItems_hushed (r) : Hushed (proofItems r) := by unfold proofItems markLast; hush

theorem visitWith_hushed (k o r) (ho : o ≠ .Bibitem) : Hushed (visitWith k o r) := by
  cases o <;> (try exact absurd rfl ho) <;> simp only [visitWith, visitNode, hrVisitManuscript, hrVisitAuthor, hrVisitParagraph,
    hrVisitStep, hrVisitContents, hrVisitMath, hrVisitMathBlock, visitMathBlock, visitNote,
    visitReference, visitUrl, hrVisitSubproof, visitCite, hrVisitBibliography,
    visitFigure, visitCaption, mathBlockLabel] <;> hush
  all_goals first
    | exact fullNumber_hushed .. | exact reftext_hushed .. | exact ahref_hushed ..
    | exact citeTags_hushed .. | exact itemsOf_hushed .. | exact minimap_hushed ..
    | exact handrailItems_hushed .. | exact wrapHeading_hushed .. | exact wrapIf_hushed ..
    | exact hrLabeled_hushed .. | exact theoremItems_hushed .. | exact proofItems_hushed ..
    | exact sectionItems_hushed .. | exact checkTarget_hushed ..

theorem leaveWith_hushed (k o r) : Hushed (leaveWith k o r) := by
  have h1 := itemsOf_hushed
  have h2 := fullNumber_hushed k r
  cases o <;> simp only [leaveWith, leaveAbstract, hrLeaveMathBlock, leaveMathBlock, leaveParagraph, infoBeforeLast,
    leaveInfo, leaveProof, hrLeaveStep, hrLeaveMath] <;> hush
  all_goals first
    | exact itemsOf_hushed .. | exact fullNumber_hushed ..

theorem leave_hushed (k r) : Hushed (leave k r) := by
  unfold leave; hush
  exact leaveWith_hushed ..

/-- What is logged when an entry of the bibliography is visited. -/
def entrySays (k : Conf) (nd : NodeRec) : List Warning :=
  entryLacks nd ++ if k.handrails = true ∧ searchDoi (Render.entry nd) = none then [.noLink] else []

theorem forEach_warn (l : List Warning) (s : TrState) : forEach warn l s = .ok () { s with log := s.log ++ l } := by
  induction l generalizing s with
  | nil => simp
  | cons w l ih =>
    rw [forEach_cons]
    simp only [warn, modify_apply] at *
    rw [ih]; simp

theorem parts_says (nd : NodeRec) : (bibitemParts nd).2 =
    (if nd.kind = "article".toList ∧ nd.journal = [] then [.noJournal nd.label] else []) ++
    (if nd.kind = "book".toList ∧ nd.publisher = [] then [.noPublisher nd.label] else []) := by
  have key : (bibitemParts nd).2 =
      if nd.kind = "article".toList then (if nd.journal ≠ [] then [] else [.noJournal nd.label])
      else if nd.kind = "book".toList then (if nd.publisher ≠ [] then [] else [.noPublisher nd.label]) else [] := by
    unfold bibitemParts
    dsimp only
    split
    · split <;> rfl
    · split
      · split <;> rfl
      · rfl
  rw [key]
  by_cases ha : nd.kind = "article".toList
  · have hb : nd.kind ≠ "book".toList := by rw [ha]; decide
    rw [if_pos ha, if_neg (c := nd.kind = "book".toList ∧ _) (fun h => hb h.1)]
    by_cases hj : nd.journal = [] <;> simp [ha, hj]
  · rw [if_neg ha, if_neg (c := nd.kind = "article".toList ∧ _) (fun h => ha h.1)]
    by_cases hb : nd.kind = "book".toList
    · rw [if_pos hb]
      by_cases hj : nd.publisher = [] <;> simp [hb, hj]
    · rw [if_neg hb, if_neg (fun h => hb h.1)]; rfl

theorem bibitemText_log {r s out s'} (h : bibitemText r s = .ok out s') :
    s'.log = s.log ++ entryLacks (s.heap.get r) := by
  unfold bibitemText at h
  obtain ⟨nd, s1, h1, ha⟩ := bindOk h
  clear h
  cases h1
  obtain ⟨_, s2, h2, hb⟩ := bindOk ha
  obtain ⟨year, s3, h3, hc⟩ := bindOk hb
  obtain ⟨doi, s4, h4, hd⟩ := bindOk hc
  cases hd
  clear ha hb hc
  rw [forEach_warn] at h2
  cases h2
  have e3 : s3.log = s.log ++ (bibitemParts (s.heap.get r)).2 ++ (match (s.heap.get r).year with
      | .str (_ :: _) => []
      | _ => [.noYear (s.heap.get r).label]) := by
    unfold bibitemYear at h3
    cases hy : (s.heap.get r).year with
    | none => rw [hy] at h3; cases h3; rfl
    | int n =>
      rw [hy] at h3
      by_cases hn : n = 0
      · subst hn; cases h3; rfl
      · rw [if_pos (by simp [PyNum.truthy, hn])] at h3; cases h3
    | str y =>
      rw [hy] at h3
      cases y with
      | nil => cases h3; rfl
      | cons a y => cases h3; simp
  have e4 : s'.log = s3.log ++ (if (s.heap.get r).doi = [] then [.noDoi (s.heap.get r).label] else []) := by
    unfold bibitemDoi at h4
    by_cases hd : (s.heap.get r).doi = []
    · rw [if_neg (by simp [hd])] at h4; cases h4; rw [if_pos hd]
    · rw [if_pos hd] at h4; cases h4; rw [if_neg hd, List.append_nil]
  have e2 := parts_says (s.heap.get r)
  rw [e4, e3, e2]
  unfold entryLacks
  simp only [List.append_assoc]
  clear e2 e3 e4 h3 h4
  generalize (s.heap.get r).year = y
  cases y with
  | none => rfl
  | int n => rfl
  | str y => cases y <;> rfl

/-- What is logged when a node is visited. -/
theorem visit_log {k r s c s'} (h : visit k r s = .ok c s') :
    s'.log = s.log ++ if (s.heap.get r).cls.isSub .Bibitem then entrySays k (s.heap.get r) else [] := by
  obtain ⟨d, hd, -⟩ := methodClass_visit (s.heap.get r).cls
  have hb : (s.heap.get r).cls.isSub .Bibitem = true ↔ d = .Bibitem := by
    revert hd
    generalize (s.heap.get r).cls = c
    intro hd
    cases c <;> (cases hd; decide)
  rw [visit_eq hd] at h
  by_cases hB : d = .Bibitem
  · rw [if_pos (hb.2 hB)]
    subst hB
    clear hd hb
    unfold visitWith at h
    dsimp only at h
    unfold entrySays
    cases hk : k.handrails with
    | false =>
      simp only [hk, Bool.false_eq_true, if_false] at h
      obtain ⟨nd, s1, h1, h⟩ := bindOk h
      cases h1
      obtain ⟨out, s2, h2, h⟩ := bindOk h
      cases h
      rw [bibitemText_log h2]
      simp
    | true =>
      simp only [hk, if_true, hrVisitBibitem] at h
      obtain ⟨nd, s1, h1, h⟩ := bindOk h
      cases h1
      obtain ⟨out, s2, h2, h⟩ := bindOk h
      have hl := bibitemText_log h2
      obtain ⟨-, ho⟩ := entry_eq h2
      rw [← ho]
      cases hs : searchDoi out with
      | none =>
        rw [hs] at h
        cases h
        show s2.log ++ [Warning.noLink] = _
        rw [hl]
        simp
      | some p =>
        obtain ⟨a, b, c⟩ := p
        rw [hs] at h
        cases h
        rw [hl]
        simp
  · rw [if_neg (fun H => hB (hb.1 H)), List.append_nil]
    have := (visitWith_hushed k d r hB).hushed s
    rw [h] at this
    exact this

theorem entrySays_congr (k : Conf) {a b : NodeRec} (h : frame a = frame b) : entrySays k a = entrySays k b := by
  have h1 : entrySays k a = entrySays k (frame a) := rfl
  have h2 : entrySays k b = entrySays k (frame b) := rfl
  rw [h1, h2, h]

/-- What is logged for a node, by the heap. -/
def nodeSays (k : Conf) (h : Heap) (r : Ref) : List Warning :=
  if (h.get r).cls.isSub .Bibitem then entrySays k (h.get r) else []

theorem nodeSays_congr (k : Conf) {h h' : Heap} (f : SameFrame h h') (r : Ref) : nodeSays k h' r = nodeSays k h r := by
  unfold nodeSays
  rw [f.cls, entrySays_congr k (f.2 r)]

theorem nodeSays_list (k : Conf) {h h' : Heap} (f : SameFrame h h') (l : List Ref) :
    l.flatMap (nodeSays k h') = l.flatMap (nodeSays k h) := by
  rw [show nodeSays k h' = nodeSays k h from funext fun r => nodeSays_congr k f r]

mutual
theorem evalTree_log (k) : ∀ (t : Tree) {s s' : TrState}, evalTree k t s = .ok () s' →
    s'.log = s.log ++ t.pre.flatMap (nodeSays k s.heap)
  | .node r ks, s, s', h => by
    rw [evalTree_node] at h
    obtain ⟨c, s1, h1, ha⟩ := bindOk h
    obtain ⟨_, s2, h2, hb⟩ := bindOk ha
    obtain ⟨_, s3, h3, hfin⟩ := bindOk hb
    clear h ha hb
    have e1 := visit_log h1
    have f1 : SameFrame s.heap s1.heap := by
      have := (visit_keeps k r).keep s
      rw [h1] at this
      exact this.frame
    rw [Cmd.execute_eq] at h2
    cases h2
    have e3 := evalForest_log k ks h3
    have e4 : s'.log = s3.log := by
      unfold finish at hfin
      cases hdef : c.defers with
      | true =>
        rw [hdef, if_pos rfl] at hfin
        obtain ⟨d, s4, h4, h5⟩ := bindOk hfin
        rw [Cmd.execute_eq] at h5
        cases h5
        have := (leave_hushed k r).hushed s3
        rw [h4] at this
        exact this
      | false => rw [hdef, if_neg (by simp)] at hfin; cases hfin; rfl
    rw [e4, e3]
    dsimp only
    rw [e1, nodeSays_list k f1, Tree.pre_node, List.flatMap_cons, List.append_assoc]
    rfl
theorem evalForest_log (k) : ∀ (ts : List Tree) {s s' : TrState}, evalForest k ts s = .ok () s' →
    s'.log = s.log ++ (Tree.preL ts).flatMap (nodeSays k s.heap)
  | [], s, s', h => by
    rw [evalForest_nil] at h
    cases h
    simp
  | t :: ts, s, s', h => by
    rw [evalForest_cons] at h
    obtain ⟨_, s1, h1, h2⟩ := bindOk h
    have ho := evalTree_outcome k t s
    rw [h1] at ho
    rw [evalForest_log k ts h2, evalTree_log k t h1, nodeSays_list k ho.1, Tree.preL_cons, List.flatMap_append,
      List.append_assoc]
end

/-- All that a translation logs. -/
theorem translate_log {k : Conf} {root : Ref} {t : Tree} {s s' : TrState} {page : Str} (hd : Doc s.heap root t)
    (hfuel : 2 * t.size ≤ k.fuel) (h : translate k root s = .ok page s') :
    s'.log = s.log ++ t.pre.flatMap (nodeSays k s.heap) := by
  rw [translate_eq k hd hfuel] at h
  split at h
  · cases h
  · cases e : evalTree k t (started root s) with
    | err x s1 => rw [e] at h; cases h
    | ok u s1 =>
      rw [e] at h
      cases h
      exact evalTree_log (s := started root s) k t e

end Tr
end RSM
