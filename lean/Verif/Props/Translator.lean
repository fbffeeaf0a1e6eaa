import Verif.Lemmas.TrNodup

/-!
# C38, C41-C43: the deferred commands, class attributes and dispatch of the translators
-/

namespace RSM
open Tr PyM

/-! ## A document for the examples -/

/-- A manuscript with a section (2) that holds a paragraph (3) with text, a formula (5) and more
text, and a theorem (8); and with a reference (10) to the theorem. -/
def trHeap : Heap :=
  { next := 12
    get := fun r => match r with
      | 0 => { NodeRec.new .Manuscript with kids := [1, 2], title := "T" }
      | 1 => { NodeRec.new .Author with parent := some 0, name := "Ann" }
      | 2 => { NodeRec.new .Section with parent := some 0, title := "Intro", number := .int 1
                                         kids := [3, 8, 9], types := ["appendix"] }
      | 3 => { NodeRec.new .Paragraph with parent := some 2, kids := [4, 5, 7] }
      | 4 => { NodeRec.new .Text with parent := some 3, text := "Let " }
      | 5 => { NodeRec.new .Math with parent := some 3, kids := [6] }
      | 6 => { NodeRec.new .Text with parent := some 5, text := "x" }
      | 7 => { NodeRec.new .Text with parent := some 3, text := ". Then" }
      | 8 => { NodeRec.new .Theorem with parent := some 2, number := .int 1, label := "thm"
                                         types := ["theorem", "big"] }
      | 9 => { NodeRec.new .Paragraph with parent := some 2, kids := [10] }
      | 10 => { NodeRec.new .Reference with parent := some 9, target := .node 8 }
      | _ => NodeRec.new .Node }

def trTree : Tree :=
  .node 0 [.node 1 [], .node 2 [.node 3 [.node 4 [], .node 5 [.node 6 []], .node 7 []],
    .node 8 [], .node 9 [.node 10 []]]]

theorem trDoc : Doc trHeap 0 trTree where
  root_eq := rfl
  tree := by simp only [trTree, IsTree, IsForest]; decide
  nodup := by decide
  bound := by decide

def plainConf : Conf := { highlight := fun a _ => a, repr := ⟨fun _ => true, id, 1000⟩, fuel := 50 }
def railsConf : Conf := { plainConf with handrails := true }

/-! ## C38 -/

/-- **C38.** If `translate` returns, no deferred command is left. -/
theorem C38_empty_after (k : Conf) (root : Ref) (t : Tree) (s s' : TrState) (out : Str)
    (hd : Doc s.heap root t) (hf : 2 * t.size ≤ k.fuel)
    (hok : translate k root s = .ok out s') : s'.deferred = [] := by
  rw [translate_eq k hd hf] at hok
  split at hok
  · cases hok
  · rename_i h
    have ho := evalTree_outcome k t (started root s)
    cases e : evalTree k t (started root s) with
    | err x s1 => rw [e] at hok; cases hok
    | ok a s1 =>
      rw [e] at hok ho
      cases hok
      rw [ho.2.1]
      exact Decidable.not_not.mp h

/-- **C38.** On a translator without deferred commands, `translate` raises `RSMTranslatorError`
only if some URL of the document has no target: neither of the two checks of the stack fails and
no leave method finds the stack empty. -/
theorem C38_error_unreachable (k : Conf) (root : Ref) (t : Tree) (s s' : TrState)
    (hd : Doc s.heap root t) (hf : 2 * t.size ≤ k.fuel) (h0 : s.deferred = [])
    (herr : translate k root s = .err .rsmTranslatorError s') :
    ∃ r ∈ t.pre, (s.heap.get r).cls = .URL ∧
      ((s.heap.get r).target = .none ∨ (s.heap.get r).target = .str []) := by
  rw [translate_eq k hd hf, if_neg (by simpa using h0)] at herr
  have ho := evalTree_outcome k t (started root s)
  cases e : evalTree k t (started root s) with
  | ok a s1 => rw [e] at herr; cases herr
  | err x s1 =>
    rw [e] at herr ho
    cases herr
    exact ho.2.2.2 rfl

/-- **C38.** The stack discipline: after the actions of a subtree the deferred commands are those
from before, whatever they and the actions to come are. -/
theorem C38_subtree_restores (k : Conf) (t : Tree) (s : TrState) (p : Option Ref)
    (ht : IsTree s.heap p t) (n : Nat) (hn : 2 * t.size ≤ n) (rest : List Act) :
    ∃ n', n ≤ n' + 2 * t.size ∧
      ((∃ e s', trLoop k n (.visit t.root :: rest) s = .err e s' ∧
          ∃ ds, s'.deferred = ds ++ s.deferred) ∨
       ∃ s', s'.deferred = s.deferred ∧
          trLoop k n (.visit t.root :: rest) s = trLoop k n' rest s') := by
  obtain ⟨n', h1, e1⟩ := loop_tree k t ht hn rest
  have ho := evalTree_outcome k t s
  refine ⟨n', h1, ?_⟩
  cases e : evalTree k t s with
  | err x s1 => rw [e] at ho e1; exact .inl ⟨x, s1, e1, ho.2.1⟩
  | ok a s1 => rw [e] at ho e1; exact .inr ⟨s1, ho.2.1, e1⟩

/-- Both translators translate the example. -/
example : 2 * trTree.size ≤ plainConf.fuel ∧
    (translate plainConf 0 { heap := trHeap }).raised = none ∧
    (translate railsConf 0 { heap := trHeap }).raised = none := by decide +kernel

/-- A URL without a target does raise `RSMTranslatorError`. -/
example :
    let h : Heap := { next := 2, get := fun r => match r with
      | 0 => { NodeRec.new .Manuscript with kids := [1] }
      | 1 => { NodeRec.new .URL with parent := some 0 }
      | _ => NodeRec.new .Node }
    (translate plainConf 0 { heap := h }).raised = some .rsmTranslatorError := by decide +kernel

/-! ## C41 -/

/-- **C41.** A translator that holds deferred commands raises `RSMTranslatorError` for every tree
and every configuration, without touching the nodes, and holds the same commands afterwards. -/
theorem C41_poisoned (k : Conf) (root : Ref) (s : TrState) (h : s.deferred ≠ []) :
    ∃ s', translate k root s = .err .rsmTranslatorError s' ∧ s'.heap = s.heap ∧
      s'.deferred = s.deferred ∧ s'.body = [] := by
  refine ⟨started root s, ?_, rfl, rfl, rfl⟩
  unfold translate
  simp only [bind_apply, modify_apply, requireNoDeferred, get_apply]
  simp only [ne_eq, h, not_false_eq_true, if_true, throw_apply]
  rfl

/-- If the visit of the manuscript itself returns, a failure leaves its closing tags deferred. -/
theorem fail_poisons {k : Conf} {root : Ref} {t : Tree} {s s' : TrState} {e : PyErr}
    (hd : Doc s.heap root t) (hf : 2 * t.size ≤ k.fuel) (h0 : s.deferred = [])
    (hm : (s.heap.get root).cls = .Manuscript)
    (hv : ∃ c s1, visit k root (started root s) = .ok c s1 ∧ c.defers = true)
    (herr : translate k root s = .err e s') : s'.deferred ≠ [] := by
  rw [translate_eq k hd hf, if_neg (by simpa using h0)] at herr
  obtain ⟨c, s1, hv, hc⟩ := hv
  obtain ⟨r, ks⟩ := t
  have hr : r = root := hd.root_eq
  subst hr
  have hsp := visit_spec k r (started r s)
  rw [hv] at hsp
  rw [evalTree_node, bind_apply, hv] at herr
  simp only [bind_apply, Cmd.execute_eq] at herr
  have ho := evalForest_outcome k ks
    { s1 with body := s1.body ++ c.text, deferred := c.pushed ++ s1.deferred }
  obtain ⟨c0, hp⟩ : ∃ c0, c.pushed = [c0] := by
    rcases hsp.2.pushed with ⟨_, c0, hcl, hp⟩ | ⟨h, _⟩
    · exact ⟨c0, hp⟩
    · rw [hc] at h; cases h
  cases ef : evalForest k ks
      { s1 with body := s1.body ++ c.text, deferred := c.pushed ++ s1.deferred } with
  | err x s2 =>
    rw [ef] at herr ho
    simp only [Res.err.injEq] at herr
    obtain ⟨ds, hds⟩ := ho.2.1
    rw [← herr.2, hds]
    simp [hp]
  | ok a s2 =>
    rw [ef] at herr ho
    exfalso
    have hcls : (s2.heap.get r).cls = .Manuscript := by
      rw [ho.1.cls, hsp.1.frame.cls]; exact hm
    have hm' : ∀ b, methodClass (leaveNames b) .Manuscript = .ok .Node := by
      intro b; cases b <;> rfl
    have hds : s2.deferred = c0 :: s1.deferred := by rw [ho.2.1]; simp [hp]
    simp only [finish, hc, if_true, bind_apply, leave, node, gets_apply, hcls, hm', lift,
      pure_apply, leaveWith, leaveNode, get_apply, hds, modify_apply, Cmd.execute_eq] at herr
    cases herr

/-- **C41.** If `translate` of a manuscript by the plain translator raises (for whatever reason),
every later call of `translate`, on any tree, raises `RSMTranslatorError`. -/
theorem C41_plain (k : Conf) (root : Ref) (t : Tree) (s s' : TrState) (e : PyErr)
    (hd : Doc s.heap root t) (hf : 2 * t.size ≤ k.fuel) (hk : k.handrails = false)
    (hm : (s.heap.get root).cls = .Manuscript)
    (herr : translate k root s = .err e s') (root' : Ref) :
    (translate k root' s').raised = some .rsmTranslatorError := by
  have : s'.deferred ≠ [] := by
    by_cases h0 : s.deferred = []
    · have hm' : methodClass visitNames .Manuscript = .ok .Manuscript := rfl
      have hc : ((started root s).heap.get root).cls = .Manuscript := hm
      have hv : ∃ l, visit k root (started root s) = .ok (.batchDefer l) (started root s) := by
        simp only [visit, bind_apply, node, gets_apply, hc, hm', lift, pure_apply, visitWith, hk]
        exact ⟨_, rfl⟩
      obtain ⟨l, hv⟩ := hv
      exact fail_poisons hd hf h0 hm ⟨_, _, hv, rfl⟩ herr
    · rw [translate_eq k hd hf, if_pos h0] at herr
      cases herr; exact h0
  obtain ⟨s2, e2, -⟩ := C41_poisoned k root' s' this
  rw [e2]; rfl

/-- **C41.** The same for the handrails translator on a manuscript without a table of contents. -/
theorem C41_handrails (k : Conf) (root : Ref) (t : Tree) (s s' : TrState) (e : PyErr)
    (hd : Doc s.heap root t) (hf : 2 * t.size ≤ k.fuel) (hk : k.handrails = true)
    (hm : (s.heap.get root).cls = .Manuscript)
    (htoc : ∀ x ∈ s.heap.children root, (s.heap.get x).cls ≠ .Contents)
    (herr : translate k root s = .err e s') (root' : Ref) :
    (translate k root' s').raised = some .rsmTranslatorError := by
  have : s'.deferred ≠ [] := by
    by_cases h0 : s.deferred = []
    · have hm' : methodClass visitNames .Manuscript = .ok .Manuscript := rfl
      have hc : ((started root s).heap.get root).cls = .Manuscript := hm
      have hn : (started root s).heap.firstOfType root [.Contents] = none := by
        refine List.find?_eq_none.mpr ?_
        rintro ⟨x, i⟩ hx
        have hx' : x ∈ s.heap.children root := (List.mem_zipIdx' hx).2 ▸ List.getElem_mem _
        have : ∀ c : Cls, c ≠ .Contents → c.isSubAny [.Contents] = false := by
          intro c; cases c <;> decide
        show ¬ ((s.heap.get x).cls.isSubAny [.Contents] = true)
        rw [this _ (htoc x hx')]; simp
      have hv : ∃ l, visit k root (started root s) = .ok (.batchDefer l) (started root s) := by
        simp only [visit, bind_apply, node, gets_apply, hc, hm', lift, pure_apply, visitWith, hk,
          if_true, hrVisitManuscript, get_apply, hn]
        exact ⟨_, rfl⟩
      obtain ⟨l, hv⟩ := hv
      exact fail_poisons hd hf h0 hm ⟨_, _, hv, rfl⟩ herr
    · rw [translate_eq k hd hf, if_pos h0] at herr
      cases herr; exact h0
  obtain ⟨s2, e2, -⟩ := C41_poisoned k root' s' this
  rw [e2]; rfl

/-- A display formula outside of a paragraph makes the plain translator raise `AssertionError`;
after that it translates nothing, not even the example from above. -/
def badHeap : Heap :=
  { next := 2
    get := fun r => match r with
      | 0 => { NodeRec.new .Manuscript with kids := [1] }
      | 1 => { NodeRec.new .MathBlock with parent := some 0 }
      | _ => NodeRec.new .Node }

example : Doc badHeap 0 (.node 0 [.node 1 []]) where
  root_eq := rfl
  tree := by simp only [IsTree, IsForest]; decide
  nodup := by decide
  bound := by decide
example : (translate plainConf 0 { heap := badHeap }).raised = some .assertionError := by
  decide +kernel
example : let s := (translate plainConf 0 { heap := badHeap }).state
    (translate plainConf 0 { s with heap := trHeap }).raised = some .rsmTranslatorError := by
  decide +kernel
/-- An empty author makes the handrails translator raise. -/
example :
    let h : Heap := { next := 2, get := fun r => match r with
      | 0 => { NodeRec.new .Manuscript with kids := [1] }
      | 1 => { NodeRec.new .Author with parent := some 0 }
      | _ => NodeRec.new .Node }
    let res := translate railsConf 0 { heap := h }
    res.raised = some .attributeError ∧ res.state.deferred ≠ [] := by decide +kernel

/-! ## C42 -/

/-- The classes of which nodes are written as an element of their own. -/
def ownTag : List Cls :=
  [.Manuscript, .Author, .Abstract, .Paragraph, .Step, .Section, .Subsection, .Subsubsection,
   .Enumerate, .Itemize, .Item, .Contents, .Math, .MathBlock, .Code, .CodeBlock, .Error, .Span,
   .Keyword, .Construct, .ClaimBlock, .Theorem, .Lemma, .Corollary, .Example, .Exercise,
   .Proposition, .Problem, .Porism, .Remark, .Definition, .Statement, .Subproof, .Sketch, .Proof,
   .Bibliography, .Bibitem, .UnknownBibitem, .Draft, .Figure, .Table, .TableHead, .TableBody,
   .TableRow, .TableDatum]

/-- **C42.** The plain translator writes, for a node of these classes, a tag with the label of the
node as id, and with a class attribute that lists the lower-cased name of the class, the types of
the node in order, and possibly `theorem`, each once. -/
theorem C42_own_tag (k : Conf) (r : Ref) (s s' : TrState) (c : Cmd) (hk : k.handrails = false)
    (hc : (s.heap.get r).cls ∈ ownTag) (hok : visit k r s = .ok c s') :
    ∃ a ∈ c.tags, a.id = (s'.heap.get r).label ∧
      ∃ extra ∈ [[], ["theorem".toList]], Html.FirstOccurrences
        ((s'.heap.get r).cls.name.map Char.toLower :: (s'.heap.get r).types ++ extra) a.classes := by
  have key : ∀ (nd : NodeRec) (tag ni no se) (extra : List Str),
      extra ∈ [[], ["theorem".toList]] → nd = s'.heap.get r →
      nodeTag nd tag extra ni no se ∈ c.tags → ∃ a ∈ c.tags, a.id = (s'.heap.get r).label ∧
      ∃ extra ∈ [[], ["theorem".toList]], Html.FirstOccurrences
        ((s'.heap.get r).cls.name.map Char.toLower :: (s'.heap.get r).types ++ extra) a.classes := by
    intro nd tag ni no se extra he hn h
    subst hn
    exact ⟨_, h, rfl, extra, he, first_fromKeys _⟩
  have hm : ∃ d, methodClass visitNames (s.heap.get r).cls = .ok d ∧ d ∈ ownTag ∧
      visitNames.any (fun n => n.toList = lower d.name) = true := by
    revert hc
    generalize (s.heap.get r).cls = cl
    cases cl <;> first | exact fun h => absurd h (by decide) | exact fun _ => ⟨_, rfl, by decide, by decide⟩
  obtain ⟨d, hd, hdm, hdd⟩ := hm
  have hv : visit k r s = visitWith k d r s := by
    simp only [visit, bind_apply, node, gets_apply, hd, lift, pure_apply]
  rw [hv] at hok
  cases d <;> first | exact absurd hdm (by decide) | exact absurd hdd (by decide) | skip
  case Section =>
    simp only [visitWith, sectionItems, bind_apply, node, gets_apply, wrapIf, hk,
      Bool.false_eq_true, if_false, pure_apply] at hok
    cases hl : (s.heap.get r).cls.level with
    | none => rw [hl] at hok; cases hok
    | some lvl =>
      rw [hl] at hok
      simp only [assign, bind_apply, modify_apply, gets_apply] at hok
      generalize hh : sectionHeading k r _ = res at hok
      cases res with
      | err e s2 => cases hok
      | ok txt s2 =>
      cases hok
      exact key _ _ _ _ _ [] (by simp) (by rw [(sectionHeading_reads k r).ok hh]) (.head _)
  case MathBlock =>
    simp only [visitWith, hk, visitMathBlock, bind_apply, get_apply, Bool.false_eq_true,
      if_false] at hok
    cases hp : s.heap.parent r with
    | none => rw [hp] at hok; cases hok
    | some p =>
      rw [hp] at hok
      dsimp only at hok
      split at hok <;> cases hok
      exact key _ _ _ _ _ [] (by simp) rfl (.head _)
  case Proof =>
    simp only [visitWith, hk, proofItems, bind_apply, node, gets_apply, pure_apply,
      Bool.false_eq_true, if_false] at hok
    cases hm : markLast r s with
    | err e s2 => rw [hm] at hok; cases hok
    | ok u s2 =>
      rw [hm] at hok
      cases hok
      exact key _ _ _ _ _ [] (by simp) rfl (.head _)
  case Theorem =>
    simp only [visitWith, hk, theoremItems, bind_apply, node, gets_apply, pure_apply,
      Bool.false_eq_true, if_false] at hok
    split at hok <;> try cases hok
    rename_i txt s2 hh
    cases hn : theoremNumber k r s with
    | err e s3 => rw [hn] at hh; cases hh
    | ok num s3 =>
      rw [hn] at hh
      cases hh
      exact key _ _ _ _ _ ["theorem".toList] (by simp)
        (by rw [(theoremNumber_reads k r).ok hn]) (.head _)
  case Bibitem =>
    simp only [visitWith, hk, bind_apply, node, gets_apply, pure_apply,
      Bool.false_eq_true, if_false] at hok
    split at hok <;> cases hok
    rename_i hh
    exact key _ _ _ _ _ [] (by simp) (by rw [(bibitemText_reads r).ok hh]) (.head _)
  case Figure =>
    simp only [visitWith, visitFigure, bind_apply, node, gets_apply, pure_apply] at hok
    split at hok <;> cases hok
    rename_i hh
    exact key _ _ _ _ _ [] (by simp) (by rw [(fullNumber_reads k r).ok hh]) (.head _)
  case Author =>
    simp only [visitWith, hk, bind_apply, node, gets_apply, pure_apply, authorCmd,
      Bool.false_eq_true, if_false] at hok
    split at hok <;> cases hok <;> exact key _ _ _ _ _ [] (by simp) rfl (.head _)
  all_goals
    simp only [visitWith, hk, bind_apply, node, gets_apply, pure_apply, get_apply, wrapIf,
      Bool.false_eq_true, if_false] at hok
    cases hok
    first
      | exact key _ _ _ _ _ [] (by simp) rfl (.head _)
      | exact key _ _ _ _ _ [] (by simp) rfl (.tail _ (.head _))
      | exact key _ _ _ _ _ [] (by simp) rfl (.tail _ (.tail _ (.head _)))
      | exact key _ _ _ _ _ [] (by simp) rfl (.tail _ (.tail _ (.tail _ (.head _))))

/-- **C42.** The text of every tag of a command is in what the command writes, and has the
class attribute. -/
theorem C42_written (c : Cmd) (a : TagArgs) (h : a ∈ c.tags) (hc : a.classes ≠ []) :
    ∃ before after, c.text = before ++ ('<' :: a.tag
        ++ (if a.id ≠ [] then " id=\"".toList ++ a.id ++ "\"".toList else [])
        ++ " class=\"".toList ++ join " ".toList a.classes ++ "\"".toList) ++ after := by
  obtain ⟨p, q, e⟩ := tag_in_text h
  obtain ⟨rest, e'⟩ := opening_eq hc
  exact ⟨p, rest ++ q, by rw [e, e']; simp⟩

/-- **C42.** No tag that a translator writes for a node repeats a class, except for source code,
whose language is not compared with the class `highlight`, and for display formulas of the handrails
translator. -/
theorem C42_no_repeats (k : Conf) (r : Ref) (s s' : TrState) (c : Cmd)
    (hc : (s.heap.get r).cls ≠ .SourceCode)
    (hm : k.handrails = true → (s.heap.get r).cls ≠ .MathBlock) (hok : visit k r s = .ok c s') :
    ∀ a ∈ c.tags, a.classes.Nodup :=
  visit_nodup hc hm hok

/-- The theorem of the example has the type `theorem` already and gets it once; the section gets
its level. -/
example : ∃ c s', visit plainConf 8 { heap := trHeap } = .ok c s' ∧
    c.tags.map TagArgs.classes = [["theorem".toList, "big".toList]] := ⟨_, _, rfl, by decide⟩
example : ∃ c s', visit plainConf 2 { heap := trHeap } = .ok c s' ∧
    c.tags.map TagArgs.classes = [["section".toList, "level-2".toList, "appendix".toList], []] :=
  ⟨_, _, rfl, by decide⟩

/-- **C42.** The handrails translator repeats classes in the tag of a display formula that
is in a handrail of depth 1 or more, since it appends two classes that are there already. -/
theorem C42_handrails_repeats :
    let h : Heap := { next := 2, get := fun r => match r with
      | 0 => { NodeRec.new .Paragraph with kids := [1] }
      | 1 => { NodeRec.new .MathBlock with parent := some 0, handrailDepth := 1 }
      | _ => NodeRec.new .Node }
    ∃ c s', visit railsConf 1 { heap := h } = .ok c s' ∧
      ∃ a ∈ c.tags, a.classes =
        ["mathblock".toList, "hr".toList, "hr-offset".toList, "hr-hidden".toList,
          "hr-offset".toList] := by
  refine ⟨_, _, rfl, _, .head _, ?_⟩
  decide

/-! ## C43 -/

/-- **C43.** For every set of method names that has the one of `Node`, and every class, dispatch
returns the nearest class up the chain of base classes whose lower-cased name is one of them. -/
theorem C43_nearest (names : List String) (h : "node" ∈ names) (c : Cls) :
    ∃ n d, methodClass names c = .ok d ∧ ancestor n c = some d ∧
      (∃ m ∈ names, m.toList = d.name.map Char.toLower) ∧
      ∀ i < n, ∀ e, ancestor i c = some e → ∀ m ∈ names, m.toList ≠ e.name.map Char.toLower := by
  unfold methodClass
  cases hf : c.mro.find? (fun d => names.any fun n => n.toList = lower d.name) with
  | none =>
    exfalso
    have := List.find?_eq_none.mp hf _ (node_mem_mro c)
    simp only [List.any_eq_true, decide_eq_true_eq, not_exists, not_and] at this
    exact this _ h (by decide)
  | some d =>
    obtain ⟨hp, i, hi, e, hj⟩ := List.find?_eq_some_iff_getElem.mp hf
    refine ⟨i, d, rfl, ?_, ?_, ?_⟩
    · rw [← mro_getElem?, List.getElem?_eq_getElem hi, e]
    · simp only [List.any_eq_true, decide_eq_true_eq] at hp; exact hp
    · intro j hji x hx m hm
      rw [← mro_getElem?, List.getElem?_eq_getElem (by omega)] at hx
      have := hj j hji
      simp only [Option.some.injEq] at hx
      rw [hx] at this
      simp only [Bool.not_eq_true', List.any_eq_false, decide_eq_true_eq] at this
      exact this m hm

/-- **C43.** Both translators define the methods of `Node`, so the theorem applies to them. -/
theorem C43_has_node (b : Bool) : "node" ∈ visitNames ∧ "node" ∈ leaveNames b := by
  cases b <;> decide

/-- A lemma is visited as a theorem, a subsubsection as a section, a keyword as a span, and a heading
as a node; the plain translator leaves a caption as a paragraph and a theorem as a node. -/
example : methodClass visitNames .Lemma = .ok .Theorem ∧
    methodClass visitNames .Subsubsection = .ok .Section ∧
    methodClass visitNames .Keyword = .ok .Span ∧
    methodClass visitNames .Heading = .ok .Node ∧
    methodClass (leaveNames false) .Caption = .ok .Paragraph ∧
    methodClass (leaveNames false) .Lemma = .ok .Node ∧
    methodClass (leaveNames true) .Lemma = .ok .Theorem :=
  ⟨rfl, rfl, rfl, rfl, rfl, rfl, rfl⟩

/-! ## The titles of theorems and proofs -/

/-- The tree `_make_title_node(label, desc)` builds (translator.py:926-938). -/
def titleHeap (label desc : Str) : Heap :=
  { next := 5
    get := fun r => match r with
      | 0 => { NodeRec.new .Paragraph with
               types := ["hr-label"]
               kids := (if label ≠ [] then [1] else []) ++ (if desc ≠ [] then [3] else []) }
      | 1 => { NodeRec.new .Span with parent := some 0, types := ["label"], kids := [2] }
      | 2 => { NodeRec.new .Text with parent := some 1, text := label }
      | 3 => { NodeRec.new .Span with parent := some 0, types := ["desc"], kids := [4] }
      | 4 => { NodeRec.new .Text with parent := some 3, text := desc }
      | _ => NodeRec.new .Node }

open Lean Elab Tactic Meta in
/-- Close an equation by `rfl`, checked by the kernel only. -/
elab "kernel_rfl" : tactic => do
  let g ← getMainGoal
  let some (_, l, _) := (← instantiateMVars (← g.getType)).eq? | throwError "not an equation"
  g.assign (← mkEqRefl l)

theorem title_text_aux (label desc : Str) (b b' : Bool)
    (hb : b = true ↔ label ≠ []) (hb' : b' = true ↔ desc ≠ []) :
    titleText label desc = [] ++ "\n<div class=\"paragraph hr-label\">\n".toList ++ "\n<p>".toList
      ++ (if b then "<span class=\"span label\">".toList ++ label ++ "</span>".toList else [])
      ++ (if b' then "<span class=\"span desc\">".toList ++ desc ++ "</span>".toList else [])
      ++ "</p>\n".toList ++ "\n</div>\n".toList := by
  have h1 : "\n<div class=\"paragraph hr-label\">\n\n<p>".toList
      = "\n<div class=\"paragraph hr-label\">\n".toList ++ "\n<p>".toList := by decide +kernel
  have h2 : "</p>\n\n</div>\n".toList = "</p>\n".toList ++ "\n</div>\n".toList := by decide +kernel
  have h3 : "<span class=\"span ".toList ++ "label".toList ++ "\">".toList
      = "<span class=\"span label\">".toList := by decide +kernel
  have h4 : "<span class=\"span ".toList ++ "desc".toList ++ "\">".toList
      = "<span class=\"span desc\">".toList := by decide +kernel
  unfold titleText titleSpan
  rw [h1, h2, h3, h4]
  have e1 : (b = true) = (label ≠ []) := propext hb
  have e2 : (b' = true) = (desc ≠ []) := propext hb'
  simp only [e1, e2, List.append_assoc, List.nil_append]

/-- What the model writes for a title (`titleText`) is what the modelled plain translator returns for
the tree of the title. -/
theorem Tr.title_text_translate : ∀ label desc : Str,
    (translate plainConf 0 { heap := titleHeap label desc }).value = some (titleText label desc)
  | [], [] => by kernel_rfl
  | [], d :: ds =>
    (by kernel_rfl : (translate plainConf 0 { heap := titleHeap [] (d :: ds) }).value =
        some ([] ++ "\n<div class=\"paragraph hr-label\">\n".toList ++ "\n<p>".toList
          ++ "<span class=\"span desc\">".toList ++ (d :: ds) ++ "</span>".toList
          ++ "</p>\n".toList ++ "\n</div>\n".toList)).trans
      (congrArg some (by rw [title_text_aux _ _ false true (by simp) (by simp)]; simp))
  | c :: cs, [] =>
    (by kernel_rfl : (translate plainConf 0 { heap := titleHeap (c :: cs) [] }).value =
        some ([] ++ "\n<div class=\"paragraph hr-label\">\n".toList ++ "\n<p>".toList
          ++ "<span class=\"span label\">".toList ++ (c :: cs) ++ "</span>".toList
          ++ "</p>\n".toList ++ "\n</div>\n".toList)).trans
      (congrArg some (by rw [title_text_aux _ _ true false (by simp) (by simp)]; simp))
  | c :: cs, d :: ds =>
    (by kernel_rfl : (translate plainConf 0 { heap := titleHeap (c :: cs) (d :: ds) }).value =
        some ([] ++ "\n<div class=\"paragraph hr-label\">\n".toList ++ "\n<p>".toList
          ++ "<span class=\"span label\">".toList ++ (c :: cs) ++ "</span>".toList
          ++ "<span class=\"span desc\">".toList ++ (d :: ds) ++ "</span>".toList
          ++ "</p>\n".toList ++ "\n</div>\n".toList)).trans
      (congrArg some (by rw [title_text_aux _ _ true true (by simp) (by simp)]; simp))
end RSM
