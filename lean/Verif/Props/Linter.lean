import Verif.Model.Linter
import Verif.Lemmas.Tree
import Verif.Props.Logger

/-!
# C50: the linter
-/

namespace RSM
open PyM LogState

/-- The parent of a node is a paragraph. -/
def inParagraph (h : Heap) (x : Ref) : Bool :=
  match h.parent x with
  | some p => (h.get p).cls.isSub .Paragraph
  | none => false

/-- What Python calls the type of the parent of a node. -/
def parentType (h : Heap) (x : Ref) : Str :=
  match h.parent x with
  | some p => "<class 'rsm.nodes.".toList ++ (h.get p).cls.name ++ "'>".toList
  | none => "<class 'NoneType'>"

/-- The problems of a manuscript: the missing title, the sections without label and the display
formulas that are not in a paragraph, the latter two in document order. -/
def lintProblems (h : Heap) (t : Tree) : List (Str × Ref) :=
  (if (h.get t.root).title = [] then [("Manuscript with no title".toList, t.root)] else [])
  ++ (t.pre.filter fun x => (h.get x).cls.isSub .Section && (h.get x).label = []).map
      (fun x => ("Section with no label".toList, x))
  ++ (t.pre.filter fun x => (h.get x).cls.isSub .MathBlock && !inParagraph h x).map
      (fun x => ("MathBlock must be direct child of Paragraph, not ".toList ++ parentType h x, x))

/-- The record that reports a problem: at level LINT, with the place of the node, where lines and
columns count from one (tree-sitter counts from zero). -/
def problemRecord (h : Heap) (p : Str × Ref) : LogRecord :=
  { levelno := LINT_LVL, msg := p.1, filename := "linter.py"
    start := some ((h.get p.2).startPoint.1 + 1, (h.get p.2).startPoint.2 + 1) }

/-- The message at the beginning. -/
def lintStart : LogRecord := { levelno := INFO, msg := "Linting...", filename := "linter.py" }

/-- Logging several records, one after the other. -/
def logAll (env : LogEnv) (rs : List LogRecord) (s : LogState) : LogState :=
  rs.foldl (fun s r => s.log env r) s

theorem lint_forEach (env : LogEnv) (body : Ref → LintM Unit) (c : Ref → Bool) (msg : Ref → Str)
    (h : Heap) (hb : ∀ x (s : LintState), s.heap = h → body x s = .ok ()
      { s with log := if c x then s.log.log env (problemRecord h (msg x, x)) else s.log })
    (l : List Ref) : ∀ s : LintState, s.heap = h → PyM.forEach body l s = .ok ()
      { s with log := logAll env ((l.filter c).map fun x => problemRecord h (msg x, x)) s.log } := by
  induction l with
  | nil => intro s _; rfl
  | cons x xs ih =>
    intro s hs
    rw [PyM.forEach_cons, hb x s hs]
    dsimp only
    rw [ih _ (by exact hs), List.filter_cons]
    by_cases hc : c x = true
    · simp only [hc, if_true, List.map_cons, logAll, List.foldl_cons]
    · simp only [Bool.not_eq_true] at hc
      simp only [hc, Bool.false_eq_true, if_false]

/-- **C50.** `lint` returns the manuscript it was given and leaves the tree and its nodes as they
are.  It reports exactly the problems of the manuscript, each once, in document order, at the place
of the node, and nothing else. -/
theorem C50_lint (env : LogEnv) (fuel : Nat) (root : Ref) (t : Tree) (s : LintState)
    (hd : Doc s.heap root t) (hfuel : t.size < fuel)
    (hm : (s.heap.get root).cls.isSub .Manuscript = true) :
    Lint.lint env fuel root s = .ok root
      ⟨s.heap, logAll env ((lintProblems s.heap t).map (problemRecord s.heap))
        (s.log.log env lintStart)⟩ := by
  obtain ⟨h, lg⟩ := s
  have hroot := hd.root_eq
  subst hroot
  have htitle : Lint.hasTitle (h.get t.root).cls = true := by
    revert hm; generalize (h.get t.root).cls = c; cases c <;> decide
  have htrav : ∀ c, h.traverse c fuel [t.root] = some (t.pre.filter c) := fun c =>
    traverse_tree c hd.tree hfuel
  have hnodes : ∀ (c : Cls) (s' : LintState), s'.heap = h →
      Lint.nodesOf fuel t.root c s' = .ok (t.pre.filter fun x => h.isInst x c) s' := by
    intro c s' e
    simp only [Lint.nodesOf, bind_apply, get_apply, e, htrav, pure_apply]
  have hsec : ∀ s' : LintState, s'.heap = h →
      Lint.lintSectionLabel env fuel t.root s' = .ok () ⟨s'.heap, logAll env
        ((t.pre.filter fun x => (h.get x).cls.isSub .Section && (h.get x).label = []).map
          fun x => problemRecord h ("Section with no label".toList, x)) s'.log⟩ := by
    rintro ⟨h', lg'⟩ e
    have e : h' = h := e
    subst h'
    simp only [Lint.lintSectionLabel, bind_apply, hnodes _ ⟨_, lg'⟩ rfl]
    rw [lint_forEach env _ (fun x => decide ((h.get x).label = [])) (fun _ => "Section with no label".toList)
      h ?_ _ ⟨_, lg'⟩ rfl]
    · rw [List.filter_filter]
      congr 5
      funext x
      rw [Bool.and_comm]; rfl
    · rintro x ⟨h2, lg2⟩ e
      have e : h2 = h := e
      subst h2
      simp only [Lint.lintSection, bind_apply, get_apply]
      by_cases hl : (h.get x).label = []
      · simp only [hl, if_true, Lint.report, Lint.emit, bind_apply, get_apply, modify_apply,
          decide_true, problemRecord]
      · simp only [hl, if_false, pure_apply, decide_false, Bool.false_eq_true]
  have hmath : ∀ s' : LintState, s'.heap = h →
      Lint.lintMathBlocks env fuel t.root s' = .ok () ⟨s'.heap, logAll env
        ((t.pre.filter fun x => (h.get x).cls.isSub .MathBlock && !inParagraph h x).map
          fun x => problemRecord h
            ("MathBlock must be direct child of Paragraph, not ".toList ++ parentType h x, x))
        s'.log⟩ := by
    rintro ⟨h', lg'⟩ e
    have e : h' = h := e
    subst h'
    simp only [Lint.lintMathBlocks, bind_apply, hnodes _ ⟨_, lg'⟩ rfl]
    rw [lint_forEach env _ (fun x => !inParagraph h x)
      (fun x => "MathBlock must be direct child of Paragraph, not ".toList ++ parentType h x)
      h ?_ _ ⟨_, lg'⟩ rfl]
    · rw [List.filter_filter]
      congr 5
      funext x
      rw [Bool.and_comm]; rfl
    · rintro x ⟨h2, lg2⟩ e
      have e : h2 = h := e
      subst h2
      have h1 : Lint.parentIsParagraph h x = inParagraph h x := by
        unfold Lint.parentIsParagraph inParagraph; cases h.parent x <;> rfl
      have h2 : Lint.typeRepr h (h.parent x) = parentType h x := by
        unfold Lint.typeRepr parentType; cases h.parent x <;> rfl
      simp only [Lint.lintMathBlock, bind_apply, get_apply, h1, h2]
      cases inParagraph h x with
      | true => simp only [if_true, pure_apply, Bool.not_true, Bool.false_eq_true, if_false]
      | false =>
        simp only [Bool.false_eq_true, if_false, Lint.report, Lint.emit, bind_apply, get_apply,
          modify_apply, problemRecord, Bool.not_false, if_true]
  have htl : ∀ s' : LintState, s'.heap = h →
      Lint.lintTitle env t.root s' = .ok () ⟨s'.heap, logAll env
        ((if (h.get t.root).title = [] then [("Manuscript with no title".toList, t.root)]
          else []).map (problemRecord h)) s'.log⟩ := by
    rintro ⟨h', lg'⟩ e
    have e : h' = h := e
    subst h'
    simp only [Lint.lintTitle, bind_apply, get_apply, htitle, if_true]
    by_cases hl : (h.get t.root).title = []
    · simp only [hl, if_true, Lint.report, Lint.emit, bind_apply, get_apply, modify_apply,
        problemRecord, List.map_cons, List.map_nil, logAll, List.foldl_cons, List.foldl_nil]
    · simp only [hl, if_false, pure_apply, List.map_nil, logAll, List.foldl_nil]
  simp only [Lint.lint, Lint.emit, bind_apply, modify_apply]
  rw [htl _ rfl]
  dsimp only
  rw [hsec _ rfl]
  dsimp only
  rw [hmath _ rfl]
  simp only [pure_apply, lintProblems, logAll, List.map_append, List.foldl_append, List.map_map]
  rfl

/-- **C50.** What the user of `rsm-lint` sees (format "lint"): one line for each problem, made of
its place and its message, and nothing else. -/
theorem C50_lint_output (env : LogEnv) (fuel : Nat) (root : Ref) (t : Tree) (h : Heap) (log log1 : LogState)
    (hd : Doc h root t) (hfuel : t.size < fuel) (hm : (h.get root).cls.isSub .Manuscript = true)
    (hok : configLogger LINT_LVL "lint".toList true true log = .ok () log1) :
    (Lint.lint env fuel root ⟨h, log1.newLinter⟩).state.log.written.map (·.2) =
      log1.written.map (·.2) ++ (lintProblems h t).map fun p => some ("src:".toList
        ++ intStr ((h.get p.2).startPoint.1 + 1) ++ ":".toList
        ++ intStr ((h.get p.2).startPoint.2 + 1) ++ ": LINT: ".toList ++ p.1) := by
  obtain ⟨s1', e, hc, _⟩ := config_ok (L := LINT_LVL) (t := true) (l := true) (s := log)
    (fmt := "lint".toList) (f := .lint) rfl
  rw [hok] at e; cases e
  rw [C50_lint env fuel root t ⟨h, log1.newLinter⟩ hd hfuel hm]
  show (logAll env _ _).written.map _ = _
  have key : ∀ (ps : List (Str × Ref)) (s : LogState), ConfiguredLow LINT_LVL ⟨.lint, true, true⟩ s →
      s.lintNamed = true →
      (logAll env (ps.map (problemRecord h)) s).written.map (·.2) =
        s.written.map (·.2) ++ ps.map fun p => some ("src:".toList
        ++ intStr ((h.get p.2).startPoint.1 + 1) ++ ":".toList
        ++ intStr ((h.get p.2).startPoint.2 + 1) ++ ": LINT: ".toList ++ p.1) := by
    intro ps
    induction ps with
    | nil => intro s _ _; simp [logAll]
    | cons p ps ih =>
      intro s hs hn
      rw [List.map_cons, show ∀ r rs, logAll env (r :: rs) s = logAll env rs (s.log env r) from fun _ _ => rfl, ih _ (hs.log env _) ((log_fields env _ s).2.1.trans hn),
        log_written_of_enabled hs.handlers (hs.enabled (l := LINT_LVL) (by decide))
          (show handlerLevel LINT_LVL ≤ LINT_LVL by decide), hn]
      simp only [List.map_append, List.map_cons, List.map_nil, List.append_assoc, List.cons_append,
        List.nil_append, LogFormatter.format, lintFormat, problemRecord]
      rfl
  have h1 : ConfiguredLow LINT_LVL ⟨.lint, true, true⟩ (log1.newLinter.log env lintStart) :=
    hc.low.newLinter.log env _
  rw [key _ _ h1 (log_fields env _ _).2.1]
  rw [log_written_of_low (lv := LINT_LVL) (s := log1.newLinter) hc.handlers (by decide)]
  rfl

/-- A manuscript with a title, a section without and a section with label, and two display formulas,
one of them outside a paragraph. -/
def lintHeap : Heap :=
  { next := 7
    get := fun r => match r with
      | 0 => { NodeRec.new .Manuscript with kids := [1, 2], title := "T" }
      | 1 => { NodeRec.new .Section with parent := some 0, kids := [3], startPoint := (4, 0) }
      | 2 => { NodeRec.new .Subsection with parent := some 0, label := "l", kids := [4, 6] }
      | 3 => { NodeRec.new .MathBlock with parent := some 1, startPoint := (7, 2) }
      | 4 => { NodeRec.new .Paragraph with parent := some 2, kids := [5] }
      | 5 => { NodeRec.new .MathBlock with parent := some 4 }
      | 6 => { NodeRec.new .Section with parent := some 2, startPoint := (9, 0) }
      | _ => NodeRec.new .Node }

def lintTree : Tree := .node 0 [.node 1 [.node 3 []], .node 2 [.node 4 [.node 5 []], .node 6 []]]

example : Doc lintHeap 0 lintTree ∧ lintTree.size < 20 ∧
    (lintHeap.get 0).cls.isSub .Manuscript = true ∧
    (configLogger LINT_LVL "lint".toList true true {}).raised = none ∧
    lintProblems lintHeap lintTree = [("Section with no label".toList, 1), ("Section with no label".toList, 6),
      ("MathBlock must be direct child of Paragraph, not <class 'rsm.nodes.Section'>".toList, 3)] := by
  refine ⟨⟨rfl, ?_, by decide, by decide⟩, by decide, by decide, rfl, by decide⟩
  simp only [lintTree, IsTree, IsForest]; decide

end RSM
