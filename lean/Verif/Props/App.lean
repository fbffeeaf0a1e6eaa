import Verif.Model.App
import Verif.Lemmas.Logger

/-!
# Properties of the pipelines and of the applications (C44 – C47, C56)
-/

namespace RSM
open PyM LogState

section
variable {σ α : Type}

/-! ## C45: a pipeline is the composition of its tasks -/

/-- How a result is handed to the next task: dicts as keyword arguments, lists and tuples as
positional arguments, `None` as no argument, and everything else as the only argument. -/
inductive Handed : Val α → CallArgs α → Prop
  | dict (l) : Handed (.dict l) ⟨[], l⟩
  | list (l) : Handed (.list l) ⟨l, []⟩
  | tuple (l) : Handed (.tuple l) ⟨l, []⟩
  | none : Handed .none ⟨[], []⟩
  | str (s) : Handed (.str s) ⟨[.str s], []⟩
  | other (a) : Handed (.other a) ⟨[.other a], []⟩

/-- `Chained calls v w r`: calling the functions one after the other, starting from the value `v` in
the state `w`, each with the result of the one before, ends with `r`; the first one that fails is the
last one called. -/
inductive Chained : List (Call σ α) → Val α → World σ → Res (World σ) (Val α) → Prop
  | done (v w) : Chained [] v w (.ok v w)
  | next {c cs v a w v' w' r} : Handed v a → c a w = .ok v' w' → Chained cs v' w' r →
      Chained (c :: cs) v w r
  | fail {c cs v a w e w'} : Handed v a → c a w = .err e w' → Chained (c :: cs) v w (.err e w')

theorem step_handed {v : Val α} {a : CallArgs α} (h : Handed v a) (c : Call σ α) : Pipeline.step c v = c a := by
  cases h <;> rfl

theorem handed_exists (v : Val α) : ∃ a, Handed v a := by
  cases v
  · exact ⟨_, .none⟩
  · exact ⟨_, .str _⟩
  · exact ⟨_, .dict _⟩
  · exact ⟨_, .list _⟩
  · exact ⟨_, .tuple _⟩
  · exact ⟨_, .other _⟩

/-- **C45.** What a pipeline returns or raises, and the state it leaves behind, is the result of
calling its tasks in a row. -/
theorem C45_run (p : Pipeline σ α) (v : Val α) (w : World σ) (r : Res (World σ) (Val α)) :
    p.run v w = r ↔ Chained (p.tasks.map Task.run) v w r := by
  unfold Pipeline.run
  generalize p.tasks = ts
  induction ts generalizing v w with
  | nil =>
    constructor
    · intro h; cases h; exact .done _ _
    · intro h; cases h; rfl
  | cons t ts ih =>
    simp only [Pipeline.runLoop, bind_apply, List.map_cons]
    constructor
    · intro h
      obtain ⟨a, ha⟩ := handed_exists v
      rw [step_handed ha] at h
      cases e : t.run a w with
      | ok v' w' =>
        rw [e] at h
        exact .next ha e ((ih _ _).1 h)
      | err x w' =>
        rw [e] at h
        cases h
        exact .fail ha e
    · intro h
      cases h with
      | next ha e hr => rw [step_handed ha, e]; exact (ih _ _).2 hr
      | fail ha e => rw [step_handed ha, e]

/-- Adding a task composes it at the end. -/
theorem C45_add (p : Pipeline σ α) (t : Task σ α) (v : Val α) :
    (p.addTask t).run v = (do
      let r ← p.run v
      (Pipeline.new [t]).run r) := by
  funext w
  have key : ∀ (ts : List (Task σ α)) (v : Val α) (w : World σ),
      Pipeline.runLoop (ts ++ [t]) v w = (do let r ← Pipeline.runLoop ts v; Pipeline.runLoop [t] r : PyM _ _) w := by
    intro ts
    induction ts with
    | nil => intro v w; rfl
    | cons u ts ih =>
      intro v w
      simp only [List.cons_append, Pipeline.runLoop, bind_apply]
      cases e : Pipeline.step u.run v w with
      | ok v' w' =>
        simp only []
        rw [ih]
        rfl
      | err x w' => rfl
  exact key p.tasks v w

/-- If a pipeline fails, then so does every longer one, in the same way. -/
theorem C45_stops (p : Pipeline σ α) (more : List (Task σ α)) (v : Val α) (w w' : World σ) (e : PyErr)
    (h : p.run v w = .err e w') : (more.foldl Pipeline.addTask p).run v w = .err e w' := by
  induction more generalizing p with
  | nil => exact h
  | cons t more ih =>
    rw [List.foldl_cons]
    apply ih
    rw [C45_add, bind_apply, h]

/-- Popping the task that was just added gives it back, and the pipeline has the tasks from before;
it is the pipeline from before if no other task had that name. -/
theorem C45_pop (p : Pipeline σ α) (t : Task σ α) : ∃ p', Pipeline.popTask (p.addTask t) = .ok t p' ∧
    p'.tasks = p.tasks ∧ (∀ v, p'.run v = p.run v) ∧
    (∀ n, n ≠ t.name → p'.attrs n = p.attrs n) ∧ (p.attrs t.name = none → p' = p) := by
  refine ⟨⟨p.tasks, fun n => if n = t.name then none else p.attrs n⟩, ?_, rfl, fun v => rfl, ?_, ?_⟩
  · simp only [Pipeline.popTask, Pipeline.addTask, List.getLast?_append, List.getLast?_singleton,
      Option.some_or, if_true, List.dropLast_concat]
    congr 2
    funext n
    split <;> rfl
  · intro n hn
    simp only [if_neg hn]
  · intro h
    cases p
    simp only at h ⊢
    congr 1
    funext n
    split
    · next e => rw [e, h]
    · rfl

/-- Popping from an empty pipeline is an `IndexError`. -/
theorem C45_pop_empty (p : Pipeline σ α) (h : p.tasks = []) : Pipeline.popTask p = .err .indexError p := by
  simp [Pipeline.popTask, h]

/-- Two tasks with the same name can be added but not popped: the second pop removes the task and
fails. -/
theorem C45_pop_same_name (p : Pipeline σ α) (t u : Task σ α) (h : t.name = u.name) :
    ∃ p1 p2, Pipeline.popTask ((p.addTask t).addTask u) = .ok u p1 ∧
      Pipeline.popTask p1 = .err .attributeError p2 ∧ p2.tasks = p.tasks := by
  refine ⟨⟨p.tasks ++ [t], fun n => if n = u.name then none else (p.addTask t).attrs n⟩,
    ⟨p.tasks, fun n => if n = u.name then none else (p.addTask t).attrs n⟩, ?_, ?_, rfl⟩
  · simp only [Pipeline.popTask, Pipeline.addTask, List.getLast?_append, List.getLast?_singleton,
      Option.some_or, if_true, List.dropLast_concat]
    congr 2
    funext n
    split <;> rfl
  · simp [Pipeline.popTask, h]

/-! ## C46: only parse errors are turned into an empty result -/

/-- **C46.** A parse error becomes an empty string and a message at level ERROR; every other
exception goes through; a result is passed on, with a message at level INFO. -/
theorem C46_run (env : LogEnv) (p : Pipeline σ α) (w : World σ) :
    match p.run .none w with
    | .ok v w' => ∃ w'', appRun env p w = .ok v w'' ∧ w''.user = w'.user
    | .err e w' =>
      if e = .rsmParserError then
        ∃ w'' msg, appRun env p w = .ok (.str []) w'' ∧ w''.user = w'.user ∧
          w''.log = w'.log.log env msg ∧ msg.levelno = ERROR
      else appRun env p w = .err e w' := by
  unfold appRun
  simp only [bind_apply]
  cases p.run .none w with
  | ok v w' => exact ⟨_, rfl, rfl⟩
  | err e w' =>
    by_cases he : e = .rsmParserError
    · subst he
      exact ⟨_, _, rfl, rfl, rfl, rfl⟩
    · simp only [he, if_false]

/-! ## C44: exactly one source must be given -/

/-- A path was given: not `None`, and not the empty string. -/
def SrcPath.Given (p : SrcPath) : Prop := p ≠ .none ∧ p ≠ .str []

/-- The formats of the logger. -/
def knownFormats : List Str := ["json".toList, "rsm".toList, "lint".toList, "plain".toList]

theorem truthy_iff (p : SrcPath) : p.truthy = true ↔ p.Given := by
  cases p <;> simp [SrcPath.truthy, SrcPath.Given]

theorem validSource_iff (p : SrcPath) (plain : Str) : validSource p plain = true ↔ ¬(p.Given ↔ plain ≠ []) := by
  rw [← truthy_iff]
  unfold validSource
  cases p.truthy <;> by_cases h : plain = [] <;> simp [h]

/-- The outcome of constructing an application: `construct` is its constructor as a function of the
path and the source text. -/
structure ChecksSource (fmt : Str) (construct : SrcPath → Str → PyM (World σ) (Pipeline σ α)) : Prop where
  /-- Neither or both: `RSMApplicationError`, and the logger is not touched. -/
  refuses : ∀ p s w, (p.Given ↔ s ≠ []) → construct p s w = .err .rsmApplicationError w
  /-- Exactly one: an application, or `KeyError` if the format of the logger is unknown. -/
  accepts : ∀ p s w, ¬(p.Given ↔ s ≠ []) →
    (construct p s w).raised = if fmt ∈ knownFormats then none else some .keyError
  /-- The stages have not been called yet. -/
  lazy : ∀ p s w, (construct p s w).state.user = w.user

theorem known_iff (f : Str) : (LogFormat.ofName f).isSome ↔ f ∈ knownFormats := by
  unfold LogFormat.ofName knownFormats
  simp only [List.mem_cons, List.not_mem_nil, or_false]
  repeat' split
  all_goals simp_all

theorem rsmApp_known (env : LogEnv) (ts : List (Task σ α)) (a : LogArgs) (w : World σ)
    (h : a.logFormat ∈ knownFormats) : ∃ w', rsmApp env ts a w = .ok (Pipeline.new ts) w' ∧ w'.user = w.user := by
  obtain ⟨f, hf⟩ := Option.isSome_iff_exists.1 ((known_iff _).2 h)
  obtain ⟨s1, e, -⟩ := config_ok (L := a.loglevel) (t := a.logTime) (l := a.logLineno) (s := w.log) hf
  refine ⟨(rsmApp env ts a w).state, ?_, ?_⟩ <;> simp only [rsmApp, bind_apply, PyM.zoom, e] <;> rfl

theorem rsmApp_unknown (env : LogEnv) (ts : List (Task σ α)) (a : LogArgs) (w : World σ)
    (h : a.logFormat ∉ knownFormats) : ∃ w', rsmApp env ts a w = .err .keyError w' ∧ w'.user = w.user := by
  have hf : LogFormat.ofName a.logFormat = none := by
    cases e : LogFormat.ofName a.logFormat with
    | none => rfl
    | some f => exact absurd ((known_iff _).1 (by rw [e]; rfl)) h
  refine ⟨{ w with log := { w.log with handlers := [] } }, ?_, rfl⟩
  simp only [rsmApp, bind_apply, PyM.zoom, configLogger, modify_apply, LogState.addHandler, hf]

/-- The pipeline of the parser application. -/
def basePipeline (st : Stages σ α) (p : SrcPath) (s : Str) : Pipeline σ α :=
  Pipeline.new [sourceTask st p s, ⟨"parser", st.obj "parser", st.parse⟩,
    ⟨"transformer", st.obj "transformer", st.transform⟩]

theorem parserApp_ok (env : LogEnv) (st : Stages σ α) (p : SrcPath) (s : Str) (a : LogArgs) (w : World σ)
    (hs : ¬(p.Given ↔ s ≠ [])) (h : a.logFormat ∈ knownFormats) :
    ∃ w', parserApp env st p s a w = .ok (basePipeline st p s) w' ∧ w'.user = w.user := by
  unfold parserApp
  rw [if_pos ((validSource_iff _ _).2 hs)]
  exact rsmApp_known env _ a w h

theorem parserApp_keyError (env : LogEnv) (st : Stages σ α) (p : SrcPath) (s : Str) (a : LogArgs) (w : World σ)
    (hs : ¬(p.Given ↔ s ≠ [])) (h : a.logFormat ∉ knownFormats) :
    ∃ w', parserApp env st p s a w = .err .keyError w' ∧ w'.user = w.user := by
  unfold parserApp
  rw [if_pos ((validSource_iff _ _).2 hs)]
  exact rsmApp_unknown env _ a w h

theorem parserApp_refuses (env : LogEnv) (st : Stages σ α) (p : SrcPath) (s : Str) (a : LogArgs) (w : World σ)
    (hs : p.Given ↔ s ≠ []) : parserApp env st p s a w = .err .rsmApplicationError w := by
  unfold parserApp
  rw [if_neg fun h => (validSource_iff _ _).1 h hs]
  rfl

/-- An application that is a parser application with something added. -/
theorem checks_of (env : LogEnv) (st : Stages σ α) (a : LogArgs) (more : Pipeline σ α → PyM (World σ) (Pipeline σ α))
    (hm : ∀ p w, ∃ p' w', more p w = .ok p' w' ∧ w'.user = w.user) :
    ChecksSource a.logFormat fun p s => (do
      let q ← parserApp env st p s a
      more q) where
  refuses p s w h := by rw [bind_apply, parserApp_refuses env st p s a w h]
  accepts p s w h := by
    rw [bind_apply]
    by_cases hk : a.logFormat ∈ knownFormats
    · rw [if_pos hk]
      obtain ⟨w', e, -⟩ := parserApp_ok env st p s a w h hk
      obtain ⟨p', w'', e', -⟩ := hm _ w'
      rw [e]; simp only []; rw [e']; rfl
    · rw [if_neg hk]
      obtain ⟨w', e, -⟩ := parserApp_keyError env st p s a w h hk
      rw [e]; rfl
  lazy p s w := by
    rw [bind_apply]
    by_cases h : p.Given ↔ s ≠ []
    · rw [parserApp_refuses env st p s a w h]; rfl
    · by_cases hk : a.logFormat ∈ knownFormats
      · obtain ⟨w', e, hu⟩ := parserApp_ok env st p s a w h hk
        obtain ⟨p', w'', e', hu'⟩ := hm _ w'
        rw [e]; simp only []; rw [e']; exact hu'.trans hu
      · obtain ⟨w', e, hu⟩ := parserApp_keyError env st p s a w h hk
        rw [e]; exact hu

/-- **C44.** All four applications check their sources. -/
theorem C44_sources (env : LogEnv) (st : Stages σ α) (a : LogArgs) (handrails addSource runLinter : Bool) :
    ChecksSource a.logFormat (fun p s => parserApp env st p s a) ∧
    ChecksSource a.logFormat (fun p s => linterApp env st p s a) ∧
    ChecksSource a.logFormat (fun p s => processorApp env st p s a.loglevel a.logFormat a.logTime a.logLineno
      handrails addSource runLinter) ∧
    ChecksSource a.logFormat (fun p s => fullBuildApp env st p s a.loglevel a.logFormat a.logTime a.logLineno
      handrails runLinter) := by
  refine ⟨?_, ?_, ?_, ?_⟩
  · have := checks_of env st a pure fun p w => ⟨_, _, rfl, rfl⟩
    have e : (fun p s => (parserApp env st p s a >>= pure))
        = fun p s => parserApp env st p s a := by
      funext p s w
      rw [bind_apply]
      cases parserApp env st p s a w <;> rfl
    exact e ▸ this
  · exact checks_of env st { a with loglevel := LINT_LVL } _ fun p w => ⟨_, _, rfl, rfl⟩
  · refine checks_of env st ⟨a.loglevel, a.logFormat, a.logTime, a.logLineno⟩ _ fun p w => ?_
    cases runLinter <;> exact ⟨_, _, rfl, rfl⟩
  · have := checks_of env st ⟨a.loglevel, a.logFormat, a.logTime, handrails⟩ (fun q => (do
      let p ← (pure (q.addTask (translatorTask st runLinter true)) : PyM (World σ) (Pipeline σ α))
      pure ((p.addTask ⟨"builder", st.obj "builder", st.build⟩).addTask ⟨"writer", st.obj "writer", st.write⟩)))
      fun p w => ⟨_, _, rfl, rfl⟩
    have e : (fun p s => fullBuildApp env st p s a.loglevel a.logFormat a.logTime a.logLineno handrails runLinter)
        = (fun p s => (do
          let q ← parserApp env st p s ⟨a.loglevel, a.logFormat, a.logTime, handrails⟩
          let p ← (pure (q.addTask (translatorTask st runLinter true)) : PyM (World σ) (Pipeline σ α))
          pure ((p.addTask ⟨"builder", st.obj "builder", st.build⟩).addTask
            ⟨"writer", st.obj "writer", st.write⟩))) := by
      funext p s w
      simp only [fullBuildApp, processorApp, addLinter, bind_apply]
      cases parserApp env st p s ⟨a.loglevel, a.logFormat, a.logTime, handrails⟩ w <;> rfl
    rw [e]
    exact this

/-! ## C47: which stages run -/

/-- `RunsTasks env m w calls`: the program `m`, started in `w`, sets up the logger, calls the given
functions in a row, starting without argument, and turns a parse error into the empty string. -/
def RunsTasks (env : LogEnv) (m : PyM (World σ) (Val α)) (w : World σ) (calls : List (Call σ α)) : Prop :=
  ∃ (p : Pipeline σ α) (w1 : World σ), p.tasks.map Task.run = calls ∧ w1.user = w.user ∧ m w = appRun env p w1

/-- The source: the file at the path, or the given text. -/
def sourceCall (st : Stages σ α) (path : SrcPath) (source : Str) : Call σ α :=
  if source = [] then noArgs (st.read path) else noArgs (pure (.str source))

theorem addTask_tasks (p : Pipeline σ α) (t : Task σ α) : (p.addTask t).tasks = p.tasks ++ [t] := rfl

theorem sourceTask_run (st : Stages σ α) (p : SrcPath) (s : Str) : (sourceTask st p s).run = sourceCall st p s := by
  unfold sourceTask sourceCall
  split <;> rfl

theorem basePipeline_run (st : Stages σ α) (p : SrcPath) (s : Str) :
    (basePipeline st p s).tasks.map Task.run = [sourceCall st p s, st.parse, st.transform] := by
  unfold basePipeline Pipeline.new
  simp only [List.foldl_cons, List.foldl_nil, addTask_tasks, List.nil_append, List.map_append,
      List.map_cons, List.map_nil, List.cons_append, sourceTask_run]

/-- `render` parses, transforms and translates, with the handrails translator exactly if asked to. -/
theorem C47_render (env : LogEnv) (st : Stages σ α) (source : Str) (path : SrcPath) (handrails addSource : Bool)
    (a : LogArgs) (w : World σ) (hs : ¬(path.Given ↔ source ≠ [])) (hf : a.logFormat ∈ knownFormats) :
    RunsTasks env (appRender env st source path handrails addSource a) w
      [sourceCall st path source, st.parse, st.transform,
        if handrails then st.translateHandrails addSource else st.translate] := by
  obtain ⟨w', e, hu⟩ := parserApp_ok env st path source ⟨a.loglevel, a.logFormat, a.logTime, a.logLineno⟩ w hs hf
  refine ⟨(basePipeline st path source).addTask (translatorTask st handrails addSource), w', ?_, hu, ?_⟩
  rotate_left
  · unfold appRender processorApp
    rw [bind_apply, bind_apply, e]
    rfl
  · simp only [addTask_tasks, List.map_append, basePipeline_run]
    rfl

/-- `lint` parses, transforms and lints. -/
theorem C47_lint (env : LogEnv) (st : Stages σ α) (source : Str) (path : SrcPath) (handrails : Bool)
    (a : LogArgs) (w : World σ) (hs : ¬(path.Given ↔ source ≠ [])) (hf : a.logFormat ∈ knownFormats) :
    RunsTasks env (appLint env st source path handrails a) w
      [sourceCall st path source, st.parse, st.transform, st.lint] := by
  obtain ⟨w', e, hu⟩ := parserApp_ok env st path source { a with loglevel := LINT_LVL } w hs hf
  refine ⟨(basePipeline st path source).addTask (lintTask st), { w' with log := w'.log.newLinter }, ?_, hu, ?_⟩
  rotate_left
  · unfold appLint linterApp
    rw [bind_apply, bind_apply, e]
    rfl
  · simp only [addTask_tasks, List.map_append, basePipeline_run]
    rfl

/-- **C47.** `make(handrails=h, lint=b)` never runs the linter, uses the handrails translator exactly
if `b`, and does not look at `h`. -/
theorem C47_make (env : LogEnv) (st : Stages σ α) (source : Str) (path : SrcPath) (h b : Bool)
    (a : LogArgs) (w : World σ) (hs : ¬(path.Given ↔ source ≠ [])) (hf : a.logFormat ∈ knownFormats) :
    RunsTasks env (appMake env st source path h b a) w
      [sourceCall st path source, st.parse, st.transform,
        if b then st.translateHandrails true else st.translate, st.build, st.write] := by
  obtain ⟨w', e, hu⟩ := parserApp_ok env st path source ⟨a.loglevel, a.logFormat, a.logTime, true⟩ w hs hf
  refine ⟨(((basePipeline st path source).addTask (translatorTask st b true)).addTask
    ⟨"builder", st.obj "builder", st.build⟩).addTask ⟨"writer", st.obj "writer", st.write⟩, w', ?_, hu, ?_⟩
  rotate_left
  · unfold appMake fullBuildApp processorApp
    rw [bind_apply, bind_apply, bind_apply, e]
    rfl
  · simp only [addTask_tasks, List.map_append, basePipeline_run]
    rfl

/-- `make` ignores the flag for handrails and the one for line numbers in the log, and whatever the
linter does. -/
theorem C47_make_ignores (env : LogEnv) (st : Stages σ α) (source : Str) (path : SrcPath) (h h' b : Bool)
    (a : LogArgs) (lineno : Bool) (linter : Call σ α) :
    appMake env st source path h b a
      = appMake env { st with lint := linter } source path h' b { a with logLineno := lineno } := rfl

/-- `lint` ignores the log level and the handrails flag. -/
theorem C47_lint_ignores (env : LogEnv) (st : Stages σ α) (source : Str) (path : SrcPath) (h h' : Bool)
    (a : LogArgs) (level : Int) :
    appLint env st source path h a = appLint env st source path h' { a with loglevel := level } := rfl

/-! ## C56: the command line -/

/-- What is left on the screen. -/
def Shows (r : Res (World σ) (Int × Option (Val α))) (o : Option (Val α)) : Prop := r.value = some (0, o)

/-- **C56.** Whenever a command returns, its exit status is 0. -/
theorem C56_status (env : LogEnv) (st : Stages σ α) (args : CliArgs) (w : World σ) (c : Int) (o : Option (Val α)) :
    ((cliRender env st args w).value = some (c, o) ∨ (cliLint env st args w).value = some (c, o) ∨
      (cliMake env st args w).value = some (c, o)) → c = 0 := by
  have key : ∀ (f : Str → SrcPath → Bool → LogArgs → PyM (World σ) (Val α)) (args : CliArgs),
      (cliMain f args w).value = some (c, o) → c = 0 := by
    intro f args h
    simp only [cliMain, bind_apply] at h
    split at h
    · cases h; rfl
    · cases h
  rintro (h | h | h) <;> exact key _ _ h

/-- The level of the logger: WARNING, and ten less for every `-v`. -/
def cliLogArgs (args : CliArgs) : LogArgs :=
  ⟨WARNING - 10 * args.verbose, args.logFormat, args.logTime, args.logLineno⟩

/-- The source given on the command line. -/
def cliSource (args : CliArgs) : Str × SrcPath :=
  if args.string then (args.src, .str []) else ([], .str args.src)

/-- `rsm-render` prints the HTML if there is one and unless it is told to be silent; it raises what
`render` raises. -/
theorem C56_render (env : LogEnv) (st : Stages σ α) (args : CliArgs) (w : World σ) :
    match appRender env st (cliSource args).1 (cliSource args).2 args.handrails false (cliLogArgs args) w with
    | .ok v w' => cliRender env st args w =
        .ok (0, if args.silent = false ∧ v.truthy = true then some v else none) w'
    | .err e w' => cliRender env st args w = .err e w' := by
  have hl : cliLogArgs args = ⟨WARNING - args.verbose * 10, args.logFormat, args.logTime, args.logLineno⟩ := by
    unfold cliLogArgs
    rw [Int.mul_comm]
  have e : cliRender env st args w = (do
      let output ← appRender env st (cliSource args).1 (cliSource args).2 args.handrails false (cliLogArgs args)
      pure ((0 : Int), if !args.silent && output.truthy then some output else none) : PyM _ _) w := by
    rw [hl]
    unfold cliRender cliMain cliSource
    cases args.string <;> rfl
  rw [e, bind_apply]
  cases appRender env st (cliSource args).1 (cliSource args).2 args.handrails false (cliLogArgs args) w with
  | ok v w' =>
    simp only [pure_apply]
    cases args.silent <;> cases v.truthy <;> rfl
  | err e w' => rfl

/-- A parse error leaves no trace on the screen but the message in the log: `rsm-render` prints
nothing, and its exit status is that of a success. -/
theorem C56_render_parse_error (env : LogEnv) (st : Stages σ α) (args : CliArgs) (w : World σ)
    (p : Pipeline σ α) (w1 w2 : World σ)
    (hp : processorApp env st (cliSource args).2 (cliSource args).1 (cliLogArgs args).loglevel args.logFormat
      args.logTime args.logLineno args.handrails false false w = .ok p w1)
    (hr : p.run .none w1 = .err .rsmParserError w2) : Shows (cliRender env st args w) none := by
  have h := C56_render env st args w
  have e : appRender env st (cliSource args).1 (cliSource args).2 args.handrails false (cliLogArgs args) w
      = appRun env p w1 := by
    simp only [appRender, bind_apply]
    rw [show (cliLogArgs args).logFormat = args.logFormat from rfl, show (cliLogArgs args).logTime = args.logTime from rfl,
      show (cliLogArgs args).logLineno = args.logLineno from rfl, hp]
  have h2 := C46_run env p w1
  rw [hr] at h2
  simp only [if_true] at h2
  obtain ⟨w3, msg, h2, -⟩ := h2
  rw [e, h2] at h
  simp only [] at h
  unfold Shows
  rw [h]
  cases args.silent <;> rfl

/-- `rsm-lint` prints nothing. -/
theorem C56_lint_silent (env : LogEnv) (st : Stages σ α) (args : CliArgs) (w : World σ) (c : Int)
    (o : Option (Val α)) : (cliLint env st args w).value = some (c, o) → o = none := by
  intro h
  simp only [cliLint, cliMain, bind_apply] at h
  split at h
  · cases h; rfl
  · cases h

theorem chained_last (cs : List (Call σ α)) (c : Call σ α) (v w r) (h : Chained (cs ++ [c]) v w r) (v' w')
    (hr : r = .ok v' w') : ∃ a w1, c a w1 = .ok v' w' := by
  generalize he : cs ++ [c] = l at h
  induction h generalizing cs with
  | done v w => cases cs <;> cases he
  | next ha e hr' ih =>
    cases cs with
    | nil =>
      cases he
      cases hr'
      cases hr
      exact ⟨_, _, e⟩
    | cons c' cs =>
      cases he
      exact ih cs hr rfl
  | fail ha e => cases hr

/-- `rsm-make` prints nothing, as the writer returns nothing. -/
theorem C56_make_silent (env : LogEnv) (st : Stages σ α) (args : CliArgs) (w : World σ)
    (hw : ∀ a w v w', st.write a w = .ok v w' → v = .none) (c : Int) (o : Option (Val α)) :
    (cliMake env st args w).value = some (c, o) → o = none := by
  intro h
  simp only [cliMake, cliMain, bind_apply] at h
  generalize hs : (if args.string = true then args.src else []) = source at h
  generalize hp : (if args.string = true then SrcPath.str [] else SrcPath.str args.src) = path at h
  generalize ha : LogArgs.mk (WARNING - ↑args.verbose * 10) args.logFormat args.logTime args.logLineno = la at h
  cases e : appMake env st source path true true la w with
  | err x w' => rw [e] at h; cases h
  | ok v w' =>
    rw [e] at h
    simp only [pure_apply] at h
    have hv : v.truthy = false := by
      by_cases hg : path.Given ↔ source ≠ []
      · simp only [appMake, fullBuildApp, processorApp, bind_apply,
          parserApp_refuses env st path source ⟨la.loglevel, la.logFormat, la.logTime, true⟩ w hg] at e
        cases e
      by_cases hf : la.logFormat ∈ knownFormats
      · obtain ⟨p, w1, ht, -, hm⟩ := C47_make env st source path true true la w hg hf
        rw [e] at hm
        have h2 := C46_run env p w1
        cases hr : p.run .none w1 with
        | ok v1 w2 =>
          rw [hr] at h2
          obtain ⟨w3, h2, -⟩ := h2
          rw [h2] at hm
          cases hm
          have h3 := (C45_run p .none w1 _).1 hr
          rw [ht] at h3
          obtain ⟨a, w4, h4⟩ := chained_last [sourceCall st path source, st.parse, st.transform,
            st.translateHandrails true, st.build] st.write _ _ _ h3 _ _ rfl
          rw [hw _ _ _ _ h4]
          rfl
        | err x w2 =>
          rw [hr] at h2
          simp only [] at h2
          split at h2
          · obtain ⟨w3, msg, h2, -⟩ := h2
            rw [h2] at hm
            cases hm
            rfl
          · rw [h2] at hm
            cases hm
      · obtain ⟨w1, e1, -⟩ := parserApp_keyError env st path source ⟨la.loglevel, la.logFormat, la.logTime, true⟩ w hg hf
        simp only [appMake, fullBuildApp, processorApp, bind_apply, e1] at e
        cases e
    rw [hv] at h
    cases hsil : args.silent <;> rw [hsil] at h <;> cases h <;> rfl

end

/-! ## The hypotheses can be met -/

/-- Stages that write down that they were called; the parser fails on the text "bad". -/
def traceStages : Stages (List Str) Unit where
  read _ := do PyM.modify fun w => { w with user := w.user ++ ["read".toList] }; pure (.str "file".toList)
  parse a := do
    PyM.modify fun w => { w with user := w.user ++ ["parse".toList] }
    match a.pos with
    | [.str s] => if s = "bad".toList then PyM.throw .rsmParserError else pure (.other ())
    | _ => PyM.throw .typeError
  transform a := do PyM.modify fun w => { w with user := w.user ++ ["transform".toList] }; pure (.tuple a.pos)
  lint _ := do PyM.modify fun w => { w with user := w.user ++ ["lint".toList] }; pure (.other ())
  translate _ := do PyM.modify fun w => { w with user := w.user ++ ["translate".toList] }; pure (.str "html".toList)
  translateHandrails _ _ := do
    PyM.modify fun w => { w with user := w.user ++ ["handrails".toList] }
    pure (.str "rails".toList)
  build _ := do PyM.modify fun w => { w with user := w.user ++ ["build".toList] }; pure (.other ())
  write _ := do PyM.modify fun w => { w with user := w.user ++ ["write".toList] }; pure .none
  obj _ := .none

def someEnv : LogEnv := ⟨fun _ _ => []⟩

/-- What is called, what is returned (if it is a string or nothing) and what is raised. -/
def traceOf (m : PyM (World (List Str)) (Val Unit)) : List Str × Option (Option Str) × Option PyErr :=
  let r := m ⟨[], {}⟩
  (r.state.user, r.value.map fun | .str s => some s | _ => none, r.raised)

example : traceOf (appMake someEnv traceStages "text".toList .none false true {}) =
    (["parse".toList, "transform".toList, "handrails".toList, "build".toList, "write".toList],
      some none, none) := by decide

example : traceOf (appMake someEnv traceStages "text".toList .none true false {}) =
    (["parse".toList, "transform".toList, "translate".toList, "build".toList, "write".toList],
      some none, none) := by decide

example : traceOf (appRender someEnv traceStages [] (.path "a.rsm".toList) false true {}) =
    (["read".toList, "parse".toList, "transform".toList, "translate".toList], some (some "html".toList), none) := by
  decide

example : traceOf (appRender someEnv traceStages "bad".toList .none true true {}) =
    (["parse".toList], some (some []), none) := by decide

example : traceOf (appLint someEnv traceStages "text".toList (.str []) true {}) =
    (["parse".toList, "transform".toList, "lint".toList], some none, none) := by decide

example : (traceOf (appRender someEnv traceStages [] (.str []) true true {})).2.2 = some .rsmApplicationError ∧
    (traceOf (appRender someEnv traceStages "text".toList (.path []) true true {})).2.2 = some .rsmApplicationError ∧
    (traceOf (appRender someEnv traceStages "text".toList .none true true { logFormat := "xml".toList })).2.2
      = some .keyError := by
  decide

example : ((cliRender someEnv traceStages { src := "bad".toList, string := true } ⟨[], {}⟩).value.map
    fun x => (x.1, x.2.isSome)) = some (0, false) := by decide

example : ((cliRender someEnv traceStages { src := "text".toList, string := true } ⟨[], {}⟩).value.map
    fun x => (x.1, x.2.isSome)) = some (0, true) := by decide

end RSM
