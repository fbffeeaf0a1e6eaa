import Verif.Model.Logger

/-!
# `rsm/app.py` and `rsm/cli.py`: pipelines and applications

The stages (reader, parser, transformer, linter, translators, builder, writer) are parameters here:
what matters is which of them are called, with which arguments and in which order, and what happens
to their results and exceptions.  `σ` is the part of the state that the stages work on, `α` the
values that are neither strings nor `None`, dicts, lists or tuples.
-/

namespace RSM

/-- Python values, as far as `Pipeline.run` and `cli.main` tell them apart. -/
inductive Val (α : Type)
  | none
  | str (s : Str)
  | dict (l : List (Str × Val α))
  | list (l : List (Val α))
  | tuple (l : List (Val α))
  | other (a : α)

/-- The arguments of a call. -/
structure CallArgs (α : Type) where
  pos : List (Val α) := []
  kw : List (Str × Val α) := []

/-- The state of the program: that of the stages and the "RSM" logger. -/
structure World (σ : Type) where
  user : σ
  log : LogState

/-- A callable. -/
abbrev Call (σ α : Type) := CallArgs α → PyM (World σ) (Val α)

/-- `Task` (app.py:78-83). -/
structure Task (σ α : Type) where
  name : Str
  obj : Val α
  run : Call σ α

/-- `Pipeline` (app.py:86-92): the list of tasks and the attributes that the tasks add to the object
(names of tasks that clash with `tasks` and `run` themselves are not modelled). -/
structure Pipeline (σ α : Type) where
  tasks : List (Task σ α) := []
  attrs : Str → Option (Val α) := fun _ => Option.none

namespace Pipeline
variable {σ α : Type}

/-- `add_task` (app.py:94-97). -/
def addTask (p : Pipeline σ α) (t : Task σ α) : Pipeline σ α :=
  { tasks := p.tasks ++ [t], attrs := fun n => if n = t.name then some t.obj else p.attrs n }

/-- `Pipeline.__init__` (app.py:89-92). -/
def new (ts : List (Task σ α)) : Pipeline σ α := ts.foldl addTask {}

/-- `pop_task` (app.py:99-103): `IndexError` if there is no task, `AttributeError` if the attribute
is not there any more (the task is gone then all the same). -/
def popTask : PyM (Pipeline σ α) (Task σ α) := fun p =>
  match p.tasks.getLast? with
  | none => .err .indexError p
  | some t =>
    match p.attrs t.name with
    | none => .err .attributeError { p with tasks := p.tasks.dropLast }
    | some _ => .ok t { tasks := p.tasks.dropLast, attrs := fun n => if n = t.name then none else p.attrs n }

/-- One round of the loop of `run` (app.py:109-116). -/
def step (call : Call σ α) (res : Val α) : PyM (World σ) (Val α) :=
  match res with
  | .dict l => call { kw := l }
  | .list l => call { pos := l }
  | .tuple l => call { pos := l }
  | .none => call {}
  | v => call { pos := [v] }

/-- The loop of `run` (app.py:107-117). -/
def runLoop : List (Task σ α) → Val α → PyM (World σ) (Val α)
  | [], res => pure res
  | t :: ts, res => do
    let r ← step t.run res
    runLoop ts r

/-- `Pipeline.run` (app.py:105-117). -/
def run (p : Pipeline σ α) (initial : Val α := .none) : PyM (World σ) (Val α) :=
  runLoop p.tasks initial

end Pipeline

section
variable {σ α : Type}

/-- A call of a method of the "RSM" logger. -/
def World.emit (env : LogEnv) (level : Int) (msg : Str) : PyM (World σ) Unit :=
  PyM.modify fun w => { w with log := w.log.log env { levelno := level, msg := msg, filename := "app.py" } }

/-- `RSMApp.run` (app.py:137-144).  The text of the exception is not modelled. -/
def appRun (env : LogEnv) (p : Pipeline σ α) : PyM (World σ) (Val α) := fun w =>
  match (do
      let result ← p.run
      World.emit env INFO "Done."
      pure result : PyM (World σ) (Val α)) w with
  | .ok v w' => .ok v w'
  | .err .rsmParserError w' =>
    (do World.emit env ERROR "There was an error: "; pure (Val.str []) : PyM (World σ) (Val α)) w'
  | .err e w' => .err e w'

/-- The logging arguments of the applications. -/
structure LogArgs where
  loglevel : Int := WARNING
  logFormat : Str := "rsm"
  logTime : Bool := true
  logLineno : Bool := true

/-- `RSMApp.__init__` (app.py:123-135). -/
def rsmApp (env : LogEnv) (tasks : List (Task σ α)) (a : LogArgs) : PyM (World σ) (Pipeline σ α) := do
  PyM.zoom World.log (fun l w => { w with log := l })
    (configLogger a.loglevel a.logFormat a.logTime a.logLineno)
  World.emit env INFO "Application started"
  World.emit env INFO "Configuring..."
  pure (Pipeline.new tasks)

/-- The argument `srcpath`: `None`, a string, or a `Path` object. -/
inductive SrcPath
  | none
  | str (s : Str)
  | path (s : Str)

/-- `bool(srcpath)`: `Path` objects are true, even `Path("")`. -/
def SrcPath.truthy : SrcPath → Bool
  | .none => false
  | .str s => s ≠ []
  | .path _ => true

/-- The stages, as called by the tasks (app.py:169-178, 202-203, 221-229, 247-248): the callables
`reader.read(srcpath)`, `parser.parse`, `transformer.transform`, `linter.lint`,
`translator.translate` (of `Translator` or `HandrailsTranslator(add_source=…)`), `builder.build` and
`writer.write`. -/
structure Stages (σ α : Type) where
  read : SrcPath → PyM (World σ) (Val α)
  parse : Call σ α
  transform : Call σ α
  lint : Call σ α
  translate : Call σ α
  translateHandrails (addSource : Bool) : Call σ α
  build : Call σ α
  write : Call σ α
  /-- The objects stored in the tasks. -/
  obj : Str → Val α

/-- A call of `lambda: …` (`TypeError` if it is given arguments). -/
def noArgs (m : PyM (World σ) (Val α)) : Call σ α
  | ⟨[], []⟩ => m
  | _ => PyM.throw .typeError

variable (env : LogEnv) (st : Stages σ α)

/-- The first task of `ParserApp` (app.py:170-173). -/
def sourceTask (srcpath : SrcPath) (plain : Str) : Task σ α :=
  if plain = [] then ⟨"reader", st.obj "reader", noArgs (st.read srcpath)⟩
  else ⟨"dummy", .none, noArgs (pure (.str plain))⟩

/-- `_validate_srcpath_and_plain` (app.py:182-186). -/
def validSource (srcpath : SrcPath) (plain : Str) : Bool :=
  !((!srcpath.truthy && decide (plain = [])) || (srcpath.truthy && decide (plain ≠ [])))

/-- `ParserApp.__init__` (app.py:158-179). -/
def parserApp (srcpath : SrcPath) (plain : Str) (a : LogArgs) : PyM (World σ) (Pipeline σ α) :=
  if validSource srcpath plain then
    rsmApp env [sourceTask st srcpath plain, ⟨"parser", st.obj "parser", st.parse⟩,
      ⟨"transformer", st.obj "transformer", st.transform⟩] a
  else PyM.throw .rsmApplicationError

/-- `linter.Linter()`. -/
def makeLinter : PyM (World σ) Unit := PyM.modify fun w => { w with log := w.log.newLinter }

/-- The task of the linter. -/
def lintTask : Task σ α := ⟨"linter", st.obj "linter", st.lint⟩

/-- `LinterApp.__init__` (app.py:190-203): the given log level is not used. -/
def linterApp (srcpath : SrcPath) (plain : Str) (a : LogArgs) : PyM (World σ) (Pipeline σ α) := do
  let p ← parserApp env st srcpath plain { a with loglevel := LINT_LVL }
  makeLinter
  pure (p.addTask (lintTask st))

/-- Adding the linter, if asked to (app.py:220-221). -/
def addLinter (runLinter : Bool) (p : Pipeline σ α) : PyM (World σ) (Pipeline σ α) :=
  if runLinter then do
    makeLinter
    pure (p.addTask (lintTask st))
  else pure p

/-- The task of the translator (app.py:223-229). -/
def translatorTask (handrails addSource : Bool) : Task σ α :=
  ⟨"translator", st.obj "translator", if handrails then st.translateHandrails addSource else st.translate⟩

/-- `ProcessorApp.__init__` (app.py:207-229), its parameters in the order of the signature. -/
def processorApp (srcpath : SrcPath) (plain : Str) (loglevel : Int) (logFormat : Str)
    (logTime logLineno handrails addSource runLinter : Bool) : PyM (World σ) (Pipeline σ α) := do
  let p ← parserApp env st srcpath plain ⟨loglevel, logFormat, logTime, logLineno⟩
  let p ← addLinter st runLinter p
  pure (p.addTask (translatorTask st handrails addSource))

/-- `FullBuildApp.__init__` (app.py:233-248).  It passes seven positional arguments to
`ProcessorApp.__init__`, and leaves out `log_lineno`: `handrails` takes its place, and `run_linter`
the place of `handrails`; `add_source` and `run_linter` have their defaults. -/
def fullBuildApp (srcpath : SrcPath) (plain : Str) (loglevel : Int) (logFormat : Str)
    (logTime _logLineno handrails runLinter : Bool) : PyM (World σ) (Pipeline σ α) := do
  let p ← processorApp env st srcpath plain loglevel logFormat logTime handrails runLinter true false
  pure ((p.addTask ⟨"builder", st.obj "builder", st.build⟩).addTask ⟨"writer", st.obj "writer", st.write⟩)

/-- `render` (app.py:251-270). -/
def appRender (source : Str) (path : SrcPath) (handrails addSource : Bool) (a : LogArgs) :
    PyM (World σ) (Val α) := do
  let p ← processorApp env st path source a.loglevel a.logFormat a.logTime a.logLineno handrails addSource false
  appRun env p

/-- `lint` (app.py:273-289); `handrails` is not used. -/
def appLint (source : Str) (path : SrcPath) (_handrails : Bool) (a : LogArgs) : PyM (World σ) (Val α) := do
  let p ← linterApp env st path source a
  appRun env p

/-- `make` (app.py:292-310): `handrails` is not passed on, so that `FullBuildApp` has its default. -/
def appMake (source : Str) (path : SrcPath) (_handrails lint : Bool) (a : LogArgs) : PyM (World σ) (Val α) := do
  let p ← fullBuildApp env st path source a.loglevel a.logFormat a.logTime a.logLineno true lint
  appRun env p

/-! ## `cli.py` -/

/-- The parsed command line (cli.py:19-82). -/
structure CliArgs where
  src : Str
  string : Bool := false
  handrails : Bool := false
  silent : Bool := false
  verbose : Nat := 0
  logTime : Bool := true
  logLineno : Bool := true
  logFormat : Str := "rsm"

/-- `bool(output)`: a node or a `WebManuscript` is true. -/
def Val.truthy : Val α → Bool
  | .none => false
  | .str s => s ≠ []
  | .dict l => !l.isEmpty
  | .list l => !l.isEmpty
  | .tuple l => !l.isEmpty
  | .other _ => true

/-- `cli.main` (cli.py:85-104) for a function `func` that takes the source, the path, the handrails
flag and the logging arguments; the result is the exit status and what is printed. -/
def cliMain (func : Str → SrcPath → Bool → LogArgs → PyM (World σ) (Val α)) (args : CliArgs) :
    PyM (World σ) (Int × Option (Val α)) := do
  let output ← func (if args.string then args.src else []) (if args.string then .str [] else .str args.src)
    args.handrails ⟨WARNING - args.verbose * 10, args.logFormat, args.logTime, args.logLineno⟩
  pure (0, if !args.silent && output.truthy then some output else none)

/-- `cli.render` (cli.py:107-109). -/
def cliRender (args : CliArgs) : PyM (World σ) (Int × Option (Val α)) :=
  cliMain (fun source path handrails a => appRender env st source path handrails false a) args

/-- `cli.lint` (cli.py:112-116): the default format is "lint", and nothing is printed. -/
def cliLint (args : CliArgs) : PyM (World σ) (Int × Option (Val α)) :=
  cliMain (fun source path handrails a => appLint env st source path handrails a) { args with silent := true }

/-- `cli.make` (cli.py:119-134) without `--serve`: handrails are always on, and the linter has its
default. -/
def cliMake (args : CliArgs) : PyM (World σ) (Int × Option (Val α)) :=
  cliMain (fun source path handrails a => appMake env st source path handrails true a)
    { args with handrails := true }

end
end RSM
