import Verif.Model.App
import Verif.Model.Builder
import Verif.Model.Linter
import Verif.Model.Parser
import Verif.Model.Repr
import Verif.Model.Transformer
import Verif.Model.Translator

/-!
# The whole program: the applications of `app.py` with the stages of the other modules

`Model/App` has the stages as parameters.  Here they are the models of the reader, the parser, the
transformer, the linter, the translators, the builder and the writer.  `render`, `lint` and `make` make
new objects for the stages and run them once, so the attributes of these objects begin as the
constructors leave them.
-/

namespace RSM
namespace Program

/-- What is not modelled: tree-sitter with the grammar of RSM, pygments, what `repr` of nodes takes from the
standard library, the encoding of log messages as JSON, and the directory `static` of the package. -/
structure Outer where
  sitter : Str → Parser.Cst
  highlight : Str → Str → Str
  repr : ReprEnv
  log : LogEnv
  static : List (Str × Str)

/-- The objects that there are, and the files that can be read from the current directory. -/
structure Sys where
  heap : Heap
  files : Str → Option Str

/-- What the stages hand on, apart from texts. -/
inductive Obj
  | node (r : Ref)
  | web (w : Build.Web)

abbrev ProgM := PyM (World Sys)

/-- A call of a method of a logger. -/
def say (o : Outer) (r : LogRecord) : ProgM Unit :=
  PyM.modify fun w => { w with log := w.log.log o.log r }

/-- A message at level INFO. -/
def info (o : Outer) (name : String) (file : String) (msg : String) : ProgM Unit :=
  say o { name := name.toList, levelno := INFO, msg := msg.toList, filename := file.toList }

/-- A message at level DEBUG. -/
def debug (o : Outer) (name : String) (file : String) (msg : String) : ProgM Unit :=
  say o { name := name.toList, levelno := DEBUG, msg := msg.toList, filename := file.toList }

/-- A stage that has its own state, made of the nodes that there are: its messages are given to the
logger in the order in which it made them.  (All of them at its end: nothing else is logged while a stage
runs.) -/
def run {τ β : Type} (o : Outer) (init : Heap → τ) (heap : τ → Heap) (records : τ → List LogRecord)
    (m : Heap → PyM τ β) : ProgM β := fun w =>
  let after (s : τ) : World Sys :=
    { user := { w.user with heap := heap s }, log := (records s).foldl (fun l r => l.log o.log r) w.log }
  match m w.user.heap (init w.user.heap) with
  | .ok b s => .ok b (after s)
  | .err e s => .err e (after s)

/-- `reader.Reader().read` (reader.py:25-48).  A path is looked up as the text it is given as. -/
def read (o : Outer) (path : SrcPath) : ProgM (Val Obj) := do
  info o "RSM.read " "reader.py" "Reading..."
  let open_ (p : Str) : ProgM (Val Obj) := do
    let w ← PyM.get
    match w.user.files p with
    | none => PyM.throw .otherError
    | some src => pure (.str src)
  match path with
  | .none => PyM.throw .typeError
  | .str [] => PyM.throw .typeError
  | .str p => open_ p
  | .path p => open_ p

/-- `f"({row}, {col})"`. -/
def pointText (p : Int × Int) : Str := "(".toList ++ intStr p.1 ++ ", ".toList ++ intStr p.2 ++ ")".toList

/-- The messages of the parser (tsparser.py:454, 466, 569-577). -/
def parserRecord : Parser.PWarning → LogRecord
  | .noBibliography =>
    { name := "RSM.parse", levelno := WARNING, msg := "Found bibtex but no bibliography node", filename := "tsparser.py" }
  | .badBibitem p =>
    { name := "RSM.parse", levelno := WARNING, msg := "Bibitem at ".toList ++ pointText p ++ " has an error".toList,
      filename := "tsparser.py" }
  | .cstErrors a b =>
    { name := "RSM.parse", levelno := WARNING, msg := "The CST contains errors.", start := some a, stop := some b,
      filename := "tsparser.py" }

/-- `tsparser.TSParser().parse` (tsparser.py:154-211).  Every loop of the model of the parser ends within the
bound given. -/
def parse (o : Outer) : Call Sys Obj
  | ⟨[.str src], []⟩ => do
    info o "RSM.parse" "tsparser.py" "Parsing..."
    info o "RSM.parse" "tsparser.py" "Abstractifying..."
    let r ← run o (fun h => { heap := h : Parser.ParserState }) (·.heap) (fun s => s.log.map parserRecord)
      fun _ => Parser.parse (12 * (o.sitter src).size + 1) (o.sitter src)
    pure (.other (.node r))
  | _ => PyM.throw .typeError

/-- The messages of the transformer (transformer.py:169, 178, 228-230, 308). -/
def transformerRecord (t : TWarning) : LogRecord :=
  { name := "RSM.tform", levelno := WARNING, filename := "transformer.py"
    msg := match t with
      | .duplicateLabel l => "Duplicate label ".toList ++ l ++ ", using first encountered".toList
      | .unknownLabel l => "Reference to nonexistent label \"".toList ++ l ++ "\"".toList
      | .unlabeledPrev => ":prev: references un-labeled step, link will not work"
      | .multipleToc => "Multiple Tables of Content found, using only first one" }

/-- `transformer.Transformer().transform` (transformer.py:116-147), which returns the manuscript. -/
def transform (o : Outer) : Call Sys Obj
  | ⟨[.other (.node r)], []⟩ => do
    info o "RSM.tform" "transformer.py" "Transforming..."
    run o (fun h => { heap := h : TState }) (·.heap) (fun s => s.log.map transformerRecord)
      fun h => Transformer.transform (12 * h.next + 1) r
    pure (.other (.node r))
  | _ => PyM.throw .typeError

/-- `linter.Linter().lint` (linter.py:31-38). -/
def lint (o : Outer) : Call Sys Obj
  | ⟨[.other (.node r)], []⟩ => fun w =>
    match Lint.lint o.log (w.user.heap.next + 1) r ⟨w.user.heap, w.log⟩ with
    | .ok r s => .ok (.other (.node r)) { user := { w.user with heap := s.heap }, log := s.log }
    | .err e s => .err e { user := { w.user with heap := s.heap }, log := s.log }
  | _ => PyM.throw .typeError

/-- The messages of the translators (translator.py:1039-1060, 1853). -/
def translatorRecord (t : Tr.Warning) : LogRecord :=
  { name := "RSM.tlate", levelno := WARNING, filename := "translator.py"
    msg := match t with
      | .noJournal l => "Bibitem ".toList ++ l ++ " has no journal".toList
      | .noPublisher l => "Bibitem ".toList ++ l ++ " has no publisher".toList
      | .noYear l => "Bibitem ".toList ++ l ++ " has no year".toList
      | .noDoi l => "Bibitem ".toList ++ l ++ " has no DOI".toList
      | .noLink => "Unable to extract link from {node}" }

/-- Which translator, and what it needs to know.  Only the translator with handrails is told whether to add the
source. -/
def conf (o : Outer) (handrails addSource : Bool) (h : Heap) : Tr.Conf :=
  { handrails := handrails, addSource := !handrails || addSource, highlight := o.highlight, repr := o.repr, fuel := 2 * h.next }

/-- `translate` of `Translator()` or `HandrailsTranslator(add_source)` (translator.py:552-577). -/
def translate (o : Outer) (handrails addSource : Bool) : Call Sys Obj
  | ⟨[.other (.node r)], []⟩ => do
    info o "RSM.tlate" "translator.py" "Translating..."
    let page ← run o (fun h => { heap := h : Tr.TrState }) (·.heap) (fun s => s.log.map translatorRecord)
      fun h => Tr.translate (conf o handrails addSource h) r
    pure (.str page)
  | _ => PyM.throw .typeError

/-- `builder.FullBuilder().build` (builder.py:28-40, 108-115). -/
def build (o : Outer) : Call Sys Obj
  | ⟨[.str body], []⟩ => do
    info o "RSM.build" "builder.py" "Building..."
    debug o "RSM.build" "builder.py" "Searching required static assets..."
    debug o "RSM.build" "builder.py" "Building main file..."
    debug o "RSM.build" "builder.py" "Moving default RSM assets..."
    (if Build.findAssets body ≠ [] then debug o "RSM.build" "builder.py" "Moving user assets..." else pure ())
    let w ← PyM.get
    match Build.fullBuild ⟨o.static, w.user.files⟩ body {} with
    | .ok _ s => pure (.other (.web s.web))
    | .err e _ => PyM.throw e
  | _ => PyM.throw .typeError

/-- `writer.Writer().write` (writer.py:21-23): `copy_fs` writes every file of the web manuscript to the current
directory.  (That the disk can refuse to is not modelled.) -/
def write (_ : Outer) : Call Sys Obj
  | ⟨[.other (.web web)], []⟩ => do
    PyM.modify fun w => { w with user := { w.user with files := fun p => (web.files p).or (w.user.files p) } }
    pure .none
  | _ => PyM.throw .typeError

/-- The stages (app.py:169-178, 202-203, 221-229, 247-248).  The objects kept in the tasks are not looked at. -/
def stages (o : Outer) : Stages Sys Obj where
  read := read o
  parse := parse o
  transform := transform o
  lint := lint o
  translate := translate o false true
  translateHandrails addSource := translate o true addSource
  build := build o
  write := write o
  obj _ := .none

/-- `rsm.render` (app.py:251-270). -/
def render (o : Outer) (source : Str) (path : SrcPath) (handrails addSource : Bool) (a : LogArgs) : ProgM (Val Obj) :=
  appRender o.log (stages o) source path handrails addSource a

/-- `rsm.lint` (app.py:273-289). -/
def lintSource (o : Outer) (source : Str) (path : SrcPath) (handrails : Bool) (a : LogArgs) : ProgM (Val Obj) :=
  appLint o.log (stages o) source path handrails a

/-- `rsm.make` (app.py:292-310). -/
def make (o : Outer) (source : Str) (path : SrcPath) (handrails lint : Bool) (a : LogArgs) : ProgM (Val Obj) :=
  appMake o.log (stages o) source path handrails lint a

end Program
end RSM
