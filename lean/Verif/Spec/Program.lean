import Verif.Model.Program

/-!
# What `render`, `lint` and `make` do: the stages in a row

For C83 – C85.  `Compiled`, `Rendered`, `Linted` and `Builds` say how the stages follow each other: what
comes out, which objects and files there are in the end, and which messages have been given to the logger.
-/

namespace RSM
namespace Program

/-- A result with the state in which it was reached. -/
def result {σ α : Type} : Except PyErr α → σ → Res σ α
  | .ok v, s => .ok v s
  | .error e, s => .err e s

/-- The text that is compiled: the given source; or, if it is empty, the contents of the file at the given
path. -/
inductive SourceText (files : Str → Option Str) : Str → SrcPath → Str → Prop
  | given {src : Str} {path : SrcPath} : src ≠ [] → (path = .none ∨ path = .str []) → SourceText files src path src
  | file {p src : Str} : p ≠ [] → files p = some src → SourceText files [] (.str p) src
  | path {p src : Str} : files p = some src → SourceText files [] (.path p) src

/-- A message at level INFO. -/
def note (name : String) (file : String) (msg : String) : LogRecord :=
  { name := name.toList, levelno := INFO, msg := msg.toList, filename := file.toList }

/-- The messages before the source is parsed: "Reading..." only if it is read from a file. -/
def startMessages (source : Str) : List LogRecord :=
  [note "RSM" "app.py" "Application started", note "RSM" "app.py" "Configuring..."] ++
    if source = [] then [note "RSM.read " "reader.py" "Reading..."] else []

/-- A message at level WARNING, of the given pieces. -/
def warning (name : String) (file : String) (msg : List Str) : LogRecord :=
  { name := name.toList, levelno := WARNING, msg := msg.flatten, filename := file.toList }

/-- What the parser says of what it finds. -/
def parserWarning : Parser.PWarning → LogRecord
  | .noBibliography => warning "RSM.parse" "tsparser.py" ["Found bibtex but no bibliography node".toList]
  | .badBibitem p => warning "RSM.parse" "tsparser.py"
      ["Bibitem at (".toList, intStr p.1, ", ".toList, intStr p.2, ") has an error".toList]
  | .cstErrors a b => { warning "RSM.parse" "tsparser.py" ["The CST contains errors.".toList] with start := a, stop := b }

/-- What the transformer says. -/
def transformerWarning : TWarning → LogRecord
  | .duplicateLabel l => warning "RSM.tform" "transformer.py" ["Duplicate label ".toList, l, ", using first encountered".toList]
  | .unknownLabel l => warning "RSM.tform" "transformer.py" ["Reference to nonexistent label \"".toList, l, "\"".toList]
  | .unlabeledPrev => warning "RSM.tform" "transformer.py" [":prev: references un-labeled step, link will not work".toList]
  | .multipleToc => warning "RSM.tform" "transformer.py" ["Multiple Tables of Content found, using only first one".toList]

/-- What the translators say: of an entry of the bibliography, by its label, what it lacks. -/
def translatorWarning : Tr.Warning → LogRecord
  | .noJournal l => warning "RSM.tlate" "translator.py" ["Bibitem ".toList, l, " has no journal".toList]
  | .noPublisher l => warning "RSM.tlate" "translator.py" ["Bibitem ".toList, l, " has no publisher".toList]
  | .noYear l => warning "RSM.tlate" "translator.py" ["Bibitem ".toList, l, " has no year".toList]
  | .noDoi l => warning "RSM.tlate" "translator.py" ["Bibitem ".toList, l, " has no DOI".toList]
  | .noLink => warning "RSM.tlate" "translator.py" ["Unable to extract link from {node}".toList]

/-- The messages of a run of the parser. -/
def parserMessages (l : List Parser.PWarning) : List LogRecord :=
  [note "RSM.parse" "tsparser.py" "Parsing...", note "RSM.parse" "tsparser.py" "Abstractifying..."] ++ l.map parserWarning

/-- The messages of a run of the transformer. -/
def transformerMessages (l : List TWarning) : List LogRecord :=
  note "RSM.tform" "transformer.py" "Transforming..." :: l.map transformerWarning

/-- The messages of a run of a translator. -/
def translatorMessages (l : List Tr.Warning) : List LogRecord :=
  note "RSM.tlate" "translator.py" "Translating..." :: l.map translatorWarning

/-- The messages of a run of the builder. -/
def builderMessages (body : Str) : List LogRecord :=
  let debug (msg : String) : LogRecord := { note "RSM.build" "builder.py" msg with levelno := DEBUG }
  [note "RSM.build" "builder.py" "Building...", debug "Searching required static assets...",
    debug "Building main file...", debug "Moving default RSM assets..."] ++
    if Build.findAssets body ≠ [] then [debug "Moving user assets..."] else []

/-- The parser makes a manuscript of the source, and the transformer changes it. -/
inductive Compiled (o : Outer) (h : Heap) (src : Str) : Except PyErr Ref → Heap → List LogRecord → Prop
  | unparsed {e s} : Parser.parse (12 * (o.sitter src).size + 1) (o.sitter src) { heap := h } = .err e s →
      Compiled o h src (.error e) s.heap (parserMessages s.log)
  | untransformed {r s e s'} : Parser.parse (12 * (o.sitter src).size + 1) (o.sitter src) { heap := h } = .ok r s →
      Transformer.transform (12 * s.heap.next + 1) r { heap := s.heap } = .err e s' →
      Compiled o h src (.error e) s'.heap (parserMessages s.log ++ transformerMessages s'.log)
  | done {r s s'} : Parser.parse (12 * (o.sitter src).size + 1) (o.sitter src) { heap := h } = .ok r s →
      Transformer.transform (12 * s.heap.next + 1) r { heap := s.heap } = .ok () s' →
      Compiled o h src (.ok r) s'.heap (parserMessages s.log ++ transformerMessages s'.log)

/-- A translator makes a page of what the transformer leaves. -/
inductive Rendered (o : Outer) (h : Heap) (handrails addSource : Bool) (src : Str) :
    Except PyErr Str → Heap → List LogRecord → Prop
  | stopped {e h' rs} : Compiled o h src (.error e) h' rs → Rendered o h handrails addSource src (.error e) h' rs
  | untranslated {r h' rs e s} : Compiled o h src (.ok r) h' rs →
      Tr.translate (conf o handrails addSource h') r { heap := h' } = .err e s →
      Rendered o h handrails addSource src (.error e) s.heap (rs ++ translatorMessages s.log)
  | done {r h' rs page s} : Compiled o h src (.ok r) h' rs →
      Tr.translate (conf o handrails addSource h') r { heap := h' } = .ok page s →
      Rendered o h handrails addSource src (.ok page) s.heap (rs ++ translatorMessages s.log)

/-- The builder makes the files of the web manuscript of the page; they are written over the ones that there
are. -/
inductive Builds (o : Outer) (u : Sys) (handrails : Bool) (src : Str) : Except PyErr Unit → Sys → List LogRecord → Prop
  | stopped {e h' rs} : Rendered o u.heap handrails true src (.error e) h' rs →
      Builds o u handrails src (.error e) ⟨h', u.files⟩ rs
  | unbuilt {page h' rs e s} : Rendered o u.heap handrails true src (.ok page) h' rs →
      Build.fullBuild ⟨o.static, u.files⟩ page {} = .err e s →
      Builds o u handrails src (.error e) ⟨h', u.files⟩ (rs ++ builderMessages page)
  | done {page h' rs s} : Rendered o u.heap handrails true src (.ok page) h' rs →
      Build.fullBuild ⟨o.static, u.files⟩ page {} = .ok () s →
      Builds o u handrails src (.ok ()) ⟨h', fun p => (s.web.files p).or (u.files p)⟩ (rs ++ builderMessages page)

/-- What the user gets: the exception, except that the one of the parser becomes the empty text. -/
def userResult : Except PyErr (Val Obj) → Except PyErr (Val Obj)
  | .error .rsmParserError => .ok (.str [])
  | x => x

/-- The last message: that there was an error of the parser, or that all is done, or none. -/
def lastMessages : Except PyErr (Val Obj) → List LogRecord
  | .ok _ => [note "RSM" "app.py" "Done."]
  | .error .rsmParserError => [{ note "RSM" "app.py" "There was an error: " with levelno := ERROR }]
  | .error _ => []

/-- What a logger of the given level writes of some messages: those of at least this level (and of at least
DEBUG), in the given format. -/
def heard (env : LogEnv) (level : Int) (f : LogFormatter) (lintNamed : Bool) (rs : List LogRecord) :
    List (LogRecord × Option Str) :=
  (rs.filter fun r => decide (max level DEBUG ≤ r.levelno)).map fun r => (r, f.format env lintNamed r)

end Program
end RSM
