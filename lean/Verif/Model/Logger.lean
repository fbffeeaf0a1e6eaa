import Verif.Model.Nodes

/-!
# `rsm/rsmlogger.py`: the configuration of the "RSM" logger

The parts of Python's `logging` that the module relies on are modelled with it: the level of a
logger, its cache of enabled levels, its handlers and the levels of the handlers.  The loggers of
the other modules (`getChild`) have no level and no handlers of their own, so that they use those
of the "RSM" logger but have a cache of their own.  The root logger is assumed to have no handlers
and its default level (WARNING).  Locks are not modelled.
-/

namespace RSM

/-! ## Python's levels -/

abbrev DEBUG : Int := 10
abbrev INFO : Int := 20
abbrev WARNING : Int := 30
abbrev ERROR : Int := 40
abbrev CRITICAL : Int := 50
/-- `Linter.LINT_LVL` (linter.py:20). -/
abbrev LINT_LVL : Int := 25

/-- A log record.  The positions are those of the `extra` argument, if given. -/
structure LogRecord where
  /-- `record.name`: "RSM" or one of its children. -/
  name : Str := "RSM"
  levelno : Int
  msg : Str
  /-- `record.start_row` and `record.start_col`, given together (linter.py:44-47, tsparser.py:571). -/
  start : Option (Int × Int) := none
  /-- `record.end_row` and `record.end_col`. -/
  stop : Option (Int × Int) := none
  asctime : Str := []
  filename : Str := []
  lineno : Nat := 0
deriving DecidableEq

/-- The formats of `_config_rsm_logger` (rsmlogger.py:167-172). -/
inductive LogFormat
  | json | rsm | lint | plain
deriving DecidableEq, Repr

/-- The lookup of the formatter (rsmlogger.py:167-172); `none` is the `KeyError`. -/
def LogFormat.ofName (s : Str) : Option LogFormat :=
  if s = "json".toList then some .json
  else if s = "rsm".toList then some .rsm
  else if s = "lint".toList then some .lint
  else if s = "plain".toList then some .plain
  else none

/-- A formatter: its class and its arguments. -/
structure LogFormatter where
  fmt : LogFormat
  logTime : Bool
  logLineno : Bool
deriving DecidableEq

/-- A handler of the "RSM" logger: `NullHandler` or a `StreamHandler` with a formatter. -/
structure LogHandler where
  level : Int
  formatter : Option LogFormatter   -- `none` for the `NullHandler`
deriving DecidableEq

/-- The state of the "RSM" logger (and what its handlers have written). -/
structure LogState where
  /-- `logger.level`. -/
  level : Int := 0
  /-- `logger.handlers`; at first only the `NullHandler` of rsmlogger.py:33. -/
  handlers : List LogHandler := [⟨0, none⟩]
  /-- `_cache` of the logger of the given name. -/
  cache : Str → Int → Option Bool := fun _ _ => none
  /-- Whether level 25 has been given the name "LINT" (linter.py:24). -/
  lintNamed : Bool := false
  /-- What the stream handlers have been made to write, oldest first: the record and its text,
  or no text if formatting it failed (`Handler.handleError` then prints a traceback). -/
  written : List (LogRecord × Option Str) := []

/-- The formatting that is not modelled: `ujson.dumps` of the dictionary made from the record. -/
structure LogEnv where
  json : LogFormatter → LogRecord → Str

/-! ## Formatting -/

/-- `logging.getLevelName` after rsmlogger.py:9-13. -/
def levelName (lintNamed : Bool) (l : Int) : Str :=
  if l = DEBUG then "DBG"
  else if l = INFO then "INF"
  else if l = WARNING then "WRN"
  else if l = ERROR then "ERROR"
  else if l = CRITICAL then "CRITICAL"
  else if l = LINT_LVL ∧ lintNamed then "LINT"
  else if l = 0 then "NOTSET"
  else "Level ".toList ++ intStr l

/-- `"%-3s" % s`. -/
def padTo3 (s : Str) : Str := s ++ List.replicate (3 - s.length) ' '

/-- `RSMFormatter.grey`. -/
def ansiGrey : Str := "\x1b[37;2m"
/-- `RSMFormatter.reset`. -/
def ansiReset : Str := "\x1b[0m"

/-- `RSMFormatter.COLORS.get(record.levelno, self.grey)` (rsmlogger.py:54-60). -/
def ansiColor (l : Int) : Str :=
  if l = INFO then "\x1b[37;10m"
  else if l = WARNING then "\x1b[33;20m"
  else if l = ERROR then "\x1b[31;20m"
  else if l = CRITICAL then "\x1b[31;1m"
  else ansiGrey

/-- `RSMFormatter.point` (rsmlogger.py:51, 73): needs all four numbers if `start_row` is there. -/
def rsmPoint (r : LogRecord) : Option Str :=
  match r.start, r.stop with
  | none, _ => some []
  | some _, none => none
  | some (a, b), some (c, d) =>
    some (" | (".toList ++ intStr a ++ ", ".toList ++ intStr b ++ ") - (".toList ++ intStr c
      ++ ", ".toList ++ intStr d ++ ") | ".toList ++ ansiReset)

/-- `RSMFormatter.format` (rsmlogger.py:67-77); `none` is the `ValueError` of a missing field. -/
def rsmFormat (ln : Bool) (f : LogFormatter) (r : LogRecord) : Option Str :=
  (rsmPoint r).map fun pt =>
    (if f.logTime then ansiGrey ++ r.asctime ++ " ".toList ++ ansiReset else [])
      ++ "\x1b[34;1m".toList ++ r.name ++ " ".toList ++ ansiReset
      ++ ansiColor r.levelno ++ padTo3 (levelName ln r.levelno) ++ " | ".toList ++ r.msg ++ ansiReset
      ++ pt ++ ansiGrey ++ " (".toList ++ r.filename ++ ":".toList ++ natStr r.lineno ++ ")".toList
      ++ ansiReset

/-- `LintFormatter.format` (rsmlogger.py:100-118). -/
def lintFormat (ln : Bool) (r : LogRecord) : Str :=
  match r.start with
  | some (a, b) => "src:".toList ++ intStr a ++ ":".toList ++ intStr b ++ ": ".toList
      ++ levelName ln r.levelno ++ ": ".toList ++ r.msg
  | none => "src:1:1: ".toList ++ levelName ln r.levelno ++ ": ".toList ++ r.msg

/-- `formatter.format(record)`. -/
def LogFormatter.format (env : LogEnv) (ln : Bool) (f : LogFormatter) (r : LogRecord) : Option Str :=
  match f.fmt with
  | .json => some (env.json f r)
  | .rsm => rsmFormat ln f r
  | .lint => some (lintFormat ln r)
  | .plain => some r.msg

namespace LogState

/-! ## Python's `Logger` -/

/-- `getEffectiveLevel` of the "RSM" logger and its children: with level 0 the level of the root. -/
def effectiveLevel (s : LogState) : Int := if s.level ≠ 0 then s.level else WARNING

/-- `isEnabledFor`: from the cache, or computed. -/
def enabled (s : LogState) (name : Str) (l : Int) : Bool :=
  match s.cache name l with
  | some b => b
  | none => decide (s.effectiveLevel ≤ l)

/-- The cache after `isEnabledFor`. -/
def remember (s : LogState) (name : Str) (l : Int) : LogState :=
  { s with cache := fun n m => if n = name ∧ m = l then some (s.enabled name l) else s.cache n m }

/-- `handler.handle(record)` (if the level of the handler allows it). -/
def emitTo (env : LogEnv) (r : LogRecord) (s : LogState) (h : LogHandler) : LogState :=
  if h.level ≤ r.levelno then
    match h.formatter with
    | none => s
    | some f => { s with written := s.written ++ [(r, f.format env s.lintNamed r)] }
  else s

/-- `Logger.callHandlers`; without any handler, `logging.lastResort` writes the message of
warnings and worse. -/
def callHandlers (env : LogEnv) (r : LogRecord) (s : LogState) : LogState :=
  if s.handlers = [] then
    (if WARNING ≤ r.levelno then { s with written := s.written ++ [(r, some r.msg)] } else s)
  else s.handlers.foldl (emitTo env r) s

/-- `logger.log(level, msg, extra=…)`. -/
def log (env : LogEnv) (r : LogRecord) (s : LogState) : LogState :=
  if s.enabled r.name r.levelno then callHandlers env r (s.remember r.name r.levelno)
  else s.remember r.name r.levelno

/-- `logger.setLevel(level)`, which clears the caches of all loggers. -/
def setLoggerLevel (l : Int) (s : LogState) : LogState := { s with level := l, cache := fun _ _ => none }

/-! ## `rsmlogger.py` -/

/-- `_set_level` (rsmlogger.py:177-183). -/
def setLevel (level : Int) (s : LogState) : LogState :=
  let level := max level DEBUG
  let s := s.setLoggerLevel level
  { s with handlers := s.handlers.map fun h => if level < h.level then { h with level := level } else h }

/-- `_config_rsm_logger` (rsmlogger.py:164-175). -/
def addHandler (fmt : Str) (logTime logLineno : Bool) : PyM LogState Unit := fun s =>
  match LogFormat.ofName fmt with
  | none => .err .keyError s
  | some f => .ok () { s with handlers := s.handlers ++ [⟨WARNING, some ⟨f, logTime, logLineno⟩⟩] }

end LogState

open LogState in
/-- `config_rsm_logger` (rsmlogger.py:143-162). -/
def configLogger (level : Int) (fmt : Str) (logTime logLineno : Bool) : PyM LogState Unit := do
  PyM.modify fun s => { s with handlers := [] }
  addHandler fmt logTime logLineno
  PyM.modify (setLevel level)

/-- `Linter.__init__` (linter.py:22-29): names level 25, and lowers the level of the logger by
assigning the attribute, which does not clear the caches. -/
def LogState.newLinter (s : LogState) : LogState :=
  { s with lintNamed := true, level := if LINT_LVL < s.level then LINT_LVL else s.level }

/-! ## `GatherHandler` (rsmlogger.py:121-141) -/

/-- A `GatherHandler`. -/
structure Gather where
  /-- `gatherlevels`. -/
  levels : List Int
  /-- `buffer`, oldest first. -/
  buffer : List LogRecord := []

/-- A `GatherHandler` and the state `τ` of its target. -/
structure GatherState (τ : Type) where
  handler : Gather
  target : τ

/-- `emit` (rsmlogger.py:130-132).  It replaces `BufferingHandler.emit`, so that the capacity is
never looked at. -/
def gatherEmit {τ : Type} (r : LogRecord) (s : GatherState τ) : GatherState τ :=
  if r.levelno ∈ s.handler.levels then
    { s with handler := { s.handler with buffer := s.handler.buffer ++ [r] } }
  else s

/-- `flush` (rsmlogger.py:134-141); `target.handle` may raise. -/
def gatherFlush {τ : Type} (handle : Option (LogRecord → PyM τ Unit)) : PyM (GatherState τ) Unit :=
  match handle with
  | none => pure ()
  | some hd => do
    let s ← PyM.get
    PyM.zoom GatherState.target (fun t s => { s with target := t }) (PyM.forEach hd s.handler.buffer)
    PyM.modify fun s => { s with handler := { s.handler with buffer := [] } }

end RSM
