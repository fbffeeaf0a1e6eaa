import Verif.Lemmas.Logger

/-!
# C48, C49 and C53: the logger, the linter's messages, the gathered log
-/

namespace RSM
open PyM LogState

/-- What happens to the logger after it has been configured: log calls (on the "RSM" logger or one
of its children), and linters being made. -/
inductive LogOp
  | log (r : LogRecord)
  | newLinter

/-- Carrying out one of them. -/
def LogOp.run (env : LogEnv) (s : LogState) : LogOp → LogState
  | .log r => s.log env r
  | .newLinter => s.newLinter

/-- Carrying out a sequence of them. -/
def runLogOps (env : LogEnv) (s : LogState) (ops : List LogOp) : LogState := ops.foldl (LogOp.run env) s

theorem runOps_low {env L f} (ops : List LogOp) : ∀ {s}, ConfiguredLow L f s →
    ConfiguredLow L f (runLogOps env s ops) := by
  induction ops with
  | nil => exact fun h => h
  | cons o ops ih =>
    intro s h
    refine ih ?_
    cases o with
    | log r => exact h.log env r
    | newLinter => exact h.newLinter

theorem runOps_logs {env L f} (rs : List LogRecord) : ∀ {s}, Configured L f s →
    Configured L f (runLogOps env s (rs.map .log)) := by
  induction rs with
  | nil => exact fun h => h
  | cons r rs ih => exact fun h => ih (h.log env r)

/-! ## C48 -/

/-- **C48.** A configuration succeeds exactly if its format is one of the four that exist. -/
theorem C48_config_succeeds (L : Int) (fmt : Str) (t l : Bool) (s : LogState) :
    (configLogger L fmt t l s).raised =
      if fmt ∈ ["json".toList, "rsm".toList, "lint".toList, "plain".toList] then none
      else some .keyError := by
  cases h : LogFormat.ofName fmt with
  | some f =>
    obtain ⟨s1, e, _⟩ := config_ok (L := L) (t := t) (l := l) (s := s) h
    rw [e, if_pos]
    · rfl
    · unfold LogFormat.ofName at h
      repeat' split at h
      all_goals first | (cases h; done) | (subst_vars; simp)
  | none =>
    rw [if_neg]
    · simp only [configLogger, bind_apply, modify_apply, addHandler, h]; rfl
    · intro hm
      simp only [List.mem_cons, List.not_mem_nil, or_false] at hm
      rcases hm with rfl | rfl | rfl | rfl <;> cases h

/-- **C48.** Whatever happened to the logger before (`s`: any number of configurations, linters and
log calls), after a configuration with level `L` and any log calls there is exactly one handler, and
a record is written exactly once, in the configured format, if its level is at least
`max(L, DEBUG)`, and not at all otherwise. -/
theorem C48_level_respected (env : LogEnv) (L : Int) (fmt : Str) (t l : Bool) (s s1 : LogState)
    (hok : configLogger L fmt t l s = .ok () s1) (rs : List LogRecord) (r : LogRecord) :
    (runLogOps env s1 (rs.map .log)).handlers.length = 1 ∧
    ∃ f, LogFormat.ofName fmt = some f ∧ ((runLogOps env s1 (rs.map .log)).log env r).written =
      (runLogOps env s1 (rs.map .log)).written ++ (if max L DEBUG ≤ r.levelno then
        [(r, LogFormatter.format env (runLogOps env s1 (rs.map .log)).lintNamed ⟨f, t, l⟩ r)] else []) := by
  cases h : LogFormat.ofName fmt with
  | none =>
    simp only [configLogger, bind_apply, modify_apply, addHandler, h] at hok
    cases hok
  | some f =>
    obtain ⟨s1', e, hc, _⟩ := config_ok (L := L) (t := t) (l := l) (s := s) h
    rw [hok] at e; cases e
    have hc := runOps_logs (env := env) rs hc
    refine ⟨by rw [hc.handlers]; rfl, f, rfl, ?_⟩
    · split
      · rename_i hl
        refine log_written_of_enabled hc.handlers ?_ ?_
        · rw [hc.enabled]; exact decide_eq_true hl
        · unfold handlerLevel; levels
      · rename_i hl
        rw [log_written_of_disabled, List.append_nil]
        rw [hc.enabled]; exact decide_eq_false hl

/-- **C48.** For levels up to WARNING (the default) this stays so when linters are made in between. -/
theorem C48_linters_do_no_harm (env : LogEnv) (L : Int) (fmt : Str) (t l : Bool) (s s1 : LogState)
    (hL : L ≤ WARNING)
    (hok : configLogger L fmt t l s = .ok () s1) (ops : List LogOp) (r : LogRecord) :
    (runLogOps env s1 ops).handlers.length = 1 ∧
    ∃ f, LogFormat.ofName fmt = some f ∧ ((runLogOps env s1 ops).log env r).written =
      (runLogOps env s1 ops).written ++ (if max L DEBUG ≤ r.levelno then
        [(r, LogFormatter.format env (runLogOps env s1 ops).lintNamed ⟨f, t, l⟩ r)] else []) := by
  cases h : LogFormat.ofName fmt with
  | none =>
    simp only [configLogger, bind_apply, modify_apply, addHandler, h] at hok
    cases hok
  | some f =>
    obtain ⟨s1', e, hc, _⟩ := config_ok (L := L) (t := t) (l := l) (s := s) h
    rw [hok] at e; cases e
    have hc := runOps_low (env := env) ops hc.low
    refine ⟨by rw [hc.handlers]; rfl, f, rfl, ?_⟩
    · split
      · rename_i hl
        refine log_written_of_enabled hc.handlers (hc.enabled hl) ?_
        unfold handlerLevel; levels
      · rename_i hl
        rw [log_written_of_low hc.handlers, List.append_nil]
        unfold handlerLevel; levels

/-- **C48.** But not for higher levels: a linter that is made after a configuration with a level
above WARNING makes the logger write warnings again (if none has been logged before, since then
the cache still says that they are off). -/
theorem C48_linter_lowers_level (env : LogEnv) (L : Int) (fmt : Str) (t l : Bool) (s s1 : LogState)
    (hL : WARNING < L) (hok : configLogger L fmt t l s = .ok () s1)
    (rs : List LogRecord) (r : LogRecord) (hr : r.levelno = WARNING)
    (hnew : ∀ r' ∈ rs, r'.levelno ≠ WARNING) :
    ((runLogOps env s1 (rs.map .log)).log env r).written = (runLogOps env s1 (rs.map .log)).written ∧
    ∃ text, ((runLogOps env s1 (rs.map .log)).newLinter.log env r).written =
      (runLogOps env s1 (rs.map .log)).written ++ [(r, text)] := by
  cases h : LogFormat.ofName fmt with
  | none =>
    simp only [configLogger, bind_apply, modify_apply, addHandler, h] at hok
    cases hok
  | some f =>
    obtain ⟨s1', e, hc, _⟩ := config_ok (L := L) (t := t) (l := l) (s := s) h
    have hcache0 : ∀ n, s1'.cache n WARNING = none := by
      intro n
      simp only [configLogger, bind_apply, modify_apply, addHandler, h] at e
      cases e; rfl
    rw [hok] at e; cases e
    have hcache : ∀ n, (runLogOps env s1 (rs.map .log)).cache n WARNING = none := by
      clear hok hc
      rename_i hx; clear hx
      induction rs generalizing s1 with
      | nil => exact hcache0
      | cons a rs ih =>
        refine ih _ (fun x hx => hnew x (by simp [hx])) fun n => ?_
        show (LogState.log env a s1).cache n WARNING = none
        rw [(log_fields env a s1).2.2]
        simp only [remember]
        rw [if_neg, hcache0]
        intro hx
        exact hnew a (by simp) hx.2.symm
    have hc' := runOps_logs (env := env) rs hc
    refine ⟨?_, LogFormatter.format env true ⟨f, t, l⟩ r, ?_⟩
    · refine log_written_of_disabled ?_
      rw [hc'.enabled]
      exact decide_eq_false (by levels)
    · refine log_written_of_enabled (s := (runLogOps env s1 (rs.map .log)).newLinter) hc'.handlers ?_ ?_
      · have h1 : (runLogOps env s1 (rs.map .log)).newLinter.cache r.name r.levelno = none := by
          rw [hr]; exact hcache r.name
        have h2 : (runLogOps env s1 (rs.map .log)).newLinter.level = LINT_LVL := by
          show (if LINT_LVL < _ then LINT_LVL else _) = _
          rw [if_pos]
          rw [hc'.level]; levels
        unfold LogState.enabled effectiveLevel
        rw [h1, h2]
        exact decide_eq_true (by rw [hr]; decide)
      · unfold handlerLevel; levels

/-- A logger that has been configured twice, logged a message and made a linter. -/
example : ∃ s1, configLogger INFO "plain" true true
      ((configLogger ERROR "json" true true {}).state.log ⟨fun _ _ => []⟩ { levelno := ERROR, msg := "x" }).newLinter
        = .ok () s1 ∧
    (s1.log ⟨fun _ _ => []⟩ { levelno := INFO, msg := "shown" }).written.map (·.2) =
      [some [], some "shown".toList] ∧
    (s1.log ⟨fun _ _ => []⟩ { levelno := DEBUG, msg := "hidden" }).written.map (·.2) = [some []] :=
  ⟨_, rfl, by decide, by decide⟩

/-! ## C49 -/

/-- A message of the linter: level LINT, with the start of a node (linter.py:40-47). -/
def IsLint (r : LogRecord) : Prop := r.levelno = LINT_LVL ∧ r.start.isSome ∧ r.stop = none

/-- **C49.** In a lint run (`config_rsm_logger` with level LINT, as `LinterApp` does, whatever level
was asked for), the logger writes every message of the linter, once.  With the formats "lint",
"plain" and "json" the message is formatted; with the format "rsm", which is the default of
`rsm.lint()`, formatting it fails. -/
theorem C49_lint_run (env : LogEnv) (fmt : Str) (t l : Bool) (s s1 : LogState)
    (hok : configLogger LINT_LVL fmt t l s = .ok () s1) (ops : List LogOp) (r : LogRecord)
    (hr : IsLint r) :
    ∃ text, ((runLogOps env s1 ops).log env r).written = (runLogOps env s1 ops).written ++ [(r, text)] ∧
      (text = none ↔ fmt = "rsm".toList) := by
  cases h : LogFormat.ofName fmt with
  | none =>
    simp only [configLogger, bind_apply, modify_apply, addHandler, h] at hok
    cases hok
  | some f =>
    obtain ⟨s1', e, hc, _⟩ := config_ok (L := LINT_LVL) (t := t) (l := l) (s := s) h
    rw [hok] at e; cases e
    have hc := runOps_low (env := env) ops hc.low
    obtain ⟨h1, h2, h3⟩ := hr
    refine ⟨_, log_written_of_enabled hc.handlers (hc.enabled ?_) ?_, ?_⟩
    · rw [h1]; decide
    · rw [h1]; decide
    · have hf : f = .rsm ↔ fmt = "rsm".toList := by
        constructor
        · rintro rfl
          unfold LogFormat.ofName at h
          repeat' split at h
          all_goals first | (cases h; done) | assumption
        · rintro rfl; cases h; rfl
      rw [← hf]
      cases f <;> simp [LogFormatter.format, rsmFormat, rsmPoint]
      cases hs : r.start with
      | none => rw [hs] at h2; cases h2
      | some p => rw [h3]

/-- With the format "lint" the text is the place, the level and the message. -/
theorem C49_lint_text (env : LogEnv) (t l : Bool) (s s1 : LogState)
    (hok : configLogger LINT_LVL "lint".toList t l s = .ok () s1) (ops : List LogOp) (msg : Str)
    (row col : Int) :
    ((runLogOps env (s1.newLinter) ops).log env
        { levelno := LINT_LVL, msg := msg, start := some (row, col) }).written =
      (runLogOps env (s1.newLinter) ops).written ++
        [({ levelno := LINT_LVL, msg := msg, start := some (row, col) },
          some ("src:".toList ++ intStr row ++ ":".toList ++ intStr col ++ ": LINT: ".toList ++ msg))] := by
  obtain ⟨s1', e, hc, _⟩ := config_ok (L := LINT_LVL) (t := t) (l := l) (s := s)
    (fmt := "lint".toList) (f := .lint) rfl
  rw [hok] at e; cases e
  have hc := runOps_low (env := env) ops hc.low.newLinter
  have hn : ∀ (ops : List LogOp) (s : LogState), s.lintNamed = true →
      (runLogOps env s ops).lintNamed = true := by
    intro ops
    induction ops with
    | nil => exact fun _ h => h
    | cons o ops ih =>
      intro s hs
      refine ih _ ?_
      cases o with
      | log r => exact (log_fields env r s).2.1.trans hs
      | newLinter => rfl
  rw [log_written_of_enabled hc.handlers (hc.enabled (l := LINT_LVL) (by decide)) (show handlerLevel LINT_LVL ≤ LINT_LVL by decide), hn ops s1.newLinter rfl]
  simp only [LogFormatter.format, lintFormat, List.append_assoc]
  rfl

/-- **C49.** In a processing run with a linter (`config_rsm_logger` with the level `L` of the user,
then log calls, then `Linter()`, then log calls), a message of the linter is written if and only if
`L` is at most LINT.  So with the default level WARNING no message of the linter is ever written. -/
theorem C49_processing_run (env : LogEnv) (L : Int) (fmt : Str) (t l : Bool) (s s1 : LogState)
    (hok : configLogger L fmt t l s = .ok () s1) (ops : List LogOp) (r : LogRecord)
    (hr : IsLint r) :
    ∃ text, ((runLogOps env s1 ops).log env r).written =
      (runLogOps env s1 ops).written ++ (if L ≤ LINT_LVL then [(r, text)] else []) := by
  cases h : LogFormat.ofName fmt with
  | none =>
    simp only [configLogger, bind_apply, modify_apply, addHandler, h] at hok
    cases hok
  | some f =>
    obtain ⟨s1', e, hc, _⟩ := config_ok (L := L) (t := t) (l := l) (s := s) h
    rw [hok] at e; cases e
    have hc := runOps_low (env := env) ops hc.low
    have h1 := hr.1
    refine ⟨LogFormatter.format env (runLogOps env s1 ops).lintNamed ⟨f, t, l⟩ r, ?_⟩
    split
    · rename_i hl
      refine log_written_of_enabled hc.handlers (hc.enabled ?_) ?_
      · levels
      · unfold handlerLevel; levels
    · rename_i hl
      rw [log_written_of_low hc.handlers, List.append_nil]
      unfold handlerLevel; levels

theorem C49_default_level_hides (env : LogEnv) (fmt : Str) (t l : Bool) (s s1 : LogState)
    (hok : configLogger WARNING fmt t l s = .ok () s1) (ops : List LogOp) (r : LogRecord)
    (hr : IsLint r) : ((runLogOps env s1 ops).log env r).written = (runLogOps env s1 ops).written := by
  obtain ⟨text, h⟩ := C49_processing_run env WARNING fmt t l s s1 hok ops r hr
  rw [h, if_neg (by decide), List.append_nil]

/-- There are such runs, and messages of the linter. -/
example : IsLint { levelno := LINT_LVL, msg := "Section with no label", start := some (3, 1) } ∧
    (configLogger LINT_LVL "lint" true true {}).raised = none ∧
    (configLogger WARNING "rsm" true true {}).raised = none := by
  refine ⟨⟨rfl, rfl, rfl⟩, rfl, rfl⟩

/-! ## C53 -/

/-- A call on a `GatherHandler`. -/
inductive GatherOp
  | emit (r : LogRecord)
  | flush

/-- The records among the calls whose level the handler gathers. -/
def accepted (levels : List Int) (ops : List GatherOp) : List LogRecord :=
  ops.filterMap fun
    | .emit r => if r.levelno ∈ levels then some r else none
    | .flush => none

/-- Carrying out a call; the target keeps the records it is given. -/
def GatherOp.run (hasTarget : Bool) (s : GatherState (List LogRecord)) : GatherOp → GatherState (List LogRecord)
  | .emit r => gatherEmit r s
  | .flush => (gatherFlush (if hasTarget then some fun r => PyM.modify fun l => l ++ [r] else none) s).state

theorem forEach_collect (rs : List LogRecord) (l : List LogRecord) :
    PyM.forEach (fun r => PyM.modify fun l => l ++ [r]) rs l = .ok () (l ++ rs) := by
  induction rs generalizing l with
  | nil => simp
  | cons r rs ih => simp only [PyM.forEach_cons, PyM.modify_apply, ih]; simp

theorem flush_collect (s : GatherState (List LogRecord)) :
    gatherFlush (some fun r => PyM.modify fun l => l ++ [r]) s =
      .ok () ⟨{ s.handler with buffer := [] }, s.target ++ s.handler.buffer⟩ := by
  simp only [gatherFlush, bind_apply, get_apply, PyM.zoom, forEach_collect, modify_apply]

/-- **C53.** After any sequence of `emit` and `flush` calls: the records that have been passed to the
target, followed by those in the buffer, are exactly the records whose level is gathered, in order
and each once.  With a target, everything up to the last `flush` has been passed on. -/
theorem C53_exactly_once (levels : List Int) (ops : List GatherOp) :
    let s := ops.foldl (GatherOp.run true) ⟨{ levels := levels }, []⟩
    s.target ++ s.handler.buffer = accepted levels ops ∧
    (∀ before after : List GatherOp, ops = before ++ .flush :: after →
      accepted levels before <+: s.target) := by
  have key : ∀ (ops : List GatherOp) (s : GatherState (List LogRecord)), s.handler.levels = levels →
      let s' := ops.foldl (GatherOp.run true) s
      s'.handler.levels = levels ∧
      s'.target ++ s'.handler.buffer = s.target ++ s.handler.buffer ++ accepted levels ops ∧
      s.target <+: s'.target := by
    intro ops
    induction ops with
    | nil => intro s h; simp [accepted, h]
    | cons o ops ih =>
      intro s h
      cases o with
      | emit r =>
        by_cases hr : r.levelno ∈ levels
        · have e : GatherOp.run true s (.emit r) =
            { s with handler := { s.handler with buffer := s.handler.buffer ++ [r] } } := by
            simp [GatherOp.run, gatherEmit, h, hr]
          have := ih (GatherOp.run true s (.emit r)) (by rw [e]; exact h)
          simp only [List.foldl_cons]
          refine ⟨this.1, ?_, ?_⟩
          · rw [this.2.1, e]; simp [accepted, hr]
          · have h3 := this.2.2; rw [e] at h3 ⊢; exact h3
        · have e : GatherOp.run true s (.emit r) = s := by simp [GatherOp.run, gatherEmit, h, hr]
          have := ih s h
          simp only [List.foldl_cons, e]
          refine ⟨this.1, ?_, this.2.2⟩
          rw [this.2.1]; simp [accepted, hr]
      | flush =>
        have e : GatherOp.run true s .flush =
            ⟨{ s.handler with buffer := [] }, s.target ++ s.handler.buffer⟩ := by
          simp only [GatherOp.run, if_true, flush_collect]; rfl
        have := ih (GatherOp.run true s .flush) (by rw [e]; exact h)
        simp only [List.foldl_cons]
        refine ⟨this.1, ?_, ?_⟩
        · rw [this.2.1, e]; simp [accepted]
        · refine List.IsPrefix.trans ?_ this.2.2
          rw [e]; exact List.prefix_append _ _
  refine ⟨?_, ?_⟩
  · have := (key ops ⟨{ levels := levels }, []⟩ rfl).2.1
    simpa using this
  · rintro before after rfl
    rw [List.foldl_append, List.foldl_cons]
    have h1 := key before ⟨{ levels := levels }, []⟩ rfl
    have e : GatherOp.run true (before.foldl (GatherOp.run true) ⟨{ levels := levels }, []⟩) .flush =
        ⟨{ (before.foldl (GatherOp.run true) ⟨{ levels := levels }, []⟩).handler with buffer := [] },
          (before.foldl (GatherOp.run true) ⟨{ levels := levels }, []⟩).target ++
          (before.foldl (GatherOp.run true) ⟨{ levels := levels }, []⟩).handler.buffer⟩ := by
      simp only [GatherOp.run, if_true, flush_collect]; rfl
    rw [e]
    have h2 := (key after ⟨{ (before.foldl (GatherOp.run true) ⟨{ levels := levels }, []⟩).handler with buffer := [] },
          (before.foldl (GatherOp.run true) ⟨{ levels := levels }, []⟩).target ++
          (before.foldl (GatherOp.run true) ⟨{ levels := levels }, []⟩).handler.buffer⟩ h1.1).2.2
    have h3 := h1.2.1
    simp only [List.nil_append] at h3
    rw [← h3]
    exact h2

/-- **C53.** `flush` empties the buffer, and passes exactly its records to the target, in order. -/
theorem C53_flush (s : GatherState (List LogRecord)) :
    gatherFlush (some fun r => PyM.modify fun l => l ++ [r]) s =
      .ok () ⟨⟨s.handler.levels, []⟩, s.target ++ s.handler.buffer⟩ := flush_collect s

/-- **C53.** Without a target nothing is passed on and nothing is lost. -/
theorem C53_no_target (levels : List Int) (ops : List GatherOp) :
    let s := ops.foldl (GatherOp.run false) ⟨{ levels := levels }, []⟩
    s.target = [] ∧ s.handler.buffer = accepted levels ops := by
  have key : ∀ (ops : List GatherOp) (s : GatherState (List LogRecord)), s.handler.levels = levels →
      let s' := ops.foldl (GatherOp.run false) s
      s'.target = s.target ∧ s'.handler.buffer = s.handler.buffer ++ accepted levels ops := by
    intro ops
    induction ops with
    | nil => intro s h; simp [accepted]
    | cons o ops ih =>
      intro s h
      cases o with
      | emit r =>
        by_cases hr : r.levelno ∈ levels
        · have e : GatherOp.run false s (.emit r) =
            { s with handler := { s.handler with buffer := s.handler.buffer ++ [r] } } := by
            simp [GatherOp.run, gatherEmit, h, hr]
          have := ih (GatherOp.run false s (.emit r)) (by rw [e]; exact h)
          simp only [List.foldl_cons]
          refine ⟨this.1.trans (by rw [e]), ?_⟩
          rw [this.2, e]; simp [accepted, hr]
        · have e : GatherOp.run false s (.emit r) = s := by simp [GatherOp.run, gatherEmit, h, hr]
          have := ih s h
          simp only [List.foldl_cons, e]
          refine ⟨this.1, ?_⟩
          rw [this.2]; simp [accepted, hr]
      | flush =>
        have e : GatherOp.run false s .flush = s := rfl
        have := ih s h
        simp only [List.foldl_cons, e]
        exact ⟨this.1, this.2.trans (by simp [accepted])⟩
  simpa using key ops ⟨{ levels := levels }, []⟩ rfl

/-- **C53.** If the target raises, the buffer is kept as it is: the next `flush` passes the records
again from the first one on. -/
theorem C53_target_raises {τ : Type} (handle : LogRecord → PyM τ Unit) (s s' : GatherState τ) (e : PyErr)
    (h : gatherFlush (some handle) s = .err e s') : s'.handler = s.handler := by
  simp only [gatherFlush, bind_apply, get_apply, PyM.zoom] at h
  cases hf : PyM.forEach handle s.handler.buffer s.target with
  | ok a t => rw [hf] at h; simp only [modify_apply] at h; cases h
  | err x t => rw [hf] at h; cases h; rfl

/-- A warning, an info and a warning: two records are gathered and passed on. -/
example :
    let ops := [GatherOp.emit { levelno := WARNING, msg := "a" }, .emit { levelno := INFO, msg := "b" },
      .flush, .emit { levelno := WARNING, msg := "c" }]
    let s := ops.foldl (GatherOp.run true) ⟨{ levels := [WARNING] }, []⟩
    s.target.map (·.msg) = ["a".toList] ∧ s.handler.buffer.map (·.msg) = ["c".toList] := by
  decide

/-- A target that raises on the second record. -/
example : ∃ e s', gatherFlush (τ := Nat) (some fun r => if r.levelno = ERROR then PyM.throw .otherError
      else PyM.modify (· + 1))
    ⟨{ levels := [WARNING, ERROR], buffer := [{ levelno := WARNING, msg := "a" }, { levelno := ERROR, msg := "b" }] }, 0⟩
      = .err e s' ∧ s'.target = 1 := ⟨_, _, rfl, rfl⟩

end RSM
