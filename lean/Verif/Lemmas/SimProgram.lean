import Verif.Lemmas.SimTr
import Verif.Lemmas.SimRepr
import Verif.Spec.Program

/-!
# The whole program, twice

For C87.
-/

namespace RSM
namespace History
open PyM Program

variable {n N : Nat} {r : Ref}

/-! ## The linter -/

/-- The states of two linters. -/
structure TwinL (n : Nat) (s0 s : LintState) : Prop where
  heap : Twin n s0.heap s.heap
  log : s.log = s0.log

/-- Code of the linter. -/
def linters (n : Nat) : Pairing LintState := ⟨fun s => s.heap.next, TwinL n⟩

theorem s_readL {α : Type} {k : Kind α} {f0 f : LintState → LintM α}
    (hf : ∀ s0 s, TwinL n s0 s → N ≤ s0.heap.next → Sim (linters n) k s0.heap.next (f0 s0) (f s)) :
    Sim (linters n) k N (PyM.get >>= f0) (PyM.get >>= f) := s_get hf

theorem s_emitL (env : LogEnv) (m : LogRecord) : Sim (linters n) plain N (Lint.emit env m) (Lint.emit env m) :=
  s_modify fun s0 s h _ => by
    have h : TwinL n s0 s := h
    exact ⟨⟨h.heap, by show s.log.log _ _ = s0.log.log _ _; rw [h.log]⟩, Nat.le_refl _⟩

theorem s_report (env : LogEnv) (msg : Str) (hr : r < N) :
    Sim (linters n) plain N (Lint.report env msg r) (Lint.report env msg (r + n)) := by
  refine s_readL fun s0 s T hm => ?_
  dsimp only
  rw [T.heap.get r (by omega)]
  exact s_emitL env _

theorem s_lintTitle (env : LogEnv) (hr : r < N) :
    Sim (linters n) plain N (Lint.lintTitle env r) (Lint.lintTitle env (r + n)) := by
  refine s_readL fun s0 s T hm => ?_
  rw [T.heap.get r (by omega)]
  exact s_ite Iff.rfl (fun _ => s_ite Iff.rfl (fun _ => s_report env _ (by omega)) fun _ => s_unit) fun _ => s_throw _

theorem s_nodesOf {k k' : Nat} (hk : k ≤ k') (hr : r < N) (c : Cls) :
    Sim (linters n) (list (ref n)) N (Lint.nodesOf k r c) (Lint.nodesOf k' (r + n) c) := by
  refine s_readL fun s0 s T hm => ?_
  cases e : s0.heap.traverse (fun x => s0.heap.isInst x c) k [r] with
  | none => exact s_outOfFuel
  | some l =>
    obtain ⟨e2, hl⟩ := T.heap.traverse (c := fun r => s.heap.isInst r c) (fun r hr => T.heap.isInst hr _) hk
      (one_lt (show r < s0.heap.next by omega)) e
    simp only [List.map_cons, List.map_nil] at e2
    rw [e2]
    exact s_pure hl rfl

theorem s_lintSection (env : LogEnv) (hr : r < N) :
    Sim (linters n) plain N (Lint.lintSection env r) (Lint.lintSection env (r + n)) := by
  refine s_readL fun s0 s T hm => ?_
  rw [T.heap.get r (by omega)]
  exact s_ite Iff.rfl (fun _ => s_report env _ (by omega)) fun _ => s_unit

theorem s_lintMathBlock (env : LogEnv) (hr : r < N) :
    Sim (linters n) plain N (Lint.lintMathBlock env r) (Lint.lintMathBlock env (r + n)) := by
  refine s_readL fun s0 s T hm => ?_
  have hr : r < s0.heap.next := by omega
  have hp := T.heap.par hr
  have e1 : Lint.parentIsParagraph s.heap (r + n) = Lint.parentIsParagraph s0.heap r := by
    unfold Lint.parentIsParagraph
    rw [T.heap.parent hr]
    cases e : s0.heap.parent r with
    | none => rfl
    | some p => exact T.heap.isInst (hp p e) _
  have e2 : Lint.typeRepr s.heap (s.heap.parent (r + n)) = Lint.typeRepr s0.heap (s0.heap.parent r) := by
    rw [T.heap.parent hr]
    cases e : s0.heap.parent r with
    | none => rfl
    | some p =>
      show "<class 'rsm.nodes.".toList ++ (s.heap.get (p + n)).cls.name ++ "'>".toList = _
      rw [T.heap.get p (hp p e)]
      rfl
  rw [e1, e2]
  exact s_ite Iff.rfl (fun _ => s_unit) fun _ => s_report env _ hr

theorem s_lint (env : LogEnv) {k k' : Nat} (hk : k ≤ k') (hr : r < N) :
    Sim (linters n) (ref n) N (Lint.lint env k r) (Lint.lint env k' (r + n)) := by
  refine s_then (s_emitL env _) fun M1 _ h1 => s_then (s_lintTitle env (by omega)) fun M2 _ h2 => ?_
  refine s_then (s_bind (s_nodesOf hk (by omega) _) fun M l hM hl =>
    s_forEach (k := ref n) (fun K a _ ha => s_lintSection env ha) hl) fun M3 _ h3 => ?_
  refine s_then (s_bind (s_nodesOf hk (by omega) _) fun M l hM hl =>
    s_forEach (k := ref n) (fun K a _ ha => s_lintMathBlock env ha) hl) fun M4 _ h4 => ?_
  exact s_pure (show r < M4 by omega) rfl

/-! ## The stages -/

/-- The states of two programs. -/
structure TwinW (n : Nat) (w0 w : World Sys) : Prop where
  heap : Twin n w0.user.heap w.user.heap
  files : w.user.files = w0.user.files
  log : w.log = w0.log

/-- Code of the program. -/
def worlds (n : Nat) : Pairing (World Sys) := ⟨fun w => w.user.heap.next, TwinW n⟩

/-- The values that the stages hand on. -/
inductive ValOk (N : Nat) : Val Obj → Prop
  | none : ValOk N .none
  | str (s : Str) : ValOk N (.str s)
  | node {r : Ref} : r < N → ValOk N (.other (.node r))
  | web (x : Build.Web) : ValOk N (.other (.web x))

/-- Values. -/
def vals (n : Nat) : Kind (Val Obj) := ⟨ValOk, shiftVal n, fun h h1 => by
  cases h1 with
  | none => exact .none
  | str s => exact .str s
  | node hr => exact .node (Nat.lt_of_lt_of_le hr h)
  | web x => exact .web x⟩

theorem s_say (o : Outer) (m : LogRecord) : Sim (worlds n) plain N (say o m) (say o m) :=
  s_modify fun s0 s h _ => by
    have h : TwinW n s0 s := h
    exact ⟨⟨h.heap, h.files, by show s.log.log _ _ = s0.log.log _ _; rw [h.log]⟩, Nat.le_refl _⟩

theorem s_run {τ β : Type} {ρ : Pairing τ} {k : Kind β} (o : Outer) {init : Heap → τ} {heap : τ → Heap}
    {records : τ → List LogRecord} {m0 m : Heap → PyM τ β}
    (hs : ∀ s0 s, ρ.rel s0 s → Twin n (heap s0) (heap s) ∧ records s = records s0)
    (hn : ∀ s0, ρ.size s0 = (heap s0).next)
    (hm : ∀ h0 h, Twin n h0 h → N ≤ h0.next → Alike ρ k h0.next (m0 h0 (init h0)) (m h (init h))) :
    Sim (worlds n) k N (Program.run o init heap records m0) (Program.run o init heap records m) := by
  intro w0 w T hN
  have T : TwinW n w0 w := T
  have A := hm _ _ T.heap hN
  unfold Program.run
  generalize m0 w0.user.heap (init w0.user.heap) = x at A
  generalize m w.user.heap (init w.user.heap) = y at A
  cases A with
  | @ok a b s0 s R h1 h2 h3 =>
    obtain ⟨t1, t2⟩ := hs _ _ R
    rw [hn] at h1 h2
    exact .ok ⟨t1, T.files, by dsimp only; rw [t2, T.log]⟩ h1 h2 h3
  | @err e s0 s R h1 =>
    obtain ⟨t1, t2⟩ := hs _ _ R
    rw [hn] at h1
    exact .err ⟨t1, T.files, by dsimp only; rw [t2, T.log]⟩ h1
  | fuel => exact .fuel

/-- A callable behaves alike in the two runs. -/
def Stage (n : Nat) (c : Call Sys Obj) : Prop :=
  ∀ N v, ValOk N v → Sim (worlds n) (vals n) N (Pipeline.step c v) (Pipeline.step c (shiftVal n v))

theorem s_reader (o : Outer) (p : SrcPath) : Sim (worlds n) (vals n) N (read o p) (read o p) := by
  have op : ∀ (M : Nat) (p : Str), Sim (worlds n) (vals n) M
      (do let w ← PyM.get
          match w.user.files p with
          | none => PyM.throw .otherError
          | some src => pure (.str src))
      (do let w ← PyM.get
          match w.user.files p with
          | none => PyM.throw .otherError
          | some src => pure (.str src)) := by
    intro M p
    refine s_get fun w0 w T hm => ?_
    have T : TwinW n w0 w := T
    rw [T.files]
    cases w0.user.files p with
    | none => exact s_throw _
    | some x => exact s_pure (.str x) rfl
  refine s_then (s_say o _) fun M _ hM => ?_
  cases p with
  | none => exact s_throw _
  | path p => exact op M p
  | str p =>
    cases p with
    | nil => exact s_throw _
    | cons c p => exact op M (c :: p)

theorem g_noArgs {m : ProgM (Val Obj)} (h : ∀ N, Sim (worlds n) (vals n) N m m) : Stage n (noArgs m) := by
  intro N v hv
  cases hv with
  | none => exact h N
  | str s => exact s_throw _
  | node hr => exact s_throw _
  | web x => exact s_throw _

theorem g_parse (o : Outer) : Stage n (parse o) := by
  intro N v hv
  cases hv with
  | none => exact s_throw _
  | node hr => exact s_throw _
  | web x => exact s_throw _
  | str s =>
    refine s_then (s_say o _) fun M1 _ h1 => s_then (s_say o _) fun M2 _ h2 => ?_
    refine s_bind (k := ref n) (s_run (ρ := tsParsers n) o (fun s0 s R => ?_) (fun _ => rfl) fun h0 h T hm => ?_) fun M3 r h3 hr => ?_
    · have R : TwinTS n s0 s := R
      exact ⟨R.heap, by rw [R.log]⟩
    · exact s_parse (N := h0.next) _ _ { heap := h0 } { heap := h } ⟨T, rfl⟩ (Nat.le_refl _)
    · exact s_pure (.node hr) rfl

theorem g_transform (o : Outer) : Stage n (transform o) := by
  intro N v hv
  cases hv with
  | none => exact s_throw _
  | str s => exact s_throw _
  | web x => exact s_throw _
  | @node r hr =>
    refine s_then (s_say o _) fun M1 _ h1 => ?_
    refine s_then (s_run (ρ := trans n) o (fun s0 s R => ?_) (fun _ => rfl) fun h0 h T hm => ?_) fun M3 _ h3 => ?_
    · have R : TwinT n s0 s := R
      exact ⟨R.heap, by rw [R.log]⟩
    · exact s_transform (N := h0.next) (by rw [T.next]; omega) (by omega) { heap := h0 } { heap := h }
        ⟨T, rfl, fun _ h => (by cases h), rfl⟩ (Nat.le_refl _)
    · exact s_pure (.node (by omega)) rfl

/-- What the stage makes of what the linter gives. -/
def linted (w : World Sys) (x : Res LintState Ref) : Res (World Sys) (Val Obj) :=
  match x with
  | .ok r s => .ok (.other (.node r)) { user := { w.user with heap := s.heap }, log := s.log }
  | .err e s => .err e { user := { w.user with heap := s.heap }, log := s.log }

theorem lint_linted (o : Outer) (r : Ref) (w : World Sys) : Pipeline.step (Program.lint o) (.other (.node r)) w =
    linted w (Lint.lint o.log (w.user.heap.next + 1) r ⟨w.user.heap, w.log⟩) := by
  show Program.lint o ⟨[.other (.node r)], []⟩ w = _
  unfold Program.lint linted
  dsimp only
  cases Lint.lint o.log (w.user.heap.next + 1) r ⟨w.user.heap, w.log⟩ <;> rfl

theorem g_lint (o : Outer) : Stage n (Program.lint o) := by
  intro N v hv
  cases hv with
  | none => exact s_throw _
  | str s => exact s_throw _
  | web x => exact s_throw _
  | @node r hr =>
    intro w0 w T hm
    have T : TwinW n w0 w := T
    have hm : N ≤ w0.user.heap.next := hm
    have A := s_lint (N := w0.user.heap.next) (n := n) o.log (k := w0.user.heap.next + 1) (k' := w.user.heap.next + 1) (r := r)
      (by rw [T.heap.next]; omega) (by omega) ⟨w0.user.heap, w0.log⟩ ⟨w.user.heap, w.log⟩ ⟨T.heap, T.log⟩ (Nat.le_refl _)
    rw [show shiftVal n (.other (.node r)) = .other (.node (r + n)) from rfl, lint_linted, lint_linted]
    generalize Lint.lint o.log (w0.user.heap.next + 1) r ⟨w0.user.heap, w0.log⟩ = x at A
    generalize Lint.lint o.log (w.user.heap.next + 1) (r + n) ⟨w.user.heap, w.log⟩ = y at A
    cases A with
    | @ok a b s0 s R h1 h2 h3 =>
      have R : TwinL n s0 s := R
      subst h3
      exact .ok ⟨R.heap, T.files, R.log⟩ h1 (.node h2) rfl
    | @err e s0 s R h1 =>
      have R : TwinL n s0 s := R
      exact .err ⟨R.heap, T.files, R.log⟩ h1
    | fuel => exact .fuel

theorem g_translate {o : Outer} (hr as : Bool) : Stage n (translate o hr as) := by
  intro N v hv
  cases hv with
  | none => exact s_throw _
  | str s => exact s_throw _
  | web x => exact s_throw _
  | @node r hlt =>
    refine s_then (s_say o _) fun M1 _ h1 => ?_
    refine s_then (s_run (ρ := trs n) o (fun s0 s R => ?_) (fun _ => rfl) fun h0 h T hm => ?_) fun M3 page h3 => ?_
    · have R : TwinTr n s0 s := R
      exact ⟨R.heap, by rw [R.log]⟩
    · exact a_translate (k := conf o hr as h0) (f := 2 * h.next) (fun _ _ _ => noAddresses_repr o.repr n _ _ _) (by rw [T.next]; show 2 * h0.next ≤ _; omega)
        (s0 := { heap := h0 }) (s := { heap := h }) ⟨T, rfl, rfl⟩ (show r < h0.next by omega)
    · exact s_pure (.str page) rfl

theorem g_build (o : Outer) : Stage n (build o) := by
  intro N v hv
  cases hv with
  | none => exact s_throw _
  | node hr => exact s_throw _
  | web x => exact s_throw _
  | str s =>
    have key : ∀ M, Sim (worlds n) (vals n) M
        (do let w ← PyM.get
            match Build.fullBuild ⟨o.static, w.user.files⟩ s {} with
            | .ok _ s => pure (Val.other (Obj.web s.web))
            | .err e _ => PyM.throw e : ProgM (Val Obj))
        (do let w ← PyM.get
            match Build.fullBuild ⟨o.static, w.user.files⟩ s {} with
            | .ok _ s => pure (Val.other (Obj.web s.web))
            | .err e _ => PyM.throw e : ProgM (Val Obj)) := by
      intro M
      refine s_get fun w0 w T hm => ?_
      have T : TwinW n w0 w := T
      rw [T.files]
      cases Build.fullBuild ⟨o.static, w0.user.files⟩ s {} with
      | ok x s => exact s_pure (.web s.web) rfl
      | err e s => exact s_throw e
    refine s_then (s_say o _) fun _ _ _ => s_then (s_say o _) fun _ _ _ => s_then (s_say o _) fun _ _ _ =>
      s_then (s_say o _) fun M _ _ => ?_
    by_cases hc : Build.findAssets s ≠ []
    · simp only [if_pos hc]
      exact s_then (s_say o _) fun M _ _ => key M
    · simp only [if_neg hc]
      exact key M

theorem g_write (o : Outer) : Stage n (write o) := by
  intro N v hv
  cases hv with
  | none => exact s_throw _
  | str s => exact s_throw _
  | node hr => exact s_throw _
  | web x =>
    refine s_then (s_modify fun w0 w T hm => ?_) fun _ _ _ => s_pure .none rfl
    have T : TwinW n w0 w := T
    exact ⟨⟨T.heap, by dsimp only; rw [T.files], T.log⟩, Nat.le_refl _⟩

/-! ## The applications -/

/-- All tasks of the pipeline behave alike. -/
def Tasks (n : Nat) (ts : List (Task Sys Obj)) : Prop := ∀ t ∈ ts, Stage n t.run

/-- Pipelines. -/
def pipes (n : Nat) : Kind (Pipeline Sys Obj) := ⟨fun _ p => Tasks n p.tasks, id, fun _ h => h⟩

theorem s_runLoop : ∀ {ts : List (Task Sys Obj)} {N : Nat} {v : Val Obj}, Tasks n ts → ValOk N v →
    Sim (worlds n) (vals n) N (Pipeline.runLoop ts v) (Pipeline.runLoop ts (shiftVal n v))
  | [], _, _, _, hv => s_pure hv rfl
  | _ :: _, _, v, ht, hv => s_bind (ht _ List.mem_cons_self _ v hv) fun _ _ _ ha =>
      s_runLoop (fun t h => ht t (List.mem_cons_of_mem _ h)) ha

theorem s_worldEmit (env : LogEnv) (l : Int) (m : Str) :
    Sim (worlds n) plain N (World.emit (σ := Sys) env l m) (World.emit env l m) :=
  s_modify fun s0 s h _ => by
    have h : TwinW n s0 s := h
    exact ⟨⟨h.heap, h.files, by show s.log.log _ _ = s0.log.log _ _; rw [h.log]⟩, Nat.le_refl _⟩

/-- What `RSMApp.run` makes of what the pipeline gives. -/
def caught (env : LogEnv) (x : Res (World Sys) (Val Obj)) : Res (World Sys) (Val Obj) :=
  match x with
  | .ok v w => .ok v w
  | .err e w => if e = .rsmParserError then
      (do World.emit env ERROR "There was an error: "; pure (Val.str []) : ProgM (Val Obj)) w else .err e w

theorem appRun_caught (env : LogEnv) (p : Pipeline Sys Obj) (w : World Sys) : appRun env p w = caught env ((do
      let result ← Pipeline.runLoop p.tasks .none
      World.emit env INFO "Done."
      pure result : ProgM (Val Obj)) w) := by
  unfold appRun Pipeline.run caught
  generalize (do
      let result ← Pipeline.runLoop p.tasks .none
      World.emit env INFO "Done."
      pure result : ProgM (Val Obj)) w = x
  cases x with
  | ok v w => rfl
  | err e w => cases e <;> rfl

theorem s_appRun (env : LogEnv) {p : Pipeline Sys Obj} (hp : Tasks n p.tasks) :
    Sim (worlds n) (vals n) N (appRun env p) (appRun env p) := by
  intro w0 w T hm
  have S : Sim (worlds n) (vals n) N
      (do let result ← Pipeline.runLoop p.tasks .none
          World.emit env INFO "Done."
          pure result : ProgM (Val Obj))
      (do let result ← Pipeline.runLoop p.tasks .none
          World.emit env INFO "Done."
          pure result : ProgM (Val Obj)) := by
    refine s_bind (s_runLoop (v := .none) hp .none) fun M v hM hv => ?_
    exact s_then (s_worldEmit env INFO _) fun K _ hK => s_pure ((vals n).mono hK hv) rfl
  have A := S w0 w T hm
  rw [appRun_caught, appRun_caught]
  generalize (do
      let result ← Pipeline.runLoop p.tasks .none
      World.emit env INFO "Done."
      pure result : ProgM (Val Obj)) w0 = x at A ⊢
  generalize (do
      let result ← Pipeline.runLoop p.tasks .none
      World.emit env INFO "Done."
      pure result : ProgM (Val Obj)) w = y at A ⊢
  cases A with
  | ok R h1 h2 h3 => exact .ok R h1 h2 h3
  | @err e s0 s R h1 =>
    unfold caught
    by_cases he : e = .rsmParserError
    · subst he
      have B := (s_then (k' := vals n) (s_worldEmit (n := n) (N := (worlds n).size s0) env ERROR "There was an error: ".toList) fun K _ hK =>
        s_pure (k := vals n) (.str []) rfl) s0 s R (Nat.le_refl _)
      exact B.mono h1
    · simp only [if_neg he]
      exact .err R h1
  | fuel => exact .fuel

theorem s_config (a : LogArgs) : Sim (worlds n) plain N
    (PyM.zoom World.log (fun l (w : World Sys) => { w with log := l }) (configLogger a.loglevel a.logFormat a.logTime a.logLineno))
    (PyM.zoom World.log (fun l (w : World Sys) => { w with log := l }) (configLogger a.loglevel a.logFormat a.logTime a.logLineno)) := by
  intro w0 w T hm
  have T : TwinW n w0 w := T
  unfold PyM.zoom
  rw [T.log]
  cases configLogger a.loglevel a.logFormat a.logTime a.logLineno w0.log with
  | ok x t => exact .ok ⟨T.heap, T.files, rfl⟩ (Nat.le_refl _) trivial rfl
  | err e t => exact .err ⟨T.heap, T.files, rfl⟩ (Nat.le_refl _)

theorem tasks_add {p : Pipeline Sys Obj} {t : Task Sys Obj} (hp : Tasks n p.tasks) (ht : Stage n t.run) :
    Tasks n (p.addTask t).tasks := by
  intro x hx
  rcases List.mem_append.1 hx with h | h
  · exact hp x h
  · cases List.mem_singleton.1 h; exact ht

theorem tasks_new {l : List (Task Sys Obj)} (hl : Tasks n l) : Tasks n (Pipeline.new l).tasks := by
  have key : ∀ (l : List (Task Sys Obj)) (p : Pipeline Sys Obj), Tasks n l → Tasks n p.tasks →
      Tasks n (l.foldl Pipeline.addTask p).tasks := by
    intro l
    induction l with
    | nil => intro p _ h; exact h
    | cons x l ih =>
      intro p h1 h2
      exact ih _ (fun t ht => h1 t (List.mem_cons_of_mem _ ht)) (tasks_add h2 (h1 x List.mem_cons_self))
  exact key l {} hl fun _ h => by cases h

theorem s_parserApp (o : Outer) (path : SrcPath) (source : Str) (a : LogArgs) :
    Sim (worlds n) (pipes n) N (parserApp o.log (stages o) path source a) (parserApp o.log (stages o) path source a) := by
  refine s_ite Iff.rfl (fun _ => ?_) fun _ => s_throw _
  refine s_then (s_config a) fun _ _ _ => s_then (s_worldEmit _ _ _) fun _ _ _ => s_then (s_worldEmit _ _ _) fun _ _ _ => ?_
  refine s_pure (k := pipes n) (tasks_new fun t ht => ?_) rfl
  rcases List.mem_cons.1 ht with rfl | ht
  · unfold sourceTask
    split
    · exact g_noArgs fun N => s_reader o path
    · exact g_noArgs fun N => s_pure (.str source) rfl
  · rcases List.mem_cons.1 ht with rfl | ht
    · exact g_parse o
    · cases List.mem_singleton.1 ht
      exact g_transform o

theorem s_makeLinter : Sim (worlds n) plain N (makeLinter (σ := Sys)) makeLinter :=
  s_modify fun s0 s h _ => by
    have h : TwinW n s0 s := h
    exact ⟨⟨h.heap, h.files, by show s.log.newLinter = s0.log.newLinter; rw [h.log]⟩, Nat.le_refl _⟩

theorem s_linterApp (o : Outer) (path : SrcPath) (source : Str) (a : LogArgs) :
    Sim (worlds n) (pipes n) N (linterApp o.log (stages o) path source a) (linterApp o.log (stages o) path source a) :=
  s_bind (s_parserApp o path source _) fun _ _ _ hp => s_then s_makeLinter fun _ _ _ =>
    s_pure (k := pipes n) (tasks_add hp (g_lint o)) rfl

theorem g_translator {o : Outer} (hr as : Bool) : Stage n (translatorTask (stages o) hr as).run := by
  cases hr
  · exact g_translate false true
  · exact g_translate true as

theorem s_processorApp {o : Outer} (path : SrcPath) (source : Str) (l : Int) (f : Str) (t n' hr as rl : Bool) :
    Sim (worlds n) (pipes n) N (processorApp o.log (stages o) path source l f t n' hr as rl)
      (processorApp o.log (stages o) path source l f t n' hr as rl) := by
  refine s_bind (s_parserApp o path source _) fun M p hM hp => ?_
  refine s_bind (k := pipes n) (s_ite Iff.rfl (fun _ => s_then s_makeLinter fun _ _ _ =>
    s_pure (k := pipes n) (tasks_add hp (g_lint o)) rfl) fun _ => s_pure (k := pipes n) hp rfl) fun K q hK hq => ?_
  exact s_pure (k := pipes n) (tasks_add hq (g_translator hr as)) rfl

theorem s_render {o : Outer} (source : Str) (path : SrcPath) (hr as : Bool) (a : LogArgs) :
    Sim (worlds n) (vals n) N (render o source path hr as a) (render o source path hr as a) :=
  s_bind (s_processorApp path source _ _ _ _ _ _ _) fun _ _ _ hp => s_appRun o.log hp

theorem s_lintSource (o : Outer) (source : Str) (path : SrcPath) (hr : Bool) (a : LogArgs) :
    Sim (worlds n) (vals n) N (lintSource o source path hr a) (lintSource o source path hr a) :=
  s_bind (s_linterApp o path source _) fun _ _ _ hp => s_appRun o.log hp

theorem s_makeSource {o : Outer} (source : Str) (path : SrcPath) (hr lint : Bool) (a : LogArgs) :
    Sim (worlds n) (vals n) N (Program.make o source path hr lint a) (Program.make o source path hr lint a) :=
  s_bind (s_bind (s_processorApp path source _ _ _ _ _ _ _) fun _ _ _ hp =>
    s_pure (k := pipes n) (tasks_add (tasks_add hp (g_build o)) (g_write o)) rfl) fun _ _ _ hp => s_appRun o.log hp

/-- What two runs that behave alike give. -/
theorem Alike.same {x0 x : Res (World Sys) (Val Obj)} (A : Alike (worlds n) (vals n) N x0 x)
    (h : x0.raised ≠ some .outOfFuel) : SameRun n x0 x := by
  cases A with
  | @ok a b s0 s R h1 h2 h3 =>
    have R : TwinW n s0 s := R
    subst h3
    exact ⟨rfl, rfl, R.files, R.log, R.heap⟩
  | @err e s0 s R h1 =>
    have R : TwinW n s0 s := R
    exact ⟨rfl, rfl, R.files, R.log, R.heap⟩
  | fuel => exact absurd rfl h

theorem fresh_twin (w : World Sys) : TwinW w.user.heap.next (fresh w) w :=
  ⟨⟨by show _ = 0 + _; omega, fun r h => absurd h (Nat.not_lt_zero r), fun r h => absurd h (Nat.not_lt_zero r)⟩, rfl, rfl⟩

/-! ## The stages without the logger -/

theorem empty_twin (h : Heap) : Twin h.next Heap.empty h :=
  ⟨by show _ = 0 + _; omega, fun r h => absurd h (Nat.not_lt_zero r), fun r h => absurd h (Nat.not_lt_zero r)⟩

/-- What is compiled in a new process is compiled in any other. -/
theorem compiled_twin {o : Outer} {src : Str} {out : Except PyErr Ref} {h0 : Heap} {rs : List LogRecord}
    (hc : Compiled o Heap.empty src out h0 rs) (hf : out ≠ .error .outOfFuel) (h : Heap) :
    ∃ h', Compiled o h src (out.map (· + h.next)) h' rs ∧ Twin h.next h0 h' ∧ ∀ r, out = .ok r → r < h0.next := by
  have P := s_parse (n := h.next) (N := 0) (12 * (o.sitter src).size + 1) (o.sitter src) { heap := Heap.empty } { heap := h }
    ⟨empty_twin h, rfl⟩ (Nat.zero_le _)
  cases hc with
  | unparsed e =>
    rw [e] at P
    generalize e2 : Parser.parse _ _ { heap := h } = y at P
    cases P with
    | err R _ => exact ⟨_, (TwinTS.log R) ▸ .unparsed e2, TwinTS.heap R, fun _ h => (by cases h)⟩
    | fuel => exact absurd rfl hf
  | @untransformed r s x s' e f =>
    rw [e] at P
    generalize e2 : Parser.parse _ _ { heap := h } = y at P
    cases P with
    | @ok _ _ _ t R h1 h2 h3 =>
      subst h3
      have R : TwinTS h.next s t := R
      have Q := s_transform (n := h.next) (N := s.heap.next) (r := r) (k := 12 * s.heap.next + 1) (k' := 12 * t.heap.next + 1)
        (by rw [R.heap.next]; omega) h2 { heap := s.heap } { heap := t.heap } ⟨R.heap, rfl, fun _ h => (by cases h), rfl⟩ (Nat.le_refl _)
      rw [f] at Q
      generalize f2 : Transformer.transform _ _ { heap := t.heap } = z at Q
      cases Q with
      | @err _ _ t' R' _ =>
        have R' : TwinT h.next s' t' := R'
        refine ⟨_, ?_, R'.heap, fun _ h => (by cases h)⟩
        rw [← R.log, ← R'.log]
        exact .untransformed e2 f2
      | fuel => exact absurd rfl hf
  | @done r s s' e f =>
    rw [e] at P
    generalize e2 : Parser.parse _ _ { heap := h } = y at P
    cases P with
    | @ok _ _ _ t R h1 h2 h3 =>
      subst h3
      have R : TwinTS h.next s t := R
      have Q := s_transform (n := h.next) (N := s.heap.next) (r := r) (k := 12 * s.heap.next + 1) (k' := 12 * t.heap.next + 1)
        (by rw [R.heap.next]; omega) h2 { heap := s.heap } { heap := t.heap } ⟨R.heap, rfl, fun _ h => (by cases h), rfl⟩ (Nat.le_refl _)
      rw [f] at Q
      generalize f2 : Transformer.transform _ _ { heap := t.heap } = z at Q
      cases Q with
      | @ok _ _ _ t' R' h4 _ h5 =>
        have R' : TwinT h.next s' t' := R'
        have h2 : r < s.heap.next := h2
        have h4 : s.heap.next ≤ s'.heap.next := h4
        refine ⟨_, ?_, R'.heap, fun x hx => (by cases hx; omega)⟩
        rw [← R.log, ← R'.log]
        exact .done e2 f2

/-- The page that is made in a new process is made in any other. -/
theorem rendered_twin {o : Outer} {hr as : Bool} {src : Str} {out : Except PyErr Str} {h0 : Heap}
    {rs : List LogRecord} (hc : Rendered o Heap.empty hr as src out h0 rs) (hf : out ≠ .error .outOfFuel) (h : Heap) :
    ∃ h', Rendered o h hr as src out h' rs := by
  cases hc with
  | stopped c =>
    obtain ⟨h', c', -, -⟩ := compiled_twin c (fun e => hf (by cases e; rfl)) h
    exact ⟨h', .stopped c'⟩
  | @untranslated r h1 rs e s c f =>
    obtain ⟨h', c', T, hlt⟩ := compiled_twin c nofun h
    have Q := a_translate (k := conf o hr as h1) (f := 2 * h'.next) (fun _ _ _ => noAddresses_repr o.repr h.next _ _ _)
      (by rw [T.next]; show 2 * h1.next ≤ _; omega) (s0 := { heap := h1 }) (s := { heap := h' }) ⟨T, rfl, rfl⟩ (hlt r rfl)
    rw [f] at Q
    generalize f2 : Tr.translate _ _ { heap := h' } = z at Q
    cases Q with
    | @err _ _ t R _ =>
      have R : TwinTr h.next s t := R
      refine ⟨t.heap, ?_⟩
      rw [← R.log]
      exact .untranslated c' f2
    | fuel => exact absurd rfl hf
  | @done r h1 rs page s c f =>
    obtain ⟨h', c', T, hlt⟩ := compiled_twin c nofun h
    have Q := a_translate (k := conf o hr as h1) (f := 2 * h'.next) (fun _ _ _ => noAddresses_repr o.repr h.next _ _ _)
      (by rw [T.next]; show 2 * h1.next ≤ _; omega) (s0 := { heap := h1 }) (s := { heap := h' }) ⟨T, rfl, rfl⟩ (hlt r rfl)
    rw [f] at Q
    generalize f2 : Tr.translate _ _ { heap := h' } = z at Q
    cases Q with
    | @ok _ _ _ t R _ _ h3 =>
      have R : TwinTr h.next s t := R
      subst h3
      refine ⟨t.heap, ?_⟩
      rw [← R.log]
      exact .done c' f2

end History
end RSM
