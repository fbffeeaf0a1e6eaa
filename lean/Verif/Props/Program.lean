import Verif.Lemmas.Program
import Verif.Props.CleanSource

/-!
# C83: `render`, `lint` and `make` run the stages in a row, and log their messages
-/

namespace RSM
namespace Program
open PyM LogState

variable {o : Outer} {h h' : Heap} {src source : Str} {path : SrcPath} {rs rs' : List LogRecord}

theorem SourceText.one {files : Str → Option Str} (h : SourceText files source path src) :
    ¬(path.Given ↔ source ≠ []) := by
  unfold SrcPath.Given
  cases h with
  | given h1 h2 => rcases h2 with rfl | rfl <;> simp [h1]
  | file hp hf => simp [hp]
  | path hf => simp

/-! ## The stages always come to an end, in one way -/

theorem compiled_total (o : Outer) (h : Heap) (src : Str) : ∃ out h' rs, Compiled o h src out h' rs := by
  cases e : Parser.parse (12 * (o.sitter src).size + 1) (o.sitter src) { heap := h } with
  | err x s => exact ⟨_, _, _, .unparsed e⟩
  | ok r s =>
    cases e2 : Transformer.transform (12 * s.heap.next + 1) r { heap := s.heap } with
    | err x s' => exact ⟨_, _, _, .untransformed e e2⟩
    | ok u s' => exact ⟨_, _, _, .done e e2⟩

theorem Compiled.unique {out out' : Except PyErr Ref} (h1 : Compiled o h src out h' rs) {h2' : Heap}
    (h2 : Compiled o h src out' h2' rs') : out = out' ∧ h' = h2' ∧ rs = rs' := by
  cases h1 with
  | unparsed e =>
    cases h2 with
    | unparsed e' => rw [e] at e'; cases e'; exact ⟨rfl, rfl, rfl⟩
    | untransformed e' => rw [e] at e'; cases e'
    | done e' => rw [e] at e'; cases e'
  | untransformed e f =>
    cases h2 with
    | unparsed e' => rw [e] at e'; cases e'
    | untransformed e' f' => rw [e] at e'; cases e'; rw [f] at f'; cases f'; exact ⟨rfl, rfl, rfl⟩
    | done e' f' => rw [e] at e'; cases e'; rw [f] at f'; cases f'
  | done e f =>
    cases h2 with
    | unparsed e' => rw [e] at e'; cases e'
    | untransformed e' f' => rw [e] at e'; cases e'; rw [f] at f'; cases f'
    | done e' f' => rw [e] at e'; cases e'; rw [f] at f'; cases f'; exact ⟨rfl, rfl, rfl⟩

theorem rendered_total (o : Outer) (h : Heap) (hr as : Bool) (src : Str) :
    ∃ out h' rs, Rendered o h hr as src out h' rs := by
  obtain ⟨out, h', rs, hc⟩ := compiled_total o h src
  cases out with
  | error e => exact ⟨_, _, _, .stopped hc⟩
  | ok r =>
    cases e : Tr.translate (conf o hr as h') r { heap := h' } with
    | err x s => exact ⟨_, _, _, .untranslated hc e⟩
    | ok p s => exact ⟨_, _, _, .done hc e⟩

theorem Rendered.unique {hr as : Bool} {out out' : Except PyErr Str} (h1 : Rendered o h hr as src out h' rs) {h2' : Heap}
    (h2 : Rendered o h hr as src out' h2' rs') : out = out' ∧ h' = h2' ∧ rs = rs' := by
  cases h1 with
  | stopped e =>
    cases h2 with
    | stopped e' => obtain ⟨a, rfl, rfl⟩ := e.unique e'; cases a; exact ⟨rfl, rfl, rfl⟩
    | untranslated e' => cases (e.unique e').1
    | done e' => cases (e.unique e').1
  | untranslated e f =>
    cases h2 with
    | stopped e' => cases (e.unique e').1
    | untranslated e' f' =>
      obtain ⟨a, rfl, rfl⟩ := e.unique e'; cases a; rw [f] at f'; cases f'; exact ⟨rfl, rfl, rfl⟩
    | done e' f' => obtain ⟨a, rfl, rfl⟩ := e.unique e'; cases a; rw [f] at f'; cases f'
  | done e f =>
    cases h2 with
    | stopped e' => cases (e.unique e').1
    | untranslated e' f' => obtain ⟨a, rfl, rfl⟩ := e.unique e'; cases a; rw [f] at f'; cases f'
    | done e' f' =>
      obtain ⟨a, rfl, rfl⟩ := e.unique e'; cases a; rw [f] at f'; cases f'; exact ⟨rfl, rfl, rfl⟩

theorem builds_total (o : Outer) (u : Sys) (hr : Bool) (src : Str) : ∃ out u' rs, Builds o u hr src out u' rs := by
  obtain ⟨out, h', rs, hc⟩ := rendered_total o u.heap hr true src
  cases out with
  | error e => exact ⟨_, _, _, .stopped hc⟩
  | ok p =>
    cases e : Build.fullBuild ⟨o.static, u.files⟩ p {} with
    | err x s => exact ⟨_, _, _, .unbuilt hc e⟩
    | ok x s => exact ⟨_, _, _, .done hc e⟩

/-! ## The runs -/

theorem source_step (hs : SourceText u.files source path src) :
    Does o (Pipeline.step (sourceTask (stages o) path source).run .none) u (.ok (.str src)) u
      (if source = [] then [note "RSM.read " "reader.py" "Reading..."] else []) := by
  rw [sourceTask_run]
  exact does_source hs

/-- The first three stages, and whatever comes then. -/
theorem compiled_run {u : Sys} {out : Except PyErr Ref} (hs : SourceText u.files source path src)
    (hc : Compiled o u.heap src out h' rs) (ts : List (Task Sys Obj)) :
    (∀ e, out = .error e →
      Does o (Pipeline.runLoop ((basePipeline (stages o) path source).tasks ++ ts) .none) u (.error e) ⟨h', u.files⟩
        ((if source = [] then [note "RSM.read " "reader.py" "Reading..."] else []) ++ rs)) ∧
    (∀ r out' u' rs', out = .ok r → Does o (Pipeline.runLoop ts (.other (.node r))) ⟨h', u.files⟩ out' u' rs' →
      Does o (Pipeline.runLoop ((basePipeline (stages o) path source).tasks ++ ts) .none) u out' u'
        ((if source = [] then [note "RSM.read " "reader.py" "Reading..."] else []) ++ (rs ++ rs'))) := by
  have ht : (basePipeline (stages o) path source).tasks = [sourceTask (stages o) path source,
      ⟨"parser".toList, (stages o).obj "parser".toList, parse o⟩,
      ⟨"transformer".toList, (stages o).obj "transformer".toList, transform o⟩] := rfl
  rw [ht]
  cases hc with
  | unparsed e =>
    refine ⟨fun x hx => ?_, fun r _ _ _ hx => by cases hx⟩
    cases hx
    exact (source_step hs).next (((does_parse src u).2 _ _ e).stop (t := ⟨_, _, parse o⟩) (v := .str src))
  | @untransformed r s x s' e f =>
    refine ⟨fun x hx => ?_, fun r _ _ _ hx => by cases hx⟩
    cases hx
    exact (source_step hs).next ((((does_parse src u).1 _ _ e).next (t := ⟨_, _, parse o⟩) (v := .str src)
      (((does_transform r ⟨s.heap, u.files⟩).2 _ _ f).stop (t := ⟨_, _, transform o⟩) (v := .other (.node r)))))
  | @done r s s' e f =>
    refine ⟨fun x hx => (by cases hx), fun r out' u' rs' hx hd => ?_⟩
    cases hx
    rw [List.append_assoc]
    exact (source_step hs).next ((((does_parse src u).1 _ _ e).next (t := ⟨_, _, parse o⟩) (v := .str src)
      (((does_transform r ⟨s.heap, u.files⟩).1 _ f).next (t := ⟨_, _, transform o⟩) (v := .other (.node r)) hd)))

/-- The stages up to the translator, and whatever comes then. -/
theorem rendered_run {u : Sys} {hr as : Bool} {out : Except PyErr Str} (hs : SourceText u.files source path src)
    (hc : Rendered o u.heap hr as src out h' rs) (ts : List (Task Sys Obj)) :
    (∀ e, out = .error e →
      Does o (Pipeline.runLoop ((basePipeline (stages o) path source).tasks ++ translatorTask (stages o) hr as :: ts) .none)
        u (.error e) ⟨h', u.files⟩
        ((if source = [] then [note "RSM.read " "reader.py" "Reading..."] else []) ++ rs)) ∧
    (∀ page out' u' rs', out = .ok page → Does o (Pipeline.runLoop ts (.str page)) ⟨h', u.files⟩ out' u' rs' →
      Does o (Pipeline.runLoop ((basePipeline (stages o) path source).tasks ++ translatorTask (stages o) hr as :: ts) .none)
        u out' u' ((if source = [] then [note "RSM.read " "reader.py" "Reading..."] else []) ++ (rs ++ rs'))) := by
  have key : ∀ (r : Ref) (v : Sys), Pipeline.step (translatorTask (stages o) hr as).run (.other (.node r)) =
      translate o hr (!hr || as) ⟨[.other (.node r)], []⟩ := by
    intro r v
    cases hr <;> cases as <;> rfl
  have hconf : ∀ v : Heap, conf o hr (!hr || as) v = conf o hr as v := by
    intro v
    cases hr <;> cases as <;> rfl
  cases hc with
  | stopped c =>
    exact ⟨fun e he => (compiled_run hs c _).1 e (by cases he; rfl), fun page _ _ _ hx => by cases hx⟩
  | @untranslated r h1 rs e s c f =>
    refine ⟨fun x hx => ?_, fun page _ _ _ hx => by cases hx⟩
    cases hx
    refine (compiled_run hs c _).2 r _ _ _ rfl (Does.stop ?_)
    rw [key r u]
    exact (does_translate hr _ r ⟨h1, u.files⟩).2 _ _ (by dsimp only; rw [hconf]; exact f)
  | @done r h1 rs page s c f =>
    refine ⟨fun x hx => (by cases hx), fun page out' u' rs' hx hd => ?_⟩
    cases hx
    rw [List.append_assoc]
    refine (compiled_run hs c _).2 r _ _ _ rfl (Does.next ?_ hd)
    rw [key r u]
    exact (does_translate hr _ r ⟨h1, u.files⟩).1 _ _ (by dsimp only; rw [hconf]; exact f)

theorem Does.run {m : ProgM (Val Obj)} {w : World Sys} {lg : LogState} {u' : Sys} {out : Except PyErr (Val Obj)}
    {L : Int} {f : LogFormatter} {app : ProgM (Val Obj)} {first : List LogRecord}
    (e : app w = m ⟨w.user, logAll o.log first lg⟩) (hd : Does o m w.user out u' rs) (hc : Configured L f lg)
    (hw : lg.written = w.log.written) (hn : lg.lintNamed = w.log.lintNamed) :
    ∃ w', app w = result out w' ∧ w'.user = u' ∧
      w'.log.written = w.log.written ++ heard o.log L f w.log.lintNamed (first ++ rs) := by
  refine ⟨⟨u', logAll o.log rs (logAll o.log first lg)⟩, by rw [e, hd], rfl, ?_⟩
  rw [← logAll_append, logAll_written _ hc, hw, hn]

/-- **C83.** `render` reads the source, parses it, transforms the manuscript and translates it, each once and in this
order.  It gives the page; or it raises what the stage that failed raises, except that an error of the
parser gives the empty text.  It changes no file.  Of the messages of the stages, and no others, it
writes those that have the level of the logger, in order, in the format asked for. -/
theorem C83_render {hr as : Bool} {a : LogArgs} {f : LogFormat} {w : World Sys} {out : Except PyErr Str}
    (hf : LogFormat.ofName a.logFormat = some f) (hs : SourceText w.user.files source path src)
    (hc : Rendered o w.user.heap hr as src out h' rs) :
    ∃ w', render o source path hr as a w = result (userResult (out.map .str)) w' ∧
      w'.user = ⟨h', w.user.files⟩ ∧
      w'.log.written = w.log.written ++ heard o.log a.loglevel ⟨f, a.logTime, a.logLineno⟩ w.log.lintNamed
        (startMessages source ++ rs ++ lastMessages (out.map .str)) := by
  obtain ⟨lg, e, hg, hw, hn⟩ := parserApp_eq (o := o) (stages o) (a := ⟨a.loglevel, a.logFormat, a.logTime, a.logLineno⟩) w
    hs.one hf
  have hd : Does o (((basePipeline (stages o) path source).addTask (translatorTask (stages o) hr as)).run .none) w.user
      (out.map .str) ⟨h', w.user.files⟩
      ((if source = [] then [note "RSM.read " "reader.py" "Reading..."] else []) ++ rs) := by
    unfold Pipeline.run
    rw [addTask_tasks]
    cases out with
    | error e => exact (rendered_run hs hc []).1 e rfl
    | ok page =>
      have := (rendered_run hs hc []).2 page _ _ _ rfl (Does.pure _ _)
      rw [List.append_nil] at this
      exact this
  have hr' := does_appRun hd
  have e2 : render o source path hr as a w = appRun o.log
      ((basePipeline (stages o) path source).addTask (translatorTask (stages o) hr as)) ⟨w.user, logAll o.log
        [note "RSM" "app.py" "Application started", note "RSM" "app.py" "Configuring..."] lg⟩ := by
    unfold render appRender processorApp
    rw [bind_apply, bind_apply, e]
    rfl
  obtain ⟨w', h1, h2, h3⟩ := hr'.run e2 hg hw hn
  refine ⟨w', h1, h2, ?_⟩
  rw [h3]
  unfold startMessages
  simp only [List.append_assoc]

/-- **C83.** `make` does what `render` does, builds the web manuscript of the page and writes its files to the
current directory, over those that are there.  The result is `None`. -/
theorem C83_make {handrails lint : Bool} {a : LogArgs} {f : LogFormat} {w : World Sys} {out : Except PyErr Unit}
    {u' : Sys} (hf : LogFormat.ofName a.logFormat = some f) (hs : SourceText w.user.files source path src)
    (hc : Builds o w.user lint src out u' rs) :
    ∃ w', make o source path handrails lint a w = result (userResult (out.map fun _ => .none)) w' ∧
      w'.user = u' ∧
      w'.log.written = w.log.written ++ heard o.log a.loglevel ⟨f, a.logTime, true⟩ w.log.lintNamed
        (startMessages source ++ rs ++ lastMessages (out.map fun _ => .none)) := by
  obtain ⟨lg, e, hg, hw, hn⟩ := parserApp_eq (o := o) (stages o) (a := ⟨a.loglevel, a.logFormat, a.logTime, true⟩) w
    hs.one hf
  have hd : Does o ((((basePipeline (stages o) path source).addTask (translatorTask (stages o) lint true)).addTask
      ⟨"builder", (stages o).obj "builder", build o⟩).addTask ⟨"writer", (stages o).obj "writer", write o⟩ |>.run .none) w.user
      (out.map fun _ => .none) u'
      ((if source = [] then [note "RSM.read " "reader.py" "Reading..."] else []) ++ rs) := by
    unfold Pipeline.run
    simp only [addTask_tasks, List.append_assoc, List.cons_append, List.nil_append]
    cases hc with
    | stopped c => exact (rendered_run hs c _).1 _ rfl
    | @unbuilt page h' rs e s c b =>
      exact (rendered_run hs c _).2 page _ _ _ rfl
        (((does_build page ⟨h', w.user.files⟩).2 _ _ b).stop (t := ⟨_, _, build o⟩) (v := .str page))
    | @done page h' rs s c b =>
      have h2 := (((does_build page ⟨h', w.user.files⟩).1 _ b).next (t := ⟨"builder", (stages o).obj "builder", build o⟩)
        (v := .str page) ((does_write s.web ⟨h', w.user.files⟩).next (t := ⟨"writer", (stages o).obj "writer", write o⟩)
          (v := .other (.web s.web)) (ts := []) (Does.pure _ _)))
      rw [List.append_nil, List.append_nil] at h2
      exact (rendered_run hs c _).2 page _ _ _ rfl h2
  have hr' := does_appRun hd
  have e2 : make o source path handrails lint a w = appRun o.log
      ((((basePipeline (stages o) path source).addTask (translatorTask (stages o) lint true)).addTask
      ⟨"builder", (stages o).obj "builder", build o⟩).addTask ⟨"writer", (stages o).obj "writer", write o⟩)
        ⟨w.user, logAll o.log
        [note "RSM" "app.py" "Application started", note "RSM" "app.py" "Configuring..."] lg⟩ := by
    unfold make appMake fullBuildApp processorApp
    rw [bind_apply, bind_apply, bind_apply, e]
    rfl
  obtain ⟨w', h1, h2, h3⟩ := hr'.run e2 hg hw hn
  refine ⟨w', h1, h2, ?_⟩
  rw [h3]
  unfold startMessages
  simp only [List.append_assoc]

/-- The linter app, up to the linter. -/
theorem lint_run {a : LogArgs} {f : LogFormat} {w : World Sys} {out : Except PyErr (Val Obj)} {u' : Sys} {handrails : Bool}
    (hf : LogFormat.ofName a.logFormat = some f) (hs : SourceText w.user.files source path src)
    (hd : Does o (((basePipeline (stages o) path source).addTask (lintTask (stages o))).run .none) w.user out u'
      ((if source = [] then [note "RSM.read " "reader.py" "Reading..."] else []) ++ rs)) :
    ∃ w', lintSource o source path handrails a w = result (userResult out) w' ∧ w'.user = u' ∧
      w'.log.written = w.log.written ++ heard o.log LINT_LVL ⟨f, a.logTime, a.logLineno⟩ true
        (rs ++ lastMessages out) := by
  obtain ⟨lg, e, hg, hw, hn⟩ := parserApp_eq (o := o) (stages o) (a := { a with loglevel := LINT_LVL }) w
    hs.one hf
  have e2 : lintSource o source path handrails a w = appRun o.log
      ((basePipeline (stages o) path source).addTask (lintTask (stages o))) ⟨w.user, (logAll o.log
        [note "RSM" "app.py" "Application started", note "RSM" "app.py" "Configuring..."] lg).newLinter⟩ := by
    unfold lintSource appLint linterApp
    rw [bind_apply, bind_apply, e]
    rfl
  refine ⟨_, by rw [e2, does_appRun hd], rfl, ?_⟩
  dsimp only
  have hg1 := configured_logAll (env := o.log) [note "RSM" "app.py" "Application started", note "RSM" "app.py" "Configuring..."] hg
  rw [logAll_written_low (L := LINT_LVL) (f := ⟨f, a.logTime, a.logLineno⟩) (by decide) _ hg1.low.newLinter]
  have e3 : (logAll o.log [note "RSM" "app.py" "Application started", note "RSM" "app.py" "Configuring..."]
      lg).newLinter.written = w.log.written := by
    show (logAll o.log _ lg).written = _
    rw [logAll_written _ hg, hw]
    exact List.append_nil _
  rw [e3, List.append_assoc, heard_append]
  have e4 : heard o.log LINT_LVL ⟨f, a.logTime, a.logLineno⟩ true
      (if source = [] then [note "RSM.read " "reader.py" "Reading..."] else []) = [] := by
    split <;> rfl
  show _ ++ (heard o.log LINT_LVL ⟨f, a.logTime, a.logLineno⟩ true _ ++ _) = _
  rw [e4]
  rfl

/-- **C83.** `lint` parses the source and transforms the manuscript; if this fails it raises what failed, except that
an error of the parser gives the empty text. -/
theorem C83_lint_stopped {handrails : Bool} {a : LogArgs} {f : LogFormat} {w : World Sys} {e : PyErr}
    (hf : LogFormat.ofName a.logFormat = some f) (hs : SourceText w.user.files source path src)
    (hc : Compiled o w.user.heap src (.error e) h' rs) :
    ∃ w', lintSource o source path handrails a w = result (userResult (.error e)) w' ∧ w'.user = ⟨h', w.user.files⟩ ∧
      w'.log.written = w.log.written ++ heard o.log LINT_LVL ⟨f, a.logTime, a.logLineno⟩ true
        (rs ++ lastMessages (.error e)) := by
  refine lint_run hf hs ?_
  unfold Pipeline.run
  rw [addTask_tasks]
  exact (compiled_run hs hc _).1 e rfl

/-- **C83.** If this succeeds and the manuscript is a document, `lint` gives it as it is; it writes the warnings
of the parser and of the transformer and the problems of the manuscript, in this order.  It changes no file. -/
theorem C83_lint {handrails : Bool} {a : LogArgs} {f : LogFormat} {w : World Sys} {r : Ref} {t : Tree}
    (hf : LogFormat.ofName a.logFormat = some f) (hs : SourceText w.user.files source path src)
    (hc : Compiled o w.user.heap src (.ok r) h' rs) (hd : Doc h' r t) (hm : (h'.get r).cls.isSub .Manuscript = true) :
    ∃ w', lintSource o source path handrails a w = .ok (.other (.node r)) w' ∧ w'.user = ⟨h', w.user.files⟩ ∧
      w'.log.written = w.log.written ++ heard o.log LINT_LVL ⟨f, a.logTime, a.logLineno⟩ true
        (rs ++ (lintProblems h' t).map (problemRecord h')) := by
  have hn : t.size ≤ h'.next := by
    have h1 : t.pre ⊆ List.range h'.next := fun x hx => List.mem_range.mpr (hd.bound x hx)
    have := (hd.nodup.subperm h1).length_le
    rwa [List.length_range, t.length_pre] at this
  have := lint_run (o := o) (handrails := handrails) (rs := rs ++ lintStart :: (lintProblems h' t).map (problemRecord h'))
    (out := .ok (.other (.node r))) (u' := ⟨h', w.user.files⟩) hf hs (by
    unfold Pipeline.run
    rw [addTask_tasks]
    have h1 := (does_lint (o := o) (r := r) ⟨h', w.user.files⟩ hd hn hm).next (t := lintTask (stages o))
      (v := .other (.node r)) (ts := []) (Does.pure _ _)
    rw [List.append_nil] at h1
    exact (compiled_run hs hc _).2 r _ _ _ rfl h1)
  obtain ⟨w', e1, e2, e3⟩ := this
  refine ⟨w', e1, e2, ?_⟩
  rw [e3, List.append_assoc, heard_append]
  have e4 : heard o.log LINT_LVL ⟨f, a.logTime, a.logLineno⟩ true
      (lintStart :: (lintProblems h' t).map (problemRecord h') ++ lastMessages (.ok (.other (.node r)))) =
      heard o.log LINT_LVL ⟨f, a.logTime, a.logLineno⟩ true ((lintProblems h' t).map (problemRecord h')) := by
    rw [heard_append]
    exact List.append_nil _
  rw [e4, ← heard_append]

/-! ## What a run depends on -/

theorem result_value {σ β : Type} (x : Except PyErr β) (w w' : σ) :
    (result x w).value = (result x w').value ∧ (result x w).raised = (result x w').raised := by
  cases x <;> exact ⟨rfl, rfl⟩

theorem result_state {σ β : Type} (x : Except PyErr β) (w : σ) : (result x w).state = w := by
  cases x <;> rfl

/-- **C83.** What `render` gives, what it raises and what it leaves depends on nothing but the text of the source (given or
read from a file), the nodes and files there were, and the two options: not on what has been logged before,
nor on how to log. -/
theorem C83_render_same {hr as : Bool} {a a2 : LogArgs} {w w2 : World Sys} {source2 : Str} {path2 : SrcPath}
    (hf : a.logFormat ∈ knownFormats) (hf2 : a2.logFormat ∈ knownFormats) (hu : w.user = w2.user)
    (hs : SourceText w.user.files source path src) (hs2 : SourceText w2.user.files source2 path2 src) :
    (render o source path hr as a w).value = (render o source2 path2 hr as a2 w2).value ∧
    (render o source path hr as a w).raised = (render o source2 path2 hr as a2 w2).raised ∧
    (render o source path hr as a w).state.user = (render o source2 path2 hr as a2 w2).state.user := by
  obtain ⟨f, hf⟩ := Option.isSome_iff_exists.1 ((known_iff _).2 hf)
  obtain ⟨f2, hf2⟩ := Option.isSome_iff_exists.1 ((known_iff _).2 hf2)
  obtain ⟨out, h', rs, hc⟩ := rendered_total o w.user.heap hr as src
  obtain ⟨w', e, hw, -⟩ := C83_render hf hs hc
  obtain ⟨w2', e2, hw2, -⟩ := C83_render hf2 hs2 (hu ▸ hc)
  rw [e, e2, result_state, result_state, hw, hw2, hu]
  exact ⟨(result_value _ _ _).1, (result_value _ _ _).2, rfl⟩

/-- **C83.** The same for `make`, which does not look at `handrails`. -/
theorem C83_make_same {handrails handrails2 lint : Bool} {a a2 : LogArgs} {w w2 : World Sys} {source2 : Str} {path2 : SrcPath}
    (hf : a.logFormat ∈ knownFormats) (hf2 : a2.logFormat ∈ knownFormats) (hu : w.user = w2.user)
    (hs : SourceText w.user.files source path src) (hs2 : SourceText w2.user.files source2 path2 src) :
    (make o source path handrails lint a w).value = (make o source2 path2 handrails2 lint a2 w2).value ∧
    (make o source path handrails lint a w).raised = (make o source2 path2 handrails2 lint a2 w2).raised ∧
    (make o source path handrails lint a w).state.user = (make o source2 path2 handrails2 lint a2 w2).state.user := by
  obtain ⟨f, hf⟩ := Option.isSome_iff_exists.1 ((known_iff _).2 hf)
  obtain ⟨f2, hf2⟩ := Option.isSome_iff_exists.1 ((known_iff _).2 hf2)
  obtain ⟨out, u', rs, hc⟩ := builds_total o w.user lint src
  obtain ⟨w', e, hw, -⟩ := C83_make (handrails := handrails) hf hs hc
  obtain ⟨w2', e2, hw2, -⟩ := C83_make (handrails := handrails2) hf2 hs2 (hu ▸ hc)
  rw [e, e2, result_state, result_state, hw, hw2]
  exact ⟨(result_value _ _ _).1, (result_value _ _ _).2, rfl⟩

/-- Reading a file that is not there. -/
theorem does_unread {u : Sys} {p : Str} (hp : p ≠ []) (hf : u.files p = none) (ts : List (Task Sys Obj)) :
    Does o (Pipeline.runLoop ((basePipeline (stages o) (.str p) []).tasks ++ ts) .none) u (.error .otherError) u
      [note "RSM.read " "reader.py" "Reading..."] := by
  have ht : (basePipeline (stages o) (.str p) []).tasks = [sourceTask (stages o) (.str p) [],
      ⟨"parser".toList, (stages o).obj "parser".toList, parse o⟩,
      ⟨"transformer".toList, (stages o).obj "transformer".toList, transform o⟩] := rfl
  rw [ht]
  refine Does.stop ?_
  rw [sourceTask_run]
  intro lg
  cases p with
  | nil => exact absurd rfl hp
  | cons c p =>
    show read o (.str (c :: p)) ⟨u, lg⟩ = _
    unfold read
    simp only [bind_apply, get_apply, info, does_say _ u lg, result, hf]
    rfl

/-- **C83.** If the file to read is not there, each of `render`, `lint` and `make` raises the exception of the system,
and leaves the nodes and the files as they are. -/
theorem C83_no_file {hr as : Bool} {a : LogArgs} {w : World Sys} {p : Str}
    (hk : a.logFormat ∈ knownFormats) (hp : p ≠ []) (hf : w.user.files p = none) :
    ((render o [] (.str p) hr as a w).raised = some .otherError ∧ (render o [] (.str p) hr as a w).state.user = w.user) ∧
    ((make o [] (.str p) hr as a w).raised = some .otherError ∧ (make o [] (.str p) hr as a w).state.user = w.user) ∧
    ((lintSource o [] (.str p) hr a w).raised = some .otherError ∧
      (lintSource o [] (.str p) hr a w).state.user = w.user) := by
  obtain ⟨f, hk⟩ := Option.isSome_iff_exists.1 ((known_iff _).2 hk)
  have ho : ¬((SrcPath.str p).Given ↔ ([] : Str) ≠ []) := by
    unfold SrcPath.Given
    simp [hp]
  refine ⟨?_, ?_, ?_⟩
  · obtain ⟨lg, e, hg, hw, hn⟩ := parserApp_eq (o := o) (stages o)
      (a := ⟨a.loglevel, a.logFormat, a.logTime, a.logLineno⟩) w ho hk
    have e2 : render o [] (.str p) hr as a w = appRun o.log
        ((basePipeline (stages o) (.str p) []).addTask (translatorTask (stages o) hr as)) ⟨w.user, logAll o.log
          [note "RSM" "app.py" "Application started", note "RSM" "app.py" "Configuring..."] lg⟩ := by
      unfold render appRender processorApp
      rw [bind_apply, bind_apply, e]
      rfl
    have hd : Does o (((basePipeline (stages o) (.str p) []).addTask (translatorTask (stages o) hr as)).run .none) w.user
        (.error .otherError) w.user [note "RSM.read " "reader.py" "Reading..."] := by
      unfold Pipeline.run
      rw [addTask_tasks]
      exact does_unread hp hf _
    rw [e2, does_appRun hd]
    exact ⟨rfl, rfl⟩
  · obtain ⟨lg, e, hg, hw, hn⟩ := parserApp_eq (o := o) (stages o)
      (a := ⟨a.loglevel, a.logFormat, a.logTime, true⟩) w ho hk
    have hd : Does o ((((basePipeline (stages o) (.str p) []).addTask (translatorTask (stages o) as true)).addTask
        ⟨"builder", (stages o).obj "builder", build o⟩).addTask ⟨"writer", (stages o).obj "writer", write o⟩ |>.run .none)
        w.user (.error .otherError) w.user [note "RSM.read " "reader.py" "Reading..."] := by
      unfold Pipeline.run
      simp only [addTask_tasks, List.append_assoc]
      exact does_unread hp hf _
    have e2 : make o [] (.str p) hr as a w = appRun o.log
        ((((basePipeline (stages o) (.str p) []).addTask (translatorTask (stages o) as true)).addTask
        ⟨"builder", (stages o).obj "builder", build o⟩).addTask ⟨"writer", (stages o).obj "writer", write o⟩)
          ⟨w.user, logAll o.log
          [note "RSM" "app.py" "Application started", note "RSM" "app.py" "Configuring..."] lg⟩ := by
      unfold make appMake fullBuildApp processorApp
      rw [bind_apply, bind_apply, bind_apply, e]
      rfl
    rw [e2, does_appRun hd]
    exact ⟨rfl, rfl⟩
  · obtain ⟨lg, e, hg, hw, hn⟩ := parserApp_eq (o := o) (stages o) (a := { a with loglevel := LINT_LVL }) w ho hk
    have e2 : lintSource o [] (.str p) hr a w = appRun o.log
        ((basePipeline (stages o) (.str p) []).addTask (lintTask (stages o))) ⟨w.user, (logAll o.log
          [note "RSM" "app.py" "Application started", note "RSM" "app.py" "Configuring..."] lg).newLinter⟩ := by
      unfold lintSource appLint linterApp
      rw [bind_apply, bind_apply, e]
      rfl
    have hd : Does o (((basePipeline (stages o) (.str p) []).addTask (lintTask (stages o))).run .none) w.user
        (.error .otherError) w.user [note "RSM.read " "reader.py" "Reading..."] := by
      unfold Pipeline.run
      rw [addTask_tasks]
      exact does_unread hp hf _
    rw [e2, does_appRun hd]
    exact ⟨rfl, rfl⟩

end Program
end RSM
