import Verif.Spec.Program
import Verif.Props.Linter
import Verif.Props.App

/-!
# The applications run their stages in a row
-/

namespace RSM
namespace Program
open PyM LogState

variable {o : Outer}

theorem logAll_append (env : LogEnv) (a b : List LogRecord) (s : LogState) :
    logAll env (a ++ b) s = logAll env b (logAll env a s) := List.foldl_append

/-- What a program does with the objects and files, and the messages it gives to the logger, whatever the
state of the logger. -/
def Does {β : Type} (o : Outer) (m : ProgM β) (u : Sys) (out : Except PyErr β) (u' : Sys) (rs : List LogRecord) : Prop :=
  ∀ lg, m ⟨u, lg⟩ = result out ⟨u', logAll o.log rs lg⟩

theorem Does.bind {β γ : Type} {m : ProgM β} {f : β → ProgM γ} {u u1 u2 : Sys} {b : β} {out : Except PyErr γ}
    {rs rs' : List LogRecord} (h1 : Does o m u (.ok b) u1 rs) (h2 : Does o (f b) u1 out u2 rs') :
    Does o (m >>= f) u out u2 (rs ++ rs') := by
  intro lg
  rw [bind_apply, h1 lg]
  show f b ⟨u1, _⟩ = _
  rw [h2, logAll_append]

theorem Does.bindErr {β γ : Type} {m : ProgM β} {f : β → ProgM γ} {u u1 : Sys} {e : PyErr}
    {rs : List LogRecord} (h1 : Does o m u (.error e) u1 rs) : Does o (m >>= f) u (.error e) u1 rs := by
  intro lg
  rw [bind_apply, h1 lg]
  rfl

theorem Does.pure {β : Type} (b : β) (u : Sys) : Does o (pure b : ProgM β) u (.ok b) u [] := fun _ => rfl

theorem does_say (r : LogRecord) (u : Sys) : Does o (say o r) u (.ok ()) u [r] := fun _ => rfl

theorem does_run {τ β : Type} (init : Heap → τ) (heap : τ → Heap) (records : τ → List LogRecord)
    (m : Heap → PyM τ β) (u : Sys) :
    (∀ b s, m u.heap (init u.heap) = .ok b s →
      Does o (run o init heap records m) u (.ok b) ⟨heap s, u.files⟩ (records s)) ∧
    (∀ e s, m u.heap (init u.heap) = .err e s →
      Does o (run o init heap records m) u (.error e) ⟨heap s, u.files⟩ (records s)) := by
  constructor <;> intro b s h lg <;> unfold run <;> dsimp only <;> rw [h] <;> rfl

theorem does_read {u : Sys} {path : SrcPath} {src : Str} (h : SourceText u.files [] path src) :
    Does o (read o path) u (.ok (.str src)) u [note "RSM.read " "reader.py" "Reading..."] := by
  intro lg
  cases h with
  | given h => exact absurd rfl h
  | @file p _ hp hf =>
    cases p with
    | nil => exact absurd rfl hp
    | cons c p =>
      unfold read
      simp only [bind_apply, get_apply, info, does_say _ u lg, result, hf, pure_apply]
      rfl
  | path hf =>
    unfold read
    simp only [bind_apply, get_apply, info, does_say _ u lg, result, hf, pure_apply]
    rfl

theorem does_source {u : Sys} {source : Str} {path : SrcPath} {src : Str} (h : SourceText u.files source path src) :
    Does o (sourceCall (stages o) path source ⟨[], []⟩) u (.ok (.str src)) u
      (if source = [] then [note "RSM.read " "reader.py" "Reading..."] else []) := by
  unfold sourceCall
  by_cases hs : source = []
  · subst hs
    rw [if_pos rfl, if_pos rfl]
    exact does_read h
  · rw [if_neg hs, if_neg hs]
    cases h with
    | given => exact Does.pure _ u
    | file => exact absurd rfl hs
    | path => exact absurd rfl hs

theorem parserWarning_eq : parserWarning = parserRecord := by
  funext w
  cases w with
  | noBibliography => rfl
  | badBibitem p =>
    unfold parserWarning parserRecord warning pointText
    simp only [List.flatten_cons, List.flatten_nil, List.append_assoc, List.append_nil]
    rfl
  | cstErrors a b => rfl

theorem transformerWarning_eq : transformerWarning = transformerRecord := by
  funext w
  cases w <;>
    (unfold transformerWarning transformerRecord warning
     simp only [List.flatten_cons, List.flatten_nil, List.append_assoc, List.append_nil])

theorem translatorWarning_eq : translatorWarning = translatorRecord := by
  funext w
  cases w <;>
    (unfold translatorWarning translatorRecord warning
     simp only [List.flatten_cons, List.flatten_nil, List.append_assoc, List.append_nil])

theorem does_parse (src : Str) (u : Sys) :
    (∀ r s, Parser.parse (12 * (o.sitter src).size + 1) (o.sitter src) { heap := u.heap } = .ok r s →
      Does o (parse o ⟨[.str src], []⟩) u (.ok (.other (.node r))) ⟨s.heap, u.files⟩ (parserMessages s.log)) ∧
    (∀ e s, Parser.parse (12 * (o.sitter src).size + 1) (o.sitter src) { heap := u.heap } = .err e s →
      Does o (parse o ⟨[.str src], []⟩) u (.error e) ⟨s.heap, u.files⟩ (parserMessages s.log)) := by
  have key := does_run (o := o) (fun h => { heap := h : Parser.ParserState }) (·.heap) (fun s => s.log.map parserRecord)
      (fun _ => Parser.parse (12 * (o.sitter src).size + 1) (o.sitter src)) u
  unfold parserMessages
  rw [parserWarning_eq]
  constructor
  · intro r s h
    have := ((does_say (note "RSM.parse" "tsparser.py" "Parsing...") u).bind
      ((does_say (note "RSM.parse" "tsparser.py" "Abstractifying...") u).bind ((key.1 r s h).bind
        (Does.pure (Val.other (Obj.node r)) _) (f := fun r => Pure.pure (Val.other (Obj.node r)))) (f := fun _ => _)) (f := fun _ => _))
    rw [List.append_nil] at this
    exact this
  · intro e s h
    exact ((does_say (note "RSM.parse" "tsparser.py" "Parsing...") u).bind
      ((does_say (note "RSM.parse" "tsparser.py" "Abstractifying...") u).bind ((key.2 e s h).bindErr)
        (f := fun _ => _)) (f := fun _ => _))

theorem does_transform (r : Ref) (u : Sys) :
    (∀ s, Transformer.transform (12 * u.heap.next + 1) r { heap := u.heap } = .ok () s →
      Does o (transform o ⟨[.other (.node r)], []⟩) u (.ok (.other (.node r))) ⟨s.heap, u.files⟩ (transformerMessages s.log)) ∧
    (∀ e s, Transformer.transform (12 * u.heap.next + 1) r { heap := u.heap } = .err e s →
      Does o (transform o ⟨[.other (.node r)], []⟩) u (.error e) ⟨s.heap, u.files⟩ (transformerMessages s.log)) := by
  have key := does_run (o := o) (fun h => { heap := h : TState }) (·.heap) (fun s => s.log.map transformerRecord)
      (fun h => Transformer.transform (12 * h.next + 1) r) u
  unfold transformerMessages
  rw [transformerWarning_eq]
  constructor
  · intro s h
    have := ((does_say (note "RSM.tform" "transformer.py" "Transforming...") u).bind
      ((key.1 () s h).bind (Does.pure (Val.other (Obj.node r)) _) (f := fun _ => _)) (f := fun _ => _))
    rw [List.append_nil] at this
    exact this
  · intro e s h
    exact ((does_say (note "RSM.tform" "transformer.py" "Transforming...") u).bind
      ((key.2 e s h).bindErr) (f := fun _ => _))

theorem does_translate (handrails addSource : Bool) (r : Ref) (u : Sys) :
    (∀ page s, Tr.translate (conf o handrails addSource u.heap) r { heap := u.heap } = .ok page s →
      Does o (translate o handrails addSource ⟨[.other (.node r)], []⟩) u (.ok (.str page)) ⟨s.heap, u.files⟩
        (translatorMessages s.log)) ∧
    (∀ e s, Tr.translate (conf o handrails addSource u.heap) r { heap := u.heap } = .err e s →
      Does o (translate o handrails addSource ⟨[.other (.node r)], []⟩) u (.error e) ⟨s.heap, u.files⟩
        (translatorMessages s.log)) := by
  have key := does_run (o := o) (fun h => { heap := h : Tr.TrState }) (·.heap) (fun s => s.log.map translatorRecord)
      (fun h => Tr.translate (conf o handrails addSource h) r) u
  unfold translatorMessages
  rw [translatorWarning_eq]
  constructor
  · intro page s h
    have := ((does_say (note "RSM.tlate" "translator.py" "Translating...") u).bind
      ((key.1 page s h).bind (Does.pure (Val.str page : Val Obj) _) (f := fun page => Pure.pure (Val.str page : Val Obj))) (f := fun _ => _))
    rw [List.append_nil] at this
    exact this
  · intro e s h
    exact ((does_say (note "RSM.tlate" "translator.py" "Translating...") u).bind
      ((key.2 e s h).bindErr) (f := fun _ => _))

theorem does_build (body : Str) (u : Sys) :
    (∀ s, Build.fullBuild ⟨o.static, u.files⟩ body {} = .ok () s →
      Does o (build o ⟨[.str body], []⟩) u (.ok (.other (.web s.web))) u (builderMessages body)) ∧
    (∀ e s, Build.fullBuild ⟨o.static, u.files⟩ body {} = .err e s →
      Does o (build o ⟨[.str body], []⟩) u (.error e) u (builderMessages body)) := by
  constructor
  · intro s h lg
    unfold build builderMessages
    dsimp only
    by_cases ha : Build.findAssets body ≠ []
    · rw [if_pos ha, if_pos ha]
      simp only [bind_apply, get_apply, info, debug, does_say _ u _, result, h, pure_apply]
      rfl
    · rw [if_neg ha, if_neg ha]
      simp only [bind_apply, get_apply, info, debug, does_say _ u _, result, h, pure_apply]
      rfl
  · intro e s h lg
    unfold build builderMessages
    dsimp only
    by_cases ha : Build.findAssets body ≠ []
    · rw [if_pos ha, if_pos ha]
      simp only [bind_apply, get_apply, info, debug, does_say _ u _, result, h]
      rfl
    · rw [if_neg ha, if_neg ha]
      simp only [bind_apply, get_apply, info, debug, does_say _ u _, result, h, pure_apply]
      rfl

theorem does_write (web : Build.Web) (u : Sys) :
    Does o (write o ⟨[.other (.web web)], []⟩) u (.ok .none) ⟨u.heap, fun p => (web.files p).or (u.files p)⟩ [] :=
  fun _ => rfl

theorem does_lint {r : Ref} {t : Tree} (u : Sys) (hd : Doc u.heap r t) (hf : t.size ≤ u.heap.next)
    (hm : (u.heap.get r).cls.isSub .Manuscript = true) :
    Does o (lint o ⟨[.other (.node r)], []⟩) u (.ok (.other (.node r))) u
      (lintStart :: (lintProblems u.heap t).map (problemRecord u.heap)) := by
  intro lg
  unfold lint
  dsimp only
  rw [C50_lint o.log (u.heap.next + 1) r t ⟨u.heap, lg⟩ hd (by exact Nat.lt_succ_of_le hf) hm]
  rfl

/-! ## The pipeline -/

theorem Does.next {t : Task Sys Obj} {ts : List (Task Sys Obj)} {v v' : Val Obj} {u u1 u2 : Sys}
    {out : Except PyErr (Val Obj)} {rs rs' : List LogRecord} (h1 : Does o (Pipeline.step t.run v) u (.ok v') u1 rs)
    (h2 : Does o (Pipeline.runLoop ts v') u1 out u2 rs') : Does o (Pipeline.runLoop (t :: ts) v) u out u2 (rs ++ rs') :=
  h1.bind h2

theorem Does.stop {t : Task Sys Obj} {ts : List (Task Sys Obj)} {v : Val Obj} {u u1 : Sys} {e : PyErr}
    {rs : List LogRecord} (h1 : Does o (Pipeline.step t.run v) u (.error e) u1 rs) :
    Does o (Pipeline.runLoop (t :: ts) v) u (.error e) u1 rs :=
  h1.bindErr

/-- The end of a run. -/
theorem does_appRun {p : Pipeline Sys Obj} {u u' : Sys} {out : Except PyErr (Val Obj)} {rs : List LogRecord}
    (h : Does o (p.run .none) u out u' rs) :
    Does o (appRun o.log p) u (userResult out) u' (rs ++ lastMessages out) := by
  intro lg
  unfold appRun
  simp only [bind_apply]
  rw [h lg, logAll_append]
  cases out with
  | ok v => rfl
  | error e =>
    cases e <;> rfl

theorem parserApp_eq (st : Stages Sys Obj) {p : SrcPath} {s : Str} {a : LogArgs} {f : LogFormat} (w : World Sys)
    (hs : ¬(p.Given ↔ s ≠ [])) (h : LogFormat.ofName a.logFormat = some f) :
    ∃ lg, parserApp o.log st p s a w = .ok (basePipeline st p s) ⟨w.user, logAll o.log
        [note "RSM" "app.py" "Application started", note "RSM" "app.py" "Configuring..."] lg⟩ ∧
      Configured a.loglevel ⟨f, a.logTime, a.logLineno⟩ lg ∧ lg.written = w.log.written ∧
      lg.lintNamed = w.log.lintNamed := by
  obtain ⟨s1, e, hc, hw, hn⟩ := config_ok (L := a.loglevel) (t := a.logTime) (l := a.logLineno) (s := w.log) h
  refine ⟨s1, ?_, hc, hw, hn⟩
  unfold parserApp
  rw [if_pos ((validSource_iff _ _).2 hs)]
  simp only [rsmApp, bind_apply, PyM.zoom, e]
  rfl

/-! ## What is written -/

theorem logAll_written {env : LogEnv} {L : Int} {f : LogFormatter} (rs : List LogRecord) :
    ∀ {s : LogState}, Configured L f s →
      (logAll env rs s).written = s.written ++ heard env L f s.lintNamed rs := by
  induction rs with
  | nil => intro s _; exact (List.append_nil _).symm
  | cons r rs ih =>
    intro s h
    rw [show logAll env (r :: rs) s = logAll env rs (s.log env r) from rfl, ih (h.log env r), (log_fields env r s).2.1]
    unfold heard
    rw [List.filter_cons]
    by_cases hl : max L DEBUG ≤ r.levelno
    · rw [log_written_of_enabled h.handlers (by rw [h.enabled]; exact decide_eq_true hl)
        (show handlerLevel L ≤ r.levelno by unfold handlerLevel; omega), if_pos (decide_eq_true hl)]
      simp only [List.map_cons, List.append_assoc, List.cons_append, List.nil_append]
    · rw [log_written_of_disabled (by rw [h.enabled]; exact decide_eq_false hl), if_neg (by simpa using hl)]

theorem logAll_written_low {env : LogEnv} {L : Int} {f : LogFormatter} (hL : L ≤ WARNING) (rs : List LogRecord) :
    ∀ {s : LogState}, ConfiguredLow L f s →
      (logAll env rs s).written = s.written ++ heard env L f s.lintNamed rs := by
  induction rs with
  | nil => intro s _; exact (List.append_nil _).symm
  | cons r rs ih =>
    intro s h
    rw [show logAll env (r :: rs) s = logAll env rs (s.log env r) from rfl, ih (h.log env r), (log_fields env r s).2.1]
    have e : handlerLevel L = max L DEBUG := by unfold handlerLevel; levels
    unfold heard
    rw [List.filter_cons]
    by_cases hl : max L DEBUG ≤ r.levelno
    · rw [log_written_of_enabled h.handlers (h.enabled hl) (by rw [e]; exact hl), if_pos (decide_eq_true hl)]
      simp only [List.map_cons, List.append_assoc, List.cons_append, List.nil_append]
    · rw [log_written_of_low h.handlers (by rw [e]; omega), if_neg (by simpa using hl)]

theorem configured_logAll {env : LogEnv} {L : Int} {f : LogFormatter} (rs : List LogRecord) :
    ∀ {s : LogState}, Configured L f s → Configured L f (logAll env rs s) := by
  induction rs with
  | nil => exact fun h => h
  | cons r rs ih => exact fun h => ih (h.log env r)

theorem logAll_lintNamed {env : LogEnv} (rs : List LogRecord) :
    ∀ {s : LogState}, (logAll env rs s).lintNamed = s.lintNamed := by
  induction rs with
  | nil => exact rfl
  | cons r rs ih => exact ih.trans (log_fields env r _).2.1

theorem heard_append (env : LogEnv) (L : Int) (f : LogFormatter) (n : Bool) (a b : List LogRecord) :
    heard env L f n (a ++ b) = heard env L f n a ++ heard env L f n b := by
  unfold heard; rw [List.filter_append, List.map_append]

end Program
end RSM
