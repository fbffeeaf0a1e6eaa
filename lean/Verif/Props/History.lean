import Verif.Lemmas.SimProgram
import Verif.Props.ProgramPage

/-!
# C87: a run does not depend on what was run before in the same process
-/

namespace RSM
namespace History
open PyM Program CleanRun Parser

variable {o : Outer} {source src : Str} {path : SrcPath}

/-- **C87.** `render` gives the same as in a new process, whatever nodes were made before: the same value or exception,
the same files, the same log, and the same nodes up to their addresses. -/
theorem C87_render {hr as : Bool} {a : LogArgs} {w : World Sys}
    (h : (render o source path hr as a (fresh w)).raised ≠ some .outOfFuel) :
    SameRun w.user.heap.next (render o source path hr as a (fresh w)) (render o source path hr as a w) :=
  (s_render (N := 0) source path hr as a _ _ (fresh_twin w) (Nat.zero_le _)).same h

/-- **C87.** The same for `make`. -/
theorem C87_make {handrails lint : Bool} {a : LogArgs} {w : World Sys}
    (h : (make o source path handrails lint a (fresh w)).raised ≠ some .outOfFuel) :
    SameRun w.user.heap.next (make o source path handrails lint a (fresh w)) (make o source path handrails lint a w) :=
  (s_makeSource (N := 0) source path handrails lint a _ _ (fresh_twin w) (Nat.zero_le _)).same h

/-- **C87.** The same for `lint`. -/
theorem C87_lint {handrails : Bool} {a : LogArgs} {w : World Sys}
    (h : (lintSource o source path handrails a (fresh w)).raised ≠ some .outOfFuel) :
    SameRun w.user.heap.next (lintSource o source path handrails a (fresh w)) (lintSource o source path handrails a w) :=
  (s_lintSource (N := 0) o source path handrails a _ _ (fresh_twin w) (Nat.zero_le _)).same h

/-! ## Any two histories -/

/-- Not a message of the linter. -/
def Usual (r : LogRecord) : Prop := r.levelno ∈ [DEBUG, INFO, WARNING, ERROR]

theorem format_usual (env : LogEnv) (f : LogFormatter) {r : LogRecord} (h : Usual r) (b b' : Bool) :
    f.format env b r = f.format env b' r := by
  have e : levelName b r.levelno = levelName b' r.levelno := by
    unfold Usual at h
    simp only [List.mem_cons, List.not_mem_nil, or_false] at h
    rcases h with h | h | h | h <;> rw [h] <;> rfl
  unfold LogFormatter.format
  cases f.fmt <;> dsimp only
  · unfold rsmFormat; rw [e]
  · unfold lintFormat; rw [e]

theorem heard_usual (env : LogEnv) (L : Int) (f : LogFormatter) {rs : List LogRecord} (h : ∀ r ∈ rs, Usual r) (b b' : Bool) :
    heard env L f b rs = heard env L f b' rs := by
  unfold heard
  refine List.map_congr_left fun r hr => ?_
  rw [format_usual env f (h r (List.mem_filter.1 hr).1) b b']

theorem usual_note (a b c : String) : Usual (note a b c) := by unfold Usual note; simp

theorem usual_compiled {h h' : Heap} {out : Except PyErr Ref} {rs : List LogRecord} (c : Compiled o h src out h' rs) :
    ∀ r ∈ rs, Usual r := by
  have hp : ∀ l, ∀ r ∈ parserMessages l, Usual r := by
    intro l r hr
    rcases List.mem_append.1 hr with hr | hr
    · rcases List.mem_cons.1 hr with rfl | hr
      · exact usual_note _ _ _
      · cases List.mem_singleton.1 hr; exact usual_note _ _ _
    · obtain ⟨x, -, rfl⟩ := List.mem_map.1 hr
      cases x <;> simp [Usual, parserWarning, warning]
  have ht : ∀ l, ∀ r ∈ transformerMessages l, Usual r := by
    intro l r hr
    rcases List.mem_cons.1 hr with rfl | hr
    · exact usual_note _ _ _
    · obtain ⟨x, -, rfl⟩ := List.mem_map.1 hr
      cases x <;> simp [Usual, transformerWarning, warning]
  cases c with
  | unparsed => exact hp _
  | untransformed => exact fun r hr => (List.mem_append.1 hr).elim (hp _ r) (ht _ r)
  | done => exact fun r hr => (List.mem_append.1 hr).elim (hp _ r) (ht _ r)

theorem usual_rendered {h h' : Heap} {hr as : Bool} {out : Except PyErr Str} {rs : List LogRecord}
    (c : Rendered o h hr as src out h' rs) : ∀ r ∈ rs, Usual r := by
  have ht : ∀ l, ∀ r ∈ translatorMessages l, Usual r := by
    intro l r hr
    rcases List.mem_cons.1 hr with rfl | hr
    · exact usual_note _ _ _
    · obtain ⟨x, -, rfl⟩ := List.mem_map.1 hr
      cases x <;> simp [Usual, translatorWarning, warning]
  cases c with
  | stopped c => exact usual_compiled c
  | untranslated c => exact fun r hr => (List.mem_append.1 hr).elim (usual_compiled c r) (ht _ r)
  | done c => exact fun r hr => (List.mem_append.1 hr).elim (usual_compiled c r) (ht _ r)

theorem usual_start (source : Str) : ∀ r ∈ startMessages source, Usual r := by
  intro r hr
  unfold startMessages at hr
  split at hr <;> simp at hr
  · rcases hr with rfl | rfl | rfl <;> exact usual_note _ _ _
  · rcases hr with rfl | rfl <;> exact usual_note _ _ _

theorem usual_last (out : Except PyErr (Val Obj)) : ∀ r ∈ lastMessages out, Usual r := by
  intro r hr
  unfold lastMessages at hr
  split at hr <;> simp at hr <;> subst hr <;> simp [Usual, note]

theorem usual_builder (body : Str) : ∀ r ∈ builderMessages body, Usual r := by
  intro r hr
  unfold builderMessages at hr
  split at hr <;> simp at hr
  · rcases hr with rfl | rfl | rfl | rfl | rfl <;> simp [Usual, note]
  · rcases hr with rfl | rfl | rfl | rfl <;> simp [Usual, note]

/-- With a source as in C84, nothing goes on for ever. -/
theorem rendered_ends {hr as : Bool} {h' : Heap} {rs : List LogRecord} {out : Except PyErr Str} (S : Source (o.sitter src))
    (hE : ErrorsUnlabelled (o.sitter src)) (hT : TocFine (o.sitter src)) (c : Rendered o Heap.empty hr as src out h' rs) :
    out ≠ .error .outOfFuel := by
  rintro rfl
  have hs : SourceText (fun _ => some src) [] (.str ['x']) src := .file nofun rfl
  obtain ⟨w', e, -⟩ := C83_render (o := o) (a := {}) (f := .rsm) (w := ⟨⟨Heap.empty, fun _ => some src⟩, {}⟩) rfl hs c
  rcases C84_outcome (o := o) (hr := hr) (as := as) (a := {}) (w := ⟨⟨Heap.empty, fun _ => some src⟩, {}⟩) (by decide) hs S
    Forest.empty hE hT with ⟨p, w2, h, -⟩ | ⟨w2, s, h, -⟩ | ⟨e2, w2, h, hm⟩
  · rw [e] at h; cases h
  · rw [e] at h; cases h
  · rw [e] at h; cases h
    revert hm; decide

/-- **C87.** For each source there is one result of `render`, whether the source is given or read, and however it is logged;
and for each way to log one list of lines that it writes to the log.  Whatever was run before, these are what the user
gets. -/
theorem C87_render_same {hr as : Bool} (S : Source (o.sitter src)) (hE : ErrorsUnlabelled (o.sitter src))
    (hT : TocFine (o.sitter src)) :
    ∃ out : Except PyErr (Val Obj), ∀ source path (a : LogArgs), a.logFormat ∈ knownFormats → ∃ lines,
      ∀ w : World Sys, SourceText w.user.files source path src →
      ∃ w', render o source path hr as a w = result out w' ∧ w'.user.files = w.user.files ∧
        w'.log.written = w.log.written ++ lines := by
  obtain ⟨out, h0, rs, c⟩ := rendered_total o Heap.empty hr as src
  refine ⟨userResult (out.map .str), fun source path a hf => ?_⟩
  obtain ⟨f, hf⟩ := Option.isSome_iff_exists.1 ((known_iff _).2 hf)
  refine ⟨heard o.log a.loglevel ⟨f, a.logTime, a.logLineno⟩ false
    (startMessages source ++ rs ++ lastMessages (out.map .str)), fun w hs => ?_⟩
  obtain ⟨h', c'⟩ := rendered_twin c (rendered_ends S hE hT c) w.user.heap
  obtain ⟨w', e1, e2, e3⟩ := C83_render hf hs c'
  refine ⟨w', e1, by rw [e2], ?_⟩
  rw [e3, heard_usual _ _ _ _ w.log.lintNamed false]
  intro r hr
  rcases List.mem_append.1 hr with hr | hr
  · exact (List.mem_append.1 hr).elim (usual_start _ r) (usual_rendered c r)
  · exact usual_last _ r hr

/-- **C87.** The same for `make`, with the files that it leaves, for each source and all the files that there are. -/
theorem C87_make_same {lint : Bool} {a : LogArgs} {files : Str → Option Str}
    (hf : a.logFormat ∈ knownFormats)
    (S : Source (o.sitter src)) (hE : ErrorsUnlabelled (o.sitter src)) (hT : TocFine (o.sitter src))
    (hs : SourceText files source path src) :
    ∃ out files' lines, ∀ (handrails : Bool) (w : World Sys), w.user.files = files →
      ∃ w', make o source path handrails lint a w = result out w' ∧ w'.user.files = files' ∧
        w'.log.written = w.log.written ++ lines := by
  obtain ⟨f, hf⟩ := Option.isSome_iff_exists.1 ((known_iff _).2 hf)
  have key : ∃ out files' rs, (∀ r ∈ rs, Usual r) ∧ ∀ h : Heap, ∃ h', Builds o ⟨h, files⟩ lint src out ⟨h', files'⟩ rs := by
    obtain ⟨out, h0, rs, c⟩ := rendered_total o Heap.empty lint true src
    have ends := rendered_ends S hE hT c
    cases out with
    | error e =>
      refine ⟨.error e, files, rs, usual_rendered c, fun h => ?_⟩
      obtain ⟨h', c'⟩ := rendered_twin c ends h
      exact ⟨h', .stopped c'⟩
    | ok p =>
      cases e : Build.fullBuild ⟨o.static, files⟩ p {} with
      | err x s =>
        refine ⟨.error x, files, rs ++ builderMessages p, fun r hr => (List.mem_append.1 hr).elim (usual_rendered c r) (usual_builder p r),
          fun h => ?_⟩
        obtain ⟨h', c'⟩ := rendered_twin c ends h
        exact ⟨h', .unbuilt (u := ⟨h, files⟩) c' e⟩
      | ok x s =>
        refine ⟨.ok (), fun p => (s.web.files p).or (files p), rs ++ builderMessages p, fun r hr => (List.mem_append.1 hr).elim (usual_rendered c r) (usual_builder p r),
          fun h => ?_⟩
        obtain ⟨h', c'⟩ := rendered_twin c ends h
        exact ⟨h', .done (u := ⟨h, files⟩) c' e⟩
  obtain ⟨out, files', rs, hu, H⟩ := key
  refine ⟨userResult (out.map fun _ => .none), files', heard o.log a.loglevel ⟨f, a.logTime, true⟩ false
    (startMessages source ++ rs ++ lastMessages (out.map fun _ => .none)), fun handrails w hw => ?_⟩
  subst hw
  obtain ⟨h', c'⟩ := H w.user.heap
  obtain ⟨w', e1, e2, e3⟩ := C83_make (handrails := handrails) hf hs c'
  refine ⟨w', e1, by rw [e2], ?_⟩
  rw [e3, heard_usual _ _ _ _ w.log.lintNamed false]
  intro r hr
  rcases List.mem_append.1 hr with hr | hr
  · exact (List.mem_append.1 hr).elim (usual_start _ r) (hu r)
  · exact usual_last _ r hr

/-- **C87.** The same for `lint`, which gives a manuscript: its address is all that depends on the history. -/
theorem C87_lint_same {a : LogArgs} (hf : a.logFormat ∈ knownFormats)
    (S : Source (o.sitter src)) (hE : ErrorsUnlabelled (o.sitter src)) (hT : TocFine (o.sitter src)) :
    ∃ (out : Except PyErr (Val Obj)) (lines : List (LogRecord × Option Str)) (h0 : Heap), ∀ (handrails : Bool) (w : World Sys), SourceText w.user.files source path src →
      ∃ w', lintSource o source path handrails a w = result (out.map (shiftVal w.user.heap.next)) w' ∧
        w'.user.files = w.user.files ∧ w'.log.written = w.log.written ++ lines ∧ Twin w.user.heap.next h0 w'.user.heap := by
  obtain ⟨f, hf⟩ := Option.isSome_iff_exists.1 ((known_iff _).2 hf)
  obtain ⟨out, h0, rs, c⟩ := compiled_total o Heap.empty src
  have ends : out ≠ .error .outOfFuel := by
    rintro rfl
    exact rendered_ends S hE hT (.stopped (handrails := false) (addSource := false) c) rfl
  cases out with
  | error e =>
    refine ⟨userResult (.error e), heard o.log LINT_LVL ⟨f, a.logTime, a.logLineno⟩ true (rs ++ lastMessages (.error e)), h0, fun handrails w hs => ?_⟩
    obtain ⟨h', c', T, -⟩ := compiled_twin c ends w.user.heap
    obtain ⟨w', e1, e2, e3⟩ := C83_lint_stopped (handrails := handrails) hf hs c'
    refine ⟨w', ?_, by rw [e2], e3, by rw [e2]; exact T⟩
    rw [e1]
    cases e <;> rfl
  | ok r =>
    obtain ⟨t, D, hM, -, -⟩ := compiled_doc S Forest.empty hE hT c
    refine ⟨.ok (.other (.node r)), heard o.log LINT_LVL ⟨f, a.logTime, a.logLineno⟩ true
      (rs ++ (lintProblems h0 t).map (problemRecord h0)), h0, fun handrails w hs => ?_⟩
    obtain ⟨w0, e1, e2, e3⟩ := C83_lint (handrails := handrails) (w := fresh w) hf hs c D (by rw [hM]; rfl)
    have Q := C87_lint (o := o) (source := source) (path := path) (handrails := handrails) (a := a) (w := w) (by rw [e1]; nofun)
    rw [e1] at Q
    obtain ⟨q1, q2, q3, q4, q5⟩ := Q
    cases e : lintSource o source path handrails a w with
    | err x w' => rw [e] at q2; cases q2
    | ok v w' =>
      rw [e] at q1 q3 q4 q5
      cases q1
      refine ⟨w', rfl, q3.trans (by show w0.user.files = _; rw [e2]; rfl), ?_, ?_⟩
      · show w'.log.written = _
        rw [show w'.log = w0.log from q4, e3]
        rfl
      · have : w0.user.heap = h0 := by rw [e2]
        exact this ▸ q5

/-- **C87.** So `render` comes to one of the ends of `C84_outcome` whatever there was before, also if nodes that were made
before do not form a forest. -/
theorem C87_outcome {hr as : Bool} {a : LogArgs} {w : World Sys} (hf : a.logFormat ∈ knownFormats)
    (hs : SourceText w.user.files source path src)
    (S : Source (o.sitter src)) (hE : ErrorsUnlabelled (o.sitter src)) (hT : TocFine (o.sitter src)) :
    (∃ page, (render o source path hr as a w).value = some (.str page) ∧ (page = [] ∨ "\n<body>".toList <+: page)) ∨
    ∃ e ∈ [PyErr.rsmNodeError, .rsmTransformerError, .rsmTranslatorError, .assertionError, .attributeError, .valueError,
        .keyError, .indexError, .stopIteration, .otherError], (render o source path hr as a w).raised = some e := by
  obtain ⟨out, H⟩ := C87_render_same (o := o) (src := src) (hr := hr) (as := as) S hE hT
  obtain ⟨lines, H⟩ := H source path a hf
  obtain ⟨w1, h1, -⟩ := H w hs
  obtain ⟨w2, h2, -⟩ := H (fresh w) hs
  have e := result_value out w1 w2
  rw [← h1, ← h2] at e
  rw [e.1, e.2]
  rcases C84_outcome (o := o) (hr := hr) (as := as) (w := fresh w) hf hs S Forest.empty hE hT with
    ⟨p, w', h, hp⟩ | ⟨w', s, h, -⟩ | ⟨x, w', h, hx⟩
  · exact .inl ⟨p, by rw [h]; rfl, .inr hp⟩
  · exact .inl ⟨[], by rw [h]; rfl, .inl rfl⟩
  · exact .inr ⟨x, hx, by rw [h]; rfl⟩

/-- **C87.** And every well-formed source that is as it should be gives a page as in `C84_page`, whatever there was
before, also if the nodes that were made before are neither a forest nor clean. -/
theorem C87_page {hr as : Bool} (W : WellFormed (o.sitter src)) (hE : ErrorsUnlabelled (o.sitter src))
    (hT : TocFine (o.sitter src)) (hm : Structured (o.sitter src)) (P : PageSource hr (o.sitter src)) :
    ∃ page, "\n<body>".toList <+: page ∧
      (CleanCst (o.sitter src) → formulasFit .Node (sourceOutline (o.sitter src)) = true →
        (hr = true → EntriesSafe (o.sitter src)) → Decent o → Html.Balanced page) ∧
      ∀ source path (a : LogArgs) (w : World Sys), a.logFormat ∈ knownFormats → SourceText w.user.files source path src →
        ∃ w', render o source path hr as a w = .ok (.str page) w' ∧ w'.user.files = w.user.files := by
  obtain ⟨out, H⟩ := C87_render_same (o := o) (src := src) (hr := hr) (as := as) W.source hE hT
  let w0 : World Sys := ⟨⟨Heap.empty, fun _ => some src⟩, {}⟩
  have hs0 : SourceText w0.user.files [] (.str ['x']) src := .file nofun rfl
  obtain ⟨page, w', h, -, hb, hB⟩ := C84_page (o := o) (hr := hr) (as := as) (a := {}) (w := w0) (by decide) hs0 W Forest.empty
    hE hT hm P
  obtain ⟨_, H0⟩ := H [] (.str ['x']) {} (by decide)
  obtain ⟨w1, h1, -⟩ := H0 w0 hs0
  rw [h] at h1
  have e : out = .ok (.str page) := by
    cases out with
    | error e => cases h1
    | ok v => cases h1; rfl
  refine ⟨page, hb, hB fresh_clean, fun source path a w hf hs => ?_⟩
  obtain ⟨_, H1⟩ := H source path a hf
  obtain ⟨w2, h2, h3, -⟩ := H1 w hs
  exact ⟨w2, by rw [h2, e]; rfl, h3⟩

/-! ## Cases -/

/-- `repr` of nodes shows no addresses. -/
example (e : ReprEnv) : NoAddresses (nodeRepr e) := noAddresses_repr e

/-- That is not so for `repr` of objects that do not define it, which shows the address. -/
example : ¬ NoAddresses fun _ r => natStr r := by
  intro h
  have T : Twin 1 ((Heap.empty.alloc { cls := .Text }).2) ((((Heap.empty.alloc { cls := .Text }).2).alloc { cls := .Text }).2) := by
    refine ⟨rfl, fun r hr => ?_, fun r hr => ?_⟩
    · have : r = 0 := Nat.lt_one_iff.1 hr
      subst this
      rfl
    · have : r = 0 := Nat.lt_one_iff.1 hr
      subst this
      exact ⟨nofun, nofun, nofun, nofun⟩
  exact absurd (h 1 _ _ 0 T (by decide)) (by decide)

/-- Not vacuous: the sample gives the same page after any runs of `make` and `lint` as in a new process. -/
example (hr as : Bool) (a b : LogArgs) (s1 s2 : Str) : ∃ page,
    (render sampleOuter "source".toList .none hr as {} sampleWorld).value = some (.str page) ∧
    (render sampleOuter "source".toList .none hr as {}
      (lintSource sampleOuter s2 .none false b (make sampleOuter s1 .none false true a sampleWorld).state).state).value =
        some (.str page) ∧ page ≠ [] := by
  obtain ⟨page, hb, -, H⟩ := C87_page (o := sampleOuter) (src := "source".toList) (hr := hr) (as := as) sample_wellFormed
    sample_errors sample_tocFine sample_structured (sample_page hr)
  have hs : ∀ f, SourceText f "source".toList .none "source".toList := fun f => .given (by decide) (.inl rfl)
  obtain ⟨w1, h1, -⟩ := H _ _ {} sampleWorld (by decide) (hs _)
  obtain ⟨w2, h2, -⟩ := H _ _ {} (lintSource sampleOuter s2 .none false b (make sampleOuter s1 .none false true a sampleWorld).state).state
    (by decide) (hs _)
  refine ⟨page, by rw [h1]; rfl, by rw [h2]; rfl, ?_⟩
  rintro rfl
  exact absurd (List.prefix_nil.1 hb) (by decide)

end History
end RSM
