import Verif.Spec.Cli
import Verif.Props.History
import Verif.Props.App

/-!
# C89: the commands
-/

namespace RSM
namespace Program
open PyM LogState RSM.Parser History

variable {o : Outer} {src : Str}

theorem cliText_source {files : Str → Option Str} {args : CliArgs} (h : CliText files args src) :
    SourceText files (if args.string then args.src else []) (if args.string then .str [] else .str args.src) src := by
  cases h with
  | given h1 h2 => rw [h1]; exact .given h2 (.inr rfl)
  | file h1 h2 h3 => rw [h1]; exact .file h2 h3

theorem cliFormats_known {l : Str} (h : l ∈ cliFormats) : l ∈ knownFormats := by
  simp only [cliFormats, knownFormats, List.mem_cons, List.not_mem_nil, or_false] at h ⊢
  rcases h with h | h | h | h <;> simp [h]

/-- The arguments for the logger. -/
def logArgs (args : CliArgs) : LogArgs := ⟨WARNING - args.verbose * 10, args.logFormat, args.logTime, args.logLineno⟩

theorem rsmRender_eq {args : CliArgs} {w : World Sys} {out : Except PyErr (Val Obj)} {w' : World Sys}
    (h : render o (if args.string then args.src else []) (if args.string then .str [] else .str args.src) args.handrails false
      (logArgs args) w = result out w') :
    rsmRender o args w = result (out.map fun v => ((0 : Int), if !args.silent && v.truthy then some v else none)) w' := by
  have h : appRender o.log (stages o) (if args.string then args.src else []) (if args.string then .str [] else .str args.src)
    args.handrails false ⟨WARNING - args.verbose * 10, args.logFormat, args.logTime, args.logLineno⟩ w = result out w' := h
  simp only [rsmRender, cliRender, cliMain, bind_apply, h]
  cases out <;> rfl

theorem rsmMake_eq {args : CliArgs} {w : World Sys} {out : Except PyErr (Val Obj)} {w' : World Sys}
    (h : make o (if args.string then args.src else []) (if args.string then .str [] else .str args.src) true true
      (logArgs args) w = result out w') :
    rsmMake o args w = result (out.map fun v => ((0 : Int), if !args.silent && v.truthy then some v else none)) w' := by
  have h : appMake o.log (stages o) (if args.string then args.src else []) (if args.string then .str [] else .str args.src)
    true true ⟨WARNING - args.verbose * 10, args.logFormat, args.logTime, args.logLineno⟩ w = result out w' := h
  simp only [rsmMake, cliMake, cliMain, bind_apply, h]
  cases out <;> rfl

theorem rsmLint_eq {args : CliArgs} {w : World Sys} {out : Except PyErr (Val Obj)} {w' : World Sys}
    (h : lintSource o (if args.string then args.src else []) (if args.string then .str [] else .str args.src) args.handrails
      (logArgs args) w = result out w') :
    rsmLint o args w = result (out.map fun _ => ((0 : Int), none)) w' := by
  have h : appLint o.log (stages o) (if args.string then args.src else []) (if args.string then .str [] else .str args.src)
    args.handrails ⟨WARNING - args.verbose * 10, args.logFormat, args.logTime, args.logLineno⟩ w = result out w' := h
  simp only [rsmLint, cliLint, cliMain, bind_apply, h]
  cases out <;> rfl

/-- **C89.** For each source, with and without handrails, there is one result of `render`, with which `rsm-render` ends
whatever its other options are and whatever there was before.  If it is a text, the exit status is 0, and the text
is what is printed, unless it is empty (which means that the parser failed) or the command is told to be silent.  If it
is an exception, that ends the command.  No file is changed. -/
theorem C89_render {hr : Bool} (S : Source (o.sitter src)) (hE : ErrorsUnlabelled (o.sitter src)) (hT : TocFine (o.sitter src)) :
    ∃ out : Except PyErr Str,
      (∀ source path (a : LogArgs) (w : World Sys), a.logFormat ∈ knownFormats → SourceText w.user.files source path src →
        ∃ w', render o source path hr false a w = result (out.map .str) w') ∧
      (∀ page, out = .ok page → page = [] ∨ "\n<body>".toList <+: page) ∧
      ∀ args (w : World Sys), args.logFormat ∈ cliFormats → CliText w.user.files args src → args.handrails = hr →
        match out with
        | .ok page => Ends w.user.files (rsmRender o args w) 0 (if args.silent = false ∧ page ≠ [] then some page else none)
        | .error e => Fails w.user.files (rsmRender o args w) e := by
  obtain ⟨out, H⟩ := C87_render_same (o := o) (src := src) (hr := hr) (as := false) S hE hT
  let w0 : World Sys := ⟨⟨Heap.empty, fun _ => some src⟩, {}⟩
  have hs0 : SourceText w0.user.files [] (.str ['x']) src := .file nofun rfl
  have hout : ∃ out' : Except PyErr Str, out = out'.map .str ∧ ∀ page, out' = .ok page → page = [] ∨ "\n<body>".toList <+: page := by
    obtain ⟨_, H0⟩ := H [] (.str ['x']) {} (by decide)
    obtain ⟨w1, h1, -⟩ := H0 w0 hs0
    rcases C87_outcome (o := o) (hr := hr) (as := false) (a := {}) (w := w0) (by decide) hs0 S hE hT with ⟨page, h, hp⟩ | ⟨e, -, h⟩
    · rw [h1] at h
      cases out with
      | error e => cases h
      | ok v => cases h; exact ⟨.ok page, rfl, fun p hpp => by cases hpp; exact hp⟩
    · rw [h1] at h
      cases out with
      | error e => exact ⟨.error e, rfl, nofun⟩
      | ok v => cases h
  obtain ⟨out, rfl, hb⟩ := hout
  refine ⟨out, fun source path a w hf hs => ?_, hb, fun args w hf hc hh => ?_⟩
  · obtain ⟨_, H⟩ := H source path a hf
    obtain ⟨w', h, -⟩ := H w hs
    exact ⟨w', h⟩
  · subst hh
    obtain ⟨_, H⟩ := H _ _ (logArgs args) (cliFormats_known hf)
    obtain ⟨w', h, hw, -⟩ := H w (cliText_source hc)
    rw [rsmRender_eq h]
    cases out with
    | error e => exact ⟨rfl, hw⟩
    | ok page =>
      refine ⟨?_, hw⟩
      show some _ = some _
      congr 2
      cases args.silent <;> by_cases hp : page = [] <;> simp [Val.truthy, hp]

/-- **C89.** For each source there is one result of `render` with handrails and with the source.  `rsm-make` prints
nothing, whatever its options are and whatever there was before.  If the result is an exception, that ends the command.
If it is the empty text (the parser failed), the exit status is 0 all the same.  In both cases no file is changed.  Else either
a file that the page refers to cannot be copied, and an exception ends the command and no file is changed; or the exit
status is 0, the page is written to `index.html`, and no other file is changed but those in `static/`. -/
theorem C89_make (S : Source (o.sitter src)) (hE : ErrorsUnlabelled (o.sitter src)) (hT : TocFine (o.sitter src)) :
    ∃ out : Except PyErr Str,
      (∀ source path (a : LogArgs) (w : World Sys), a.logFormat ∈ knownFormats → SourceText w.user.files source path src →
        ∃ w', render o source path true true a w = result (out.map .str) w') ∧
      (∀ page, out = .ok page → page = [] ∨ "\n<body>".toList <+: page) ∧
      ∀ args (w : World Sys), args.logFormat ∈ cliFormats → CliText w.user.files args src →
        match out with
        | .error e => Fails w.user.files (rsmMake o args w) e
        | .ok page => (page = [] → Ends w.user.files (rsmMake o args w) 0 none) ∧
          (page ≠ [] → ∀ assets, AllBetween "src=\"".toList "\"".toList page assets →
            (∃ x ∈ assets, ¬ Copyable ⟨o.static, w.user.files⟩ x) ∧ Fails w.user.files (rsmMake o args w) .otherError ∨
            (∀ x ∈ assets, Copyable ⟨o.static, w.user.files⟩ x) ∧ ∃ files', Ends files' (rsmMake o args w) 0 none ∧
              files' "index.html".toList = some (Build.page page) ∧
              ∀ p, p ≠ "index.html".toList → ¬ "static/".toList <+: p → files' p = w.user.files p) := by
  obtain ⟨out, h0, rs, c⟩ := rendered_total o Heap.empty true true src
  have ends := rendered_ends S hE hT c
  have hr : ∀ source path (a : LogArgs) (w : World Sys), a.logFormat ∈ knownFormats → SourceText w.user.files source path src →
      ∃ w', render o source path true true a w = result (userResult (out.map .str)) w' := by
    intro source path a w hf hs
    obtain ⟨f, hf⟩ := Option.isSome_iff_exists.1 ((known_iff _).2 hf)
    obtain ⟨h', c'⟩ := rendered_twin c ends w.user.heap
    obtain ⟨w', e1, -⟩ := C83_render hf hs c'
    exact ⟨w', e1⟩
  have hm : ∀ args (w : World Sys) out' u' rs', args.logFormat ∈ cliFormats → CliText w.user.files args src →
      Builds o w.user true src out' u' rs' → ∃ w', w'.user = u' ∧
        rsmMake o args w = result ((userResult (out'.map fun _ => .none)).map fun v => ((0 : Int), if !args.silent && v.truthy then some v else none)) w' := by
    intro args w out' u' rs' hf hc hb
    obtain ⟨f, hf⟩ := Option.isSome_iff_exists.1 ((known_iff _).2 (cliFormats_known hf))
    obtain ⟨w', e1, e2, -⟩ := C83_make (handrails := true) (a := logArgs args) hf (cliText_source hc) hb
    exact ⟨w', e2, rsmMake_eq e1⟩
  cases out with
  | error e =>
    by_cases he : e = .rsmParserError
    · subst he
      refine ⟨.ok [], hr, fun page h => by cases h; exact .inl rfl, fun args w hf hc => ⟨fun _ => ?_, fun h => absurd rfl h⟩⟩
      obtain ⟨h', c'⟩ := rendered_twin c ends w.user.heap
      obtain ⟨w', e2, e3⟩ := hm args w _ _ _ hf hc (.stopped c')
      rw [e3]
      refine ⟨?_, by show w'.user.files = _; rw [e2]⟩
      show some ((0 : Int), if (!args.silent && false) = true then some _ else none) = _
      rw [Bool.and_false]; rfl
    · have hu : ∀ g : Unit → Val Obj, userResult ((Except.error e : Except PyErr Unit).map g) = .error e := by
        intro g; cases e <;> first | rfl | exact absurd rfl he
      refine ⟨.error e, ?_, nofun, fun args w hf hc => ?_⟩
      · intro source path a w hf hs
        obtain ⟨w', h⟩ := hr source path a w hf hs
        refine ⟨w', h.trans ?_⟩
        cases e <;> first | rfl | exact absurd rfl he
      obtain ⟨h', c'⟩ := rendered_twin c ends w.user.heap
      obtain ⟨w', e2, e3⟩ := hm args w _ _ _ hf hc (.stopped c')
      rw [hu] at e3
      rw [e3]
      exact ⟨rfl, by show w'.user.files = _; rw [e2]⟩
  | ok page =>
    have hb : "\n<body>".toList <+: page := by
      cases c with
      | @done r h1 rs _ s c p =>
        obtain ⟨t, D, hM, -, -⟩ := compiled_doc S Forest.empty hE hT c
        exact page_begins (s := { heap := h1 }) D (Nat.mul_le_mul_left 2 (doc_size D)) hM p
    have hne : page ≠ [] := by
      rintro rfl
      exact absurd (List.prefix_nil.1 hb) (by decide)
    refine ⟨.ok page, hr, fun p h => by cases h; exact .inr hb, fun args w hf hc => ⟨fun h => absurd h hne, fun _ assets ha => ?_⟩⟩
    obtain ⟨h', c'⟩ := rendered_twin c ends w.user.heap
    by_cases hall : ∀ x ∈ assets, Copyable ⟨o.static, w.user.files⟩ x
    · obtain ⟨s, e, -⟩ := C55_build ⟨o.static, w.user.files⟩ page assets {} ha hall
      obtain ⟨w', e2, e3⟩ := hm args w _ _ _ hf hc (.done c' e)
      refine .inr ⟨hall, _, ⟨?_, rfl⟩, ?_, ?_⟩
      · rw [e3]
        show some ((0 : Int), if (!args.silent && false) = true then some _ else none) = _
        rw [Bool.and_false]; rfl
      · rw [e3]
        show w'.user.files _ = _
        rw [e2]
        show (s.web.files _).or _ = _
        rw [(C55_page _ page _ _ e).1]
        rfl
      · intro p hi hp
        rw [e3]
        show w'.user.files _ = _
        rw [e2]
        show (s.web.files _).or _ = _
        rw [build_files e hi hp]
        rfl
    · have : ∃ x ∈ assets, ¬ Copyable ⟨o.static, w.user.files⟩ x := by
        simpa only [not_forall, exists_prop] using hall
      obtain ⟨x, hx, hn⟩ := this
      have e := C55_missing ⟨o.static, w.user.files⟩ page assets {} ha x hx hn
      cases eb : Build.fullBuild ⟨o.static, w.user.files⟩ page {} with
      | ok u s => rw [eb] at e; cases e
      | err e' s =>
        rw [eb] at e
        cases e
        obtain ⟨w', e2, e3⟩ := hm args w _ _ _ hf hc (.unbuilt c' eb)
        refine .inl ⟨⟨x, hx, hn⟩, ?_⟩
        rw [e3]
        exact ⟨rfl, by show w'.user.files = _; rw [e2]⟩

/-- **C89.** `rsm-lint` prints nothing and changes no file.  For every source that is compiled the exit status is 0, and
with the format "lint", its default, the log gets the warnings of the parser and the transformer and then a line
for each problem of the manuscript, with its place; the options `-v`, `-r` and `-s` do not matter. -/
theorem C89_lint {args : CliArgs} {w : World Sys} {h' : Heap} {rs : List LogRecord} {out : Except PyErr Ref}
    (hf : args.logFormat = "lint".toList) (hc : CliText w.user.files args src)
    (S : Source (o.sitter src)) (F : Forest w.user.heap) (hE : ErrorsUnlabelled (o.sitter src)) (hT : TocFine (o.sitter src))
    (c : Compiled o w.user.heap src out h' rs) :
    match out with
    | .ok r => Ends w.user.files (rsmLint o args w) 0 none ∧ ∃ t lines, Doc h' r t ∧
        (rsmLint o args w).state.log.written = w.log.written
          ++ heard o.log LINT_LVL ⟨.lint, args.logTime, args.logLineno⟩ true rs ++ lines ∧
        lines.map (·.2) = (lintProblems h' t).map fun p => some ("src:".toList
          ++ intStr ((h'.get p.2).startPoint.1 + 1) ++ ":".toList
          ++ intStr ((h'.get p.2).startPoint.2 + 1) ++ ": LINT: ".toList ++ p.1)
    | .error .rsmParserError => Ends w.user.files (rsmLint o args w) 0 none
    | .error e => Fails w.user.files (rsmLint o args w) e := by
  have hf' : LogFormat.ofName (logArgs args).logFormat = some .lint := by
    show LogFormat.ofName args.logFormat = _
    rw [hf]; rfl
  have hs := cliText_source hc
  cases out with
  | ok r =>
    obtain ⟨t, w', lines, D, h1, h2, h3, -, h5, -⟩ := C84_lint (handrails := args.handrails) (a := logArgs args) hf' hs S F hE hT c
    have e := rsmLint_eq (out := .ok (.other (.node r))) h1
    rw [e]
    exact ⟨⟨rfl, by show w'.user.files = _; rw [h2]⟩, t, lines, D, h3, h5 rfl⟩
  | error e =>
    obtain ⟨w', h1, h2, -⟩ := C83_lint_stopped (handrails := args.handrails) (a := logArgs args) hf' hs c
    have e1 := rsmLint_eq h1
    rw [e1]
    have hu : w'.user.files = w.user.files := by rw [h2]
    cases e <;> exact ⟨rfl, hu⟩

/-- **C89.** If the file is not there, each command is ended by an exception, and no file is changed. -/
theorem C89_no_file {args : CliArgs} {w : World Sys} (hf : args.logFormat ∈ cliFormats) (hs : args.string = false)
    (hp : args.src ≠ []) (hn : w.user.files args.src = none) :
    Fails w.user.files (rsmRender o args w) .otherError ∧ Fails w.user.files (rsmMake o args w) .otherError ∧
      Fails w.user.files (rsmLint o args w) .otherError := by
  have key : ∀ {x : Res (World Sys) (Val Obj)}, x.raised = some .otherError → x = result (.error .otherError) x.state := by
    intro x h
    cases x with
    | ok => cases h
    | err => cases h; rfl
  have e1 : (if args.string then args.src else []) = [] := by rw [hs]; rfl
  have e2 : (if args.string then SrcPath.str [] else .str args.src) = .str args.src := by rw [hs]; rfl
  refine ⟨?_, ?_, ?_⟩
  · obtain ⟨⟨h1, h2⟩, -, -⟩ := C83_no_file (o := o) (hr := args.handrails) (as := false) (a := logArgs args) (w := w)
      (cliFormats_known hf) hp hn
    rw [rsmRender_eq (by rw [e1, e2]; exact key h1)]
    exact ⟨rfl, by show (render ..).state.user.files = _; rw [h2]⟩
  · obtain ⟨-, ⟨h1, h2⟩, -⟩ := C83_no_file (o := o) (hr := true) (as := true) (a := logArgs args) (w := w)
      (cliFormats_known hf) hp hn
    rw [rsmMake_eq (by rw [e1, e2]; exact key h1)]
    exact ⟨rfl, by show (make ..).state.user.files = _; rw [h2]⟩
  · obtain ⟨-, -, h1, h2⟩ := C83_no_file (o := o) (hr := args.handrails) (as := true) (a := logArgs args) (w := w)
      (cliFormats_known hf) hp hn
    rw [rsmLint_eq (by rw [e1, e2]; exact key h1)]
    exact ⟨rfl, by show (lintSource ..).state.user.files = _; rw [h2]⟩

/-! ## Cases -/

/-- Not vacuous: the sample is printed, with any verbosity, whether it is read or given; with `-s` nothing is. -/
example (hr : Bool) (n : Nat) : ∃ page, page ≠ [] ∧
    (rsmRender sampleOuter { src := "doc.rsm", handrails := hr, verbose := n } sampleWorld).value = some (0, some (.str page)) ∧
    (rsmRender sampleOuter { src := "source", string := true, handrails := hr, logFormat := "json" } sampleWorld).value =
      some (0, some (.str page)) ∧
    (rsmRender sampleOuter { src := "doc.rsm", handrails := hr, silent := true } sampleWorld).value = some (0, none) := by
  obtain ⟨out, h1, h2, h3⟩ := C89_render (o := sampleOuter) (src := "source".toList) (hr := hr) sample_wellFormed.source
    sample_errors sample_tocFine
  obtain ⟨page, hb, -, H⟩ := C87_page (o := sampleOuter) (src := "source".toList) (hr := hr) (as := false) sample_wellFormed
    sample_errors sample_tocFine sample_structured (sample_page hr)
  obtain ⟨w1, g1⟩ := h1 _ _ {} sampleWorld (by decide) sampleText
  obtain ⟨w2, g2, -⟩ := H _ _ {} sampleWorld (by decide) sampleText
  rw [g2] at g1
  have e : out = .ok page := by
    cases out with
    | error e => cases g1
    | ok v => cases g1; rfl
  subst e
  have hne : page ≠ [] := by
    rintro rfl
    exact absurd (List.prefix_nil.1 hb) (by decide)
  refine ⟨page, hne, ?_, ?_, ?_⟩
  · have := (h3 { src := "doc.rsm", handrails := hr, verbose := n } sampleWorld (by dsimp only; decide) (.file rfl (by dsimp only; decide) rfl) rfl).value
    rw [if_pos ⟨rfl, hne⟩] at this
    exact this
  · have := (h3 { src := "source", string := true, handrails := hr, logFormat := "json" } sampleWorld (by dsimp only; decide)
      (.given rfl (by dsimp only; decide)) rfl).value
    rw [if_pos ⟨rfl, hne⟩] at this
    exact this
  · have := (h3 { src := "doc.rsm", handrails := hr, silent := true } sampleWorld (by dsimp only; decide) (.file rfl (by dsimp only; decide) rfl) rfl).value
    rw [if_neg (by simp)] at this
    exact this

/-- **C89.** A source that the parser refuses does not show in the exit status of `rsm-render` or `rsm-make`: it is 0,
nothing is printed, and nothing is written. -/
theorem C89_parser_error (hr : Bool) :
    Ends sampleWorld.user.files (rsmRender sampleOuter { src := "keyword", string := true, handrails := hr } sampleWorld) 0 none ∧
    Ends sampleWorld.user.files (rsmMake sampleOuter { src := "keyword", string := true } sampleWorld) 0 none := by
  have hs : SourceText sampleWorld.user.files "keyword".toList (.str []) "keyword".toList := .given (by decide) (.inr rfl)
  obtain ⟨s, hp⟩ := error_case (fuel := 12 * keywordNode.size + 1) (c := keywordNode) (small_source (by decide)) (by decide) rfl
  have hc : Compiled sampleOuter sampleWorld.user.heap "keyword".toList (.error .rsmParserError) s.heap _ := .unparsed hp
  obtain ⟨w1, h1, h2, -⟩ := C83_render (o := sampleOuter) (w := sampleWorld) (a := logArgs { src := "keyword" }) (f := .rsm) rfl hs
    (.stopped (handrails := hr) (addSource := false) hc)
  obtain ⟨w2, h3, h4, -⟩ := C83_make (o := sampleOuter) (w := sampleWorld) (a := logArgs { src := "keyword" }) (f := .rsm)
    (handrails := true) rfl hs (.stopped (.stopped (handrails := true) (addSource := true) hc))
  rw [rsmRender_eq (args := { src := "keyword", string := true, handrails := hr }) h1,
    rsmMake_eq (args := { src := "keyword", string := true }) h3]
  exact ⟨⟨rfl, by show w1.user.files = _; rw [h2]⟩, ⟨rfl, by show w2.user.files = _; rw [h4]⟩⟩

/-- The page of a source, with handrails. -/
def railsPageOf (src : Str) : Option Str :=
  match Parser.parse (12 * (sampleOuter.sitter src).size + 1) (sampleOuter.sitter src) { heap := Heap.empty } with
  | .err _ _ => none
  | .ok r s =>
    match Transformer.transform (12 * s.heap.next + 1) r { heap := s.heap } with
    | .err _ _ => none
    | .ok _ s' => (Tr.translate (conf sampleOuter true true s'.heap) r { heap := s'.heap }).value

theorem railsPageOf_rendered {src page : Str} (h : railsPageOf src = some page) :
    ∃ h' rs, Rendered sampleOuter sampleWorld.user.heap true true src (.ok page) h' rs := by
  unfold railsPageOf at h
  cases e1 : Parser.parse (12 * (sampleOuter.sitter src).size + 1) (sampleOuter.sitter src) { heap := Heap.empty } with
  | err e s => rw [e1] at h; cases h
  | ok r s =>
    rw [e1] at h
    dsimp only at h
    cases e2 : Transformer.transform (12 * s.heap.next + 1) r { heap := s.heap } with
    | err e s' => rw [e2] at h; cases h
    | ok u s' =>
      rw [e2] at h
      dsimp only at h
      cases e3 : Tr.translate (conf sampleOuter true true s'.heap) r { heap := s'.heap } with
      | err e s'' => rw [e3] at h; cases h
      | ok p s'' =>
        rw [e3] at h
        cases h
        exact ⟨_, _, .done (.done e1 e2) e3⟩

theorem hello_rails_assets : (railsPageOf "Hello".toList).map Build.findAssets = some [] := by decide +kernel

/-- Not vacuous: `rsm-make` writes the page. -/
example : ∃ page files', Ends files' (rsmMake sampleOuter { src := "Hello", string := true } sampleWorld) 0 none ∧
    files' "index.html".toList = some (Build.page page) ∧ files' "doc.rsm".toList = some "source".toList := by
  obtain ⟨page, hp, ha⟩ := Option.map_eq_some_iff.1 hello_rails_assets
  obtain ⟨h', rs, hr⟩ := railsPageOf_rendered hp
  have ha := (C55_assets page []).1 ha
  have hS : Source (sampleOuter.sitter "Hello".toList) := small_source (by decide)
  have hE : ErrorsUnlabelled (sampleOuter.sitter "Hello".toList) := fun kind d ps hp hk =>
    absurd hk (of_decide_eq_true (parts_all (c := oneParagraph "Hello") (f := fun kind _ _ => kind ≠ "ERROR".toList)
      (by decide +kernel) kind d ps hp))
  have hT : TocFine (sampleOuter.sitter "Hello".toList) := by
    rintro ⟨kind, d, ps, hp, hk⟩
    exact absurd hk (of_decide_eq_true (parts_all (c := oneParagraph "Hello") (f := fun kind _ _ => kind ≠ "toc".toList)
      (by decide +kernel) kind d ps hp))
  obtain ⟨out, h1, h2, h3⟩ := C89_make (o := sampleOuter) (src := "Hello".toList) hS hE hT
  have hs : SourceText sampleWorld.user.files "Hello".toList .none "Hello".toList := .given (by decide) (.inl rfl)
  obtain ⟨w1, g1⟩ := h1 _ _ {} sampleWorld (by decide) hs
  obtain ⟨w2, g2, -⟩ := C83_render (o := sampleOuter) (w := sampleWorld) (a := {}) (f := .rsm) rfl hs hr
  rw [g2] at g1
  have e : out = .ok page := by
    cases out with
    | error e => cases g1
    | ok v => cases g1; rfl
  subst e
  have hne : page ≠ [] := by
    rintro rfl
    have : railsPageOf "Hello".toList ≠ some [] := by decide +kernel
    exact this hp
  have h4 := h3 { src := "Hello", string := true } sampleWorld (by decide) (.given rfl (by decide))
  rcases h4.2 hne [] ha with ⟨⟨x, hx, -⟩, -⟩ | ⟨-, files', h5, h6, h7⟩
  · cases hx
  · exact ⟨page, files', h5, h6, (h7 _ (by decide) (by decide)).trans rfl⟩

/-- Nor is `C89_lint`: the sample is compiled. -/
example : Ends sampleWorld.user.files (rsmLint sampleOuter { src := "doc.rsm", logFormat := "lint" } sampleWorld) 0 none := by
  obtain ⟨s1, t1, h1, D1, H⟩ := C79_always (handrails := false) (s := Parser.fresh) sample_wellFormed Forest.empty (Nat.lt_succ_self _)
    sample_errors sample_tocFine sample_structured (sample_page false) []
  have hsz : 12 * t1.size < 12 * s1.heap.next + 1 := by have := doc_size D1; omega
  obtain ⟨s2, t2, h2, -⟩ := H _ hsz
  have hc : Compiled sampleOuter sampleWorld.user.heap "source".toList (.ok 0) s2.heap _ := .done h1 h2
  exact (C89_lint (o := sampleOuter) (args := { src := "doc.rsm", logFormat := "lint" }) (w := sampleWorld) rfl
    (.file rfl (by decide) rfl) sample_wellFormed.source Forest.empty sample_errors sample_tocFine hc).1

/-- And a file that is not there. -/
example : Fails sampleWorld.user.files (rsmMake sampleOuter { src := "none.rsm" } sampleWorld) .otherError :=
  (C89_no_file (o := sampleOuter) (args := { src := "none.rsm" }) (w := sampleWorld) (by decide) rfl (by decide) rfl).2.1

end Program
end RSM
