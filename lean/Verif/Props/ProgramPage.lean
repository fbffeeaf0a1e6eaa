import Verif.Props.Program
import Verif.Props.Assets

/-!
# C84, C85: what `render`, `lint` and `make` give for every source
-/

namespace RSM
namespace Program
open PyM LogState Transformer Tree RSM.Parser Tr

variable {o : Outer} {h h' : Heap} {src source : Str} {path : SrcPath} {rs rs' : List LogRecord}

theorem doc_size {r : Ref} {t : Tree} (hd : Doc h r t) : t.size ≤ h.next := by
  have h1 : t.pre ⊆ List.range h.next := fun x hx => List.mem_range.mpr (hd.bound x hx)
  have := (hd.nodup.subperm h1).length_le
  rwa [List.length_range, t.length_pre] at this

/-- What the transformer leaves is a document that the translators can handle. -/
theorem compiled_doc {r : Ref} (S : Source (o.sitter src)) (F : Forest h) (hE : ErrorsUnlabelled (o.sitter src))
    (hT : TocFine (o.sitter src)) (hc : Compiled o h src (.ok r) h' rs) :
    ∃ t, Doc h' r t ∧ (h'.get r).cls = .Manuscript ∧ TargetsPlaced h' t ∧ StepsWrapped h' t := by
  cases hc with
  | @done _ s s' e f =>
    obtain ⟨t1, D1, hM, -⟩ := C63_document (s := { heap := h }) S F (Nat.lt_succ_self _) e
    obtain ⟨hS, -, -, hR, hI⟩ := C76_input (s := { heap := h }) S F (Nat.lt_succ_self _) e D1
    have A := parse_asParsed (s := { heap := h }) S F (Nat.lt_succ_self _) e D1
    have hf : 12 * t1.size < 12 * s.heap.next + 1 := by have := doc_size D1; omega
    obtain ⟨t', T⟩ := transformed (hR hE) hS (hI hT) hf f
    exact ⟨t', T.doc, (T.cls _ (D1.root_eq ▸ t1.root_mem_pre)).trans hM, T.placedOf A, T.wrapped A⟩

/-- A page begins with the body. -/
theorem page_begins {k : Conf} {root : Ref} {t : Tree} {s s' : TrState} {body : Str}
    (hd : Doc s.heap root t) (hfuel : 2 * t.size ≤ k.fuel) (hm : (s.heap.get root).cls = .Manuscript)
    (h : Tr.translate k root s = .ok body s') : "\n<body>".toList <+: body := by
  obtain ⟨c, s1, rest, hv, rfl⟩ := translate_starts hd hfuel h
  have e : methodClass visitNames .Manuscript = .ok .Manuscript := rfl
  have e0 : (started root s).heap.get root = s.heap.get root := rfl
  have hb : ∃ l, c = .batchDefer (.openTag { tag := "body" } :: l) := by
    cases hk : k.handrails with
    | false =>
      simp only [Tr.visit, bind_apply, Tr.node, e0, hm, e, Tr.lift, visitWith, hk, pure_apply,
        Bool.false_eq_true, if_false, gets_apply] at hv
      cases hv
      unfold manuscriptItems
      split <;> exact ⟨_, rfl⟩
    | true =>
      have hi : ∀ nd : NodeRec, ∃ i2 i3 i4 l, manuscriptItems nd = .openTag { tag := "body" } :: i2 :: i3 :: i4 :: l := by
        intro nd
        unfold manuscriptItems
        split <;> exact ⟨_, _, _, _, rfl⟩
      obtain ⟨i2, i3, i4, l, hi⟩ := hi (s.heap.get root)
      have hi2 : ∃ i2 i3 i4 l, (if (s.heap.get root).title ≠ [] then
          wrapItem 4 (manuscriptItems (s.heap.get root)) ["heading".toList] "Title".toList .on
          else manuscriptItems (s.heap.get root)) = .openTag { tag := "body" } :: i2 :: i3 :: i4 :: l := by
        rw [hi]
        split
        · exact ⟨_, _, _, _, rfl⟩
        · exact ⟨_, _, _, _, rfl⟩
      obtain ⟨i2, i3, i4, l, hi2⟩ := hi2
      simp only [Tr.visit, bind_apply, Tr.node, e0, hm, e, Tr.lift, visitWith, hk, pure_apply,
        if_true, gets_apply, hrVisitManuscript, get_apply, hi2] at hv
      have hi3 : ∃ j2 j3 l', (if k.addSource = true then
          insertAt 2 (sourceDiv (started root s).heap (started root s).tree) (.openTag { tag := "body" } :: i2 :: i3 :: i4 :: l)
          else .openTag { tag := "body" } :: i2 :: i3 :: i4 :: l) = .openTag { tag := "body" } :: j2 :: j3 :: l' := by
        split
        · exact ⟨_, _, _, rfl⟩
        · exact ⟨_, _, _, rfl⟩
      obtain ⟨j2, j3, l', hi3⟩ := hi3
      rw [hi3] at hv
      cases hft : (started root s).heap.firstOfType root [.Contents] with
      | none => rw [hft] at hv; cases hv; exact ⟨_, rfl⟩
      | some p =>
        rw [hft] at hv
        dsimp only at hv
        rw [bind_apply] at hv
        cases hmm : minimap k p.1 "scroll".toList true (started root s) with
        | ok m s2 => rw [hmm] at hv; cases hv; exact ⟨_, rfl⟩
        | err x s2 => rw [hmm] at hv; cases hv
  obtain ⟨l, rfl⟩ := hb
  refine List.IsPrefix.trans ?_ (List.prefix_append _ _)
  unfold Cmd.text
  dsimp only
  rw [List.flatMap_cons]
  exact List.IsPrefix.trans (by decide +kernel) (List.prefix_append _ _)

/-- **C84.** Whatever the source, `render` ends in one of these ways: with a page, that begins with the body; with
the empty text, exactly if the parser raised `RSMParserError`; or with one of the exceptions listed.  In
particular a page is never empty. -/
theorem C84_outcome {hr as : Bool} {a : LogArgs} {w : World Sys} (hf : a.logFormat ∈ knownFormats)
    (hs : SourceText w.user.files source path src) (S : Source (o.sitter src)) (F : Forest w.user.heap)
    (hE : ErrorsUnlabelled (o.sitter src)) (hT : TocFine (o.sitter src)) :
    (∃ page w', render o source path hr as a w = .ok (.str page) w' ∧ "\n<body>".toList <+: page) ∨
    (∃ w' s, render o source path hr as a w = .ok (.str []) w' ∧
      Parser.parse (12 * (o.sitter src).size + 1) (o.sitter src) { heap := w.user.heap } = .err .rsmParserError s) ∨
    (∃ e w', render o source path hr as a w = .err e w' ∧
      e ∈ [.rsmNodeError, .rsmTransformerError, .rsmTranslatorError, .assertionError, .attributeError, .valueError,
        .keyError, .indexError, .stopIteration, .otherError]) := by
  obtain ⟨f, hf⟩ := Option.isSome_iff_exists.1 ((known_iff _).2 hf)
  obtain ⟨out, h', rs, hc⟩ := rendered_total o w.user.heap hr as src
  obtain ⟨w', hw', -, -⟩ := C83_render (a := a) hf hs hc
  rw [hw']
  have hlt := Nat.lt_succ_self (12 * (o.sitter src).size)
  cases hc with
  | @stopped e _ _ c =>
    cases c with
    | @unparsed _ s p =>
      rcases C65_outcome (s := { heap := w.user.heap }) S F hlt with ⟨r, s', q⟩ | ⟨e', s', q, he⟩
      · rw [p] at q; cases q
      · rw [p] at q
        cases q
        rcases he with rfl | rfl | rfl | rfl | rfl | rfl | rfl
        · exact .inr (.inl ⟨w', s, rfl, p⟩)
        all_goals exact .inr (.inr ⟨_, w', rfl, by decide⟩)
    | @untransformed r s _ s' p q =>
      obtain ⟨t1, D1, hM, -⟩ := C63_document (s := { heap := w.user.heap }) S F hlt p
      have hsz : 12 * t1.size < 12 * s.heap.next + 1 := by have := doc_size D1; omega
      obtain ⟨-, -, h3⟩ := C76_outcome (s := { heap := w.user.heap }) S F hlt p hE hT D1 hsz []
      have he := h3 e (by rw [q]; rfl)
      have he : e ∈ [.attributeError, .rsmTransformerError, .valueError, .stopIteration, .assertionError] := by
        rcases he with he | ⟨rfl, -⟩
        · revert he; cases e <;> decide
        · decide
      refine .inr (.inr ⟨e, w', ?_, ?_⟩)
      · revert he; cases e <;> first | (intro _; rfl) | (intro h; exact absurd h (by decide))
      · revert he; cases e <;> decide
  | @untranslated r h1 rs e s c p =>
    obtain ⟨t, D, -, hp, hw⟩ := compiled_doc S F hE hT c
    have hsz := doc_size D
    have he := C78_exceptions (conf o hr as h1) r t { heap := h1 } D (Nat.mul_le_mul_left 2 hsz) rfl hp hw p
    refine .inr (.inr ⟨e, w', ?_, ?_⟩)
    · revert he; cases e <;> first | (intro _; rfl) | (intro h; exact absurd h (by decide))
    · revert he; cases e <;> decide
  | @done r h1 rs page s c p =>
    obtain ⟨t, D, hM, -, -⟩ := compiled_doc S F hE hT c
    have hsz := doc_size D
    exact .inl ⟨page, w', rfl, page_begins (s := { heap := h1 }) D (Nat.mul_le_mul_left 2 hsz) hM p⟩

/-- What is not modelled does not make tags of its own: pygments gives well-nested HTML for a program without angle
brackets, and a text that is shortened for `repr` has no angle brackets if the text has none. -/
structure Decent (o : Outer) : Prop where
  highlight : ∀ a b, Html.NoAngle a → Html.NoAngle b → Html.Balanced (o.highlight a b)
  shorten : ∀ s, Html.NoAngle s → Html.NoAngle (o.repr.shorten s)

theorem Decent.outside (D : Decent o) (hr as : Bool) (h : Heap) : Html.Outside (conf o hr as h) :=
  ⟨D.highlight, D.shorten⟩

/-- **C84.** Every well-formed source that is as it should be gives a page; if nothing in it can be taken
for a tag, the page is well nested.  No file is changed. -/
theorem C84_page {hr as : Bool} {a : LogArgs} {w : World Sys} (hf : a.logFormat ∈ knownFormats)
    (hs : SourceText w.user.files source path src) (W : WellFormed (o.sitter src)) (F : Forest w.user.heap)
    (hE : ErrorsUnlabelled (o.sitter src)) (hT : TocFine (o.sitter src)) (hm : Structured (o.sitter src))
    (P : PageSource hr (o.sitter src)) :
    ∃ page w', render o source path hr as a w = .ok (.str page) w' ∧ w'.user.files = w.user.files ∧
      "\n<body>".toList <+: page ∧
      (AllClean w.user.heap → CleanCst (o.sitter src) → formulasFit .Node (sourceOutline (o.sitter src)) = true →
        (hr = true → EntriesSafe (o.sitter src)) → Decent o → Html.Balanced page) := by
  obtain ⟨f, hf⟩ := Option.isSome_iff_exists.1 ((known_iff _).2 hf)
  have hlt := Nat.lt_succ_self (12 * (o.sitter src).size)
  obtain ⟨s1, t1, h1, D1, H⟩ := C79_always (s := { heap := w.user.heap }) W F hlt hE hT hm P []
  have hsz : 12 * t1.size < 12 * s1.heap.next + 1 := by have := doc_size D1; omega
  obtain ⟨s2, t2, h2, D2, H2⟩ := H _ hsz
  have hsz2 : 2 * t2.size ≤ (conf o hr as s2.heap).fuel := Nat.mul_le_mul_left 2 (doc_size D2)
  obtain ⟨page, s3, h3⟩ := H2 (conf o hr as s2.heap) rfl hsz2
  have hc : Compiled o w.user.heap src (.ok w.user.heap.next) s2.heap _ := .done h1 h2
  obtain ⟨w', e1, e2, -⟩ := C83_render (a := a) hf hs (.done hc h3)
  obtain ⟨t, D, hM, -, -⟩ := compiled_doc W.source F hE hT hc
  have ht := D.unique D2
  subst ht
  refine ⟨page, w', e1, by rw [e2], page_begins (s := { heap := s2.heap }) D hsz2 hM h3, fun hA hC hD hL hO => ?_⟩
  obtain ⟨t', D', H'⟩ := C82_source (s := { heap := w.user.heap }) W.source F hlt hA h1 hE hT hC hD D1 hsz h2
  have ht := D'.unique D2
  subst ht
  exact H' _ (hO.outside hr as _) hsz2 hL page s3 h3

/-- Where a page comes from. -/
theorem rendered_page {hr as : Bool} {a : LogArgs} {w w' : World Sys} {page : Str} (hf : a.logFormat ∈ knownFormats)
    (hs : SourceText w.user.files source path src) (hne : page ≠ [])
    (h : render o source path hr as a w = .ok (.str page) w') :
    ∃ r h2 rs s, Compiled o w.user.heap src (.ok r) h2 rs ∧
      Tr.translate (conf o hr as h2) r { heap := h2 } = .ok page s := by
  obtain ⟨f, hf⟩ := Option.isSome_iff_exists.1 ((known_iff _).2 hf)
  obtain ⟨out, h', rs, hc⟩ := rendered_total o w.user.heap hr as src
  obtain ⟨w1, h1, -, -⟩ := C83_render (a := a) hf hs hc
  rw [h] at h1
  have key : ∀ e, Res.ok (Val.str page) w' ≠ result (userResult (.error e)) w1 := by
    intro e he
    cases e <;> first | (cases he; exact hne rfl) | cases he
  cases hc with
  | stopped c => exact absurd h1 (key _)
  | untranslated c p => exact absurd h1 (key _)
  | done c p =>
    cases h1
    exact ⟨_, _, _, _, c, p⟩

/-- **C84.** The page of `render` without handrails is the one that `Render.page` describes, for the document that the
transformer leaves. -/
theorem C84_described {as : Bool} {a : LogArgs} {w w' : World Sys} {page : Str} (hf : a.logFormat ∈ knownFormats)
    (hs : SourceText w.user.files source path src) (S : Source (o.sitter src)) (F : Forest w.user.heap)
    (hE : ErrorsUnlabelled (o.sitter src)) (hT : TocFine (o.sitter src)) (hne : page ≠ [])
    (h : render o source path false as a w = .ok (.str page) w') :
    ∃ r h2 rs t, Compiled o w.user.heap src (.ok r) h2 rs ∧ Doc h2 r t ∧
      ∀ num ref, (∀ x o, FullNumber h2 x o → num x = o) → (∀ x a, Render.RefText h2 x a → ref x = a) →
        page = Render.page h2 num ref o.highlight t := by
  obtain ⟨r, h2, rs, s, c, p⟩ := rendered_page hf hs hne h
  cases c with
  | @done r s1 s2 p1 p2 =>
    have hlt := Nat.lt_succ_self (12 * (o.sitter src).size)
    obtain ⟨t1, D1, -⟩ := C63_document (s := { heap := w.user.heap }) S F hlt p1
    have hsz : 12 * t1.size < 12 * s1.heap.next + 1 := by have := doc_size D1; omega
    obtain ⟨t, D, -⟩ := compiled_doc S F hE hT (.done p1 p2)
    refine ⟨r, _, _, t, .done p1 p2, D, fun num ref hnum href => ?_⟩
    obtain ⟨t', D', H⟩ := C80_source (s := { heap := w.user.heap }) S F hlt p1 hE hT D1 hsz p2 hnum href
    have ht := D'.unique D
    subst ht
    exact H (conf o false as s2.heap) rfl (Nat.mul_le_mul_left 2 (doc_size D)) page s p

/-- **C84.** The page of `render` with handrails is the one that `Rails.page` describes, if the entries of the
bibliography have no tags in them. -/
theorem C84_described_rails {as : Bool} {a : LogArgs} {w w' : World Sys} {page : Str} (hf : a.logFormat ∈ knownFormats)
    (hs : SourceText w.user.files source path src) (S : Source (o.sitter src)) (F : Forest w.user.heap)
    (hE : ErrorsUnlabelled (o.sitter src)) (hT : TocFine (o.sitter src)) (hne : page ≠ [])
    (hB : ∀ r s t, Parser.parse (12 * (o.sitter src).size + 1) (o.sitter src) { heap := w.user.heap } = .ok r s →
      Doc s.heap r t → ∀ x ∈ t.pre, (s.heap.get x).cls = .Bibitem → Rails.EntryPlain (s.heap.get x))
    (h : render o source path true as a w = .ok (.str page) w') :
    ∃ r h2 rs t, Compiled o w.user.heap src (.ok r) h2 rs ∧ Doc h2 r t ∧
      ∀ num ref, (∀ x o, FullNumber h2 x o → num x = o) → (∀ x a, Render.RefText h2 x a → ref x = a) →
        page = Rails.page h2 num ref o.highlight (if as then some (h2.get r).src else none) t := by
  obtain ⟨r, h2, rs, s, c, p⟩ := rendered_page hf hs hne h
  cases c with
  | @done r s1 s2 p1 p2 =>
    have hlt := Nat.lt_succ_self (12 * (o.sitter src).size)
    obtain ⟨t1, D1, -⟩ := C63_document (s := { heap := w.user.heap }) S F hlt p1
    have hsz : 12 * t1.size < 12 * s1.heap.next + 1 := by have := doc_size D1; omega
    obtain ⟨t, D, -⟩ := compiled_doc S F hE hT (.done p1 p2)
    refine ⟨r, _, _, t, .done p1 p2, D, fun num ref hnum href => ?_⟩
    obtain ⟨t', D', H⟩ := C81_source (s := { heap := w.user.heap }) S F hlt p1 hE hT D1 (hB _ _ _ p1 D1) hsz p2 hnum href
    have ht := D'.unique D
    subst ht
    exact H (conf o true as s2.heap) rfl (Nat.mul_le_mul_left 2 (doc_size D)) page s p

/-! ## `lint` -/

/-- The problems of a manuscript, as `lint` writes them. -/
theorem heard_problems (env : LogEnv) (t l : Bool) (f : LogFormat) (h : Heap) (ps : List (Str × Ref)) :
    heard env LINT_LVL ⟨f, t, l⟩ true (ps.map (problemRecord h)) =
      ps.map fun p => (problemRecord h p, LogFormatter.format env true ⟨f, t, l⟩ (problemRecord h p)) := by
  induction ps with
  | nil => rfl
  | cons p ps ih =>
    rw [List.map_cons, List.map_cons, ← ih]
    rfl

/-- **C84.** For every source that is compiled, `lint` gives the manuscript; it writes the warnings of the parser and
the transformer and then one message for each problem of the manuscript.  In the format "lint" it is a line
with the place and the problem; in the format "rsm", the default, it cannot be formatted. -/
theorem C84_lint {handrails : Bool} {a : LogArgs} {f : LogFormat} {w : World Sys} {r : Ref}
    (hf : LogFormat.ofName a.logFormat = some f)
    (hs : SourceText w.user.files source path src) (S : Source (o.sitter src)) (F : Forest w.user.heap)
    (hE : ErrorsUnlabelled (o.sitter src)) (hT : TocFine (o.sitter src))
    (hc : Compiled o w.user.heap src (.ok r) h' rs) :
    ∃ t w' lines, Doc h' r t ∧ lintSource o source path handrails a w = .ok (.other (.node r)) w' ∧
      w'.user = ⟨h', w.user.files⟩ ∧
      w'.log.written = w.log.written ++ heard o.log LINT_LVL ⟨f, a.logTime, a.logLineno⟩ true rs ++ lines ∧
      lines.map (·.1) = (lintProblems h' t).map (problemRecord h') ∧
      (f = .lint → lines.map (·.2) = (lintProblems h' t).map fun p => some ("src:".toList
        ++ intStr ((h'.get p.2).startPoint.1 + 1) ++ ":".toList
        ++ intStr ((h'.get p.2).startPoint.2 + 1) ++ ": LINT: ".toList ++ p.1)) ∧
      (f = .rsm → lines.map (·.2) = (lintProblems h' t).map fun _ => none) := by
  obtain ⟨t, D, hM, -, -⟩ := compiled_doc S F hE hT hc
  obtain ⟨w', h1, h2, h3⟩ := C83_lint (handrails := handrails) (a := a) hf hs hc D (by rw [hM]; rfl)
  refine ⟨t, w', (lintProblems h' t).map fun p => (problemRecord h' p,
    LogFormatter.format o.log true ⟨f, a.logTime, a.logLineno⟩ (problemRecord h' p)), D, h1, h2, ?_, ?_, ?_, ?_⟩
  · rw [h3, heard_append, heard_problems, List.append_assoc]
  · rw [List.map_map]; rfl
  · rintro rfl
    rw [List.map_map]
    refine List.map_congr_left fun p _ => ?_
    simp only [Function.comp_apply, LogFormatter.format, lintFormat, problemRecord, List.append_assoc]
    rfl
  · rintro rfl
    rw [List.map_map]
    rfl

/-! ## `make` -/

/-- How a run of `make` ends. -/
theorem make_cases {handrails lint : Bool} {a : LogArgs} {w : World Sys}
    (hf : a.logFormat ∈ knownFormats) (hs : SourceText w.user.files source path src) :
    ∃ out u' rs w', Builds o w.user lint src out u' rs ∧
      make o source path handrails lint a w = result (userResult (out.map fun _ => .none)) w' ∧ w'.user = u' := by
  obtain ⟨f, hf⟩ := Option.isSome_iff_exists.1 ((known_iff _).2 hf)
  obtain ⟨out, u', rs, hb⟩ := builds_total o w.user lint src
  obtain ⟨w', h1, h2, -⟩ := C83_make (handrails := handrails) hf hs hb
  exact ⟨out, u', rs, w', hb, h1, h2⟩

/-- The builder makes no file but `index.html` and those in `static/`. -/
theorem build_files {d : Build.Disk} {page p : Str} {s s' : Build.BuildState}
    (h : Build.fullBuild d page s = .ok () s') (hi : p ≠ "index.html".toList) (hp : ¬ "static/".toList <+: p) :
    s'.web.files p = none := by
  have ha := (C55_assets page (Build.findAssets page)).1 rfl
  have hall : ∀ x ∈ Build.findAssets page, Copyable d x := by
    intro x hx
    refine Classical.byContradiction fun hn => ?_
    have := C55_missing d page _ s ha x hx hn
    rw [h] at this
    cases this
  obtain ⟨s2, e, hf, -⟩ := C55_build d page _ s ha hall
  rw [h] at e
  cases e
  rw [hf]
  refine lastFile_none fun x hx hxp => ?_
  unfold writes at hx
  simp only [List.mem_append, List.mem_map, List.mem_filterMap, List.mem_singleton] at hx
  rcases hx with (rfl | ⟨y, -, rfl⟩) | ⟨y, -, hy⟩
  · exact hi hxp.symm
  · exact hp (hxp ▸ List.prefix_append _ _)
  · rw [Option.map_eq_some_iff] at hy
    obtain ⟨c, -, rfl⟩ := hy
    exact hp (hxp ▸ List.prefix_append _ _)

/-- **C85.** What `make` writes: `index.html` is the page of what `render` gives (with handrails exactly if `lint` is
set, and with the source); every file the page refers to is there, and is copied to `static/`; and no file is changed
but `index.html` and those in `static/`. -/
theorem C85_written {handrails lint : Bool} {a : LogArgs} {w w' : World Sys}
    (hf : a.logFormat ∈ knownFormats) (hs : SourceText w.user.files source path src)
    (h : make o source path handrails lint a w = .ok .none w') :
    ∃ page, (render o source path lint true a w).value = some (.str page) ∧
      w'.user.files "index.html".toList = some (Build.page page) ∧
      (∀ p, p ≠ "index.html".toList → ¬ "static/".toList <+: p → w'.user.files p = w.user.files p) ∧
      ∀ assets, AllBetween "src=\"".toList "\"".toList page assets →
        (∀ x ∈ assets, (w.user.files x).isSome) ∧
        (∀ pre x post, assets = pre ++ x :: post → (∀ y ∈ post, Build.pathName y ≠ Build.pathName x) →
          w'.user.files ("static/".toList ++ Build.pathName x) = w.user.files x) ∧
        ∀ f ∈ o.static, (Build.pathSuffix f.1 = ".js".toList ∨ Build.pathSuffix f.1 = ".css".toList) →
          (o.static.map (·.1)).Nodup → (∀ x ∈ assets, Build.pathName x ≠ f.1) →
          w'.user.files ("static/".toList ++ f.1) = some f.2 := by
  obtain ⟨out, u', rs, w2, hb, h1, h2⟩ := make_cases (o := o) (handrails := handrails) (lint := lint) hf hs
  rw [h1] at h
  cases hb with
  | @stopped e =>
    exfalso
    cases e <;> cases h
  | @unbuilt _ _ _ e =>
    exfalso
    cases e <;> cases h
  | @done page h' rs s c b =>
    cases h
    obtain ⟨f, hf⟩ := Option.isSome_iff_exists.1 ((known_iff _).2 hf)
    obtain ⟨w3, e3, -⟩ := C83_render hf hs c
    refine ⟨page, by rw [e3]; rfl, ?_, ?_, ?_⟩
    · rw [h2]
      show (s.web.files _).or _ = _
      rw [(C55_page _ page _ _ b).1]
      rfl
    · intro p hi hp
      rw [h2]
      show (s.web.files _).or _ = _
      rw [build_files b hi hp]
      rfl
    · intro assets ha
      refine ⟨fun x hx => ?_, fun pre x post hx hpost => ?_, fun f hfm hsuf hn hno => ?_⟩
      · refine Classical.byContradiction fun hn => ?_
        have := C55_missing ⟨o.static, w.user.files⟩ page _ {} ha x hx (fun hc => hn hc.1)
        rw [b] at this
        cases this
      · subst hx
        obtain ⟨h5, h6⟩ := C55_asset_copied ⟨o.static, w.user.files⟩ page pre post x {} s ha b hpost
        rw [h2]
        show (s.web.files _).or _ = _
        rw [h6]
        obtain ⟨c, hc⟩ := Option.isSome_iff_exists.1 h5
        have hc : w.user.files x = some c := hc
        show (w.user.files x).or _ = _
        rw [hc]
        rfl
      · rw [h2]
        show (s.web.files _).or _ = _
        rw [C55_default_files ⟨o.static, w.user.files⟩ page assets {} s f ha b hfm hsuf hn hno]
        rfl

/-- **C85.** If `make` does not come to this end (it raises an exception, or gives the empty text because of an error
of the parser), no file is changed. -/
theorem C85_unwritten {handrails lint : Bool} {a : LogArgs} {w : World Sys}
    (hf : a.logFormat ∈ knownFormats) (hs : SourceText w.user.files source path src)
    (h : (make o source path handrails lint a w).value ≠ some .none) :
    (make o source path handrails lint a w).state.user.files = w.user.files := by
  obtain ⟨out, u', rs, w2, hb, h1, h2⟩ := make_cases (o := o) (handrails := handrails) (lint := lint) hf hs
  rw [h1] at h ⊢
  have hst : ∀ x : Except PyErr (Val Obj), (result x w2).state = w2 := fun x => by cases x <;> rfl
  rw [hst, h2]
  cases hb with
  | stopped c => rfl
  | unbuilt c b => rfl
  | done c b => exact absurd rfl h

/-- **C85.** If a file the page refers to is missing, `make` raises an exception (so by `C85_unwritten` no file is
changed). -/
theorem C85_missing {handrails lint : Bool} {a : LogArgs} {w : World Sys} {page x : Str} {assets : List Str}
    (hf : a.logFormat ∈ knownFormats) (hs : SourceText w.user.files source path src)
    (hr : Rendered o w.user.heap lint true src (.ok page) h' rs)
    (ha : AllBetween "src=\"".toList "\"".toList page assets) (hx : x ∈ assets) (hm : w.user.files x = none) :
    (make o source path handrails lint a w).raised = some .otherError := by
  obtain ⟨out, u', rs, w2, hb, h1, h2⟩ := make_cases (o := o) (handrails := handrails) (lint := lint) hf hs
  have := C55_missing ⟨o.static, w.user.files⟩ page _ {} ha x hx (fun hc => by
    have := hc.1
    have e : (⟨o.static, w.user.files⟩ : Build.Disk).cwd x = none := hm
    rw [e] at this
    cases this)
  rw [h1]
  cases hb with
  | stopped c => cases (c.unique hr).1
  | unbuilt c b =>
    cases (c.unique hr).1
    rw [b] at this
    cases this
    rfl
  | done c b =>
    cases (c.unique hr).1
    rw [b] at this
    cases this

/-! ## Examples -/

/-- A source with one paragraph of the given text. -/
def oneParagraph (s : String) : Cst :=
  br 0 "source_file" (text := s) [br 1 "paragraph" [br 2 "text" [] (text := s)]]

/-- A grammar that reads the text "source" as the sample, the text "keyword" as a source with an error, and
two more as paragraphs. -/
def sampleOuter : Outer where
  sitter s := if s = "source".toList then sample else if s = "keyword".toList then keywordNode
    else if s = "Hello".toList then oneParagraph "Hello" else oneParagraph "Write src=\"x.png\" here"
  highlight := plainConf.highlight
  repr := ⟨fun _ => true, id, 1000⟩
  log := ⟨fun _ _ => []⟩
  static := [("rsm.css".toList, "css".toList)]

/-- Nothing is there but a file with a source. -/
def sampleWorld : World Sys where
  user := ⟨Heap.empty, fun p => if p = "doc.rsm".toList then some "source".toList else none⟩
  log := {}

theorem sampleText : SourceText sampleWorld.user.files "source".toList .none "source".toList :=
  .given (by decide) (.inl rfl)

/-- Not vacuous: the sample gives a well-nested page, with either translator, whether it is given or read. -/
example (hr as : Bool) : ∃ page w', render sampleOuter "source".toList .none hr as {} sampleWorld = .ok (.str page) w' ∧
    (render sampleOuter [] (.str "doc.rsm".toList) hr as {} sampleWorld).value = some (.str page) ∧ Html.Balanced page := by
  obtain ⟨page, w', h, -, -, hb⟩ := C84_page (o := sampleOuter) (hr := hr) (as := as) (a := {}) (w := sampleWorld)
    (by decide) sampleText sample_wellFormed Forest.empty sample_errors sample_tocFine sample_structured (sample_page hr)
  refine ⟨page, w', h, ?_, hb fresh_clean sample_clean sample_fit (fun _ => sample_safe) ?_⟩
  · rw [← (C83_render_same (o := sampleOuter) (w := sampleWorld) (hr := hr) (as := as) (a := {}) (by decide) (by decide)
      rfl sampleText (.file (by decide) rfl)).1, h]
    rfl
  · exact ⟨outside_plain.1, fun _ h => h⟩

/-- Nor is `C84_lint`: the sample is compiled. -/
example : ∃ w', lintSource sampleOuter "source".toList .none false { logFormat := "lint" } sampleWorld =
    .ok (.other (.node 0)) w' := by
  obtain ⟨s1, t1, h1, D1, H⟩ := C79_always (handrails := false) (s := fresh) sample_wellFormed Forest.empty (Nat.lt_succ_self _)
    sample_errors sample_tocFine sample_structured (sample_page false) []
  have hsz : 12 * t1.size < 12 * s1.heap.next + 1 := by have := doc_size D1; omega
  obtain ⟨s2, t2, h2, -⟩ := H _ hsz
  have hc : Compiled sampleOuter sampleWorld.user.heap "source".toList (.ok 0) s2.heap _ := .done h1 h2
  obtain ⟨t, w', -, -, h, -⟩ := C84_lint (o := sampleOuter) (handrails := false) (a := { logFormat := "lint" }) (f := .lint)
    (w := sampleWorld) rfl sampleText sample_wellFormed.source Forest.empty sample_errors sample_tocFine hc
  exact ⟨w', h⟩

/-- Not vacuous: an error of the parser gives the empty text, and `make` writes nothing. -/
theorem C84_parser_error : (render sampleOuter "keyword".toList .none false true {} sampleWorld).value = some (.str []) ∧
    (make sampleOuter "keyword".toList .none false false {} sampleWorld).value = some (.str []) ∧
    (make sampleOuter "keyword".toList .none false false {} sampleWorld).state.user.files = sampleWorld.user.files := by
  have hs : SourceText sampleWorld.user.files "keyword".toList .none "keyword".toList := .given (by decide) (.inl rfl)
  obtain ⟨s, hp⟩ := error_case (fuel := 12 * keywordNode.size + 1) (c := keywordNode) (small_source (by decide)) (by decide) rfl
  have hc : Compiled sampleOuter sampleWorld.user.heap "keyword".toList (.error .rsmParserError) s.heap _ := .unparsed hp
  obtain ⟨w1, h1, -⟩ := C83_render (o := sampleOuter) (w := sampleWorld) (a := {}) (f := .rsm) rfl hs
    (.stopped (handrails := false) (addSource := true) hc)
  obtain ⟨w2, h2, -⟩ := C83_make (o := sampleOuter) (w := sampleWorld) (a := {}) (f := .rsm) (handrails := false) rfl hs
    (.stopped (.stopped (handrails := false) (addSource := true) hc))
  have e2 : (make sampleOuter "keyword".toList .none false false {} sampleWorld).value = some (.str []) := by rw [h2]; rfl
  refine ⟨by rw [h1]; rfl, e2, ?_⟩
  refine C85_unwritten (by decide) hs ?_
  rw [e2]
  nofun

/-- The page of a source. -/
def pageOf (src : Str) : Option Str :=
  match Parser.parse (12 * (sampleOuter.sitter src).size + 1) (sampleOuter.sitter src) { heap := Heap.empty } with
  | .err _ _ => none
  | .ok r s =>
    match Transformer.transform (12 * s.heap.next + 1) r { heap := s.heap } with
    | .err _ _ => none
    | .ok _ s' => (Tr.translate (conf sampleOuter false true s'.heap) r { heap := s'.heap }).value

theorem pageOf_rendered {src page : Str} (h : pageOf src = some page) :
    ∃ h' rs, Rendered sampleOuter sampleWorld.user.heap false true src (.ok page) h' rs := by
  unfold pageOf at h
  cases e1 : Parser.parse (12 * (sampleOuter.sitter src).size + 1) (sampleOuter.sitter src) { heap := Heap.empty } with
  | err e s => rw [e1] at h; cases h
  | ok r s =>
    rw [e1] at h
    dsimp only at h
    cases e2 : Transformer.transform (12 * s.heap.next + 1) r { heap := s.heap } with
    | err e s' => rw [e2] at h; cases h
    | ok u s' =>
      rw [e2] at h
      dsimp only at h
      cases e3 : Tr.translate (conf sampleOuter false true s'.heap) r { heap := s'.heap } with
      | err e s'' => rw [e3] at h; cases h
      | ok p s'' =>
        rw [e3] at h
        cases h
        exact ⟨_, _, .done (.done e1 e2) e3⟩

theorem hello_assets : (pageOf "Hello".toList).map Build.findAssets = some [] := by decide +kernel

theorem write_assets : (pageOf "Write src=\"x.png\" here".toList).map Build.findAssets = some ["x.png".toList] := by
  decide +kernel

/-- Not vacuous: `make` writes the page and the default files, and leaves the source. -/
theorem C85_witness : ∃ page w', make sampleOuter "Hello".toList .none false false {} sampleWorld = .ok .none w' ∧
    w'.user.files "index.html".toList = some (Build.page page) ∧
    w'.user.files "static/rsm.css".toList = some "css".toList ∧
    w'.user.files "doc.rsm".toList = some "source".toList := by
  have hs : SourceText sampleWorld.user.files "Hello".toList .none "Hello".toList := .given (by decide) (.inl rfl)
  obtain ⟨page, hp, ha⟩ := Option.map_eq_some_iff.1 hello_assets
  obtain ⟨h', rs, hr⟩ := pageOf_rendered hp
  have ha := (C55_assets page []).1 ha
  obtain ⟨s', e, -⟩ := C55_build ⟨sampleOuter.static, sampleWorld.user.files⟩ page [] {} ha (by nofun)
  obtain ⟨w', h1, -⟩ := C83_make (o := sampleOuter) (w := sampleWorld) (a := {}) (f := .rsm) (handrails := false) rfl hs
    (.done hr e)
  have h1 : make sampleOuter "Hello".toList .none false false {} sampleWorld = .ok .none w' := h1
  obtain ⟨page', hv, h2, h3, h4⟩ := C85_written (by decide) hs h1
  obtain ⟨w2, h6, -⟩ := C83_render (o := sampleOuter) (w := sampleWorld) (a := {}) (f := .rsm) rfl hs hr
  rw [h6] at hv
  cases hv
  refine ⟨page, w', h1, h2, ?_, ?_⟩
  · exact (h4 [] ha).2.2 ("rsm.css".toList, "css".toList) List.mem_cons_self (by decide) (by decide) (by nofun)
  · rw [h3 _ (by decide) (by decide)]
    rfl

/-- **C85.** Any text `src="..."` on the page counts as a reference to a file, even one in the text of a paragraph: if
there is no such file `make` fails. -/
theorem C85_text_asset :
    (make sampleOuter "Write src=\"x.png\" here".toList .none false false {} sampleWorld).raised = some .otherError := by
  have hs : SourceText sampleWorld.user.files "Write src=\"x.png\" here".toList .none "Write src=\"x.png\" here".toList :=
    .given (by decide) (.inl rfl)
  obtain ⟨page, hp, ha⟩ := Option.map_eq_some_iff.1 write_assets
  obtain ⟨h', rs, hr⟩ := pageOf_rendered hp
  exact C85_missing (by decide) hs hr ((C55_assets page _).1 ha) List.mem_cons_self (by decide)

end Program
end RSM
