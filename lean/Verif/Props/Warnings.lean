import Verif.Props.ProgramPage
import Verif.Lemmas.Warnings
import Verif.Lemmas.TrWarnings

/-!
# C86: every warning has a reason in the document, and for every reason there is a warning
-/

namespace RSM
open Transformer Tree PyM

/-- **C86.** A run of `transform` logs exactly these warnings, in this order: one for each node whose label an
earlier node has too; then, for each pending reference in document order, one for each label it asks for
that no node has, or that the step a `:prev:` leads to has no label (or lost it to an earlier node); then one for
each table of contents but the first. -/
theorem C86_transform {h : Heap} {root : Ref} {t : Tree} {fuel : Nat} {log : List TWarning} {s' : TState}
    (R : ResolveInput h root t) (ha : StepKidsAllowed h t) (hi : TocInput h t) (hf : 12 * t.size < fuel)
    (hok : transform fuel root { heap := h, log := log } = .ok () s') :
    ∃ remarks : Ref → List TWarning, (∀ x ∈ t.pre, Pending h x → Remarks h t x (remarks x)) ∧
      s'.log = log ++ transformWarnings h t remarks := transform_log R ha hi hf hok

/-- **C86.** What is said of a pending reference is determined by the document. -/
theorem C86_remarks {h : Heap} {t : Tree} {x : Ref} {l l' : List TWarning} (h1 : Remarks h t x l)
    (h2 : Remarks h t x l') : l = l' := h1.unique h2

/-- **C86.** A run of `translate` logs exactly what the entries of the bibliography lack, in document order: an
article without journal, a book without publisher, an entry without year, an entry without DOI.  With
handrails it says of an entry without DOI also that there is no link (if no entry has a tag in it). -/
theorem C86_translate {k : Tr.Conf} {root : Ref} {t : Tree} {s s' : Tr.TrState} {page : Str} (hd : Doc s.heap root t)
    (hfuel : 2 * t.size ≤ k.fuel) (h : Tr.translate k root s = .ok page s')
    (hp : k.handrails = true → ∀ x ∈ t.pre, (s.heap.get x).cls.isSub .Bibitem = true → Rails.EntryPlain (s.heap.get x)) :
    s'.log = s.log ++ translateWarnings k.handrails s.heap t := by
  rw [Tr.translate_log hd hfuel h]
  congr 1
  unfold translateWarnings
  have key : ∀ l : List Ref, (∀ x ∈ l, x ∈ t.pre) → l.flatMap (Tr.nodeSays k s.heap) =
      (l.filter fun x => (s.heap.get x).cls.isSub .Bibitem).flatMap fun x =>
        entryLacks (s.heap.get x) ++ if k.handrails ∧ (s.heap.get x).doi = [] then [.noLink] else [] := by
    intro l
    induction l with
    | nil => intro _; rfl
    | cons x l ih =>
      intro hl
      rw [List.flatMap_cons, ih fun y hy => hl y (by simp [hy]), List.filter_cons]
      unfold Tr.nodeSays
      by_cases hb : (s.heap.get x).cls.isSub .Bibitem = true
      · rw [if_pos hb, if_pos hb, List.flatMap_cons]
        congr 1
        unfold Tr.entrySays
        congr 1
        by_cases hk : k.handrails = true
        · rw [Tr.search_entry (hp hk x (hl x (by simp)) hb)]
          by_cases hdoi : (s.heap.get x).doi = [] <;> simp [hk, hdoi]
        · simp [hk]
      · rw [if_neg hb, if_neg hb]; rfl
  exact key t.pre fun _ hx => hx

namespace Program
open LogState

variable {o : Outer} {h h' : Heap} {src source : Str} {path : SrcPath} {rs : List LogRecord}

/-- **C86.** So, for every source that is compiled, everything the parser and the transformer say is told by the
source and the manuscript the parser makes of it. -/
theorem C86_compiled {r : Ref} (S : Parser.Source (o.sitter src)) (F : Forest h) (hE : Parser.ErrorsUnlabelled (o.sitter src))
    (hT : Parser.TocFine (o.sitter src)) (hc : Compiled o h src (.ok r) h' rs) :
    ∃ s t remarks, Parser.parse (12 * (o.sitter src).size + 1) (o.sitter src) { heap := h } = .ok r s ∧ Doc s.heap r t ∧
      (∀ x ∈ t.pre, Pending s.heap x → Remarks s.heap t x (remarks x)) ∧
      rs = parserMessages (Parser.warnings false (Parser.walks (Parser.sourceParts (o.sitter src)))) ++
        transformerMessages (transformWarnings s.heap t remarks) := by
  cases hc with
  | @done _ s s' e f =>
    obtain ⟨t1, D1, hM, -⟩ := Parser.C63_document (s := { heap := h }) S F (Nat.lt_succ_self _) e
    obtain ⟨hS, -, -, hR, hI⟩ := C76_input (s := { heap := h }) S F (Nat.lt_succ_self _) e D1
    have hf : 12 * t1.size < 12 * s.heap.next + 1 := by have := doc_size D1; omega
    obtain ⟨rem, h1, h2⟩ := C86_transform (hR hE) hS (hI hT) hf f
    refine ⟨s, t1, rem, e, D1, h1, ?_⟩
    have hw := Parser.C67_warnings (s := { heap := h }) S F (Nat.lt_succ_self _) e
    rw [h2, hw]
    rfl

/-- **C86.** And so is everything that `render` writes for a source that gives a page. -/
theorem C86_render {hr as : Bool} {a : LogArgs} {f : LogFormat} {w w' : World Sys} {page : Str}
    (hf : LogFormat.ofName a.logFormat = some f) (hs : SourceText w.user.files source path src)
    (S : Parser.Source (o.sitter src)) (F : Forest w.user.heap) (hE : Parser.ErrorsUnlabelled (o.sitter src))
    (hT : Parser.TocFine (o.sitter src))
    (h : render o source path hr as a w = .ok (.str page) w') (hne : page ≠ []) :
    ∃ r s t remarks h' t', Parser.parse (12 * (o.sitter src).size + 1) (o.sitter src) { heap := w.user.heap } = .ok r s ∧
      Doc s.heap r t ∧ (∀ x ∈ t.pre, Pending s.heap x → Remarks s.heap t x (remarks x)) ∧
      Compiled o w.user.heap src (.ok r) h' (parserMessages (Parser.warnings false (Parser.walks (Parser.sourceParts (o.sitter src)))) ++
        transformerMessages (transformWarnings s.heap t remarks)) ∧ Doc h' r t' ∧
      ((hr = true → ∀ x ∈ t'.pre, (h'.get x).cls.isSub .Bibitem = true → Rails.EntryPlain (h'.get x)) →
        w'.log.written = w.log.written ++ heard o.log a.loglevel ⟨f, a.logTime, a.logLineno⟩ w.log.lintNamed
          (startMessages source ++
            (parserMessages (Parser.warnings false (Parser.walks (Parser.sourceParts (o.sitter src)))) ++
              transformerMessages (transformWarnings s.heap t remarks) ++
              translatorMessages (translateWarnings hr h' t')) ++
            [note "RSM" "app.py" "Done."])) := by
  obtain ⟨out, h2, rs, hc⟩ := rendered_total o w.user.heap hr as src
  obtain ⟨w2, e1, -, e3⟩ := C83_render (a := a) hf hs hc
  rw [h] at e1
  cases hc with
  | @stopped e =>
    exfalso
    cases e <;> cases e1
    exact hne rfl
  | @untranslated r h1 rs e s =>
    exfalso
    cases e <;> cases e1
    exact hne rfl
  | @done r h1 rs pg s c p =>
    cases e1
    obtain ⟨s1, t1, rem, g1, g2, g3, rfl⟩ := C86_compiled S F hE hT c
    obtain ⟨t2, D2, -⟩ := compiled_doc S F hE hT c
    refine ⟨r, s1, t1, rem, h1, t2, g1, g2, g3, c, D2, fun hp => ?_⟩
    have := C86_translate (s := { heap := h1 }) (k := conf o hr as h1) D2 (Nat.mul_le_mul_left 2 (doc_size D2)) p hp
    rw [e3, this]
    rfl

end Program

/-! ## A document with all kinds of warnings -/

/-- As `refHeap`, with two tables of contents, and a step that has the label of the paragraph before it, to which
a `:prev:` leads. -/
def warnHeap : Heap where
  next := 14
  get := fun r => match r with
    | 0 => { NodeRec.new .Manuscript with kids := [12, 1, 2, 10, 13] }
    | 7 => { NodeRec.new .Step with parent := some 2, label := ['p'] }
    | 12 => { NodeRec.new .Contents with parent := some 0 }
    | 13 => { NodeRec.new .Contents with parent := some 0 }
    | r => refHeap.get r

def warnTree : Tree :=
  .node 0 [.node 12 [], .node 1 [.node 3 [], .node 4 [], .node 5 [], .node 6 []],
    .node 2 [.node 7 [], .node 8 [.node 9 []]], .node 10 [.node 11 []], .node 13 []]

theorem warn_input : ResolveInput warnHeap 0 warnTree where
  doc := {
    root_eq := rfl
    tree := ⟨rfl, rfl, ⟨rfl, rfl, trivial⟩, ⟨rfl, rfl, ⟨rfl, rfl, trivial⟩, ⟨rfl, rfl, trivial⟩, ⟨rfl, rfl, trivial⟩,
      ⟨rfl, rfl, trivial⟩, trivial⟩, ⟨rfl, rfl, ⟨rfl, rfl, trivial⟩,
      ⟨rfl, rfl, ⟨rfl, rfl, trivial⟩, trivial⟩, trivial⟩, ⟨rfl, rfl, ⟨rfl, rfl, trivial⟩, trivial⟩,
      ⟨rfl, rfl, trivial⟩, trivial⟩
    nodup := by decide
    bound := by decide }
  root_ok := by decide
  errors := by decide

theorem warn_steps : StepKidsAllowed warnHeap warnTree := by
  apply stepKidsAllowed_of; decide

theorem warn_toc : TocInput warnHeap warnTree := by
  refine fun _ => ⟨by apply wellNested_of <;> decide, ?_⟩
  have : ∀ u ∈ warnTree.subtrees, (warnHeap.get u.root).cls = .Contents → u.kids.map Tree.root = [] := by
    decide
  intro i ks hm hc
  simpa using this (.node i ks) hm hc

/-- What is logged. -/
example : (transform 200 0 { heap := warnHeap }).raised = none ∧
    (transform 200 0 { heap := warnHeap }).state.log = [.duplicateLabel ['p'], .unknownLabel ['q'], .unknownLabel ['z'],
      .unlabeledPrev, .multipleToc] := by decide +kernel

/-- And the reasons. -/
example : laterCarriers warnHeap [] warnTree.pre = [7] ∧ Remarks warnHeap warnTree 3 [] ∧
    Remarks warnHeap warnTree 4 [.unknownLabel ['q']] ∧ Remarks warnHeap warnTree 5 [.unknownLabel ['z']] ∧
    Remarks warnHeap warnTree 6 [] ∧ Remarks warnHeap warnTree 9 [.unlabeledPrev] := by
  refine ⟨by decide, .known (l := ['p']) rfl (.target rfl) (by decide), .unknown rfl (.target rfl) (by decide),
    .cite (x := 5) rfl, .cite (x := 6) rfl, ?_⟩
  refine .unlabelled (a := 8) (n := 1) (l := [7]) (q := 7) rfl ⟨[8, 2, 0], ⟨rfl, rfl, rfl, rfl⟩, rfl, [], [2, 0], rfl, by simp⟩
    (by decide) (.inr ⟨2, [7], [], rfl, rfl, by decide, by decide⟩) rfl ?_
  rintro ⟨-, -, before, after, e, hb⟩
  have h1 : 1 ∈ before := by
    match before, e with
    | [], e => exact absurd (List.cons.inj e).1 (by decide)
    | [a], e => exact absurd (List.cons.inj (List.cons.inj e).2).1 (by decide)
    | [a, b], e => exact absurd (List.cons.inj (List.cons.inj (List.cons.inj e).2).2).1 (by decide)
    | a :: b :: c :: l, e =>
      have := (List.cons.inj (List.cons.inj (List.cons.inj e).2).2).1
      rw [← this]; simp
  exact hb 1 h1 rfl

/-- An entry that lacks something. -/
def lackHeap : Heap where
  next := 3
  get := fun r => match r with
    | 0 => { NodeRec.new .Manuscript with kids := [1] }
    | 1 => { NodeRec.new .Bibliography with parent := some 0, kids := [2] }
    | 2 => { NodeRec.new .Bibitem with
        parent := some 1, label := ['b'], kind := "article".toList, author := ['A'], title := ['T'], year := .str [] }
    | _ => NodeRec.new .Node

def lackTree : Tree := .node 0 [.node 1 [.node 2 []]]

example : Doc lackHeap 0 lackTree := ⟨rfl, ⟨rfl, rfl, ⟨rfl, rfl, ⟨rfl, rfl, trivial⟩, trivial⟩, trivial⟩, by decide, by decide⟩

example : Rails.EntryPlain (lackHeap.get 2) :=
  ⟨⟨by decide, by decide, by decide, by decide, by decide, fun y hy => by cases hy; decide⟩, by decide, by decide, by decide⟩

example : (Tr.translate { plainConf with handrails := true } 0 { heap := lackHeap }).raised = none ∧
    (Tr.translate { plainConf with handrails := true } 0 { heap := lackHeap }).state.log =
      [.noJournal ['b'], .noYear ['b'], .noDoi ['b'], .noLink] ∧
    translateWarnings true lackHeap lackTree = [.noJournal ['b'], .noYear ['b'], .noDoi ['b'], .noLink] := by
  decide +kernel

end RSM
