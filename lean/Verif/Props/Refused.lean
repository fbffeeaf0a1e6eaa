import Verif.Lemmas.Refused
import Verif.Props.ProgramPage

/-!
# C90: sources that are refused

What `Structured` asks of references to earlier steps and of appendices is not only enough, but needed.
-/

namespace RSM
namespace Parser
open PyM Nodes Heap Tree Tr Transformer

section
variable {c : Cst} {fuel : Nat} {s s' : ParserState} {r : Ref} {t : Tree}

/-- **C90.** A manuscript with a reference to an earlier step that is not there, or with more things to be given letters
in an appendix than there are letters, is not transformed. -/
theorem C90_transform (S : Source c) (F : Forest s.heap) (hf : 12 * c.size < fuel) (h : parse fuel c s = .ok r s')
    (hE : ErrorsUnlabelled c) (hT : TocFine c) (D : Doc s'.heap r t) {fuel' : Nat} (hf' : 12 * t.size < fuel')
    (log : List TWarning)
    (hbad : prevsFine none (sourceOutline c) = false ∨ ¬ LettersSuffice (sourceLooks c)) :
    ∃ e ∈ [PyErr.attributeError, .rsmTransformerError, .valueError, .assertionError, .stopIteration],
      (transform fuel' r { heap := s'.heap, log := log }).raised = some e := by
  obtain ⟨-, hout, hex⟩ := C76_outcome S F hf h hE hT D hf' log
  obtain ⟨t1, D1, ho⟩ := C68_outline S F hf h
  have e1 := D1.unique D
  subst e1
  cases hr : (transform fuel' r { heap := s'.heap, log := log }).raised with
  | none =>
    obtain ⟨h1, -, h3⟩ := hout.mp hr
    rcases hbad with hbad | hbad
    · obtain ⟨x, hx, e, -, -, hfail⟩ := parse_prevs_fail S F hf h D ho hbad
      exact absurd hfail (h1 x hx e)
    · exact absurd (parse_letters_fail S F hf h D hbad) h3
  | some e =>
    refine ⟨e, ?_, rfl⟩
    rcases hex e hr with h1 | ⟨rfl, -⟩
    · revert h1; cases e <;> decide
    · decide

/-- **C90.** If nothing else is wrong with a source, these two decide whether it is transformed, and what is raised:
`RSMTransformerError` or `ValueError` for the references, `StopIteration` for the letters. -/
theorem C90_exact (S : Source c) (F : Forest s.heap) (hf : 12 * c.size < fuel) (h : parse fuel c s = .ok r s')
    (hE : ErrorsUnlabelled c) (hT : TocFine c) (D : Doc s'.heap r t) {fuel' : Nat} (hf' : 12 * t.size < fuel')
    (log : List TWarning) (hc : CitesEntries c)
    (hs : ∀ d ps, .node "step".toList d ps ∈ walks (sourceParts c) → SubproofLast ps)
    (he : (∀ a ∈ sourceLooks c, a.cls ≠ .Appendix) ∨ entryCount c ≤ 26) :
    ((transform fuel' r { heap := s'.heap, log := log }).raised = none ↔
      prevsFine none (sourceOutline c) = true ∧ LettersSuffice (sourceLooks c)) ∧
    (prevsFine none (sourceOutline c) = false → ∃ e ∈ [PyErr.rsmTransformerError, .valueError],
      (transform fuel' r { heap := s'.heap, log := log }).raised = some e) ∧
    (prevsFine none (sourceOutline c) = true → ¬ LettersSuffice (sourceLooks c) →
      (transform fuel' r { heap := s'.heap, log := log }).raised = some .stopIteration) := by
  obtain ⟨hall, hout, -⟩ := C76_outcome S F hf h hE hT D hf' log
  obtain ⟨-, -, hN, -, -⟩ := C76_input S F hf h D
  obtain ⟨t1, D1, ho⟩ := C68_outline S F hf h
  have e1 := D1.unique D
  subst e1
  have hsub := parse_subproofs S F hf h D hs
  have hprev : ∀ x ∈ t1.pre, ∀ e, Fails s'.heap t1 x e →
      (s'.heap.get x).cls = .PendingPrev ∧ e ∈ [PyErr.rsmTransformerError, .valueError] := by
    intro x hx e hfail
    cases hfail with
    | cite g hl hc' hb =>
      obtain ⟨hn, hy, before, after, hp, -⟩ := hc'
      exact absurd (by rw [parse_cites S F hf h D ho hc hx (hp ▸ by simp) g hl hn hy]; decide) hb
    | outside g _ _ => exact ⟨g, by decide⟩
    | count g _ _ => exact ⟨g, by decide⟩
    | tooFew g _ _ _ _ => exact ⟨g, by decide⟩
    | typed g g' => exact absurd g' (hN x hx _ g)
  have hfine : prevsFine none (sourceOutline c) = true → ∀ x ∈ t1.pre, ∀ e, ¬ Fails s'.heap t1 x e := fun hp x hx e hfail =>
    parse_prevs S F hf h D ho hp x hx (hprev x hx e hfail).1 e hfail
  refine ⟨?_, ?_, ?_⟩
  · rw [hout]
    constructor
    · rintro ⟨h1, -, h3⟩
      constructor
      · cases hp : prevsFine none (sourceOutline c) with
        | true => rfl
        | false =>
          obtain ⟨x, hx, e, -, -, hfail⟩ := parse_prevs_fail S F hf h D ho hp
          exact absurd hfail (h1 x hx e)
      · by_contra hl
        exact h3 (parse_letters_fail S F hf h D hl)
    · rintro ⟨h1, h2⟩
      exact ⟨hfine h1, hsub, parse_letters S F hf h D h2 he⟩
  · intro hp
    obtain ⟨x, hx, e, -, -, hfail⟩ := parse_prevs_fail S F hf h D ho hp
    have key := (hall _).mp rfl
    generalize (transform fuel' r { heap := s'.heap, log := log }).raised = o at key
    cases key with
    | @reference before y after e' h0 h1 h2 => exact ⟨e', (hprev y (by rw [h0]; simp) e' h1).2, rfl⟩
    | subproof h1 => exact absurd hfail (h1 x hx e)
    | letters h1 => exact absurd hfail (h1 x hx e)
    | kind h1 => exact absurd hfail (h1 x hx e)
    | fine h1 => exact absurd hfail (h1 x hx e)
  · intro hp hl
    exact (hall _).mpr (.letters (hfine hp) hsub (parse_letters_fail S F hf h D hl))

/-- **C90.** Entries of a bibliography are given letters, too, after an appendix marker: with more than 26 of them there
`transform` raises. -/
theorem C90_bibliography {h : Heap} {root : Ref} {ks : List Tree} {b : Ref} {before after : List Ref}
    (hr : ResolveInput h root t) (ha : StepKidsAllowed h t) (hi : TocInput h t) (hf : 12 * t.size < fuel) (log : List TWarning)
    (hpre : t.pre = before ++ (Tree.node b ks).pre ++ after) (hap : ∃ a ∈ before, (h.get a).cls = .Appendix)
    (hb : (h.get b).cls = .Bibliography)
    (hk : ∀ k ∈ Tree.preL ks, (h.get k).cls = .Bibitem ∧ (h.get k).nonum = false) (h26 : 26 < (Tree.preL ks).length) :
    (transform fuel root { heap := h, log := log }).raised ≠ none := by
  intro hno
  obtain ⟨-, -, hl, -⟩ := (C75_success h root t fuel log hr ha hi hf).mp hno
  apply hl
  rw [Tree.pre] at hpre
  generalize Tree.preL ks = l at hk h26 hpre
  rcases List.eq_nil_or_concat l with rfl | ⟨l', x, rfl⟩
  · exact absurd h26 (by decide)
  rw [List.concat_eq_append] at hk h26 hpre
  rw [List.length_append, List.length_singleton] at h26
  obtain ⟨b1, a, b2, rfl, ha', hb2⟩ := last_split hap
  have hnum : ∀ k ∈ l' ++ [x], Numbered h k := fun k hk' => by
    obtain ⟨h1, h2⟩ := hk k hk'
    unfold Numbered
    rw [h1]
    exact ⟨by decide, h2, by decide⟩
  have hx := (hk x (by simp)).1
  refine ⟨b1 ++ a :: b2 ++ b :: l', x, after, by rw [hpre]; simp, hnum x (by simp), by rw [hx]; decide, ⟨a, by simp, ha'⟩, ?_⟩
  unfold earlierInScope
  rw [show b1 ++ a :: b2 ++ b :: l' = b1 ++ a :: (b2 ++ b :: l') by simp, sinceLast_at (.inr ⟨ha', rfl⟩)]
  · have h1 : (l'.filter fun q => decide (Numbered h q ∧ SameFamily h q x)) = l' := by
      rw [List.filter_eq_self]
      intro q hq
      refine decide_eq_true ⟨hnum q (by simp [hq]), ?_⟩
      unfold SameFamily
      rw [(hk q (by simp [hq])).1, hx]
    rw [List.filter_append, List.filter_cons, h1, List.length_append]
    split
    · rw [List.length_cons]; omega
    · omega
  · rintro q hq (⟨h1, h2⟩ | ⟨h1, _⟩)
    · have := h1.1
      rw [h2] at this
      exact absurd this (by decide)
    · have h1 : (h.get q).cls = .Appendix := h1
      rcases List.mem_append.mp hq with hq | hq
      · exact hb2 q hq h1
      · rcases List.mem_cons.mp hq with rfl | hq
        · rw [hb] at h1; cases h1
        · rw [(hk q (by simp [hq])).1] at h1; cases h1

/-! ### A source that is refused

```
# Proofs
:proof:
  :step: By :prev:. ::
::
```
-/

/-- The first step refers to the one before it. -/
def lostSource : Cst :=
  br 0 "source_file" (text := "the source") [
    br 1 "text" (field := "title") (text := "Proofs") [],
    br 2 "block" [
      br 3 "proof" [] (field := "tag"),
      br 4 "block" [
        br 5 "step" [] (field := "tag"),
        br 6 "paragraph" [br 7 "text" [] (text := "By "), br 8 "specialinline" [br 9 "prev" []], br 10 "text" [] (text := ".")]]]]

theorem lostSource_wellFormed : WellFormed lostSource where
  source := by
    refine ⟨by decide, ?_⟩
    intro x hx y hy
    have : ∀ x ∈ lostSource.children, ∀ y ∈ x.nodes, y.type ≠ "source_file".toList := by decide +kernel
    exact this x hx y hy
  metaok := by decide +kernel
  tidy := by decide +kernel
  parts := by decide +kernel
  nesting := by decide +kernel

theorem lostSource_errors : ErrorsUnlabelled lostSource := fun kind d ps hp hk =>
  absurd hk (of_decide_eq_true (parts_all (c := lostSource) (f := fun kind _ _ => kind ≠ "ERROR".toList)
    (by decide +kernel) kind d ps hp))

theorem lostSource_tocFine : TocFine lostSource := by
  rintro ⟨kind, d, ps, hp, hk⟩
  have := parts_all (c := lostSource) (f := fun kind _ _ => kind ≠ "toc".toList) (by decide +kernel) kind d ps hp
  exact absurd hk (of_decide_eq_true this)

theorem lostSource_lost : prevsFine none (sourceOutline lostSource) = false := by decide +kernel

/-- Not vacuous: the source is parsed, and `transform` raises. -/
example : ∃ s1 t1, parse 400 lostSource fresh = .ok 0 s1 ∧ Doc s1.heap 0 t1 ∧ ∀ fuel', 12 * t1.size < fuel' →
    ∃ e ∈ [PyErr.rsmTransformerError, .valueError], (transform fuel' 0 { heap := s1.heap }).raised = some e := by
  obtain ⟨s1, h1⟩ := parse_fine lostSource_wellFormed (s := fresh) (fuel := 400) (by decide) Forest.empty
  obtain ⟨t1, D1, -⟩ := C63_document lostSource_wellFormed.source Forest.empty (by decide) h1
  refine ⟨s1, t1, h1, D1, fun fuel' hf => ?_⟩
  exact (C90_exact lostSource_wellFormed.source Forest.empty (by decide) h1 lostSource_errors lostSource_tocFine D1 hf []
    (fun d ps hp => absurd rfl (of_decide_eq_true (parts_all (c := lostSource)
      (f := fun kind _ _ => kind ≠ "cite".toList) (by decide +kernel) _ d ps hp)))
    (fun d ps hp => by
      have := List.all_eq_true.mp (by decide +kernel : ((walks (sourceParts lostSource)).all
        fun | .node kind _ ps => kind ≠ "step".toList || subLastB ps) = true) _ hp
      exact subproofLast_of (by simpa using this))
    (.inr (by decide +kernel))).2.1 lostSource_lost

/-- 27 sections after an appendix marker are too many, 26 are not. -/
def appendixLooks (n : Nat) : List Look :=
  { cls := .Appendix } :: List.replicate n { cls := .Section }

example : ¬ LettersSuffice (appendixLooks 27) := fun H =>
  absurd (H [] { cls := .Appendix } (List.replicate 27 { cls := .Section }) [] (by simp [appendixLooks]) rfl (by decide) .Section) (by decide)

/-- A manuscript with an appendix marker and a bibliography of `n` entries. -/
def entriesHeap (n : Nat) : Heap where
  next := n + 3
  get := fun r =>
    if r = 0 then { NodeRec.new .Manuscript with kids := [1, 2] }
    else if r = 1 then { NodeRec.new .Appendix with parent := some 0 }
    else if r = 2 then { NodeRec.new .Bibliography with parent := some 0, kids := (List.range n).map (· + 3) }
    else if r < n + 3 then { NodeRec.new .Bibitem with parent := some 2 }
    else NodeRec.new .Node

/-- Not vacuous: 27 entries are too many, 26 are not. -/
example : (transform 1000 0 { heap := entriesHeap 27 }).raised = some .stopIteration ∧
    (transform 1000 0 { heap := entriesHeap 26 }).raised = none := by
  constructor <;> decide +kernel

end

end Parser

namespace Program
open PyM LogState Transformer Tree RSM.Parser Tr

variable {o : Outer} {src source : Str} {path : SrcPath}

/-- **C90.** So there is no page of such a source, no web manuscript is written, and no manuscript is linted: `render`,
`make` and `lint` raise the same exception, or return the empty text if the parser has given up, and no file is
changed. -/
theorem C90_programs {hr as handrails lint handrails' : Bool} {a a2 a3 : LogArgs} {w : World Sys} (hf : a.logFormat ∈ knownFormats)
    (hf2 : a2.logFormat ∈ knownFormats) (hf3 : a3.logFormat ∈ knownFormats)
    (hs : SourceText w.user.files source path src) (S : Source (o.sitter src)) (F : Forest w.user.heap)
    (hE : ErrorsUnlabelled (o.sitter src)) (hT : TocFine (o.sitter src))
    (hbad : prevsFine none (sourceOutline (o.sitter src)) = false ∨ ¬ LettersSuffice (sourceLooks (o.sitter src))) :
    ∃ out : Except PyErr (Val Obj), (out = .ok (.str []) ∨ ∃ e, out = .error e) ∧
      (WellFormed (o.sitter src) → ∃ e ∈ [PyErr.attributeError, .rsmTransformerError, .valueError, .assertionError, .stopIteration],
        out = .error e) ∧
      (∃ w', render o source path hr as a w = result out w' ∧ w'.user.files = w.user.files) ∧
      (∃ w', make o source path handrails lint a2 w = result out w' ∧ w'.user.files = w.user.files) ∧
      (∃ w', lintSource o source path handrails' a3 w = result out w' ∧ w'.user.files = w.user.files) := by
  obtain ⟨f, hf⟩ := Option.isSome_iff_exists.1 ((known_iff _).2 hf)
  obtain ⟨f2, hf2⟩ := Option.isSome_iff_exists.1 ((known_iff _).2 hf2)
  obtain ⟨f3, hf3⟩ := Option.isSome_iff_exists.1 ((known_iff _).2 hf3)
  have hlt := Nat.lt_succ_self (12 * (o.sitter src).size)
  have key : ∃ e h' rs, Compiled o w.user.heap src (.error e) h' rs ∧ (WellFormed (o.sitter src) →
      e ∈ [PyErr.attributeError, .rsmTransformerError, .valueError, .assertionError, .stopIteration]) := by
    cases p : Parser.parse (12 * (o.sitter src).size + 1) (o.sitter src) { heap := w.user.heap } with
    | err e s =>
      refine ⟨e, _, _, .unparsed p, fun W => ?_⟩
      obtain ⟨s1, h1⟩ := parse_fine W (s := { heap := w.user.heap }) hlt F
      rw [p] at h1
      cases h1
    | ok r s =>
      obtain ⟨t1, D1, -⟩ := C63_document (s := { heap := w.user.heap }) S F hlt p
      have hsz : 12 * t1.size < 12 * s.heap.next + 1 := by have := doc_size D1; omega
      obtain ⟨e, he, hr⟩ := C90_transform (s := { heap := w.user.heap }) S F hlt p hE hT D1 hsz [] hbad
      cases q : Transformer.transform (12 * s.heap.next + 1) r { heap := s.heap } with
      | ok u s2 => rw [q] at hr; cases hr
      | err e' s2 =>
        rw [q] at hr
        cases hr
        exact ⟨e, _, _, .untransformed p q, fun _ => he⟩
  obtain ⟨e, h', rs, hc, he⟩ := key
  obtain ⟨w1, e1, u1, -⟩ := C83_render (a := a) (hr := hr) (as := as) hf hs (.stopped hc)
  obtain ⟨w2, e2, u2, -⟩ := C83_make (a := a2) (handrails := handrails) (lint := lint) hf2 hs (.stopped (.stopped hc))
  obtain ⟨w3, e3, u3, -⟩ := C83_lint_stopped (a := a3) (handrails := handrails') hf3 hs hc
  refine ⟨userResult (.error e), ?_, fun W => ⟨e, he W, ?_⟩, ⟨w1, e1, by rw [u1]⟩, ⟨w2, e2, by rw [u2]⟩, ⟨w3, e3, by rw [u3]⟩⟩
  · cases e <;> first | exact .inl rfl | exact .inr ⟨_, rfl⟩
  · have := he W
    revert this
    cases e <;> first | (intro _; rfl) | (intro h; exact absurd h (by decide))

/-- Not vacuous: the source above is refused whatever has been run before it. -/
example (o : Outer) (h1 : o.sitter src = lostSource) (w : World Sys) (F : Forest w.user.heap) (hne : src ≠ []) :
    ∃ e w', render o src .none false false {} w = .err e w' ∧ w'.user.files = w.user.files := by
  obtain ⟨out, -, h2, ⟨w', h3, h4⟩, -⟩ := C90_programs (o := o) (src := src) (source := src) (path := .none) (hr := false)
    (as := false) (handrails := true) (lint := false) (handrails' := true) (a := {}) (a2 := {}) (a3 := {}) (w := w)
    (by decide) (by decide) (by decide) (.given hne (.inl rfl)) (h1 ▸ lostSource_wellFormed.source) F (h1 ▸ lostSource_errors)
    (h1 ▸ lostSource_tocFine) (.inl (h1 ▸ lostSource_lost))
  obtain ⟨e, -, rfl⟩ := h2 (h1 ▸ lostSource_wellFormed)
  exact ⟨e, w', h3, h4⟩

end Program
end RSM
