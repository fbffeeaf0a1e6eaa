import Verif.Spec.Targets
import Verif.Lemmas.TrWeave
import Verif.Props.Translator

/-!
# C39: the texts of a document in the output of the translators
-/

namespace RSM
open Tr PyM

/-- The heap with other texts in its text nodes. -/
def Heap.withTexts (h : Heap) (T : Ref → Str) : Heap :=
  { h with get := fun r =>
      if (h.get r).cls = .Text then { h.get r with text := T r } else h.get r }

/-- The text nodes of a tree, in document order. -/
def textNodes (h : Heap) (t : Tree) : List Ref := t.pre.filter fun r => (h.get r).cls = .Text

/-- No formula of the document is directly followed by a text that starts with a full stop. -/
def NoStop (h : Heap) (t : Tree) (T : Ref → Str) : Prop :=
  ∀ m ∈ t.pre, (h.get m).cls = .Math → ∀ x, h.nextSibling m .any = .ok (some x) →
    (T x).head? ≠ some '.'

theorem withTexts_frame (h : Heap) (T) : SameFrame h (h.withTexts T) := by
  refine ⟨rfl, fun r => ?_⟩
  show frame (if _ then _ else _) = _
  split <;> rfl

theorem withTexts_rel (h : Heap) (T) : TextRel h noText T (h.withTexts noText) (h.withTexts T) where
  shape := withTexts_frame h _
  next := rfl
  other := fun x hx => by
    rw [(withTexts_frame h _).cls] at hx
    simp [Heap.withTexts, hx]
  text := fun x hx => by
    rw [(withTexts_frame h _).cls] at hx
    simp [Heap.withTexts, hx]

theorem withTexts_of_rel {h0 : Heap} {T T' : Ref → Str} {h h'} (hr : TextRel h0 T' T h h') :
    h' = h.withTexts T := by
  cases h' with
  | mk g n =>
    have hn := hr.next
    simp only [Heap.withTexts]
    cases hn
    congr 1
    funext x
    split
    · exact (hr.text x (by assumption)).2
    · exact hr.other x (by assumption)

theorem withTexts_own (h : Heap) : h.withTexts (fun r => (h.get r).text) = h := by
  cases h with
  | mk g n =>
    simp only [Heap.withTexts]
    congr 1
    funext x
    split <;> rfl

/-- **C39.** Fix a document, and vary the texts of its text nodes.  Either every translation fails,
in the same way, or there are fixed pieces of markup such that the output is always: the texts of
the text nodes, in document order and each once, between those pieces.

No URL or pending reference may have a node as its target, since `repr` of this node would be shown (the parser makes
no such reference).  With handrails, the full stop after
a formula is moved into an element of its own, so formulas followed by a full stop are left out. -/
theorem C39_text_order (k : Conf) (root : Ref) (t : Tree) (s : TrState)
    (hd : Doc s.heap root t) (hfuel : 2 * t.size ≤ k.fuel) (h0 : s.deferred = [])
    (hrefs : NoNodeTargets s.heap t) :
    (∃ gaps : List Str, gaps.length = (textNodes s.heap t).length + 1 ∧
      ∀ T : Ref → Str, (k.handrails = true → NoStop s.heap t T) →
        (translate k root { s with heap := s.heap.withTexts T }).value =
          some (Html.weave gaps ((textNodes s.heap t).map T))) ∨
    (∃ e, ∀ T : Ref → Str, (k.handrails = true → NoStop s.heap t T) →
        (translate k root { s with heap := s.heap.withTexts T }).raised = some e) := by
  have hdoc : ∀ T, Doc (s.heap.withTexts T) root t := fun T =>
    ⟨hd.root_eq, (withTexts_frame _ T).isTree hd.tree, hd.nodup, hd.bound⟩
  have htr : ∀ T, translate k root { s with heap := s.heap.withTexts T } =
      match evalTree k t (started root { s with heap := s.heap.withTexts T }) with
        | .ok _ s' => .ok s'.body s'
        | .err e s' => .err e s' := fun T => by
    rw [translate_eq k (hdoc T) hfuel, if_neg (by simpa using h0)]
    cases evalTree k t (started root { s with heap := s.heap.withTexts T }) <;> rfl
  have hall : ∀ T, (k.handrails = true → NoStop s.heap t T) → Allowed k s.heap t.pre T := by
    intro T hT r hr
    exact ⟨hrefs r hr, fun hh hc x hx => ⟨by simp [noText], hT hh r hr hc x hx⟩⟩
  have hrel : ∀ T, Rel (TextRel s.heap noText T)
      (started root { s with heap := s.heap.withTexts noText })
      (started root { s with heap := s.heap.withTexts T }) := fun T =>
    ⟨withTexts_rel _ _, rfl, rfl⟩
  have hp := parallel_tree (k := k) (h0 := s.heap) (P := t.pre) t (fun _ h => h)
    (started root { s with heap := s.heap.withTexts noText })
  unfold Parallel at hp
  cases e : evalTree k t (started root { s with heap := s.heap.withTexts noText }) with
  | ok u s1 =>
    rw [e] at hp
    obtain ⟨gaps, hg, hp⟩ := hp
    refine .inl ⟨gaps, hg, fun T hT => ?_⟩
    obtain ⟨s1', e', _, hb⟩ := hp T _ (hall T hT) (hrel T)
    rw [htr, e']
    show some s1'.body = _
    rw [hb]
    rfl
  | err x s1 =>
    rw [e] at hp
    refine .inr ⟨x, fun T hT => ?_⟩
    obtain ⟨s1', e'⟩ := hp T _ (hall T hT) (hrel T)
    rw [htr, e']
    rfl

/-- **C39.** In particular, the HTML of a document is made of its own texts, in document order and
each once, between other pieces. -/
theorem C39_text_kept (k : Conf) (root : Ref) (t : Tree) (s s' : TrState) (out : Str)
    (hd : Doc s.heap root t) (hfuel : 2 * t.size ≤ k.fuel) (h0 : s.deferred = [])
    (hrefs : NoNodeTargets s.heap t)
    (hstop : k.handrails = true → NoStop s.heap t fun r => (s.heap.get r).text)
    (hok : translate k root s = .ok out s') :
    (textNodes s.heap t).Nodup ∧
    ∃ gaps : List Str, gaps.length = (textNodes s.heap t).length + 1 ∧
      out = Html.weave gaps ((textNodes s.heap t).map fun r => (s.heap.get r).text) := by
  refine ⟨hd.nodup.filter _, ?_⟩
  have key := C39_text_order k root t s hd hfuel h0 hrefs
  have hs : ({ s with heap := s.heap.withTexts fun r => (s.heap.get r).text } : TrState) = s := by
    rw [withTexts_own]
  rcases key with ⟨gaps, hg, h⟩ | ⟨e, h⟩
  · have := h _ hstop
    rw [hs, hok] at this
    cases this
    exact ⟨gaps, hg, rfl⟩
  · have := h _ hstop
    rw [hs, hok] at this
    cases this

/-- The example has three texts, and both translators translate it. -/
example : textNodes trHeap trTree = [4, 6, 7] ∧
    NoNodeTargets trHeap trTree := by
  have : ∀ r ∈ trTree.pre, (trHeap.get r).cls ∉ [.URL, .BaseReference, .PendingReference, .PendingPrev] := by decide +kernel
  exact ⟨by decide +kernel, fun r hr hc => absurd hc (this r hr)⟩

/-- Other texts, without a full stop after the formula: the handrails translator. -/
example : NoStop trHeap trTree (fun r => if r = 7 then " is a" else "x<y") ∧
    (translate railsConf 0 { heap := trHeap.withTexts fun r => if r = 7 then " is a" else "x<y" }).raised
      = none := by
  refine ⟨?_, by decide +kernel⟩
  have : ∀ m ∈ trTree.pre, (trHeap.get m).cls = .Math → m = 5 := by decide +kernel
  intro m hm hc x hx
  rw [this m hm hc] at hx
  have h5 : trHeap.nextSibling 5 .any = .ok (some 7) := rfl
  rw [h5] at hx
  cases hx
  decide +kernel

/-- **C39.** With handrails the full stop after a formula is taken from the text (the node itself is
changed) and put into an element of its own. -/
theorem C39_handrails_stop :
    (translate railsConf 0 { heap := trHeap }).raised = none ∧
    (trHeap.get 7).text = ". Then".toList ∧
    ((translate railsConf 0 { heap := trHeap }).state.heap.get 7).text = " Then".toList ∧
    "\\)</span><span>.</span></span> Then".toList <:+:
      (translate railsConf 0 { heap := trHeap }).value.getD [] := by
  refine ⟨by decide +kernel, by decide +kernel, by decide +kernel, by decide +kernel⟩

end RSM
