import Verif.Lemmas.ResolveSpec
import Verif.Lemmas.Numeral

/-!
# C16–C19: resolving references

All theorems are about the first two passes of `transform` by a fresh transformer:
`collect_labels` and `resolve_pending_references`.  In them `h` is the heap at the start, `t` the
document at the start, and `σ x` the node that stands in the place of `x` afterwards: the document
afterwards is `t.map σ` (`t` with every node `x` exchanged for `σ x`).  A heap holds at most one
document below a node, so `σ` is determined on the nodes of `t`.
-/

namespace RSM
open Tree Transformer

variable {h : Heap} {root : Ref} {t : Tree} {log : List TWarning} {fuel : Nat} {s' : TState}

/-- The state after the two passes, when they return. -/
theorem resolved (R : ResolveInput h root t) (hfuel : t.size < fuel)
    (hrun : collectAndResolve fuel root { heap := h, log := log } = .ok () s') :
    ∃ s σ k, Collected h root t log s ∧
      ResInv s.heap s.labels s.log fuel t t.pre σ ⟨s', k⟩ ∧ Doc s'.heap root (t.map σ) := by
  obtain ⟨s, C, S⟩ := collectAndResolve_spec R log hfuel
  rw [hrun] at S
  obtain ⟨σ, k, I, D⟩ := S
  exact ⟨s, σ, k, C, I, D⟩

/-! ## C16 -/

/-- **C16.** If the passes return, the document has the same shape, every pending reference was
replaced by one new node, every other node is the same object in the same place, and no pending
reference is left.  Apart from labels (C14) and back-links (C18) no attribute of an old node
changed. -/
theorem C16_no_pending (R : ResolveInput h root t) (hfuel : t.size < fuel)
    (hrun : collectAndResolve fuel root { heap := h, log := log } = .ok () s') :
    ∃ σ : Ref → Ref, Doc s'.heap root (t.map σ) ∧
      (∀ y ∈ (t.map σ).pre, ¬ Pending s'.heap y) ∧
      (∀ x ∈ t.pre, Pending h x → h.next ≤ σ x) ∧
      (∀ x ∈ t.pre, ¬ Pending h x → σ x = x) ∧
      (∀ x < h.next, s'.heap.get x = { h.get x with
        parent := (s'.heap.get x).parent, kids := (s'.heap.get x).kids,
        label := (s'.heap.get x).label, backlinks := (s'.heap.get x).backlinks }) := by
  obtain ⟨s, σ, k, C, I, D⟩ := resolved R hfuel hrun
  refine ⟨σ, D, I.no_pending C.doc, ?_, ?_, ?_⟩
  · intro x hx hp
    rw [← C.relabel.1]
    exact (I.fresh x hx ((C.relabel.pending x).mpr hp)).1
  · intro x _ hp
    exact I.fix x (fun H => hp ((C.relabel.pending x).mp H.2))
  · intro x hx
    have h1 := I.old x (by rw [C.relabel.1]; exact hx)
    have h2 := C.relabel.2 x
    simp only at h1
    rw [h2] at h1
    rw [h1]

/-- **C16.** The passes raise exactly when resolving some pending reference raises, and then with
the exception of the first such reference in document order.  In particular the final check for
unresolved pending references never raises. -/
theorem C16_outcome (R : ResolveInput h root t) (hfuel : t.size < fuel) :
    match collectAndResolve fuel root { heap := h, log := log } with
    | .ok _ _ => ∀ x ∈ t.pre, ∀ e, ¬ Fails h t x e
    | .err e _ => ∃ before x after, t.pre = before ++ x :: after ∧ Fails h t x e ∧
        ∀ z ∈ before, ∀ e', ¬ Fails h t z e' := by
  obtain ⟨s, C, S⟩ := collectAndResolve_spec R log hfuel
  revert S
  cases collectAndResolve fuel root { heap := h, log := log } with
  | err e s' => exact fun S => S
  | ok a s' =>
    rintro ⟨σ, k, I, D⟩ x hx e he
    have h1 := (fateErr_iff C.doc hfuel (fun l r => (C.lookup l r).trans (C.carries l r).symm) hx e).mpr
      ((C.relabel.fails C.carries).mpr he)
    by_cases hp : Pending s.heap x
    · rw [I.fine x hx hp] at h1; cases h1
    · rw [C.relabel.pending] at hp
      unfold Pending at hp
      push Not at hp
      cases he with
      | cite g => exact hp.2.1 g
      | outside g => exact hp.2.2 g
      | count g => exact hp.2.2 g
      | tooFew g => exact hp.2.2 g
      | typed g => exact hp.1 g

/-- The description of the replacement of `x`. -/
theorem replacement (R : ResolveInput h root t) (hfuel : t.size < fuel)
    (hrun : collectAndResolve fuel root { heap := h, log := log } = .ok () s')
    {σ : Ref → Ref} (Dσ : Doc s'.heap root (t.map σ)) {before : List Ref} {x : Ref}
    {after : List Ref} (hx : t.pre = before ++ x :: after) (hp : Pending h x) :
    ∃ s k τ, Collected h root t log s ∧ ResInv s.heap s.labels s.log fuel t t.pre τ ⟨s', k⟩ ∧
      ReplacementOf s.heap s.labels fuel h.next (citations h before).length x s'.heap (σ x) := by
  obtain ⟨s, τ, k, C, I, D⟩ := resolved R hfuel hrun
  have e := Tree.map_inj (Dσ.unique D) x (by rw [hx]; simp)
  have := I.desc before x after hx ((C.relabel.pending x).mpr hp)
  refine ⟨s, k, τ, C, I, ?_⟩
  have hcit : citations s.heap before = citations h before := by
    unfold citations; simp only [C.relabel.cls]
  rw [C.relabel.1, hcit, ← e] at this
  exact this

/-! ## C17 -/

/-- **C17.** A reference to a label that some node carries becomes a `Reference` to the first node
in document order with that label, with the author's text for the reference; that node is still in
the document unless it was itself a pending reference. -/
theorem C17_known (R : ResolveInput h root t) (hfuel : t.size < fuel)
    (hrun : collectAndResolve fuel root { heap := h, log := log } = .ok () s')
    {σ : Ref → Ref} (Dσ : Doc s'.heap root (t.map σ)) {x r : Ref} {l : Str}
    (hx : x ∈ t.pre) (hc : (h.get x).cls = .PendingReference) (hl : (h.get x).target = .str l)
    (hr : Carries h t l r) :
    (s'.heap.get (σ x)).cls = .Reference ∧ (s'.heap.get (σ x)).target = .node r ∧
      (s'.heap.get (σ x)).overwriteReftext = (h.get x).overwriteReftext ∧
      (¬ Pending h r → r ∈ (t.map σ).pre) := by
  obtain ⟨a, b, hab⟩ := List.append_of_mem hx
  obtain ⟨s, k, τ, C, I, P⟩ := replacement R hfuel hrun Dσ hab (.inl hc)
  unfold ReplacementOf at P
  rw [C.relabel.cls, hc] at P
  have hw : wantedLabel (s.heap.get x) = l := by unfold wantedLabel; rw [C.relabel.target, hl]
  simp only [hw, (C.lookup l r).mpr hr] at P
  refine ⟨core_cls P, ?_, ?_, ?_⟩
  · exact congrArg NodeRec.target P
  · have := congrArg NodeRec.overwriteReftext P
    rw [C.relabel.2 x] at this
    exact this
  · intro hp
    have hrm := (carries_mem hr).1
    rw [pre_map]
    refine List.mem_map.mpr ⟨r, hrm, ?_⟩
    have D' := I.doc C.doc (by rw [C.relabel.pending]; exact R.root_ok)
    rw [Tree.map_inj (Dσ.unique D') r hrm]
    exact I.fix r (fun H => hp ((C.relabel.pending r).mp H.2))

/-- **C17.** A reference to a label that no node carries becomes an `Error` that shows the label,
and a warning is logged.  By `C16_outcome` an unknown label is no reason to raise. -/
theorem C17_unknown (R : ResolveInput h root t) (hfuel : t.size < fuel)
    (hrun : collectAndResolve fuel root { heap := h, log := log } = .ok () s')
    {σ : Ref → Ref} (Dσ : Doc s'.heap root (t.map σ)) {x : Ref} {l : Str}
    (hx : x ∈ t.pre) (hc : (h.get x).cls = .PendingReference) (hl : (h.get x).target = .str l)
    (hn : ¬ Carried h t l) :
    (s'.heap.get (σ x)).cls = .Error ∧
      (s'.heap.get (σ x)).text = "[unknown label \"".toList ++ l ++ "\"]".toList ∧
      .unknownLabel l ∈ s'.log := by
  obtain ⟨a, b, hab⟩ := List.append_of_mem hx
  obtain ⟨s, k, τ, C, I, P⟩ := replacement R hfuel hrun Dσ hab (.inl hc)
  unfold ReplacementOf at P
  rw [C.relabel.cls, hc] at P
  have hw : wantedLabel (s.heap.get x) = l := by unfold wantedLabel; rw [C.relabel.target, hl]
  have hnone : s.labels.lookup l = none := by
    cases hlk : s.labels.lookup l with
    | none => rfl
    | some r => exact absurd (carried_iff.mpr ⟨r, (C.lookup l r).mp hlk⟩) hn
  simp only [hw, hnone] at P
  refine ⟨core_cls P, congrArg NodeRec.text P, ?_⟩
  have := I.log
  simp only at this
  rw [this]
  refine List.mem_append_right _ (List.mem_flatMap.mpr ⟨x, ?_, ?_⟩)
  · simp only [List.mem_filter, decide_eq_true_eq]
    exact ⟨hx, (C.relabel.pending x).mpr (.inl hc)⟩
  · unfold newWarnings
    rw [C.relabel.cls, hc]
    simp [hw, hnone]

/-! ## C18 -/

/-- **C18.** The `k`-th citation of the document, from 0, becomes a `Cite` with label `cite-k`
whose targets are, in order, the first carriers of the labels it names; an unknown label gets a
new `UnknownBibitem` outside of the document. -/
theorem C18_cites (R : ResolveInput h root t) (hfuel : t.size < fuel)
    (hrun : collectAndResolve fuel root { heap := h, log := log } = .ok () s')
    {σ : Ref → Ref} (Dσ : Doc s'.heap root (t.map σ)) {x : Ref} {k : Nat}
    (hx : (citations h t.pre)[k]? = some x) :
    (s'.heap.get (σ x)).cls = .Cite ∧
      (s'.heap.get (σ x)).label = "cite-".toList ++ natStr k ∧
      List.Forall₂ (fun l b => Carries h t l b ∨
          ¬ Carried h t l ∧ h.next ≤ b ∧ s'.heap.parent b = none ∧
            (s'.heap.get b).cls = .UnknownBibitem ∧
            (s'.heap.get b).number = .str ("[unknown label \"".toList ++ l ++ "\"]".toList) ∧
            (s'.heap.get b).backlinks = ["cite-".toList ++ natStr k])
        (h.get x).targetlabels (s'.heap.get (σ x)).targets := by
  obtain ⟨before, after, hab, hlen⟩ : ∃ before after, t.pre = before ++ x :: after ∧
      (citations h before).length = k := by
    have hk : citations h t.pre = (citations h t.pre).take k ++ x :: (citations h t.pre).drop (k+1) := by
      have := List.getElem?_eq_some_iff.mp hx
      obtain ⟨h1, h2⟩ := this
      conv_lhs => rw [← List.take_append_drop k (citations h t.pre)]
      rw [List.drop_eq_getElem_cons h1, h2]
    obtain ⟨b1, b2, e1, e2, e3⟩ := List.filter_eq_append_iff.mp hk
    obtain ⟨c1, c2, e4, e5, e6, e7⟩ := List.filter_eq_cons_iff.mp e3
    refine ⟨b1 ++ c1, c2, by rw [e1, e4]; simp, ?_⟩
    unfold citations at *
    rw [List.filter_append, e2, List.filter_eq_nil_iff.mpr (fun w hw => e5 w hw)]
    have := (List.getElem?_eq_some_iff.mp hx).1
    simp
    omega
  have hc : (h.get x).cls = .PendingCite := by
    have := List.mem_of_getElem? hx
    simpa [citations] using (List.mem_filter.mp this).2
  obtain ⟨s, k', τ, C, I, P⟩ := replacement R hfuel hrun Dσ hab (.inr (.inl hc))
  unfold ReplacementOf at P
  rw [C.relabel.cls, hc] at P
  obtain ⟨ts, e1, e2⟩ := P
  rw [hlen] at e1 e2
  refine ⟨core_cls e1, congrArg NodeRec.label e1, ?_⟩
  have hts : (s'.heap.get (σ x)).targets = ts := congrArg NodeRec.targets e1
  rw [hts, ← C.relabel.targetlabels x]
  refine e2.imp ?_
  intro l b hb
  unfold CitedNode at hb
  split at hb
  · next r hr =>
    subst hb
    exact .inl ((C.lookup l b).mp hr)
  · next hnone =>
    obtain ⟨g1, g2, g3, g4⟩ := hb
    refine .inr ⟨?_, g1, g3, core_cls g4, congrArg NodeRec.number g4, congrArg NodeRec.backlinks g4⟩
    intro hcar
    obtain ⟨r, hr⟩ := carried_iff.mp hcar
    rw [(C.lookup l r).mpr hr] at hnone
    cases hnone

open Classical in
/-- **C18.** The back-links of an old node `b` grow by exactly the labels of the citations that
name it, in document order (once for every time a citation names it). -/
theorem C18_backlinks (R : ResolveInput h root t) (hfuel : t.size < fuel)
    (hrun : collectAndResolve fuel root { heap := h, log := log } = .ok () s')
    {b : Ref} (hb : b < h.next) :
    (s'.heap.get b).backlinks = (h.get b).backlinks ++
      (citations h t.pre).zipIdx.flatMap fun (x, k) =>
        List.replicate ((h.get x).targetlabels.filter fun l => Carries h t l b).length
          ("cite-".toList ++ natStr k) := by
  obtain ⟨s, σ, k, C, I, D⟩ := resolved R hfuel hrun
  have h1 := I.old b (by rw [C.relabel.1]; exact hb)
  have h2 := congrArg NodeRec.backlinks h1
  simp only at h2
  rw [h2, C.relabel.2 b]
  congr 1
  unfold allBacklinks
  have hcit : citations s.heap t.pre = citations h t.pre := by
    unfold citations; simp only [C.relabel.cls]
  rw [hcit]
  simp only [List.flatMap_def]
  congr 1
  apply List.map_congr_left
  rintro ⟨x, k⟩ hxk
  have hx : x ∈ citations h t.pre := by
    have := List.mem_map_of_mem (f := Prod.fst) hxk
    rwa [List.zipIdx_map_fst] at this
  have hc : (h.get x).cls = .PendingCite := by
    simpa [citations] using (List.mem_filter.mp hx).2
  simp only [newBacklinks]
  rw [C.relabel.cls, if_pos hc, C.relabel.targetlabels]
  congr 2
  apply List.filter_congr
  intro l _
  simp only [C.lookup]

/-- **C18.** Citing a label carried by a node that is not a bibliography item raises
`AttributeError`, unless an earlier reference raised already. -/
theorem C18_attribute_error (R : ResolveInput h root t) (hfuel : t.size < fuel)
    {before after : List Ref} {x : Ref} (hx : t.pre = before ++ x :: after)
    (hc : (h.get x).cls = .PendingCite) {l : Str} {r : Ref} (hl : l ∈ (h.get x).targetlabels)
    (hr : Carries h t l r) (hb : .Bibitem ∉ (h.get r).cls.mro)
    (hbefore : ∀ z ∈ before, ∀ e, ¬ Fails h t z e) :
    (collectAndResolve fuel root { heap := h, log := log }).raised = some .attributeError := by
  have H := C16_outcome (log := log) R hfuel
  revert H
  cases collectAndResolve fuel root { heap := h, log := log } with
  | ok a s' => exact fun H => absurd (Fails.cite hc hl hr hb) (H x (by rw [hx]; simp) _)
  | err e s' =>
    rintro ⟨b', x', a', e1, e2, e3⟩
    have hxx : x' = x := by
      rw [hx] at e1
      rcases List.append_eq_append_iff.mp e1 with ⟨as, g1, g2⟩ | ⟨as, g1, g2⟩
      · cases as with
        | nil => simp at g2; exact g2.1.symm
        | cons y as =>
          simp only [List.cons_append, List.cons.injEq] at g2
          exact absurd (Fails.cite hc hl hr hb) (e3 x (by rw [g1, g2.1]; simp) _)
      · cases as with
        | nil => simp at g2; exact g2.1
        | cons y as =>
          simp only [List.cons_append, List.cons.injEq] at g2
          exact absurd e2 (hbefore x' (by rw [g1, g2.1]; simp) e)
    subst hxx
    cases e2 with
    | cite => rfl
    | outside g => rw [hc] at g; cases g
    | count g => rw [hc] at g; cases g
    | tooFew g => rw [hc] at g; cases g
    | typed g => rw [hc] at g; cases g

/-! ## C19 -/

/-- **C19.** The count of a `:prev:` is the number that the author writes: digits, perhaps with a sign, with single
underscores between them and with blanks around. -/
theorem C19_count (nd : NodeRec) (n : Int) : prevCount nd = some n ↔ ∃ s, nd.target = .str s ∧ Numeral s n := by
  unfold prevCount
  cases nd.target with
  | str s =>
    rw [pyInt_iff]
    exact ⟨fun h => ⟨s, rfl, h⟩, fun ⟨_, e, h⟩ => by cases e; exact h⟩
  | none => exact ⟨fun h => (by cases h), fun ⟨_, e, _⟩ => (by cases e)⟩
  | node r => exact ⟨fun h => (by cases h), fun ⟨_, e, _⟩ => (by cases e)⟩

/-- Not vacuous: numerals, and a text that is none. -/
example : Numeral " -1_2 ".toList (-12) ∧ prevCount { NodeRec.new .PendingPrev with target := .str "+3".toList } = some 3 ∧
    ¬ ∃ n, Numeral "1__2".toList n := by
  refine ⟨pyInt_iff.mp (by decide), by decide, ?_⟩
  rintro ⟨n, h⟩
  rw [← pyInt_iff, show pyInt "1__2".toList = none by decide] at h
  cases h

/-- **C19.** A `:prev:` with count `n` becomes a `Reference` to the `n`-th step before the
innermost step `a` around it (to `a` itself for `n ≤ 0`), with the author's text for the
reference. -/
theorem C19_prev (R : ResolveInput h root t) (hfuel : t.size < fuel)
    (hrun : collectAndResolve fuel root { heap := h, log := log } = .ok () s')
    {σ : Ref → Ref} (Dσ : Doc s'.heap root (t.map σ)) {x : Ref}
    (hx : x ∈ t.pre) (hc : (h.get x).cls = .PendingPrev) :
    ∃ a n l q, InnermostStep h x a ∧ prevCount (h.get x) = some n ∧ StepsBefore h a l ∧
      (a :: l.reverse)[n.toNat]? = some q ∧
      (s'.heap.get (σ x)).cls = .Reference ∧ (s'.heap.get (σ x)).target = .node q ∧
      (s'.heap.get (σ x)).overwriteReftext = (h.get x).overwriteReftext := by
  obtain ⟨before, after, hab⟩ := List.append_of_mem hx
  obtain ⟨s, k, τ, C, I, P⟩ := replacement R hfuel hrun Dσ hab (.inr (.inr hc))
  unfold ReplacementOf at P
  rw [C.relabel.cls, hc] at P
  obtain ⟨q, hq, P⟩ := P
  rcases prevResult_spec C.doc hfuel hx with ⟨anc, h1, h2, h3⟩ | ⟨a, l, h1, h2, h3⟩
  · rw [h3] at hq; cases hq
  · rw [h3] at hq
    cases hn : prevCount (s.heap.get x) with
    | none => rw [hn] at hq; cases hq
    | some n =>
      rw [hn] at hq
      cases hget : (a :: l.reverse)[n.toNat]? with
      | none => simp only [hget] at hq; cases hq
      | some q' =>
        simp only [hget, Except.ok.injEq] at hq
        subst hq
        refine ⟨a, n, l, q', C.relabel.innermost.mp h1, by rw [← C.relabel.count]; exact hn,
          C.relabel.stepsBefore.mp h2, hget, core_cls P, congrArg NodeRec.target P, ?_⟩
        have := congrArg NodeRec.overwriteReftext P
        rw [C.relabel.2 x] at this
        exact this

/-- **C19.** A `:prev:` outside of a step, or with fewer than `n` steps before its innermost step,
raises `RSMTransformerError`, unless an earlier reference raised already. -/
theorem C19_errors (R : ResolveInput h root t) (hfuel : t.size < fuel)
    {before after : List Ref} {x : Ref} (hx : t.pre = before ++ x :: after)
    (hc : (h.get x).cls = .PendingPrev)
    (hbad : (∃ anc, Ancestors h x anc ∧ ∀ a ∈ anc, (h.get a).cls ≠ .Step) ∨
      ∃ a n l, InnermostStep h x a ∧ prevCount (h.get x) = some n ∧ StepsBefore h a l ∧
        l.length < n.toNat)
    (hbefore : ∀ z ∈ before, ∀ e, ¬ Fails h t z e) :
    (collectAndResolve fuel root { heap := h, log := log }).raised = some .rsmTransformerError := by
  have hf : Fails h t x .rsmTransformerError := by
    rcases hbad with ⟨anc, h1, h2⟩ | ⟨a, n, l, h1, h2, h3, h4⟩
    · exact .outside hc h1 h2
    · exact .tooFew hc h1 h2 h3 h4
  have H := C16_outcome (log := log) R hfuel
  revert H
  cases collectAndResolve fuel root { heap := h, log := log } with
  | ok a s' => exact fun H => absurd hf (H x (by rw [hx]; simp) _)
  | err e s' =>
    rintro ⟨b', x', a', e1, e2, e3⟩
    have hxx : x' = x := by
      rw [hx] at e1
      rcases List.append_eq_append_iff.mp e1 with ⟨as, g1, g2⟩ | ⟨as, g1, g2⟩
      · cases as with
        | nil => simp at g2; exact g2.1.symm
        | cons y as =>
          simp only [List.cons_append, List.cons.injEq] at g2
          exact absurd hf (e3 x (by rw [g1, g2.1]; simp) _)
      · cases as with
        | nil => simp at g2; exact g2.1
        | cons y as =>
          simp only [List.cons_append, List.cons.injEq] at g2
          exact absurd e2 (hbefore x' (by rw [g1, g2.1]; simp) e)
    subst hxx
    cases e2 with
    | cite g => rw [hc] at g; cases g
    | outside => rfl
    | tooFew => rfl
    | typed g => rw [hc] at g; cases g
    | count g1 g2 g3 =>
      exfalso
      rcases hbad with ⟨anc, h1, h2⟩ | ⟨a, n, l, h1, h2, h3, h4⟩
      · obtain ⟨anc', k1, k2, b, c, k3, _⟩ := g2
        rw [← h1.unique k1] at k3
        exact h2 _ (by rw [k3]; simp) k2
      · rw [h2] at g3; cases g3

/-! ## A document that meets the hypotheses

A manuscript with two paragraphs, a proof with two steps and a bibliography.  The first paragraph
has references to a known and to an unknown label and two citations, one of them with an unknown
label; the second step has a `:prev:`. -/

def refHeap : Heap where
  next := 14
  get := fun r => match r with
    | 0 => { NodeRec.new .Manuscript with kids := [1, 2, 10] }
    | 1 => { NodeRec.new .Paragraph with parent := some 0, label := ['p'], kids := [3, 4, 5, 6] }
    | 2 => { NodeRec.new .Proof with parent := some 0, kids := [7, 8] }
    | 3 => { NodeRec.new .PendingReference with
        parent := some 1, target := .str ['p'], overwriteReftext := ['t'] }
    | 4 => { NodeRec.new .PendingReference with parent := some 1, target := .str ['q'] }
    | 5 => { NodeRec.new .PendingCite with parent := some 1, targetlabels := [['b'], ['z']] }
    | 6 => { NodeRec.new .PendingCite with parent := some 1, targetlabels := [['b']] }
    | 7 => { NodeRec.new .Step with parent := some 2, label := ['s'] }
    | 8 => { NodeRec.new .Step with parent := some 2, kids := [9] }
    | 9 => { NodeRec.new .PendingPrev with parent := some 8, target := .str ['1'] }
    | 10 => { NodeRec.new .Bibliography with parent := some 0, kids := [11] }
    | 11 => { NodeRec.new .Bibitem with parent := some 10, label := ['b'] }
    | _ => NodeRec.new .Node

def refTree : Tree :=
  .node 0 [.node 1 [.node 3 [], .node 4 [], .node 5 [], .node 6 []],
    .node 2 [.node 7 [], .node 8 [.node 9 []]], .node 10 [.node 11 []]]

theorem ref_input : ResolveInput refHeap 0 refTree where
  doc := {
    root_eq := rfl
    tree := ⟨rfl, rfl, ⟨rfl, rfl, ⟨rfl, rfl, trivial⟩, ⟨rfl, rfl, trivial⟩, ⟨rfl, rfl, trivial⟩,
      ⟨rfl, rfl, trivial⟩, trivial⟩, ⟨rfl, rfl, ⟨rfl, rfl, trivial⟩,
      ⟨rfl, rfl, ⟨rfl, rfl, trivial⟩, trivial⟩, trivial⟩, ⟨rfl, rfl, ⟨rfl, rfl, trivial⟩, trivial⟩,
      trivial⟩
    nodup := by decide
    bound := by decide }
  root_ok := by decide
  errors := by decide

example : (collectAndResolve 20 0 { heap := refHeap }).raised = none := by decide +kernel
/-- The pending nodes 3, 4, 5, 6 and 9 were exchanged for new nodes. -/
example :
    ((collectAndResolve 20 0 { heap := refHeap }).state.heap.children 1,
     (collectAndResolve 20 0 { heap := refHeap }).state.heap.children 8) =
      ([14, 15, 17, 18], [19]) := by decide +kernel
example :
    ((collectAndResolve 20 0 { heap := refHeap }).state.heap.get 11).backlinks =
      ["cite-0".toList, "cite-1".toList] := by decide +kernel
example : ((collectAndResolve 20 0 { heap := refHeap }).state.heap.get 19).target = .node 7 := by
  decide +kernel
example : ((collectAndResolve 20 0 { heap := refHeap }).state.heap.get 15).text =
    "[unknown label \"q\"]".toList := by decide +kernel
example : Carries refHeap refTree ['p'] 1 :=
  ⟨by decide, rfl, [0], [3, 4, 5, 6, 2, 7, 8, 9, 10, 11], rfl, by decide⟩
example : ¬ Carried refHeap refTree ['q'] := by unfold Carried; decide

/-- The same document with a citation of the paragraph, and with a `:prev:` that goes back too
far. -/
def badCiteHeap : Heap :=
  refHeap.update 6 fun n => { n with targetlabels := [['p']] }
def badPrevHeap : Heap :=
  refHeap.update 9 fun n => { n with target := .str ['2'] }

example : (collectAndResolve 20 0 { heap := badCiteHeap }).raised = some .attributeError := by
  decide +kernel
example : (collectAndResolve 20 0 { heap := badPrevHeap }).raised = some .rsmTransformerError := by
  decide +kernel

end RSM
