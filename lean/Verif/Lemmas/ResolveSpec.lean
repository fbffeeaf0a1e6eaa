import Verif.Lemmas.Resolve
import Verif.Props.Labels

/-! From the internal description of `resolve_pending_references` to the specification. -/

namespace RSM
open Tree Transformer

/-- A heap holds at most one document below a node. -/
theorem IsTree.unique {h : Heap} {p q} {t u : Tree} (ht : IsTree h p t) (hu : IsTree h q u)
    (hr : t.root = u.root) : t = u := by
  induction t using Tree.induct generalizing u p q with
  | _ i ks ih =>
    obtain ⟨j, ls⟩ := u
    simp only [Tree.root] at hr
    subst hr
    rw [isTree_node] at ht hu
    have hroots : ks.map Tree.root = ls.map Tree.root := by rw [← ht.2.1, hu.2.1]
    have : ks = ls := by
      apply List.ext_getElem
      · simpa using congrArg List.length hroots
      · intro n h1 h2
        refine ih ks[n] (List.getElem_mem h1) (ht.2.2 _ (List.getElem_mem h1))
          (hu.2.2 _ (List.getElem_mem h2)) ?_
        have := congrArg (fun l => l[n]?) hroots
        simpa [h1, h2] using this
    rw [this]

theorem Doc.unique {h : Heap} {root} {t u : Tree} (ht : Doc h root t) (hu : Doc h root u) : t = u :=
  ht.tree.unique hu.tree (by rw [ht.root_eq, hu.root_eq])

theorem Tree.map_inj {σ τ : Ref → Ref} {t : Tree} (h : t.map σ = t.map τ) :
    ∀ x ∈ t.pre, σ x = τ x := by
  have := congrArg Tree.pre h
  rw [pre_map, pre_map] at this
  exact List.map_inj_left.mp this

/-! ### `:prev:` -/

theorem prevSibling_step {h : Heap} {a p : Ref} {before after : List Ref} (hp : h.parent a = some p)
    (hpos : h.children p = before ++ a :: after) (hnb : a ∉ before) :
    h.prevSibling a (.cls .Step) =
      .ok (before.filter fun y => (h.get y).cls = .Step).getLast? := by
  unfold Heap.prevSibling
  rw [hp]
  simp only
  rw [hpos, Nodes.idxOf?_split.mpr ⟨before, after, rfl, hnb, rfl⟩]
  simp only [List.take_left]
  congr 1
  have : (h.sibTest a (.cls .Step)) = fun y => decide ((h.get y).cls = .Step) := by
    funext y
    show (h.get y).cls.isSub .Step = _
    rw [Bool.eq_iff_iff, Cls.isSub_step]; simp
  rw [this, ← List.head?_filter, List.filter_reverse, List.head?_reverse]

theorem prevSteps_spec {h : Heap} {root t} (D : Doc h root t) (n : Nat) {a : Ref} {l : List Ref}
    (ha : a ∈ t.pre) (hl : StepsBefore h a l) :
    prevSteps h n a = match (a :: l.reverse)[n]? with
      | some q => .ok q
      | none => .error .rsmTransformerError := by
  induction n generalizing a l with
  | zero => simp [prevSteps]
  | succ n ih =>
    rw [prevSteps]
    rcases hl with ⟨hp, rfl⟩ | ⟨p, before, after, hp, hpos, hnb, rfl⟩
    · have : h.prevSibling a (.cls .Step) = .ok none := by unfold Heap.prevSibling; rw [hp]
      rw [this]
      simp
    · rw [prevSibling_step hp hpos hnb]
      simp only [List.getElem?_cons_succ]
      have hpm : p ∈ t.pre := by
        have hxr : a ≠ root := by rintro rfl; rw [D.parent_root_none] at hp; cases hp
        obtain ⟨p', hp1, hp2, hp3⟩ := D.parent_mem ha hxr
        rw [hp] at hp2
        obtain rfl := Option.some.inj hp2
        exact hp1
      cases hlast : (before.filter fun y => (h.get y).cls = .Step).getLast? with
      | none =>
        rw [List.getLast?_eq_none_iff] at hlast
        rw [hlast]; simp
      | some z =>
        obtain ⟨ys, hys⟩ := List.getLast?_eq_some_iff.mp hlast
        obtain ⟨b1, b2, hb, e1, e2⟩ := List.filter_eq_append_iff.mp hys
        obtain ⟨c1, c2, hb2, e3, e4, e5⟩ := List.filter_eq_cons_iff.mp e2
        have hnd := D.children_nodup hpm
        have hz : h.children p = (b1 ++ c1) ++ z :: (c2 ++ a :: after) := by
          rw [hpos, hb, hb2]; simp
        have hzm := D.children_mem hpm (x := z) (by rw [hz]; simp)
        have hsb : StepsBefore h z ys := by
          refine .inr ⟨p, b1 ++ c1, c2 ++ a :: after, hzm.2, hz, ?_, ?_⟩
          · rw [hz] at hnd
            exact fun hm => (List.nodup_append.mp hnd).2.2 _ hm z (by simp) rfl
          · rw [List.filter_append, e1, List.filter_eq_nil_iff.mpr]
            · simp
            · intro w hw; exact e3 w hw
        simp only
        rw [ih hzm.1 hsb, hys]
        simp

theorem stepsBefore_exists {h : Heap} {root t} (D : Doc h root t) {a : Ref} (ha : a ∈ t.pre) :
    ∃ l, StepsBefore h a l := by
  by_cases hr : a = root
  · subst hr
    exact ⟨[], .inl ⟨D.parent_root_none, rfl⟩⟩
  · obtain ⟨p, hp1, hp2, hp3⟩ := D.parent_mem ha hr
    obtain ⟨b, c, hpos, hnb⟩ := List.eq_append_cons_of_mem hp3
    exact ⟨_, .inr ⟨p, b, c, hp2, hpos, hnb, rfl⟩⟩

theorem stepsBefore_unique {h : Heap} {a : Ref} {l l' : List Ref} (h1 : StepsBefore h a l)
    (h2 : StepsBefore h a l') : l = l' := by
  rcases h1 with ⟨hp, rfl⟩ | ⟨p, b, c, hp, hpos, hnb, rfl⟩
  · rcases h2 with ⟨_, rfl⟩ | ⟨p', b', c', hp', _⟩
    · rfl
    · rw [hp] at hp'; cases hp'
  · rcases h2 with ⟨hp', rfl⟩ | ⟨p', b', c', hp', hpos', hnb', rfl⟩
    · rw [hp] at hp'; cases hp'
    · rw [hp] at hp'
      obtain rfl := Option.some.inj hp'
      rw [hpos] at hpos'
      have h1 := Nodes.idxOf?_split.mpr ⟨b, c, rfl, hnb, rfl⟩
      have h2 := Nodes.idxOf?_split.mpr ⟨b', c', rfl, hnb', rfl⟩
      rw [hpos'] at h1
      have hlen := Option.some.inj (h1.symm.trans h2)
      rw [(List.append_inj hpos' hlen).1]

/-- The internal result of a `:prev:` in terms of the specification. -/
theorem prevResult_spec {h : Heap} {root t} (D : Doc h root t) {fuel : Nat} (hfuel : t.size < fuel)
    {x : Ref} (hx : x ∈ t.pre) :
    (∃ anc, Ancestors h x anc ∧ (∀ a ∈ anc, (h.get a).cls ≠ .Step) ∧
      prevResult h fuel x = .error .rsmTransformerError) ∨
    (∃ a l, InnermostStep h x a ∧ StepsBefore h a l ∧
      prevResult h fuel x = match prevCount (h.get x) with
        | none => .error .valueError
        | some n => match (a :: l.reverse)[n.toNat]? with
          | some q => .ok q
          | none => .error .rsmTransformerError) := by
  obtain ⟨anc, h1, h2, h3⟩ := D.ancestors hx
  have hf := firstAncestorOfType_eq (cs := [.Step]) h1 (fuel := fuel) (by omega)
  have hfirst := isFirstWith_find? (fun a => [Cls.Step].contains (h.get a).cls) anc
  have hcl : ∀ a, ([Cls.Step].contains (h.get a).cls = true) = ((h.get a).cls = .Step) := by
    intro a; simp
  simp only [hcl] at hfirst
  cases hfind : anc.find? (fun a => [Cls.Step].contains (h.get a).cls) with
  | none =>
    rw [hfind] at hfirst hf
    refine .inl ⟨anc, h1, hfirst, ?_⟩
    unfold prevResult; rw [hf]
  | some a =>
    rw [hfind] at hfirst hf
    have ha : a ∈ t.pre := h3 a (by obtain ⟨_, b, c, e, _⟩ := hfirst; rw [e]; simp)
    obtain ⟨l, hl⟩ := stepsBefore_exists D ha
    refine .inr ⟨a, l, ⟨anc, h1, hfirst⟩, hl, ?_⟩
    unfold prevResult; rw [hf]
    cases prevCount (h.get x) with
    | none => rfl
    | some n => exact prevSteps_spec D n.toNat ha hl

theorem InnermostStep.unique {h : Heap} {x a b : Ref} (h1 : InnermostStep h x a)
    (h2 : InnermostStep h x b) : a = b := by
  obtain ⟨l, g1, g2⟩ := h1
  obtain ⟨l', g3, g4⟩ := h2
  rw [g1.unique g3] at g2
  simpa using IsFirstWith.unique g2 g4

theorem carries_unique {h : Heap} {t l r r'} (h1 : Carries h t l r) (h2 : Carries h t l r') :
    r = r' := by
  simpa using IsFirstWith.unique h1.2 h2.2

theorem carries_mem {h : Heap} {t l r} (h1 : Carries h t l r) : r ∈ t.pre ∧ (h.get r).label = l := by
  obtain ⟨_, h2, b, c, e, _⟩ := h1
  exact ⟨by rw [e]; simp, h2⟩

theorem carried_iff {h : Heap} {t l} : Carried h t l ↔ ∃ r, Carries h t l r := by
  constructor
  · rintro ⟨hl, y, hy, hyl⟩
    have key := isFirstWith_find? (fun y => (h.get y).label == l) t.pre
    simp only [beq_iff_eq] at key
    cases hf : t.pre.find? (fun y => (h.get y).label == l) with
    | none => rw [hf] at key; exact absurd hyl (key y hy)
    | some r => rw [hf] at key; exact ⟨r, hl, key⟩
  · rintro ⟨r, hr⟩
    exact ⟨hr.1, r, carries_mem hr⟩

/-- The exception in terms of the specification. -/
theorem fateErr_iff {h : Heap} {root t} (D : Doc h root t) {fuel : Nat} (hfuel : t.size < fuel)
    {L : List (Str × Ref)} (hL : ∀ l r, L.lookup l = some r ↔ Carries h t l r)
    {x : Ref} (hx : x ∈ t.pre) (e : PyErr) : fateErr h L fuel x = some e ↔ Fails h t x e := by
  unfold fateErr
  split
  · next hc =>
    constructor
    · intro H
      split at H
      · next r hr =>
        simp only [Option.some.injEq] at H
        subst H
        exact .typed hc hr
      · cases H
    · intro H
      cases H with
      | typed _ h2 => rw [h2]
      | cite h1 => rw [hc] at h1; cases h1
      | outside h1 => rw [hc] at h1; cases h1
      | count h1 => rw [hc] at h1; cases h1
      | tooFew h1 => rw [hc] at h1; cases h1
  · next hc =>
    constructor
    · intro H
      split at H
      · cases H
      · next hn =>
        simp only [Option.some.injEq] at H
        subst H
        push Not at hn
        obtain ⟨l, h1, r, h2, h3⟩ := hn
        refine .cite hc h1 ((hL l r).mp h2) ?_
        intro hm
        apply h3
        unfold Heap.isInst Cls.isSub
        simpa using hm
    · intro H
      cases H with
      | typed h1 => rw [hc] at h1; cases h1
      | @cite l r h1 h2 h3 h4 =>
        rw [if_neg]
        intro hall
        have := hall l h2 r ((hL l r).mpr h3)
        unfold Heap.isInst Cls.isSub at this
        exact h4 (by simpa using this)
      | outside h1 => rw [hc] at h1; cases h1
      | count h1 => rw [hc] at h1; cases h1
      | tooFew h1 => rw [hc] at h1; cases h1
  · next hc =>
    rcases prevResult_spec D hfuel hx with ⟨anc, h1, h2, h3⟩ | ⟨a, l, h1, h2, h3⟩
    · rw [h3]
      simp only [Option.some.injEq]
      constructor
      · rintro rfl; exact .outside hc h1 h2
      · intro H
        have hno : ∀ a, ¬ InnermostStep h x a := by
          rintro a ⟨anc', g1, g2, b, c, g3, _⟩
          rw [← h1.unique g1] at g3
          exact h2 a (by rw [g3]; simp) g2
        cases H with
        | typed h1 => rw [hc] at h1; cases h1
        | cite h1 => rw [hc] at h1; cases h1
        | outside _ _ _ => rfl
        | count _ g => exact absurd g (hno _)
        | tooFew _ g => exact absurd g (hno _)
    · rw [h3]
      constructor
      · intro H
        cases hn : prevCount (h.get x) with
        | none =>
          rw [hn] at H
          simp only [Option.some.injEq] at H
          subst H
          exact .count hc h1 hn
        | some n =>
          rw [hn] at H
          cases hq : (a :: l.reverse)[n.toNat]? with
          | some q => simp only [hq] at H; cases H
          | none =>
            simp only [hq, Option.some.injEq] at H
            subst H
            refine .tooFew hc h1 hn h2 ?_
            rw [List.getElem?_eq_none_iff, List.length_cons, List.length_reverse] at hq
            omega
      · intro H
        cases H with
        | typed h1 => rw [hc] at h1; cases h1
        | cite h1 => rw [hc] at h1; cases h1
        | outside _ g1 g2 =>
          obtain ⟨anc', g3, g4, b, c, g5, _⟩ := h1
          rw [← g1.unique g3] at g5
          exact absurd g4 (g2 a (by rw [g5]; simp))
        | count _ _ g => rw [g]
        | @tooFew a' l' n _ g1 g2 g3 g4 =>
          obtain rfl := h1.unique g1
          obtain rfl := stepsBefore_unique h2 g3
          have hq : (a :: l.reverse)[n.toNat]? = none := by
            rw [List.getElem?_eq_none_iff, List.length_cons, List.length_reverse]
            omega
          simp only [g2, hq]
  · next h1 h2 h3 =>
    constructor
    · intro H; cases H
    · intro H
      cases H with
      | typed g => exact absurd g h1
      | cite g => exact absurd g h2
      | outside g => exact absurd g h3
      | count g => exact absurd g h3
      | tooFew g => exact absurd g h3


/-! ### Labels do not matter for the rest -/

/-- The heaps agree on everything but labels. -/
def Relabel (h h' : Heap) : Prop :=
  h'.next = h.next ∧ ∀ x, h'.get x = { h.get x with label := (h'.get x).label }

namespace Relabel
variable {h h' : Heap}

theorem cls (R : Relabel h h') (x : Ref) : (h'.get x).cls = (h.get x).cls := by rw [R.2 x]
theorem parent (R : Relabel h h') (x : Ref) : h'.parent x = h.parent x := by
  unfold Heap.parent; rw [R.2 x]
theorem children (R : Relabel h h') (x : Ref) : h'.children x = h.children x :=
  children_of_get (by rw [R.2 x]) (by rw [R.2 x])
theorem target (R : Relabel h h') (x : Ref) : (h'.get x).target = (h.get x).target := by rw [R.2 x]
theorem targetlabels (R : Relabel h h') (x : Ref) :
    (h'.get x).targetlabels = (h.get x).targetlabels := by rw [R.2 x]
theorem count (R : Relabel h h') (x : Ref) :
    prevCount (h'.get x) = prevCount (h.get x) := by unfold prevCount; rw [R.target]
theorem pending (R : Relabel h h') (x : Ref) : Pending h' x ↔ Pending h x := by
  unfold Pending; rw [R.cls]
theorem ancestors (R : Relabel h h') {x l} : Ancestors h' x l ↔ Ancestors h x l := by
  induction l generalizing x with
  | nil => simp only [Ancestors, R.parent]
  | cons p l ih => simp only [Ancestors, R.parent, ih]
theorem innermost (R : Relabel h h') {x a} : InnermostStep h' x a ↔ InnermostStep h x a := by
  unfold InnermostStep
  simp only [R.ancestors, R.cls]
theorem stepsBefore (R : Relabel h h') {a l} : StepsBefore h' a l ↔ StepsBefore h a l := by
  unfold StepsBefore
  simp only [R.parent, R.children, R.cls]

theorem fails (R : Relabel h h') {t : Tree} (hc : ∀ l r, Carries h' t l r ↔ Carries h t l r) {x e} :
    Fails h' t x e ↔ Fails h t x e := by
  constructor
  · intro H
    cases H with
    | cite h1 h2 h3 h4 =>
      rw [R.cls] at h1 h4; rw [R.targetlabels] at h2
      exact .cite h1 h2 ((hc _ _).mp h3) h4
    | outside h1 h2 h3 =>
      rw [R.cls] at h1; rw [R.ancestors] at h2
      exact .outside h1 h2 (fun a ha => by rw [← R.cls]; exact h3 a ha)
    | count h1 h2 h3 =>
      rw [R.cls] at h1; rw [R.innermost] at h2; rw [R.count] at h3
      exact .count h1 h2 h3
    | tooFew h1 h2 h3 h4 h5 =>
      rw [R.cls] at h1; rw [R.innermost] at h2; rw [R.count] at h3; rw [R.stepsBefore] at h4
      exact .tooFew h1 h2 h3 h4 h5
    | typed h1 h2 =>
      rw [R.cls] at h1; rw [R.target] at h2
      exact .typed h1 h2
  · intro H
    cases H with
    | cite h1 h2 h3 h4 =>
      rw [← R.cls] at h1 h4; rw [← R.targetlabels] at h2
      exact .cite h1 h2 ((hc _ _).mpr h3) h4
    | outside h1 h2 h3 =>
      rw [← R.cls] at h1; rw [← R.ancestors] at h2
      exact .outside h1 h2 (fun a ha => by rw [R.cls]; exact h3 a ha)
    | count h1 h2 h3 =>
      rw [← R.cls] at h1; rw [← R.innermost] at h2; rw [← R.count] at h3
      exact .count h1 h2 h3
    | tooFew h1 h2 h3 h4 h5 =>
      rw [← R.cls] at h1; rw [← R.innermost] at h2; rw [← R.count] at h3; rw [← R.stepsBefore] at h4
      exact .tooFew h1 h2 h3 h4 h5
    | typed h1 h2 =>
      rw [← R.cls] at h1; rw [← R.target] at h2
      exact .typed h1 h2

end Relabel

/-! ### The two passes together -/

/-- What collecting labels leaves for resolving references. -/
structure Collected (h : Heap) (root : Ref) (t : Tree) (log : List TWarning) (s : TState) : Prop where
  relabel : Relabel h s.heap
  doc : Doc s.heap root t
  lookup : ∀ l r, s.labels.lookup l = some r ↔ Carries h t l r
  carries : ∀ l r, Carries s.heap t l r ↔ Carries h t l r
  drop : ∀ x ∈ t.pre, ¬ FirstCarrier h t x → s.heap.get x = { h.get x with label := [] }
  keep : ∀ x, x ∉ t.pre ∨ FirstCarrier h t x → s.heap.get x = h.get x
  unique : UniqueLabels s.heap t
  log : s.log = log ++ (laterCarriers h [] t.pre).map fun x => .duplicateLabel (h.get x).label

theorem collected {h : Heap} {root t} (D : Doc h root t) (log : List TWarning) {fuel : Nat}
    (hfuel : t.size < fuel) : ∃ s, collectLabels fuel root { heap := h, labels := [], log := log } =
      .ok () s ∧ Collected h root t log s := by
  obtain ⟨s, h1, h2, h3, h4, h5, h6, h7, h8⟩ := C14_collect_labels D log hfuel
  refine ⟨s, h1, ⟨h4, ?_⟩, h5, h6, ?_, h2, h3, h7, h8⟩
  · intro x
    by_cases hx : x ∉ t.pre ∨ FirstCarrier h t x
    · rw [h3 x hx]
    · push Not at hx
      rw [h2 x hx.1 hx.2]
  · intro l r
    constructor
    · rintro ⟨hl, hr, b, c, e, hb⟩
      have hrm : r ∈ t.pre := by rw [e]; simp
      have hfc : FirstCarrier h t r := by
        by_contra hn
        rw [h2 r hrm hn] at hr
        exact hl hr.symm
      rw [h3 r (.inr hfc)] at hr
      unfold FirstCarrier at hfc
      rw [hr] at hfc
      exact ⟨hl, hfc⟩
    · rintro ⟨hl, hr, b, c, e, hb⟩
      have hfc : FirstCarrier h t r := by
        unfold FirstCarrier
        rw [hr]
        exact ⟨hr, b, c, e, hb⟩
      refine ⟨hl, by show (s.heap.get r).label = l; rw [h3 r (.inr hfc)]; exact hr, b, c, e, ?_⟩
      intro y hy hyl
      have hym : y ∈ t.pre := by rw [e]; simp [hy]
      by_cases hf : FirstCarrier h t y
      · rw [h3 y (.inr hf)] at hyl
        exact hb y hy hyl
      · rw [h2 y hym hf] at hyl
        exact hl hyl.symm

theorem collectAndResolve_spec {h : Heap} {root t} (R : ResolveInput h root t)
    (log : List TWarning) {fuel : Nat} (hfuel : t.size < fuel) :
    ∃ s, Collected h root t log s ∧
    (collectAndResolve fuel root { heap := h, labels := [], log := log }).Sat
      (fun _ s' => ∃ σ k, ResInv s.heap s.labels s.log fuel t t.pre σ ⟨s', k⟩ ∧
        Doc s'.heap root (t.map σ))
      (fun e _ => ∃ pre x post, t.pre = pre ++ x :: post ∧ Fails h t x e ∧
        ∀ z ∈ pre, ∀ e, ¬ Fails h t z e) := by
  obtain ⟨s, hs, C⟩ := collected R.doc log hfuel
  refine ⟨s, C, ?_⟩
  have hstep : collectAndResolve fuel root { heap := h, labels := [], log := log } =
      resolvePendingReferences fuel root s := by
    unfold collectAndResolve
    rw [PyM.bind_apply, hs]
  rw [hstep]
  have hL : ∀ l r, s.labels.lookup l = some r → r < s.heap.next ∧ (s.heap.get r).cls ≠ .Error := by
    intro l r hr
    have hr' := (C.lookup l r).mp hr
    obtain ⟨g1, g2⟩ := carries_mem hr'
    refine ⟨C.doc.bound r g1, ?_⟩
    rw [C.relabel.cls]
    intro he
    exact hr'.1 (by rw [← g2]; exact R.errors r g1 he)
  refine (resolve_spec C.doc hfuel (by rw [C.relabel.pending]; exact R.root_ok) hL).mono
    (fun _ _ h => h) ?_
  rintro e _ ⟨pre, x, post, e1, e2, e3, e4⟩
  have hf : ∀ z ∈ t.pre, ∀ e, fateErr s.heap s.labels fuel z = some e ↔ Fails h t z e := by
    intro z hz e
    rw [fateErr_iff C.doc hfuel (fun l r => (C.lookup l r).trans (C.carries l r).symm) hz,
      C.relabel.fails C.carries]
  refine ⟨pre, x, post, e1, (hf x (by rw [e1]; simp) e).mp e3, ?_⟩
  intro z hz e' he'
  have hz' : z ∈ t.pre := by rw [e1]; simp [hz]
  have h1 := (hf z hz' e').mpr he'
  by_cases hp : Pending s.heap z
  · rw [e4 z hz hp] at h1; cases h1
  · rw [C.relabel.pending] at hp
    unfold Pending at hp
    push Not at hp
    cases he' with
    | cite g => exact hp.2.1 g
    | outside g => exact hp.2.2 g
    | count g => exact hp.2.2 g
    | tooFew g => exact hp.2.2 g
    | typed g => exact hp.1 g

end RSM
