import Verif.Lemmas.AttrPasses

/-! Helper lemmas for `autonumber_nodes`. -/

namespace RSM
open PyM Tree Transformer

namespace Cls

theorem within_of_as (c : Cls) : c.numberWithin = c.numberAs.numberWithin := by cases c <;> rfl

/-- A numbered class other than `Step` has exactly one scope class, which is not itself. -/
theorem within_single (c : Cls) (h : c ≠ .Step) : ∃ w, c.numberWithin = [w] := by
  cases c <;> first | exact absurd rfl h | exact ⟨_, rfl⟩

theorem within_ne_self (c : Cls) (h : c.autonumber = true) : c.numberWithin ≠ [c] := by
  cases c <;> revert h <;> decide

theorem isSub_step (c : Cls) : c.isSub .Step = true ↔ c = .Step := by cases c <;> decide
theorem isSub_appendix (c : Cls) : c.isSub .Appendix = true ↔ c = .Appendix := by cases c <;> decide
theorem isSub_proof (c : Cls) : c.isSubAny [.Proof, .Subproof] = true ↔ c = .Proof ∨ c = .Subproof := by
  cases c <;> decide

end Cls

/-! ### `sinceLast` -/

theorem sinceLast_append_self {P : Ref → Prop} [DecidablePred P] (l : List Ref) {r : Ref}
    (hr : P r) : sinceLast P (l ++ [r]) = [] := by
  induction l with
  | nil => simp [sinceLast, hr]
  | cons x l ih =>
    rw [List.cons_append, sinceLast, if_pos, ih]
    exact .inl ⟨r, by simp, hr⟩

theorem sinceLast_append_of_not {P : Ref → Prop} [DecidablePred P] (l m : List Ref)
    (hm : ∀ x ∈ m, ¬ P x) : sinceLast P (l ++ m) = sinceLast P l ++ m := by
  induction l with
  | nil =>
    simp only [List.nil_append, sinceLast]
    cases m with
    | nil => rfl
    | cons x m =>
      rw [sinceLast, if_neg]
      rintro (⟨y, hy, hp⟩ | hp)
      · exact hm y (by simp [hy]) hp
      · exact hm x (by simp) hp
  | cons x l ih =>
    rw [List.cons_append, sinceLast, sinceLast]
    by_cases h : (∃ y ∈ l, P y) ∨ P x
    · rw [if_pos h, if_pos, ih]
      rcases h with ⟨y, hy, hp⟩ | hp
      · exact .inl ⟨y, by simp [hy], hp⟩
      · exact .inr hp
    · rw [if_neg h, if_neg, List.cons_append]
      rintro (⟨y, hy, hp⟩ | hp)
      · simp only [List.mem_append] at hy
        rcases hy with hy | hy
        · exact h (.inl ⟨y, hy, hp⟩)
        · exact hm y hy hp
      · exact h (.inr hp)

namespace Transformer

/-! ### `numberSteps` -/

theorem numberSteps_next (h : Heap) (i : Nat) (l : List Ref) : (numberSteps h i l).next = h.next := by
  induction l generalizing h i with
  | nil => rfl
  | cons x l ih => rw [numberSteps, ih]; rfl

theorem numberSteps_get (h : Heap) (i : Nat) (l : List Ref) (hnd : l.Nodup) (x : Ref) :
    (numberSteps h i l).get x =
      if x ∈ l then { h.get x with number := .int (i + l.idxOf x : Nat) } else h.get x := by
  induction l generalizing h i with
  | nil => simp [numberSteps]
  | cons y l ih =>
    have hnd' := List.nodup_cons.mp hnd
    rw [numberSteps, ih _ _ hnd'.2]
    by_cases hx : x = y
    · subst hx
      rw [if_neg hnd'.1]
      simp
    · rw [Heap.get_update_of_ne _ _ hx]
      by_cases hl : x ∈ l
      · rw [if_pos hl, if_pos (by simp [hl]), List.idxOf_cons_ne _ (Ne.symm hx)]
        rw [show i + 1 + l.idxOf x = i + (l.idxOf x + 1) by omega]
      · rw [if_neg hl, if_neg (by simp [hx, hl])]

/-- The number that a numbered node `r` gets after the nodes `before`; `none` means that the letters
have run out. -/
def expectedNumber (h : Heap) (before : List Ref) (r : Ref) : Option PyNum :=
  match (h.get r).cls.numberWithin with
  | [w] =>
    if w = .Manuscript ∧ ∃ a ∈ before, IsAppendix h a then
      (asciiUppercase[earlierInScope h w before r]?).map fun ch => .str [ch]
    else some (.int (earlierInScope h w before r + 1 : Nat))
  | _ => none

/-- The reference text of a numbered section after an appendix marker. -/
def appendixTemplate (s : Str) : Str := pyReplace "{nodeclass}".toList "Appendix".toList s

structure NumInv (h : Heap) (s0 : TState) (done : List Ref) (s : NumberState) : Prop where
  next : s.t.heap.next = h.next
  labels : s.t.labels = s0.labels
  log : s.t.log = s0.log
  /-- only numbers and reference templates change -/
  other : ∀ x, s.t.heap.get x = { h.get x with
    number := (s.t.heap.get x).number, reftextTemplate := (s.t.heap.get x).reftextTemplate }
  appendix : s.withinAppendix = true ↔ ∃ a ∈ done, IsAppendix h a
  letters : ∀ w, (s.counts [w]).letters = true ↔ w = .Manuscript ∧ ∃ a ∈ done, IsAppendix h a
  used : ∀ w c, (s.counts [w]).used c =
    ((sinceLast (StartsScope h w) done).filter fun q =>
      Numbered h q ∧ (h.get q).cls.numberAs = c ∧ (h.get q).cls.numberWithin = [w]).length
  number : ∀ pre r post, done = pre ++ r :: post → Numbered h r →
    some (s.t.heap.get r).number = expectedNumber h pre r
  steps : ∀ p ∈ done, (h.get p).cls = .Proof ∨ (h.get p).cls = .Subproof →
    ∀ i (hi : i < (stepChildren h p).length),
      (s.t.heap.get (stepChildren h p)[i]).number = .int (i + 1 : Nat)
  same : ∀ x, ¬ (x ∈ done ∧ Numbered h x) →
    ¬ (∃ p ∈ done, ((h.get p).cls = .Proof ∨ (h.get p).cls = .Subproof) ∧ x ∈ stepChildren h p) →
    (s.t.heap.get x).number = (h.get x).number
  template : ∀ pre r post, done = pre ++ r :: post → Numbered h r → .Section ∈ (h.get r).cls.mro →
    (∃ a ∈ pre, IsAppendix h a) →
    (s.t.heap.get r).reftextTemplate = appendixTemplate (h.get r).reftextTemplate
  templateSame : ∀ x, ¬ (Numbered h x ∧ .Section ∈ (h.get x).cls.mro ∧
      ∃ pre post, done = pre ++ x :: post ∧ ∃ a ∈ pre, IsAppendix h a) →
    (s.t.heap.get x).reftextTemplate = (h.get x).reftextTemplate

theorem children_of_get {h h' : Heap} {x : Ref} (hc : (h'.get x).cls = (h.get x).cls)
    (hk : (h'.get x).kids = (h.get x).kids) : h'.children x = h.children x := by
  have e : ∀ g : Heap, g.children x =
      if (g.get x).cls.isSub .NodeWithChildren = true then (g.get x).kids else [] := fun _ => rfl
  rw [e, e, hc, hk]

theorem not_appendix {h : Heap} {r} (hn : Numbered h r) : ¬ IsAppendix h r := by
  intro ha
  have := hn.1
  rw [show (h.get r).cls = .Appendix from ha] at this
  exact absurd this (by decide)

theorem not_proof {h : Heap} {r} (hn : Numbered h r) :
    ¬ ((h.get r).cls = .Proof ∨ (h.get r).cls = .Subproof) := by
  rintro (ha | ha) <;>
  · have := hn.1
    rw [ha] at this
    exact absurd this (by decide)

theorem not_startsScope_of_not {h : Heap} {r : Ref} (hn : ¬ Numbered h r) (ha : ¬ IsAppendix h r)
    (w : Cls) : ¬ StartsScope h w r := by
  rintro (h1 | h1)
  · exact hn h1.1
  · exact ha h1.1

/-- `done` grows by a node that is neither numbered nor an appendix. -/
theorem sinceLast_skip {h : Heap} {r : Ref} (hn : ¬ Numbered h r) (ha : ¬ IsAppendix h r)
    (w : Cls) (done : List Ref) (Q : Ref → Prop) [DecidablePred Q] :
    ((sinceLast (StartsScope h w) (done ++ [r])).filter fun q => Numbered h q ∧ Q q).length =
    ((sinceLast (StartsScope h w) done).filter fun q => Numbered h q ∧ Q q).length := by
  rw [sinceLast_append_of_not _ _ (by
    intro x hx; simp only [List.mem_singleton] at hx; subst hx
    exact not_startsScope_of_not hn ha w)]
  simp [List.filter_append, hn]

theorem split_concat {α : Type} {done pre post : List α} {r x : α}
    (h : done ++ [r] = pre ++ x :: post) :
    (post = [] ∧ x = r ∧ pre = done) ∨ ∃ post', post = post' ++ [r] ∧ done = pre ++ x :: post' := by
  rcases List.eq_nil_or_concat' post with rfl | ⟨post', y, rfl⟩
  · left
    have := List.append_inj' h rfl
    simp only [List.cons.injEq, and_true] at this
    exact ⟨rfl, this.2.symm, this.1.symm⟩
  · right
    have : done ++ [r] = (pre ++ x :: post') ++ [y] := by simpa using h
    have := List.append_inj' this rfl
    simp only [List.cons.injEq, and_true] at this
    exact ⟨post', by rw [this.2], this.1⟩

theorem exists_appendix_concat {h : Heap} {done : List Ref} {r : Ref} (ha : ¬ IsAppendix h r) :
    (∃ a ∈ done ++ [r], IsAppendix h a) ↔ ∃ a ∈ done, IsAppendix h a := by
  constructor
  · rintro ⟨a, hm, hA⟩
    simp only [List.mem_append, List.mem_singleton] at hm
    rcases hm with hm | rfl
    · exact ⟨a, hm, hA⟩
    · exact absurd hA ha
  · rintro ⟨a, hm, hA⟩
    exact ⟨a, by simp [hm], hA⟩

theorem expectedNumber_eq {h : Heap} {s0 done s} (I : NumInv h s0 done s) {r : Ref}
    {w : Cls} (hw : (h.get r).cls.numberWithin = [w]) :
    (s.counts [w]).value ((s.counts [w]).used (h.get r).cls.numberAs) = expectedNumber h done r := by
  have hu : (s.counts [w]).used (h.get r).cls.numberAs = earlierInScope h w done r := by
    rw [I.used]
    unfold earlierInScope SameFamily
    congr 1
    apply List.filter_congr
    intro q _
    simp only [decide_eq_decide]
    constructor
    · rintro ⟨h1, h2, _⟩; exact ⟨h1, h2⟩
    · rintro ⟨h1, h2⟩
      refine ⟨h1, h2, ?_⟩
      rw [Cls.within_of_as, h2, ← Cls.within_of_as, hw]
  unfold expectedNumber Counters.value
  rw [hw, hu]
  by_cases hl : (s.counts [w]).letters = true
  · simp only [hl, if_true]
    rw [if_pos ((I.letters w).mp hl)]
  · simp only [hl]
    rw [if_neg (fun H => hl ((I.letters w).mpr H))]
    simp

theorem mem_stepChildren {h : Heap} {p x : Ref} :
    x ∈ stepChildren h p ↔ x ∈ h.children p ∧ (h.get x).cls = .Step := by
  simp [stepChildren]

theorem roots_nodup (ks : List Tree) (h : (preL ks).Nodup) : (ks.map Tree.root).Nodup := by
  induction ks with
  | nil => simp
  | cons k ks ih =>
    simp only [preL_cons, List.nodup_append] at h
    rw [List.map_cons, List.nodup_cons]
    refine ⟨?_, ih h.2.1⟩
    intro hm
    obtain ⟨k', hk', he⟩ := List.mem_map.mp hm
    exact h.2.2 _ (root_mem_pre k) _ (mem_preL.mpr ⟨k', hk', root_mem_pre k'⟩) he.symm

/-- One more node that is neither numbered, nor an appendix, nor a proof: nothing happens. -/
theorem NumInv.skip {h : Heap} {s0 done s} (I : NumInv h s0 done s) {r : Ref}
    (hn : ¬ Numbered h r) (ha : ¬ IsAppendix h r)
    (hp : ¬ ((h.get r).cls = .Proof ∨ (h.get r).cls = .Subproof)) : NumInv h s0 (done ++ [r]) s where
  next := I.next
  labels := I.labels
  log := I.log
  other := I.other
  appendix := by rw [exists_appendix_concat ha]; exact I.appendix
  letters := by intro w; rw [exists_appendix_concat ha]; exact I.letters w
  used := by
    intro w c
    rw [sinceLast_skip hn ha w done fun q =>
      (h.get q).cls.numberAs = c ∧ (h.get q).cls.numberWithin = [w]]
    exact I.used w c
  number := by
    intro pre x post hd hx
    rcases split_concat hd with ⟨_, rfl, _⟩ | ⟨post', _, hd'⟩
    · exact absurd hx hn
    · exact I.number pre x post' hd' hx
  steps := by
    intro p hpm hpc
    simp only [List.mem_append, List.mem_singleton] at hpm
    rcases hpm with hpm | rfl
    · exact I.steps p hpm hpc
    · exact absurd hpc hp
  same := by
    intro x h1 h2
    refine I.same x ?_ ?_
    · rintro ⟨hx, hnx⟩; exact h1 ⟨by simp [hx], hnx⟩
    · rintro ⟨p, hpm, hpc⟩; exact h2 ⟨p, by simp [hpm], hpc⟩
  template := by
    intro pre x post hd hx
    rcases split_concat hd with ⟨_, rfl, _⟩ | ⟨post', _, hd'⟩
    · exact absurd hx hn
    · exact I.template pre x post' hd' hx
  templateSame := by
    intro x hx
    refine I.templateSame x ?_
    rintro ⟨h1, h2, pre, post, hd, h3⟩
    exact hx ⟨h1, h2, pre, post ++ [r], by rw [hd]; simp, h3⟩

theorem NumInv.step {h : Heap} {s0 : TState} {root t} (D : Doc h root t) {done todo : List Ref}
    {r : Ref} {s : NumberState} (hall : t.pre = done ++ r :: todo) (I : NumInv h s0 done s) :
    (numberBody r s).Sat (fun _ s' => NumInv h s0 (done ++ [r]) s')
      (fun e _ => e = .stopIteration ∧ Numbered h r ∧ expectedNumber h done r = none) := by
  have hr : r ∉ done := by
    have := D.nodup
    rw [hall] at this
    exact fun hm => (List.disjoint_of_nodup_append this) hm (by simp)
  have hmem : r ∈ t.pre := by rw [hall]; simp
  have hdone : ∀ x ∈ done, x ∈ t.pre := by intro x hx; rw [hall]; simp [hx]
  have hcls : ∀ x, (s.t.heap.get x).cls = (h.get x).cls := by intro x; rw [I.other]
  have hkids : ∀ x, s.t.heap.children x = h.children x := by
    intro x; exact children_of_get (hcls x) (by rw [I.other])
  have hnonum : (s.t.heap.get r).nonum = (h.get r).nonum := by rw [I.other]
  unfold numberBody
  simp only [Heap.isInst, Heap.isInstAny, hcls, hkids, hnonum]
  by_cases hA : IsAppendix h r
  · -- appendix
    have hn : ¬ Numbered h r := fun H => not_appendix H hA
    rw [if_pos ((Cls.isSub_appendix _).mpr hA)]
    have hp : ¬ ((h.get r).cls = .Proof ∨ (h.get r).cls = .Subproof) := by
      rw [show (h.get r).cls = .Appendix from hA]; decide
    have hex : ∃ a ∈ done ++ [r], IsAppendix h a := ⟨r, by simp, hA⟩
    refine ⟨I.next, I.labels, I.log, I.other, by simp only [true_iff]; exact hex, ?_, ?_, ?_, ?_, ?_, ?_, ?_⟩
    · intro w
      by_cases hw : w = .Manuscript
      · subst hw; simp only [if_true, true_and, true_iff]; exact hex
      · have : ([w] : List Cls) ≠ [.Manuscript] := by simpa using hw
        simp only [this, if_false, hw, false_and, iff_false]
        intro hl
        exact hw ((I.letters w).mp hl).1
    · intro w c
      by_cases hw : w = .Manuscript
      · subst hw
        simp only [if_true]
        rw [sinceLast_append_self done (show StartsScope h .Manuscript r from .inr ⟨hA, rfl⟩)]
        rfl
      · have : ([w] : List Cls) ≠ [.Manuscript] := by simpa using hw
        simp only [this, if_false]
        rw [sinceLast_append_of_not _ _ (by
          intro x hx; simp only [List.mem_singleton] at hx; subst hx
          rintro (h1 | h1)
          · exact hn h1.1
          · exact hw h1.2)]
        simp only [List.filter_append, List.length_append, I.used]
        simp [hn]
    · intro pre x post hd hx
      rcases split_concat hd with ⟨_, rfl, _⟩ | ⟨post', _, hd'⟩
      · exact absurd hx hn
      · exact I.number pre x post' hd' hx
    · intro p hpm hpc
      simp only [List.mem_append, List.mem_singleton] at hpm
      rcases hpm with hpm | rfl
      · exact I.steps p hpm hpc
      · exact absurd hpc hp
    · intro x h1 h2
      refine I.same x ?_ ?_
      · rintro ⟨hx, hnx⟩; exact h1 ⟨by simp [hx], hnx⟩
      · rintro ⟨p, hpm, hpc⟩; exact h2 ⟨p, by simp [hpm], hpc⟩
    · intro pre x post hd hx
      rcases split_concat hd with ⟨_, rfl, _⟩ | ⟨post', _, hd'⟩
      · exact absurd hx hn
      · exact I.template pre x post' hd' hx
    · intro x hx
      refine I.templateSame x ?_
      rintro ⟨h1, h2, pre, post, hd, h3⟩
      exact hx ⟨h1, h2, pre, post ++ [r], by rw [hd]; simp, h3⟩
  rw [if_neg (fun H => hA ((Cls.isSub_appendix _).mp H))]
  by_cases hP : (h.get r).cls = .Proof ∨ (h.get r).cls = .Subproof
  · -- proof
    have hn : ¬ Numbered h r := fun H => not_proof H hP
    rw [if_pos ((Cls.isSub_proof _).mpr hP)]
    have hfil : ((h.children r).filter fun x => (h.get x).cls.isSub .Step) = stepChildren h r := by
      unfold stepChildren
      apply List.filter_congr
      intro x _
      rw [Bool.eq_iff_iff, Cls.isSub_step]; simp
    rw [hfil]
    obtain ⟨u, hu, hur⟩ := exists_subtree hmem
    have hch : h.children r = u.kids.map Tree.root := by
      obtain ⟨q, hq⟩ := D.tree.subtree hu
      rw [← hur]; exact hq.children_root
    have hparent : ∀ p ∈ t.pre, ∀ x ∈ h.children p, h.parent x = some p := by
      intro p hp x hx
      obtain ⟨v, hv, rfl⟩ := exists_subtree hp
      obtain ⟨q, hq⟩ := D.tree.subtree hv
      rw [hq.children_root] at hx
      obtain ⟨k, hk, rfl⟩ := List.mem_map.mp hx
      cases v with
      | node i ks => exact ((isTree_node.mp hq).2.2 k hk).parent_root
    have hnodup : ∀ p ∈ t.pre, (h.children p).Nodup := by
      intro p hp
      obtain ⟨v, hv, rfl⟩ := exists_subtree hp
      obtain ⟨q, hq⟩ := D.tree.subtree hv
      rw [hq.children_root]
      have := nodup_subtree D.nodup hv
      cases v with
      | node i ks =>
        exact roots_nodup ks (List.nodup_cons.mp this).2
    have hsnd : (stepChildren h r).Nodup := (hnodup r hmem).filter _
    have hget := numberSteps_get s.t.heap 1 (stepChildren h r) hsnd
    have hnum_ne : ∀ x, Numbered h x → x ∉ stepChildren h r := by
      intro x hx hm
      exact hx.2.2 (mem_stepChildren.mp hm).2
    refine ⟨by simp only [numberSteps_next]; exact I.next, I.labels, I.log, ?_, ?_, ?_, ?_, ?_, ?_,
      ?_, ?_, ?_⟩
    · intro x
      simp only [hget]
      by_cases hx : x ∈ stepChildren h r
      · simp only [hx, if_true]; rw [I.other x]
      · simp only [hx, if_false]; exact I.other x
    · simp only; rw [exists_appendix_concat hA]; exact I.appendix
    · intro w; rw [exists_appendix_concat hA]; exact I.letters w
    · intro w c
      rw [sinceLast_skip hn hA w done fun q =>
        (h.get q).cls.numberAs = c ∧ (h.get q).cls.numberWithin = [w]]
      exact I.used w c
    · intro pre x post hd hx
      rcases split_concat hd with ⟨_, rfl, _⟩ | ⟨post', _, hd'⟩
      · exact absurd hx hn
      · simp only [hget, hnum_ne x hx, if_false]
        exact I.number pre x post' hd' hx
    · intro p hpm hpc i hi
      simp only [hget]
      simp only [List.mem_append, List.mem_singleton] at hpm
      by_cases hpr : p = r
      · subst hpr
        rw [if_pos (List.getElem_mem hi)]
        simp only
        rw [hsnd.idxOf_getElem, Nat.add_comm]
      · have hpd : p ∈ done := by
          rcases hpm with h1 | h1
          · exact h1
          · exact absurd h1 hpr
        rw [if_neg]
        · exact I.steps p hpd hpc i hi
        · intro hm
          have h1 := hparent r hmem _ (mem_stepChildren.mp hm).1
          have h2 := hparent p (hdone p hpd) _ (mem_stepChildren.mp (List.getElem_mem hi)).1
          rw [h1] at h2
          exact hpr (Option.some.inj h2).symm
    · intro x h1 h2
      simp only [hget]
      rw [if_neg (fun hm => h2 ⟨r, by simp, hP, hm⟩)]
      refine I.same x ?_ ?_
      · rintro ⟨hx, hnx⟩; exact h1 ⟨by simp [hx], hnx⟩
      · rintro ⟨p, hpm, hpc⟩; exact h2 ⟨p, by simp [hpm], hpc⟩
    · intro pre x post hd hx
      rcases split_concat hd with ⟨_, rfl, _⟩ | ⟨post', _, hd'⟩
      · exact absurd hx hn
      · simp only [hget, hnum_ne x hx, if_false]
        exact I.template pre x post' hd' hx
    · intro x hx
      have : (s.t.heap.get x).reftextTemplate = (h.get x).reftextTemplate := by
        refine I.templateSame x ?_
        rintro ⟨h1, h2, pre, post, hd, h3⟩
        exact hx ⟨h1, h2, pre, post ++ [r], by rw [hd]; simp, h3⟩
      simp only [hget]
      split
      · exact this
      · exact this
  rw [if_neg (fun H => hP ((Cls.isSub_proof _).mp H))]
  by_cases hS : (h.get r).cls = .Step
  · rw [if_pos ((Cls.isSub_step _).mpr hS)]
    exact I.skip (fun H => H.2.2 hS) hA hP
  rw [if_neg (fun H => hS ((Cls.isSub_step _).mp H))]
  by_cases hN : Numbered h r
  · have hcond : ((h.get r).cls.autonumber && !(h.get r).nonum) = true := by
      simp [hN.1, hN.2.1]
    rw [if_pos hcond]
    obtain ⟨w, hw⟩ := Cls.within_single _ hN.2.2
    have hwne : w ≠ (h.get r).cls := by
      rintro rfl
      exact Cls.within_ne_self _ hN.1 hw
    have hkey : ([w] : List Cls) ≠ [(h.get r).cls] := by simpa using hwne
    have hcm : (h.get r).cls ≠ .Manuscript := by
      intro e
      have := hN.1
      rw [e] at this
      exact absurd this (by decide)
    simp only [hw, hkey, if_false]
    have hexp := expectedNumber_eq I hw
    rw [hexp]
    cases hval : expectedNumber h done r with
    | none => exact ⟨rfl, hN, rfl⟩
    | some num =>
      have hnotstart : ¬ StartsScope h w r := by
        rintro (h1 | h1)
        · exact hwne h1.2.symm
        · exact hA h1.1
      have hsec : (h.get r).cls.isSub .Section = true ↔ .Section ∈ (h.get r).cls.mro := by
        simp [Cls.isSub]
      -- the heap after the update
      let h' : Heap := if s.withinAppendix = true ∧ (h.get r).cls.isSub .Section = true
        then (s.t.heap.update r fun n => { n with number := num }).update r fun n => { n with
          reftextTemplate := appendixTemplate n.reftextTemplate }
        else s.t.heap.update r fun n => { n with number := num }
      have hh' : (if (s.withinAppendix &&
          ((s.t.heap.update r fun n => { n with number := num }).get r).cls.isSub .Section) = true
          then (s.t.heap.update r fun n => { n with number := num }).update r fun n => { n with
            reftextTemplate := pyReplace "{nodeclass}".toList "Appendix".toList n.reftextTemplate }
          else s.t.heap.update r fun n => { n with number := num }) = h' := by
        simp only [h', Heap.get_update_self, hcls, Bool.and_eq_true, appendixTemplate]
      have hne : ∀ x, x ≠ r → h'.get x = s.t.heap.get x := by
        intro x hx
        simp only [h']
        split
        · rw [Heap.get_update_of_ne _ _ hx, Heap.get_update_of_ne _ _ hx]
        · rw [Heap.get_update_of_ne _ _ hx]
      have hnext' : h'.next = h.next := by
        simp only [h']; split <;> exact I.next
      have hother' : h'.get r = { h.get r with
          number := num, reftextTemplate := (h'.get r).reftextTemplate } := by
        simp only [h']
        split
        · simp only [Heap.get_update_self]; rw [I.other r]
        · simp only [Heap.get_update_self]; rw [I.other r]
      have htempl_r : (s.t.heap.get r).reftextTemplate = (h.get r).reftextTemplate := by
        refine I.templateSame r ?_
        rintro ⟨_, _, pre, post, hd, _⟩
        exact hr (by rw [hd]; simp)
      clear_value h'
      have hcount : ∀ w' c', (if [w'] = [w] then
            ({ (s.counts [w]) with used := fun d => if d = (h.get r).cls.numberAs
              then (s.counts [w]).used d + 1 else (s.counts [w]).used d } : Counters)
          else if [w'] = [(h.get r).cls] then {} else s.counts [w']).used c' =
          ((sinceLast (StartsScope h w') (done ++ [r])).filter fun q =>
            Numbered h q ∧ (h.get q).cls.numberAs = c' ∧ (h.get q).cls.numberWithin = [w']).length := by
        intro w' c'
        by_cases h1 : w' = w
        · subst h1
          simp only [if_true]
          rw [sinceLast_append_of_not _ _ (by
            intro x hx; simp only [List.mem_singleton] at hx; subst hx; exact hnotstart)]
          simp only [List.filter_append, List.length_append, I.used]
          by_cases h2 : c' = (h.get r).cls.numberAs
          · simp [h2, hN, hw]
          · simp [h2, Ne.symm h2]
        · have h1' : ([w'] : List Cls) ≠ [w] := by simpa using h1
          rw [if_neg h1']
          by_cases h2 : w' = (h.get r).cls
          · subst h2
            rw [if_pos rfl, sinceLast_append_self done
              (show StartsScope h (h.get r).cls r from .inl ⟨hN, rfl⟩)]
            rfl
          · have h2' : ([w'] : List Cls) ≠ [(h.get r).cls] := by simpa using h2
            rw [if_neg h2', I.used, sinceLast_append_of_not _ _ (by
              intro x hx; simp only [List.mem_singleton] at hx; subst hx
              rintro (h3 | h3)
              · exact h2 h3.2.symm
              · exact hA h3.1)]
            simp [List.filter_append, hw, Ne.symm h1]
      have goal : NumInv h s0 (done ++ [r])
          { t := { s.t with heap := h' }
            counts := fun k => if k = [w] then
                ({ (s.counts [w]) with used := fun d => if d = (h.get r).cls.numberAs
                  then (s.counts [w]).used d + 1 else (s.counts [w]).used d } : Counters)
              else if k = [(h.get r).cls] then {} else s.counts k
            withinAppendix := s.withinAppendix } := by
       refine ⟨hnext', I.labels, I.log, ?_, ?_, ?_, hcount, ?_, ?_, ?_, ?_, ?_⟩
       · intro x
         by_cases hx : x = r
         · subst hx
           rw [hother']
         · simp only [hne x hx]; exact I.other x
       · rw [exists_appendix_concat hA]; exact I.appendix
       · intro w'
         rw [exists_appendix_concat hA]
         by_cases h1 : w' = w
         · subst h1; simp only [if_true]; exact I.letters w'
         · have h1' : ([w'] : List Cls) ≠ [w] := by simpa using h1
           simp only [h1', if_false]
           by_cases h2 : w' = (h.get r).cls
           · subst h2; simp [hcm]
           · have h2' : ([w'] : List Cls) ≠ [(h.get r).cls] := by simpa using h2
             simp only [h2', if_false]
             exact I.letters w'
       · intro pre x post hd hx
         rcases split_concat hd with ⟨_, rfl, rfl⟩ | ⟨post', _, hd'⟩
         · rw [hother', hval]
         · have : x ≠ r := by
             rintro rfl; exact hr (by rw [hd']; simp)
           simp only [hne x this]
           exact I.number pre x post' hd' hx
       · intro p hpm hpc i hi
         simp only [List.mem_append, List.mem_singleton] at hpm
         have hpd : p ∈ done := by
           rcases hpm with h1 | rfl
           · exact h1
           · exact absurd hpc hP
         have : (stepChildren h p)[i] ≠ r := by
           intro e
           exact hS (e ▸ (mem_stepChildren.mp (List.getElem_mem hi)).2)
         simp only [hne _ this]
         exact I.steps p hpd hpc i hi
       · intro x h1 h2
         have : x ≠ r := by
           rintro rfl; exact h1 ⟨by simp, hN⟩
         simp only [hne x this]
         refine I.same x ?_ ?_
         · rintro ⟨hx, hnx⟩; exact h1 ⟨by simp [hx], hnx⟩
         · rintro ⟨p, hpm, hpc⟩; exact h2 ⟨p, by simp [hpm], hpc⟩
       · intro pre x post hd hx hxs happ
         rcases split_concat hd with ⟨_, rfl, rfl⟩ | ⟨post', _, hd'⟩
         · have hc : s.withinAppendix = true ∧ (h.get x).cls.isSub .Section = true :=
             ⟨I.appendix.mpr happ, hsec.mpr hxs⟩
           rw [← hh']
           simp only [Heap.get_update_self, hcls, Bool.and_eq_true, hc, and_self, if_true,
             appendixTemplate, htempl_r]
         · have : x ≠ r := by
             rintro rfl; exact hr (by rw [hd']; simp)
           simp only [hne x this]
           exact I.template pre x post' hd' hx hxs happ
       · intro x hx
         by_cases hxr : x = r
         · subst hxr
           have hc : ¬ (s.withinAppendix = true ∧ (h.get x).cls.isSub .Section = true) := by
             rintro ⟨h1, h2⟩
             exact hx ⟨hN, hsec.mp h2, done, [], rfl, I.appendix.mp h1⟩
           rw [← hh']
           simp only [Heap.get_update_self, hcls, Bool.and_eq_true, hc, if_false, htempl_r]
         · simp only [hne x hxr]
           refine I.templateSame x ?_
           rintro ⟨h1, h2, pre, post, hd, h3⟩
           exact hx ⟨h1, h2, pre, post ++ [r], by rw [hd]; simp, h3⟩
      rw [← hh'] at goal
      exact goal
  · have hcond : ¬ ((h.get r).cls.autonumber && !(h.get r).nonum) = true := by
      intro H
      simp only [Bool.and_eq_true, Bool.not_eq_true'] at H
      exact hN ⟨H.1, H.2, hS⟩
    rw [if_neg hcond]
    exact I.skip hN hA hP

theorem autonumber_spec {s : TState} {root t} (D : Doc s.heap root t) {fuel : Nat}
    (hfuel : t.size < fuel) :
    (autonumberNodes fuel root s).Sat
      (fun _ s' => ∃ st, NumInv s.heap s t.pre st ∧ st.t = s')
      (fun e _ => e = .stopIteration ∧ ∃ pre r post, t.pre = pre ++ r :: post ∧
        Numbered s.heap r ∧ expectedNumber s.heap pre r = none) := by
  have key := travLoop_inv (σ := NumberState) (·.t.heap) (fun _ _ => true) numberBody t.pre
    (NumInv s.heap s)
    (fun e _ => e = .stopIteration ∧ ∃ pre r post, t.pre = pre ++ r :: post ∧
        Numbered s.heap r ∧ expectedNumber s.heap pre r = none)
    s.heap.children
    (by
      intro done r todo st hall I _
      refine Res.Sat.mono (NumInv.step D hall I) ?_ ?_
      · intro _ s' I'
        refine ⟨I', ?_⟩
        exact children_of_get (by rw [I'.other]) (by rw [I'.other])
      · rintro e s' ⟨h1, h2, h3⟩
        exact ⟨h1, done, r, todo, hall, h2, h3⟩)
    (by intro _ _ _ _ _ _ h; simp at h)
    [t]
    (by
      intro t' ht' i ks hi
      simp only [List.mem_singleton] at ht'
      subst ht'
      exact D.tree.kids_of_subtree hi)
    [] (by simp) { t := s }
    (by
      refine ⟨rfl, rfl, rfl, fun _ => rfl, by simp, by simp, ?_, ?_, by simp, by simp, ?_, by simp⟩
      · intro w c; simp [sinceLast]
      · intro pre r post hd; simp at hd
      · intro pre r post hd; simp at hd)
    fuel (by simpa using hfuel)
  unfold autonumberNodes
  simp only [List.map_cons, List.map_nil, D.root_eq] at key
  cases hrun : travLoop (σ := NumberState) (·.t.heap) (fun _ _ => true) numberBody fuel [root]
      { t := s } with
  | ok u st => rw [hrun] at key; exact ⟨st, key, rfl⟩
  | err e st => rw [hrun] at key; exact key

end Transformer
end RSM
