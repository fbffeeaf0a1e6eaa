import Verif.Lemmas.HeapApi

/-! The invariant of arbitrary editing histories (helper lemmas for C01, C05). -/

namespace RSM
open PyM Heap Nodes

structure ApiInv (h : Heap) : Prop where
  sound : ∀ r p, h.parent r = some p → r ∈ h.children p
  allowed : ∀ r p, h.parent r = some p → h.Allowed r p
  bound : ∀ r p, h.parent r = some p → r < h.next ∧ p < h.next

theorem ApiInv.withKids_grow {h : Heap} (I : ApiInv h) {s f}
    (hs : h.isInst s .NodeWithChildren = true)
    (hf : ∀ x, x ∈ h.children s → x ∈ f (h.children s)) : ApiInv (h.withKids s f) where
  sound r p hp := by
    rw [parent_withKids] at hp
    rw [children_withKids _ _ _ _ hs]
    by_cases hps : p = s
    · subst hps; simp only [if_true]; exact hf _ (I.sound _ _ hp)
    · simp only [hps, if_false]; exact I.sound _ _ hp
  allowed r p hp := by
    rw [parent_withKids] at hp; rw [allowed_withKids]; exact I.allowed _ _ hp
  bound r p hp := by
    rw [parent_withKids] at hp; exact I.bound _ _ hp

theorem ApiInv.withParent_some {h : Heap} (I : ApiInv h) {c s}
    (hc : c ∈ h.children s) (ha : h.Allowed c s) (hb : c < h.next) (hb' : s < h.next) :
    ApiInv (h.withParent c (.some s)) where
  sound r p hp := by
    rw [parent_withParent] at hp; rw [children_withParent]
    split at hp
    · simp at hp; subst hp; simp_all
    · exact I.sound _ _ hp
  allowed r p hp := by
    rw [parent_withParent] at hp; rw [allowed_withParent]
    split at hp
    · simp at hp; subst hp; simp_all
    · exact I.allowed _ _ hp
  bound r p hp := by
    rw [parent_withParent] at hp
    split at hp
    · simp at hp; subst hp; simp_all
    · exact I.bound _ _ hp

theorem ApiInv.withParent_none {h : Heap} (I : ApiInv h) {c} :
    ApiInv (h.withParent c .none) where
  sound r p hp := by
    rw [parent_withParent] at hp; rw [children_withParent]
    split at hp
    · simp at hp
    · exact I.sound _ _ hp
  allowed r p hp := by
    rw [parent_withParent] at hp; rw [allowed_withParent]
    split at hp
    · simp at hp
    · exact I.allowed _ _ hp
  bound r p hp := by
    rw [parent_withParent] at hp
    split at hp
    · simp at hp
    · exact I.bound _ _ hp

theorem ApiInv.append {h : Heap} (I : ApiInv h) {s c} (hs : s < h.next) (hc : c < h.next) :
    ApiInv (Nodes.append s c h).state := by
  rw [append_apply]
  split
  · exact I
  · rename_i h1
    have hn : h.isInst s .NodeWithChildren = true := by simpa using h1
    split
    · exact I
    · have I' : ApiInv (h.withKids s (· ++ [c])) := I.withKids_grow hn (by intro x hx; simp [hx])
      split
      · rename_i ha
        refine I'.withParent_some ?_ (by simpa using ha) hc hs
        rw [children_withKids _ _ _ _ hn]; simp
      · exact I'

theorem ApiInv.prepend {h : Heap} (I : ApiInv h) {s c} (hs : s < h.next) (hc : c < h.next) :
    ApiInv (Nodes.prepend s c h).state := by
  rw [prepend_apply]
  split
  · exact I
  · rename_i h1
    have hn : h.isInst s .NodeWithChildren = true := by simpa using h1
    split
    · exact I
    · have I' : ApiInv (h.withKids s (c :: ·)) := I.withKids_grow hn (by intro x hx; simp [hx])
      split
      · rename_i ha
        refine I'.withParent_some ?_ (by simpa using ha) hc hs
        rw [children_withKids _ _ _ _ hn]; simp
      · exact I'

theorem ApiInv.remove {h : Heap} (I : ApiInv h) {s c} :
    ApiInv (Nodes.remove s c h).state := by
  rw [remove_apply]
  split
  · exact I
  · rename_i h1
    have hn : h.isInst s .NodeWithChildren = true := by simpa using h1
    split
    · refine ⟨?_, ?_, ?_⟩
      · intro r p hp
        simp only [Res.state, parent_withParent, parent_withKids] at hp
        split at hp
        · simp at hp
        · rename_i hrc
          simp only [Res.state, children_withParent]
          rw [children_withKids _ _ _ _ hn]
          by_cases hps : p = s
          · subst hps; simp only [if_true]
            exact (List.mem_erase_of_ne hrc).mpr (I.sound _ _ hp)
          · simp only [hps, if_false]; exact I.sound _ _ hp
      · intro r p hp
        simp only [Res.state, parent_withParent, parent_withKids] at hp
        split at hp
        · simp at hp
        · simpa [Res.state] using I.allowed _ _ hp
      · intro r p hp
        simp only [Res.state, parent_withParent, parent_withKids] at hp
        split at hp
        · simp at hp
        · simpa [Res.state] using I.bound _ _ hp
    · exact I

theorem ApiInv.clear {h : Heap} (I : ApiInv h) {s} : ApiInv (Nodes.clear s h).state := by
  rw [clear_apply]
  split
  · exact I
  · rename_i h1
    have hn : h.isInst s .NodeWithChildren = true := by simpa using h1
    have hk := children_eq_kids h s hn
    refine ⟨?_, ?_, ?_⟩
    · intro r p hp
      simp only [Res.state, parent_withKids, parent_orphan] at hp
      split at hp
      · simp at hp
      · rename_i hr
        simp only [Res.state]
        rw [children_withKids _ _ _ _ (by simpa using hn)]
        have hm := I.sound _ _ hp
        by_cases hps : p = s
        · subst hps; rw [hk] at hm; exact absurd hm hr
        · simpa [hps] using hm
    · intro r p hp
      simp only [Res.state, parent_withKids, parent_orphan] at hp
      split at hp
      · simp at hp
      · simpa [Res.state, Allowed] using I.allowed _ _ hp
    · intro r p hp
      simp only [Res.state, parent_withKids, parent_orphan] at hp
      split at hp
      · simp at hp
      · simpa [Res.state] using I.bound _ _ hp

theorem ApiInv.insertReplacements {p i} {reps : List Ref} {h : Heap} (I : ApiInv h)
    (hn : h.isInst p .NodeWithChildren = true) (hp : p < h.next) (hr : ∀ r ∈ reps, r < h.next) :
    ApiInv (Nodes.insertReplacements p i reps h).state := by
  induction reps generalizing h i with
  | nil => exact I
  | cons r reps ih =>
    rw [insertReplacements_cons]
    have hmem : ∀ l : List Ref, ∀ x ∈ l, x ∈ pyInsert i r l := by
      intro l x hx
      have : x ∈ l.take i ++ l.drop i := by rwa [List.take_append_drop]
      simp only [pyInsert, List.mem_append, List.mem_cons] at this ⊢
      rcases this with h' | h' <;> simp [h']
    have I' : ApiInv (h.withKids p (pyInsert i r)) := I.withKids_grow hn (hmem _)
    split
    · rename_i ha
      refine ih (I'.withParent_some ?_ (by simpa using ha) ?_ hp) (by simpa using hn) hp ?_
      · rw [children_withKids _ _ _ _ hn]; simp [pyInsert]
      · exact hr r (by simp)
      · intro x hx; exact hr x (by simp [hx])
    · exact I'

theorem ApiInv.replaceSelf {h : Heap} (I : ApiInv h) {s} {reps : List Ref}
    (hr : ∀ r ∈ reps, r < h.next) : ApiInv (Nodes.replaceSelf s reps h).state := by
  rw [replaceSelf_apply]
  cases hp : h.parent s with
  | none => exact I
  | some p =>
    dsimp only
    have hm := I.sound _ _ hp
    have hn := isNWC_of_mem_children hm
    cases (h.children p).idxOf? s with
    | none => exact I
    | some i =>
      dsimp only
      have I' := I.remove (s := p) (c := s)
      rw [remove_apply] at I' ⊢
      rw [children_eq_kids _ _ hn] at hm
      simp only [hn, Bool.true_eq_false, if_false, hm, if_true] at I' ⊢
      refine I'.insertReplacements ?_ ?_ ?_ <;> simp only [Res.state]
      · simpa using hn
      · simpa using (I.bound _ _ hp).2
      · simpa using hr

theorem ApiInv.removeSelf {h : Heap} (I : ApiInv h) {s} :
    ApiInv (Nodes.removeSelf s h).state := by
  rw [removeSelf_apply]
  cases hp : h.parent s with
  | none => exact I
  | some p =>
    have I' := I.remove (s := p) (c := s)
    dsimp only
    cases hr : Nodes.remove p s h with
    | ok a h' => rw [hr] at I'; exact I'.withParent_none
    | err e h' => rw [hr] at I'; exact I'

@[simp] theorem next_append (s c : Ref) (h : Heap) : (Nodes.append s c h).state.next = h.next := by
  rw [append_apply]; repeat' split
  all_goals rfl
@[simp] theorem next_prepend (s c : Ref) (h : Heap) : (Nodes.prepend s c h).state.next = h.next := by
  rw [prepend_apply]; repeat' split
  all_goals rfl

theorem forEach_inv {α σ : Type} {P : σ → Prop} {body : α → PyM σ Unit} {l : List α}
    (hb : ∀ a ∈ l, ∀ s, P s → P (body a s).state) :
    ∀ s, P s → P (forEach body l s).state := by
  induction l with
  | nil => intro s hs; exact hs
  | cons a l ih =>
    intro s hs
    rw [forEach_cons]
    have h1 := hb a (by simp) s hs
    cases hr : body a s with
    | ok u s' => rw [hr] at h1; exact ih (fun b hb' => hb b (by simp [hb'])) _ h1
    | err e s' => rw [hr] at h1; exact h1

theorem ApiInv.appendAll {h : Heap} (I : ApiInv h) {s} {cs : List Ref} (hs : s < h.next)
    (hc : ∀ c ∈ cs, c < h.next) : ApiInv (Nodes.appendAll s cs h).state := by
  unfold Nodes.appendAll
  rw [bind_apply, requireNWC_apply]
  split
  · rename_i h' heq
    split at heq
    · simp only [Res.ok.injEq] at heq
      rw [← heq.2]
      refine (forEach_inv (P := fun x => ApiInv x ∧ x.next = h.next) ?_ h ⟨I, rfl⟩).1
      rintro c hc' x ⟨I', hx⟩
      exact ⟨I'.append (hx ▸ hs) (hx ▸ hc c hc'), by simp [hx]⟩
    · simp at heq
  · rename_i h' heq
    split at heq
    · simp at heq
    · simp only [Res.err.injEq] at heq
      rw [← heq.2]; exact I

theorem ApiInv.prependAll {h : Heap} (I : ApiInv h) {s} {cs : List Ref} (hs : s < h.next)
    (hc : ∀ c ∈ cs, c < h.next) : ApiInv (Nodes.prependAll s cs h).state := by
  unfold Nodes.prependAll
  rw [bind_apply, requireNWC_apply]
  split
  · rename_i h' heq
    split at heq
    · simp only [Res.ok.injEq] at heq
      rw [← heq.2]
      refine (forEach_inv (P := fun x => ApiInv x ∧ x.next = h.next) ?_ h ⟨I, rfl⟩).1
      rintro c hc' x ⟨I', hx⟩
      exact ⟨I'.prepend (hx ▸ hs) (hx ▸ hc c (by simpa using hc')), by simp [hx]⟩
    · simp at heq
  · rename_i h' heq
    split at heq
    · simp at heq
    · simp only [Res.err.injEq] at heq
      rw [← heq.2]; exact I

theorem ApiInv.new {h : Heap} (I : ApiInv h) {n : NodeRec} (hn : n.parent = .none) :
    ApiInv (h.alloc n).2 := by
  have key : ∀ r p, (h.alloc n).2.parent r = some p →
      r ≠ h.next ∧ h.parent r = some p := by
    intro r p hp
    simp only [alloc, parent] at hp
    split at hp
    · simp [hn] at hp
    · exact ⟨by assumption, hp⟩
  refine ⟨?_, ?_, ?_⟩
  · intro r p hp
    obtain ⟨h1, h2⟩ := key r p hp
    have hb := (I.bound _ _ h2).2
    have := I.sound _ _ h2
    have hne : p ≠ h.next := by omega
    rw [children_eq_kids _ _ (isNWC_of_mem_children this)] at this
    have hi := isNWC_of_mem_children (I.sound _ _ h2)
    simp only [isInst] at hi
    simpa [alloc, children, isInst, hne, hi] using this
  · intro r p hp
    obtain ⟨h1, h2⟩ := key r p hp
    have hb := (I.bound _ _ h2).2
    have := I.allowed _ _ h2
    have hne : p ≠ h.next := by omega
    simpa [alloc, Allowed, hne, h1] using this
  · intro r p hp
    obtain ⟨h1, h2⟩ := key r p hp
    have hb := I.bound _ _ h2
    simp only [alloc]; omega

theorem ApiInv.run {h : Heap} (I : ApiInv h) (op : Op) : ApiInv (op.run h).state := by
  unfold Op.run
  split
  · rename_i hb
    have hb' : ∀ r ∈ op.refs, r < h.next := by simpa using hb
    cases op with
    | new n => exact I.new rfl
    | append s c => exact I.append (hb' s (by simp [Op.refs])) (hb' c (by simp [Op.refs]))
    | appendAll s cs =>
      exact I.appendAll (hb' s (by simp [Op.refs])) fun c hc => hb' c (by simp [Op.refs, hc])
    | prepend s c => exact I.prepend (hb' s (by simp [Op.refs])) (hb' c (by simp [Op.refs]))
    | prependAll s cs =>
      exact I.prependAll (hb' s (by simp [Op.refs])) fun c hc => hb' c (by simp [Op.refs, hc])
    | prependTuple s cs =>
      show ApiInv (Nodes.prependTuple s cs h).state
      unfold Nodes.prependTuple
      rw [bind_apply, requireNWC_apply]
      split
      · rename_i h' heq; split at heq
        · simp only [Res.ok.injEq] at heq; rw [← heq.2]; exact I
        · simp at heq
      · rename_i h' heq; split at heq
        · simp at heq
        · simp only [Res.err.injEq] at heq; rw [← heq.2]; exact I
    | remove s c => exact I.remove
    | clear s => exact I.clear
    | replaceSelf s reps => exact I.replaceSelf fun c hc => hb' c (by simp [Op.refs, hc])
    | removeSelf s => exact I.removeSelf
  · exact I

theorem ApiInv.empty : ApiInv Heap.empty := by
  constructor <;> intro r p hp <;> simp [Heap.empty, Heap.parent, NodeRec.new] at hp

theorem ApiInv.runOps (ops : List Op) {h : Heap} (I : ApiInv h) : ApiInv (runOps ops h) := by
  induction ops generalizing h with
  | nil => exact I
  | cons op ops ih => exact ih (I.run op)

end RSM
