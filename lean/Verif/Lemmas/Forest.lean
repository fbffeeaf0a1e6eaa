import Verif.Spec.Forest
import Verif.Spec.Tree
import Verif.Lemmas.ApiInv
import Verif.Lemmas.Tree
import Mathlib.Order.WellFounded
import Mathlib.Data.Fintype.EquivFin
import Mathlib.Data.Finite.Defs

/-! Helper lemmas for C02. -/

namespace RSM
open PyM Heap Nodes

theorem AncestorOrSelf.congr {h h' : Heap} {a x : Ref} (hp : ∀ y, h'.parent y = h.parent y)
    : AncestorOrSelf h' a x ↔ AncestorOrSelf h a x := by
  unfold AncestorOrSelf; simp [hp]

theorem Forest.not_anc_self_parent {h : Heap} (F : Forest h) {r p} (hp : h.parent r = some p) :
    ¬ AncestorOrSelf h r p := by
  intro ha
  have : Relation.TransGen (fun p r => h.parent r = some p) r r := by
    have h1 : Relation.ReflTransGen (fun p r => h.parent r = some p) r p := by
      have := ha.swap
      exact this
    exact Relation.TransGen.tail' h1 hp
  exact F.acyclic.transGen.irrefl.irrefl r this

theorem not_anc_of_attach {h : Heap} {s c x : Ref} {f}
    (hx : ¬ AncestorOrSelf h c x) {a} :
    AncestorOrSelf ((h.withKids s f).withParent c (some s)) a x ↔ AncestorOrSelf h a x := by
  have key : ∀ y, ¬ AncestorOrSelf h c y → ∀ z,
      ((h.withKids s f).withParent c (some s)).parent y = some z ↔ h.parent y = some z := by
    intro y hy z
    rw [parent_withParent, parent_withKids]
    have : y ≠ c := by rintro rfl; exact hy .refl
    simp [this]
  constructor
  · intro ha
    unfold AncestorOrSelf at ha
    induction ha with
    | refl => exact .refl
    | tail h1 h2 ih =>
      rename_i y z
      have hy : ¬ AncestorOrSelf h c y := fun hc => hx (Relation.ReflTransGen.trans ih hc)
      exact Relation.ReflTransGen.tail ih ((key y hy z).mp h2)
  · intro ha
    unfold AncestorOrSelf at ha
    induction ha with
    | refl => exact .refl
    | tail h1 h2 ih =>
      rename_i y z
      have hy : ¬ AncestorOrSelf h c y := fun hc => hx (Relation.ReflTransGen.trans h1 hc)
      exact Relation.ReflTransGen.tail ih ((key y hy z).mpr h2)

theorem Forest.attach {h : Heap} (F : Forest h) {s c : Ref} {f}
    (hs : h.isInst s .NodeWithChildren = true) (hsb : s < h.next) (hcb : c < h.next)
    (hc : h.parent c = none) (hanc : ¬ AncestorOrSelf h c s)
    (hf : (f (h.children s)).Perm (c :: h.children s)) :
    Forest ((h.withKids s f).withParent c (some s)) := by
  have hcs : ∀ p, c ∉ h.children p := fun p hm => by
    have := (F.agree c p).mpr hm; simp [hc] at this
  refine ⟨?_, ?_, ?_, ?_⟩
  · intro r p
    rw [parent_withParent, parent_withKids, children_withParent, children_withKids _ _ _ _ hs]
    by_cases hr : r = c
    · subst hr
      by_cases hps : p = s
      · subst hps; simp [hf.mem_iff]
      · simp [hps, hcs p, Ne.symm hps]
    · by_cases hps : p = s
      · subst hps; simp [hr, hf.mem_iff, F.agree]
      · simp [hr, hps, F.agree]
  · intro p
    rw [children_withParent, children_withKids _ _ _ _ hs]
    by_cases hps : p = s
    · subst hps
      simp only [if_true]
      rw [hf.nodup_iff]
      exact List.nodup_cons.mpr ⟨hcs _, F.nodup _⟩
    · simpa [hps] using F.nodup p
  · -- climbing still ends
    let R' : Ref → Ref → Prop := fun p r =>
      ((h.withKids s f).withParent c (some s)).parent r = some p
    have hR' : ∀ {p r}, R' p r → (r = c ∧ p = s) ∨ (r ≠ c ∧ h.parent r = some p) := by
      intro p r hpr
      simp only [R', parent_withParent, parent_withKids] at hpr
      split at hpr
      · simp at hpr; exact .inl ⟨by assumption, hpr.symm⟩
      · exact .inr ⟨by assumption, hpr⟩
    have acc1 : ∀ y, ¬ AncestorOrSelf h c y → Acc R' y := by
      intro y
      induction y using F.acyclic.induction with
      | _ y ih =>
        intro hy
        refine ⟨_, fun p hp => ?_⟩
        rcases hR' hp with ⟨rfl, _⟩ | ⟨_, hp'⟩
        · exact absurd .refl hy
        · exact ih p hp' fun hc' => hy (Relation.ReflTransGen.head hp' hc')
    have acc2 : Acc R' c := by
      refine ⟨_, fun p hp => ?_⟩
      rcases hR' hp with ⟨_, rfl⟩ | ⟨h1, _⟩
      · exact acc1 _ hanc
      · exact absurd rfl h1
    refine ⟨fun y => ?_⟩
    induction y using F.acyclic.induction with
    | _ y ih =>
      refine ⟨_, fun p hp => ?_⟩
      rcases hR' hp with ⟨_, rfl⟩ | ⟨_, hp'⟩
      · exact acc1 _ hanc
      · exact ih p hp'
  · intro r p hp
    rw [parent_withParent, parent_withKids] at hp
    simp only [next_withParent, next_withKids]
    split at hp
    · simp at hp; subst hp; subst_vars; exact ⟨hcb, hsb⟩
    · exact F.bound _ _ hp

theorem Forest.detach {h : Heap} (F : Forest h) {s c : Ref}
    (hs : h.isInst s .NodeWithChildren = true) (hc : c ∈ h.children s) :
    Forest ((h.withKids s (·.erase c)).withParent c none) := by
  have hpc := (F.agree c s).mpr hc
  refine ⟨?_, ?_, ?_, ?_⟩
  · intro r p
    rw [parent_withParent, parent_withKids, children_withParent, children_withKids _ _ _ _ hs]
    by_cases hr : r = c
    · subst hr
      by_cases hps : p = s
      · subst hps; simp [(F.nodup p).mem_erase_iff]
      · have : r ∉ h.children p := fun hm => by
          have := (F.agree r p).mpr hm
          rw [hpc] at this; simp at this; exact hps this.symm
        simp [hps, this]
    · by_cases hps : p = s
      · subst hps; simp [hr, List.mem_erase_of_ne hr, F.agree]
      · simp [hr, hps, F.agree]
  · intro p
    rw [children_withParent, children_withKids _ _ _ _ hs]
    by_cases hps : p = s
    · subst hps; simpa using (F.nodup p).erase c
    · simpa [hps] using F.nodup p
  · refine F.acyclic.mono ?_
    intro p r hpr
    rw [parent_withParent, parent_withKids] at hpr
    split at hpr
    · simp at hpr
    · exact hpr
  · intro r p hp
    rw [parent_withParent, parent_withKids] at hp
    simp only [next_withParent, next_withKids]
    split at hp
    · simp at hp
    · exact F.bound _ _ hp

theorem Forest.append_ok {h : Heap} (F : Forest h) {s c : Ref} (hsb : s < h.next)
    (hcb : c < h.next) (hi : Insertable h s c) :
    Forest (Nodes.append s c h).state := by
  rw [append_apply]
  split
  · exact F
  · rename_i h1
    have hn : h.isInst s .NodeWithChildren = true := by simpa using h1
    have : h.Allowed c s := hi.2.1
    simp only [hi.1, ne_eq, not_true_eq_false, if_false, this, if_true]
    exact F.attach hn hsb hcb hi.1 hi.2.2 (by
      exact List.perm_append_comm (l₁ := h.children s) (l₂ := [c]))

theorem Forest.prepend_ok {h : Heap} (F : Forest h) {s c : Ref} (hsb : s < h.next)
    (hcb : c < h.next) (hi : Insertable h s c) :
    Forest (Nodes.prepend s c h).state := by
  rw [prepend_apply]
  split
  · exact F
  · rename_i h1
    have hn : h.isInst s .NodeWithChildren = true := by simpa using h1
    have : h.Allowed c s := hi.2.1
    simp only [hi.1, ne_eq, not_true_eq_false, false_and, if_false, this, if_true]
    exact F.attach hn hsb hcb hi.1 hi.2.2 (List.Perm.refl _)

theorem Insertable.attach {h : Heap} {s c d : Ref} {f} (hd : Insertable h s d) (hne : d ≠ c)
    (hanc : ¬ AncestorOrSelf h c s) :
    Insertable ((h.withKids s f).withParent c (some s)) s d := by
  refine ⟨?_, ?_, ?_⟩
  · rw [parent_withParent]; simp [hne, hd.1]
  · have : h.Allowed d s := hd.2.1
    simpa [MayHaveParent, Allowed] using this
  · rw [not_anc_of_attach hanc]; exact hd.2.2

theorem Insertable.append {h : Heap} {s c d : Ref} (hd : Insertable h s d) (hne : d ≠ c)
    (hc : Insertable h s c) :
    Insertable (Nodes.append s c h).state s d := by
  rw [append_apply]
  split
  · exact hd
  · have : h.Allowed c s := hc.2.1
    simp only [hc.1, ne_eq, not_true_eq_false, if_false, this, if_true]
    exact hd.attach hne hc.2.2

theorem Insertable.prepend {h : Heap} {s c d : Ref} (hd : Insertable h s d) (hne : d ≠ c)
    (hc : Insertable h s c) :
    Insertable (Nodes.prepend s c h).state s d := by
  rw [prepend_apply]
  split
  · exact hd
  · have : h.Allowed c s := hc.2.1
    simp only [hc.1, ne_eq, not_true_eq_false, false_and, if_false, this, if_true]
    exact hd.attach hne hc.2.2

theorem Forest.forEach_insert {body : Ref → HeapM Unit} {s : Ref}
    (hF : ∀ h c, Forest h → s < h.next → c < h.next → Insertable h s c →
      Forest (body c h).state)
    (hN : ∀ h c, (body c h).state.next = h.next)
    (hI : ∀ h c d, Insertable h s d → d ≠ c → Insertable h s c → Insertable (body c h).state s d)
    {cs : List Ref} (hnd : cs.Nodup) {h : Heap} (F : Forest h) (hs : s < h.next)
    (hcs : ∀ c ∈ cs, c < h.next ∧ Insertable h s c) :
    Forest (forEach body cs h).state := by
  induction cs generalizing h with
  | nil => exact F
  | cons c cs ih =>
    rw [forEach_cons]
    have hc := hcs c (by simp)
    have h1 := hF h c F hs hc.1 hc.2
    have h2 := hN h c
    have h3 := fun d hd hne => hI h c d hd hne hc.2
    have hnd' := List.nodup_cons.mp hnd
    cases hr : body c h with
    | ok u h' =>
      rw [hr] at h1 h2 h3
      simp only [Res.state] at h1 h2 h3
      refine ih hnd'.2 h1 (h2 ▸ hs) fun d hd => ⟨h2 ▸ (hcs d (by simp [hd])).1, ?_⟩
      exact h3 d (hcs d (by simp [hd])).2 (by rintro rfl; exact hnd'.1 hd)
    | err e h' => rw [hr] at h1; exact h1

theorem Forest.remove {h : Heap} (F : Forest h) {s c : Ref} :
    Forest (Nodes.remove s c h).state := by
  rw [remove_apply]
  split
  · exact F
  · rename_i h1
    have hn : h.isInst s .NodeWithChildren = true := by simpa using h1
    split
    · rename_i hm
      exact F.detach hn (by rw [children_eq_kids _ _ hn]; exact hm)
    · exact F

theorem Forest.clear {h : Heap} (F : Forest h) {s : Ref} : Forest (Nodes.clear s h).state := by
  rw [clear_apply]
  split
  · exact F
  · rename_i h1
    have hn : h.isInst s .NodeWithChildren = true := by simpa using h1
    have hk := children_eq_kids h s hn
    have hn' : (orphan (h.get s).kids h).isInst s .NodeWithChildren = true := by simpa using hn
    refine ⟨?_, ?_, ?_, ?_⟩
    · intro r p
      simp only [Res.state]
      rw [parent_withKids, parent_orphan, children_withKids _ _ _ _ hn', children_orphan]
      by_cases hr : r ∈ (h.get s).kids
      · have hps := (F.agree r s).mpr (hk ▸ hr)
        by_cases hp : p = s
        · simp [hr, hp]
        · have : r ∉ h.children p := fun hm => by
            have := (F.agree r p).mpr hm
            rw [hps] at this; simp at this; exact hp this.symm
          simp [hr, hp, this]
      · by_cases hp : p = s
        · subst hp
          have : r ∉ h.children p := hk ▸ hr
          simp [hr, F.agree, this]
        · simp [hr, hp, F.agree]
    · intro p
      simp only [Res.state]
      rw [children_withKids _ _ _ _ hn', children_orphan]
      by_cases hp : p = s
      · simp [hp]
      · simpa [hp] using F.nodup p
    · refine F.acyclic.mono ?_
      intro p r hpr
      simp only [Res.state] at hpr
      rw [parent_withKids, parent_orphan] at hpr
      split at hpr
      · simp at hpr
      · exact hpr
    · intro r p hp
      simp only [Res.state] at hp ⊢
      rw [parent_withKids, parent_orphan] at hp
      split at hp
      · simp at hp
      · simpa using F.bound _ _ hp

theorem Forest.insertReplacements {p i : Nat} {reps : List Ref} {h : Heap} (F : Forest h)
    (hn : h.isInst p .NodeWithChildren = true) (hp : p < h.next) (hnd : reps.Nodup)
    (hr : ∀ r ∈ reps, r < h.next ∧ Insertable h p r) :
    Forest (Nodes.insertReplacements p i reps h).state := by
  induction reps generalizing h i with
  | nil => exact F
  | cons r reps ih =>
    rw [insertReplacements_cons]
    have h1 := hr r (by simp)
    have : h.Allowed r p := h1.2.2.1
    simp only [this, if_true]
    have hnd' := List.nodup_cons.mp hnd
    refine ih (F.attach hn hp h1.1 h1.2.1 h1.2.2.2 ?_) (by simpa using hn) (by simpa using hp)
      hnd'.2 ?_
    · unfold pyInsert
      have h3 := List.perm_middle (a := r) (l₁ := (h.children p).take i)
        (l₂ := (h.children p).drop i)
      rwa [List.take_append_drop] at h3
    · intro d hd
      refine ⟨by simpa using (hr d (by simp [hd])).1, ?_⟩
      exact (hr d (by simp [hd])).2.attach (by rintro rfl; exact hnd'.1 hd) h1.2.2.2

theorem Forest.replaceSelf {h : Heap} (F : Forest h) (I : ApiInv h) {s : Ref} {reps : List Ref}
    (hb : ∀ r ∈ s :: reps, r < h.next)
    (hd : Op.Disciplined h (.replaceSelf s reps)) :
    Forest (Nodes.replaceSelf s reps h).state := by
  rw [replaceSelf_apply]
  cases hp : h.parent s with
  | none => exact F
  | some p =>
    dsimp only
    have hm := (F.agree _ _).mp hp
    have hn := isNWC_of_mem_children hm
    cases (h.children p).idxOf? s with
    | none => exact F
    | some i =>
      dsimp only
      have F' := F.detach hn hm
      rw [remove_apply]
      rw [children_eq_kids _ _ hn] at hm
      simp only [hn, Bool.true_eq_false, if_false, hm, if_true]
      -- ancestors of `p` are as before
      have hanc : ∀ a, AncestorOrSelf ((h.withKids p (·.erase s)).withParent s none) a p →
          AncestorOrSelf h a p := by
        intro a ha
        unfold AncestorOrSelf at ha ⊢
        refine Relation.ReflTransGen.mono (r := fun y q =>
          ((h.withKids p (·.erase s)).withParent s none).parent y = some q) ?_ _ _ ha
        intro y z hyz
        rw [parent_withParent, parent_withKids] at hyz
        split at hyz
        · simp at hyz
        · exact hyz
      refine F'.insertReplacements (by simpa using hn) (by simpa using (F.bound _ _ hp).2) hd.1 ?_
      intro r hr
      refine ⟨by simpa using hb r (by simp [hr]), ?_⟩
      rcases hd.2 p hp r hr with rfl | hi
      · refine ⟨by rw [parent_withParent]; simp, ?_, ?_⟩
        · have : h.Allowed r p := I.allowed _ _ hp
          simpa [MayHaveParent, Allowed] using this
        · exact fun ha => F.not_anc_self_parent hp (hanc _ ha)
      · refine ⟨?_, ?_, fun ha => hi.2.2 (hanc _ ha)⟩
        · rw [parent_withParent, parent_withKids]; simp [hi.1]
        · have : h.Allowed r p := hi.2.1
          simpa [MayHaveParent, Allowed] using this

theorem Forest.removeSelf {h : Heap} (F : Forest h) {s : Ref} :
    Forest (Nodes.removeSelf s h).state := by
  rw [removeSelf_apply]
  cases hp : h.parent s with
  | none => exact F
  | some p =>
    dsimp only
    have hm := (F.agree _ _).mp hp
    have hn := isNWC_of_mem_children hm
    have F' := F.detach hn hm
    rw [remove_apply]
    rw [children_eq_kids _ _ hn] at hm
    simp only [hn, Bool.true_eq_false, if_false, hm, if_true]
    have : ((h.withKids p (·.erase s)).withParent s none).withParent s none
        = (h.withKids p (·.erase s)).withParent s none := by
      unfold withParent update
      congr 1
      funext x
      by_cases hx : x = s <;> simp [hx]
    simp only [Res.state]
    rw [this]; exact F'

theorem Forest.new {h : Heap} (F : Forest h) (n : NodeRec) :
    Forest (h.alloc { n with parent := none, kids := [] }).2 := by
  have hpar : ∀ x, (h.alloc { n with parent := none, kids := [] }).2.parent x =
      if x = h.next then none else h.parent x := by
    intro x; simp only [alloc, parent]; split <;> rfl
  have hch : ∀ x, (h.alloc { n with parent := none, kids := [] }).2.children x =
      if x = h.next then [] else h.children x := by
    intro x
    by_cases hx : x = h.next
    · simp [alloc, children, hx]
    · simp only [alloc, children, isInst, hx, if_false]; rfl
  have hfresh : ∀ p, h.next ∉ h.children p := fun p hm => by
    have := F.bound _ _ ((F.agree _ _).mpr hm); omega
  have hfresh2 : h.children h.next = [] := by
    cases hc : h.children h.next with
    | nil => rfl
    | cons c cs =>
      have : c ∈ h.children h.next := by simp [hc]
      have := F.bound _ _ ((F.agree _ _).mpr this); omega
  have hfresh3 : h.parent h.next = none := by
    cases hc : h.parent h.next with
    | none => rfl
    | some p => have := F.bound _ _ hc; omega
  have hpar' : ∀ x, (h.alloc { n with parent := none, kids := [] }).2.parent x = h.parent x := by
    intro x; rw [hpar]; split
    · subst_vars; rw [hfresh3]
    · rfl
  have hch' : ∀ x, (h.alloc { n with parent := none, kids := [] }).2.children x
      = h.children x := by
    intro x; rw [hch]; split
    · subst_vars; rw [hfresh2]
    · rfl
  refine ⟨?_, ?_, ?_, ?_⟩
  · intro r p; rw [hpar', hch']; exact F.agree r p
  · intro p; rw [hch']; exact F.nodup p
  · simp only [hpar']; exact F.acyclic
  · intro r p; rw [hpar']; intro hp
    have := F.bound _ _ hp
    simp only [alloc]; omega

theorem Forest.run {h : Heap} (F : Forest h) (I : ApiInv h) {op : Op} (hd : op.Disciplined h) :
    Forest (op.run h).state := by
  unfold Op.run
  split
  · rename_i hall
    rw [List.all_eq_true] at hall
    have hb : ∀ r ∈ op.refs, r < h.next := fun r hr => by simpa using hall r hr
    cases op with
    | new n => exact F.new n
    | append s c => exact F.append_ok (hb s (by simp [Op.refs])) (hb c (by simp [Op.refs])) hd
    | prepend s c => exact F.prepend_ok (hb s (by simp [Op.refs])) (hb c (by simp [Op.refs])) hd
    | appendAll s cs =>
      dsimp only
      unfold Nodes.appendAll
      rw [bind_apply, requireNWC_apply]
      split
      · rename_i heq
        split at heq
        · cases heq
          refine Forest.forEach_insert (fun h c F hs hc hi => F.append_ok hs hc hi) ?_ ?_ hd.1 F
            (hb s (by simp [Op.refs]))
            fun c hc => ⟨hb c (by simp [Op.refs, hc]), hd.2 c hc⟩
          · intro h c; rw [append_apply]; repeat' split
            all_goals rfl
          · intro h c d h1 h2 h3; exact h1.append h2 h3
        · cases heq
      · rename_i heq
        split at heq
        · cases heq
        · cases heq; exact F
    | prependAll s cs =>
      dsimp only
      unfold Nodes.prependAll
      rw [bind_apply, requireNWC_apply]
      split
      · rename_i heq
        split at heq
        · cases heq
          refine Forest.forEach_insert (fun h c F hs hc hi => F.prepend_ok hs hc hi) ?_ ?_
            (List.nodup_reverse.mpr hd.1) F (hb s (by simp [Op.refs]))
            fun c hc => ⟨hb c (by simpa [Op.refs] using .inr (List.mem_reverse.mp hc)),
              hd.2 c (List.mem_reverse.mp hc)⟩
          · intro h c; rw [prepend_apply]; repeat' split
            all_goals rfl
          · intro h c d h1 h2 h3; exact h1.prepend h2 h3
        · cases heq
      · rename_i heq
        split at heq
        · cases heq
        · cases heq; exact F
    | prependTuple s cs =>
      dsimp only
      unfold Nodes.prependTuple
      rw [bind_apply, requireNWC_apply]
      split <;> rename_i heq <;> split at heq <;> cases heq <;> exact F
    | remove s c => exact F.remove
    | clear s => exact F.clear
    | replaceSelf s reps => exact F.replaceSelf I hb hd
    | removeSelf s => exact F.removeSelf
  · exact F

theorem Forest.empty : Forest Heap.empty where
  agree r p := by
    simp only [Heap.empty, parent, children, NodeRec.new]
    split <;> simp
  nodup p := by simp only [Heap.empty, children, NodeRec.new]; split <;> simp
  acyclic := ⟨fun x => ⟨_, fun y hy => by simp [Heap.empty, parent, NodeRec.new] at hy⟩⟩
  bound r p hp := by simp [Heap.empty, parent, NodeRec.new] at hp

theorem Forest.runOps {ops : List Op} {h : Heap} (F : Forest h) (I : ApiInv h)
    (hd : DisciplinedHistory ops h) : Forest (runOps ops h) := by
  induction ops generalizing h with
  | nil => exact F
  | cons op ops ih => exact ih (F.run I hd.1) (I.run op) hd.2

/-! ### From a forest to documents -/

theorem Forest.wf_child {h : Heap} (F : Forest h) :
    WellFounded fun c p => h.parent c = some p := by
  let R : Fin h.next → Fin h.next → Prop :=
    fun c p => Relation.TransGen (fun c p => h.parent c = some p) c.1 p.1
  have hR : WellFounded R := by
    have : IsTrans (Fin h.next) R := ⟨fun a b c => Relation.TransGen.trans⟩
    have : Std.Irrefl R := ⟨fun a ha => F.acyclic.transGen.irrefl.irrefl a.1 (by
      have := ha.swap; exact this)⟩
    exact Finite.wellFounded_of_trans_of_irrefl R
  have key : ∀ x : Fin h.next, Acc (fun c p => h.parent c = some p) x.1 := by
    intro x
    induction x using hR.induction with
    | _ x ih =>
      refine ⟨_, fun c hc => ?_⟩
      exact ih ⟨c, (F.bound _ _ hc).1⟩ (.single hc)
  refine ⟨fun x => ⟨_, fun c hc => key ⟨c, (F.bound _ _ hc).1⟩⟩⟩

theorem Forest.exists_tree {h : Heap} (F : Forest h) (r : Ref) :
    ∃ t : Tree, t.root = r ∧ IsTree h (h.parent r) t ∧ t.pre.Nodup ∧
      ∀ x ∈ t.pre, AncestorOrSelf h r x := by
  induction r using F.wf_child.induction with
  | _ r ih =>
    have key : ∀ cs : List Ref, cs.Nodup → (∀ c ∈ cs, h.parent c = some r) →
        ∃ ks : List Tree, ks.map Tree.root = cs ∧ (∀ k ∈ ks, IsTree h (some r) k) ∧
          (Tree.preL ks).Nodup ∧ ∀ x ∈ Tree.preL ks, ∃ c ∈ cs, AncestorOrSelf h c x := by
      intro cs hnd hcs
      induction cs with
      | nil => exact ⟨[], by simp⟩
      | cons c cs ih2 =>
        have hnd' := List.nodup_cons.mp hnd
        have hc := hcs c (by simp)
        obtain ⟨ks, h1, h2, h3, h4⟩ := ih2 hnd'.2 fun d hd => hcs d (by simp [hd])
        obtain ⟨t, t1, t2, t3, t4⟩ := ih c hc
        refine ⟨t :: ks, by simp [t1, h1], ?_, ?_, ?_⟩
        · intro k hk
          rcases List.mem_cons.mp hk with rfl | hk
          · rw [hc] at t2; exact t2
          · exact h2 k hk
        · simp only [Tree.preL_cons, List.nodup_append]
          refine ⟨t3, h3, ?_⟩
          rintro x hx y hy rfl
          obtain ⟨d, hd, hdx⟩ := h4 x hy
          have hcx := t4 x hx
          have hdr := hcs d (by simp [hd])
          have hne : d ≠ c := by rintro rfl; exact hnd'.1 hd
          have hru : Relator.RightUnique (fun y p => h.parent y = some p) := by
            intro a b c hab hac; rw [hab] at hac; simpa using hac
          rcases Relation.ReflTransGen.total_of_right_unique hru hcx hdx with hh | hh
          · rcases Relation.ReflTransGen.cases_head hh with heq | ⟨z, hz, hz2⟩
            · exact hne heq.symm
            · rw [hc] at hz; simp at hz; subst hz
              exact F.not_anc_self_parent hdr hz2
          · rcases Relation.ReflTransGen.cases_head hh with heq | ⟨z, hz, hz2⟩
            · exact hne heq
            · rw [hdr] at hz; simp at hz; subst hz
              exact F.not_anc_self_parent hc hz2
        · intro x hx
          rcases List.mem_append.mp hx with hx | hx
          · exact ⟨c, by simp, t4 x hx⟩
          · obtain ⟨d, hd, h5⟩ := h4 x hx
            exact ⟨d, by simp [hd], h5⟩
    obtain ⟨ks, h1, h2, h3, h4⟩ := key (h.children r) (F.nodup r)
      fun c hc => (F.agree c r).mpr hc
    refine ⟨.node r ks, rfl, ?_, ?_, ?_⟩
    · rw [isTree_node]; exact ⟨rfl, h1.symm, h2⟩
    · simp only [Tree.pre_node, List.nodup_cons]
      refine ⟨fun hr => ?_, h3⟩
      obtain ⟨c, hc, hcr⟩ := h4 r hr
      exact F.not_anc_self_parent ((F.agree c r).mpr hc) hcr
    · intro x hx
      rcases List.mem_cons.mp hx with rfl | hx
      · exact .refl
      · obtain ⟨c, hc, hcr⟩ := h4 x hx
        exact Relation.ReflTransGen.tail hcr ((F.agree c r).mpr hc)

theorem Forest.doc {h : Heap} (F : Forest h) {r : Ref} (hr : h.parent r = none)
    (hb : r < h.next) : ∃ t, Doc h r t := by
  obtain ⟨t, h1, h2, h3, h4⟩ := F.exists_tree r
  refine ⟨t, h1, hr ▸ h2, h3, fun x hx => ?_⟩
  rcases Relation.ReflTransGen.cases_head (h4 x hx) with heq | ⟨z, hz, _⟩
  · rw [heq]; exact hb
  · exact (F.bound _ _ hz).1

end RSM
