import Verif.Lemmas.Edits

/-!
# The tree-editing API of `rsm/nodes.py`: C01 – C05
-/

namespace RSM
open Heap

/-! ## C01 -/

/-- **C01.** After any history of editing calls, failing ones included, a node that has a parent
is listed among that parent's children. -/
theorem C01_parent_lists_child (ops : List Op) (r p : Ref)
    (hp : (runOps ops .empty).parent r = some p) : r ∈ (runOps ops .empty).children p :=
  (ApiInv.empty.runOps ops).sound r p hp

/-- A history with failing calls: node 2 is appended to 0, then (fails) to 1, then replaced. -/
def demoHistory : List Op :=
  [.new (.new .Manuscript), .new (.new .Section), .new (.new .Paragraph), .new (.new .Text),
   .append 0 2, .append 1 2, .append 0 1, .replaceSelf 2 [3], .append 3 2]

example : (runOps demoHistory .empty).parent 3 = some 0 ∧
    (runOps demoHistory .empty).children 0 = [3, 1] ∧
    (runOps demoHistory .empty).parent 2 = none := by decide

/-! ## C02 -/

/-- **C02.** After every history of disciplined calls the nodes form trees. -/
theorem C02_forest (ops : List Op) (hd : DisciplinedHistory ops .empty) :
    Forest (runOps ops .empty) :=
  Forest.empty.runOps ApiInv.empty hd

/-- **C02.** So below every parentless node there is a finite document in which every node
occurs once. -/
theorem C02_documents (ops : List Op) (hd : DisciplinedHistory ops .empty) (r : Ref)
    (hr : r < (runOps ops .empty).next) (hp : (runOps ops .empty).parent r = none) :
    ∃ t, Doc (runOps ops .empty) r t :=
  (C02_forest ops hd).doc hp hr

/-- **C02.** And one disciplined call keeps trees trees from any state that satisfies the
always-true C01 and C05, not only from histories starting with nothing. -/
theorem C02_step (h : Heap) (F : Forest h)
    (allowed : ∀ r p, h.parent r = some p → MayHaveParent h r p) (op : Op)
    (hd : op.Disciplined h) : Forest (op.run h).state :=
  F.run ⟨fun r p hp => (F.agree r p).mp hp, allowed, F.bound⟩ hd

theorem ancestorOrSelf_of_parentless {h : Heap} {a x : Ref} (hx : h.parent x = none) :
    AncestorOrSelf h a x ↔ a = x := by
  constructor
  · intro ha
    rcases Relation.ReflTransGen.cases_head ha with heq | ⟨z, hz, _⟩
    · exact heq.symm
    · rw [hx] at hz; simp at hz
  · rintro rfl; exact .refl

/-- A disciplined history: a manuscript with two paragraphs, one replaced by two others. -/
def goodHistory : List Op :=
  [.new (.new .Manuscript), .new (.new .Paragraph), .new (.new .Paragraph),
   .new (.new .Paragraph), .new (.new .Paragraph), .appendAll 0 [1, 2], .replaceSelf 1 [3, 4],
   .append 0 1, .removeSelf 2]

example : DisciplinedHistory goodHistory .empty := by
  have anc : ∀ (h : Heap) (c : Ref), h.parent 0 = none → c ≠ 0 → ¬ AncestorOrSelf h c 0 :=
    fun h c h1 h2 h3 => h2 ((ancestorOrSelf_of_parentless h1).mp h3)
  refine ⟨trivial, trivial, trivial, trivial, trivial, ⟨by decide, ?_⟩, ⟨by decide, ?_⟩, ?_,
    trivial, trivial⟩
  · intro c hc
    simp only [List.mem_cons, List.not_mem_nil, or_false] at hc
    rcases hc with rfl | rfl
    · exact ⟨by decide, .inl (by decide), anc _ _ (by decide) (by decide)⟩
    · exact ⟨by decide, .inl (by decide), anc _ _ (by decide) (by decide)⟩
  · intro p hp c hc
    have : p = 0 := Option.some.inj (hp.symm.trans (by decide))
    subst this
    simp only [List.mem_cons, List.not_mem_nil, or_false] at hc
    rcases hc with rfl | rfl
    · exact .inr ⟨by decide, .inl (by decide), anc _ _ (by decide) (by decide)⟩
    · exact .inr ⟨by decide, .inl (by decide), anc _ _ (by decide) (by decide)⟩
  · exact ⟨by decide, .inl (by decide), anc _ _ (by decide) (by decide)⟩

example : (runOps goodHistory .empty).children 0 = [3, 4, 1] := by decide

/-- **C02, failure 1.** `prepend` of an existing child lists it twice. -/
theorem C02_prepend_duplicates :
    (runOps [.new (.new .Manuscript), .new (.new .Paragraph), .append 0 1, .prepend 0 1]
      .empty).children 0 = [1, 1] := by decide

/-- **C02, failure 2.** `append` accepts the root of the tree below one of its descendants: the
result is a cycle. -/
theorem C02_append_makes_cycle :
    let h := runOps [.new (.new .Section), .new (.new .Section), .append 0 1, .append 1 0] .empty
    h.parent 0 = some 1 ∧ h.parent 1 = some 0 := by decide

/-- **C02, failure 3.** `replace_self` with a node that sits elsewhere: listed by two parents. -/
theorem C02_replace_self_two_parents :
    let h := runOps [.new (.new .Section), .new (.new .Section), .new (.new .Paragraph),
      .new (.new .Paragraph), .append 0 2, .append 1 3, .replaceSelf 2 [3]] .empty
    3 ∈ h.children 0 ∧ 3 ∈ h.children 1 := by decide

/-- **C02, failure 4.** A rejected `append` leaves a listed child that has no parent. -/
theorem C02_rejected_append_lists_orphan :
    let h := runOps [.new (.new .Paragraph), .new (.new .Item), .append 0 1] .empty
    h.children 0 = [1] ∧ h.parent 1 = none := by decide

/-! ## C03 -/

/-- **C03, append.** A successful `append` adds the child at the end and changes no other link. -/
theorem C03_append (h h' : Heap) (s c : Ref) (hok : Nodes.append s c h = .ok () h') :
    h'.children s = h.children s ++ [c] ∧ h'.parent c = some s ∧
    (∀ x, x ≠ s → h'.children x = h.children x) ∧ (∀ x, x ≠ c → h'.parent x = h.parent x) ∧
    SameAttributes h h' := by
  rw [Nodes.append_apply] at hok
  split at hok; · cases hok
  rename_i h1
  have hn : h.isInst s .NodeWithChildren = true := by simpa using h1
  split at hok; · cases hok
  split at hok
  · cases hok
    refine ⟨by simp [children_withKids _ _ _ _ hn], by simp [parent_withParent], ?_, ?_,
      (SameAttributes.withKids ..).trans (SameAttributes.withParent ..)⟩
    · intro x hx; simp [children_withKids _ _ _ _ hn, hx]
    · intro x hx; simp [parent_withParent, hx]
  · cases hok

/-- **C03, append.** It succeeds exactly for a parentless child of an allowed class. -/
theorem C03_append_succeeds_iff (h : Heap) (s c : Ref) :
    (∃ h', Nodes.append s c h = .ok () h') ↔
      HasChildList h s ∧ h.parent c = none ∧ MayHaveParent h c s := by
  rw [Nodes.append_apply]
  unfold HasChildList
  constructor
  · rintro ⟨h', hok⟩
    split at hok; · cases hok
    rename_i h1
    split at hok; · cases hok
    rename_i h2
    split at hok
    · rename_i h3; exact ⟨by simpa using h1, by simpa using h2, h3⟩
    · cases hok
  · rintro ⟨h1, h2, h3⟩
    have h3 : h.Allowed c s := h3
    simp [h1, h2, h3]

/-- **C03, prepend.** A successful `prepend` adds the child at the front and changes no other
link. -/
theorem C03_prepend (h h' : Heap) (s c : Ref) (hok : Nodes.prepend s c h = .ok () h') :
    h'.children s = c :: h.children s ∧ h'.parent c = some s ∧
    (∀ x, x ≠ s → h'.children x = h.children x) ∧ (∀ x, x ≠ c → h'.parent x = h.parent x) ∧
    SameAttributes h h' := by
  rw [Nodes.prepend_apply] at hok
  split at hok; · cases hok
  rename_i h1
  have hn : h.isInst s .NodeWithChildren = true := by simpa using h1
  split at hok; · cases hok
  split at hok
  · cases hok
    refine ⟨by simp [children_withKids _ _ _ _ hn], by simp [parent_withParent], ?_, ?_,
      (SameAttributes.withKids ..).trans (SameAttributes.withParent ..)⟩
    · intro x hx; simp [children_withKids _ _ _ _ hn, hx]
    · intro x hx; simp [parent_withParent, hx]
  · cases hok

/-- **C03, prepend.** It succeeds exactly for a child of an allowed class that has no parent or
already sits below the same node. -/
theorem C03_prepend_succeeds_iff (h : Heap) (s c : Ref) :
    (∃ h', Nodes.prepend s c h = .ok () h') ↔
      HasChildList h s ∧ (h.parent c = none ∨ h.parent c = some s) ∧ MayHaveParent h c s := by
  rw [Nodes.prepend_apply]
  unfold HasChildList
  constructor
  · rintro ⟨h', hok⟩
    split at hok; · cases hok
    rename_i h1
    split at hok; · cases hok
    rename_i h2
    split at hok
    · rename_i h3
      refine ⟨by simpa using h1, ?_, h3⟩
      by_cases h4 : h.parent c = none
      · exact .inl h4
      · exact .inr (Classical.byContradiction fun h5 => h2 ⟨h4, h5⟩)
    · cases hok
  · rintro ⟨h1, h2, h3⟩
    have h3 : h.Allowed c s := h3
    rcases h2 with h2 | h2 <;> simp [h1, h2, h3]

/-- **C03, append of a list.** The nodes are added at the end, in the given order. -/
theorem C03_append_list (h h' : Heap) (s : Ref) (cs : List Ref)
    (hok : Nodes.appendAll s cs h = .ok () h') :
    h'.children s = h.children s ++ cs ∧ (∀ c ∈ cs, h'.parent c = some s) ∧
    (∀ x, x ≠ s → h'.children x = h.children x) ∧ (∀ x, x ∉ cs → h'.parent x = h.parent x) ∧
    SameAttributes h h' := by
  unfold Nodes.appendAll at hok
  rw [PyM.bind_apply, Nodes.requireNWC_apply] at hok
  by_cases hn : h.isInst s .NodeWithChildren = true
  · simp only [hn, if_true] at hok
    clear hn
    induction cs generalizing h with
    | nil => cases hok; exact ⟨by simp, by simp, fun _ _ => rfl, fun _ _ => rfl, .refl _⟩
    | cons c cs ih =>
      rw [PyM.forEach_cons] at hok
      cases hc : Nodes.append s c h with
      | err e h1 => rw [hc] at hok; cases hok
      | ok u h1 =>
        rw [hc] at hok
        obtain ⟨a1, a2, a3, a4, a5⟩ := C03_append h h1 s c hc
        obtain ⟨b1, b2, b3, b4, b5⟩ := ih h1 hok
        refine ⟨by simp [b1, a1], ?_, ?_, ?_, a5.trans b5⟩
        · intro x hx
          by_cases hm : x ∈ cs
          · exact b2 x hm
          · rw [b4 x hm]
            have : x = c := by simpa [hm] using hx
            rw [this, a2]
        · intro x hx; rw [b3 x hx, a3 x hx]
        · intro x hx
          simp only [List.mem_cons, not_or] at hx
          rw [b4 x hx.2, a4 x hx.1]
  · simp [hn] at hok

/-- **C03, prepend of a list.** The nodes are added at the front, in the given order. -/
theorem C03_prepend_list (h h' : Heap) (s : Ref) (cs : List Ref)
    (hok : Nodes.prependAll s cs h = .ok () h') :
    h'.children s = cs ++ h.children s ∧ (∀ c ∈ cs, h'.parent c = some s) ∧
    (∀ x, x ≠ s → h'.children x = h.children x) ∧ (∀ x, x ∉ cs → h'.parent x = h.parent x) ∧
    SameAttributes h h' := by
  unfold Nodes.prependAll at hok
  rw [PyM.bind_apply, Nodes.requireNWC_apply] at hok
  by_cases hn : h.isInst s .NodeWithChildren = true
  · simp only [hn, if_true] at hok
    clear hn
    obtain ⟨ds, rfl⟩ : ∃ ds : List Ref, cs = ds.reverse := ⟨cs.reverse, by simp⟩
    simp only [List.reverse_reverse] at hok
    simp only [List.mem_reverse]
    induction ds generalizing h with
    | nil => cases hok; exact ⟨by simp, by simp, fun _ _ => rfl, fun _ _ => rfl, .refl _⟩
    | cons c ds ih =>
      rw [PyM.forEach_cons] at hok
      cases hc : Nodes.prepend s c h with
      | err e h1 => rw [hc] at hok; cases hok
      | ok u h1 =>
        rw [hc] at hok
        obtain ⟨a1, a2, a3, a4, a5⟩ := C03_prepend h h1 s c hc
        obtain ⟨b1, b2, b3, b4, b5⟩ := ih h1 hok
        refine ⟨by simp [b1, a1], ?_, ?_, ?_, a5.trans b5⟩
        · intro x hx
          by_cases hm : x ∈ ds
          · exact b2 x hm
          · rw [b4 x hm]
            have : x = c := by simpa [hm] using hx
            rw [this, a2]
        · intro x hx; rw [b3 x hx, a3 x hx]
        · intro x hx
          simp only [List.mem_cons, not_or] at hx
          rw [b4 x hx.2, a4 x hx.1]
  · simp [hn] at hok

/-- **C03, remove.** A successful `remove` deletes the first occurrence of that very node. -/
theorem C03_remove (h h' : Heap) (s c : Ref) (hok : Nodes.remove s c h = .ok () h') :
    (∃ before after, h.children s = before ++ c :: after ∧ c ∉ before ∧
      h'.children s = before ++ after) ∧
    h'.parent c = none ∧
    (∀ x, x ≠ s → h'.children x = h.children x) ∧ (∀ x, x ≠ c → h'.parent x = h.parent x) ∧
    SameAttributes h h' := by
  rw [Nodes.remove_apply] at hok
  split at hok; · cases hok
  rename_i h1
  have hn : h.isInst s .NodeWithChildren = true := by simpa using h1
  split at hok
  · rename_i hm
    cases hok
    rw [← children_eq_kids _ _ hn] at hm
    refine ⟨?_, by simp [parent_withParent], ?_, ?_,
      (SameAttributes.withKids ..).trans (SameAttributes.withParent ..)⟩
    · obtain ⟨before, after, h2, h3⟩ := List.eq_append_cons_of_mem hm
      refine ⟨before, after, h2, h3, ?_⟩
      simp [children_withKids _ _ _ _ hn, h2, Nodes.erase_split h3]
    · intro x hx; simp [children_withKids _ _ _ _ hn, hx]
    · intro x hx; simp [parent_withParent, hx]
  · cases hok

/-- **C03, remove.** It succeeds exactly for a listed child. -/
theorem C03_remove_succeeds_iff (h : Heap) (s c : Ref) :
    (∃ h', Nodes.remove s c h = .ok () h') ↔ c ∈ h.children s := by
  rw [Nodes.remove_apply]
  by_cases hn : h.isInst s .NodeWithChildren = true
  · rw [children_eq_kids _ _ hn]
    by_cases hm : c ∈ (h.get s).kids <;> simp [hn, hm]
  · simp [hn, children]

/-- **C03, clear.** The node loses all its children and they lose their parent. -/
theorem C03_clear (h h' : Heap) (s : Ref) (hok : Nodes.clear s h = .ok () h') :
    h'.children s = [] ∧ (∀ c ∈ h.children s, h'.parent c = none) ∧
    (∀ x, x ≠ s → h'.children x = h.children x) ∧
    (∀ x, x ∉ h.children s → h'.parent x = h.parent x) ∧ SameAttributes h h' := by
  rw [Nodes.clear_apply] at hok
  split at hok; · cases hok
  rename_i h1
  have hn : h.isInst s .NodeWithChildren = true := by simpa using h1
  cases hok
  have hn' : (Nodes.orphan (h.get s).kids h).isInst s .NodeWithChildren = true := by simpa using hn
  rw [children_eq_kids _ _ hn]
  refine ⟨by simp [children_withKids _ _ _ _ hn'], ?_, ?_, ?_,
    (SameAttributes.orphan _ _).trans (SameAttributes.withKids ..)⟩
  · intro c hc; simp [Nodes.parent_orphan, hc]
  · intro x hx; simp [children_withKids _ _ _ _ hn', hx]
  · intro x hx; simp [Nodes.parent_orphan, hx]

/-- **C03, replace_self.** If the node is listed once by its parent `p` and every replacement
may sit below `p`, `replace_self` succeeds, puts the replacements in order at the position of the
node and changes no other children list. -/
theorem C03_replace_self (h : Heap) (r p : Ref) (reps before after : List Ref)
    (hp : h.parent r = some p) (hpos : h.children p = before ++ r :: after) (hnb : r ∉ before)
    (hallowed : ∀ c ∈ reps, MayHaveParent h c p) :
    ∃ h', Nodes.replaceSelf r reps h = .ok () h' ∧
      h'.children p = before ++ reps ++ after ∧
      (∀ x, x ≠ p → h'.children x = h.children x) ∧
      (∀ c ∈ reps, h'.parent c = some p) ∧ (r ∉ reps → h'.parent r = none) ∧
      (∀ x, x ≠ r → x ∉ reps → h'.parent x = h.parent x) ∧ SameAttributes h h' := by
  have hm : r ∈ h.children p := by simp [hpos]
  have hn := isNWC_of_mem_children hm
  rw [Nodes.replaceSelf_apply, hp]
  dsimp only
  rw [Nodes.idxOf?_split.mpr ⟨before, after, hpos, hnb, rfl⟩]
  dsimp only
  rw [Nodes.remove_apply]
  rw [children_eq_kids _ _ hn] at hm
  simp only [hn, Bool.true_eq_false, if_false, hm, if_true]
  obtain ⟨h', e1, e2, e3, e4, e5⟩ := insertReplacements_spec p reps before after
    ((h.withKids p (·.erase r)).withParent r none) (by simpa using hn)
    (by simp [children_withKids _ _ _ _ hn, hpos, Nodes.erase_split hnb])
    (by intro c hc
        have : h.Allowed c p := hallowed c hc
        simpa using this)
  refine ⟨h', e1, e2, ?_, ?_, ?_, ?_,
    ((SameAttributes.withKids _ _ _).trans (SameAttributes.withParent _ _ _)).trans e5⟩
  · intro x hx; simp [e3 x hx, children_withKids _ _ _ _ hn, hx]
  · intro c hc; simp [e4, hc]
  · intro hc; simp [e4, hc, parent_withParent]
  · intro x hx hc; simp [e4, hc, parent_withParent, hx]

/-- **C03, remove_self.** A listed node is deleted from its parent and nothing else changes; a
parentless node stays as it is. -/
theorem C03_remove_self (h : Heap) (r : Ref) :
    (h.parent r = none → Nodes.removeSelf r h = .ok () h) ∧
    (∀ p before after, h.parent r = some p → h.children p = before ++ r :: after → r ∉ before →
      ∃ h', Nodes.removeSelf r h = .ok () h' ∧ h'.children p = before ++ after ∧
        h'.parent r = none ∧ (∀ x, x ≠ p → h'.children x = h.children x) ∧
        (∀ x, x ≠ r → h'.parent x = h.parent x) ∧ SameAttributes h h') := by
  refine ⟨fun hp => by rw [Nodes.removeSelf_apply, hp], ?_⟩
  intro p before after hp hpos hnb
  have hm : r ∈ h.children p := by simp [hpos]
  have hn := isNWC_of_mem_children hm
  rw [Nodes.removeSelf_apply, hp]
  dsimp only
  rw [Nodes.remove_apply]
  rw [children_eq_kids _ _ hn] at hm
  simp only [hn, Bool.true_eq_false, if_false, hm, if_true]
  refine ⟨_, rfl, ?_, ?_, ?_, ?_, ((SameAttributes.withKids _ _ _).trans
    (SameAttributes.withParent _ _ _)).trans (SameAttributes.withParent _ _ _)⟩
  · simp [children_withKids _ _ _ _ hn, hpos, Nodes.erase_split hnb]
  · simp [parent_withParent]
  · intro x hx; simp [children_withKids _ _ _ _ hn, hx]
  · intro x hx; simp [parent_withParent, hx]

/-- A manuscript 0 with children 1, 2, 3 and loose nodes 4, 5. -/
def demoHeap : Heap :=
  runOps [.new (.new .Manuscript), .new (.new .Paragraph), .new (.new .Paragraph),
    .new (.new .Paragraph), .new (.new .Paragraph), .new (.new .Paragraph),
    .appendAll 0 [1, 2, 3]] .empty

example : (Nodes.replaceSelf 2 [4, 5] demoHeap).state.children 0 = [1, 4, 5, 3] ∧
    demoHeap.parent 2 = some 0 ∧ demoHeap.children 0 = [1] ++ 2 :: [3] ∧
    (demoHeap.get 4).cls.possibleParents = [] := by decide
example : (Nodes.append 0 4 demoHeap).state.children 0 = [1, 2, 3, 4] ∧
    (Nodes.prepend 0 4 demoHeap).state.children 0 = [4, 1, 2, 3] ∧
    (Nodes.prependAll 0 [4, 5] demoHeap).state.children 0 = [4, 5, 1, 2, 3] ∧
    (Nodes.remove 0 2 demoHeap).state.children 0 = [1, 3] ∧
    (Nodes.removeSelf 2 demoHeap).state.children 0 = [1, 3] ∧
    (Nodes.clear 0 demoHeap).state.children 0 = [] := by decide

/-! ## C04 -/

/-- **C04.** `append` of a node that already has a parent raises `RSMNodeError` and changes
nothing. -/
theorem C04_append_with_parent (h : Heap) (s c q : Ref) (hs : HasChildList h s)
    (hc : h.parent c = some q) : Nodes.append s c h = .err .rsmNodeError h := by
  rw [Nodes.append_apply]; unfold HasChildList at hs; simp [hs, hc]

/-- **C04.** The same for `prepend`, when that parent is another node. -/
theorem C04_prepend_with_parent (h : Heap) (s c q : Ref) (hs : HasChildList h s)
    (hc : h.parent c = some q) (hq : q ≠ s) :
    Nodes.prepend s c h = .err .rsmNodeError h := by
  rw [Nodes.prepend_apply]; unfold HasChildList at hs; simp [hs, hc, hq]

/-- **C04.** `remove` of a node that is not a child raises and changes nothing. -/
theorem C04_remove_not_child (h : Heap) (s c : Ref) (hs : HasChildList h s)
    (hc : c ∉ h.children s) : Nodes.remove s c h = .err .valueError h := by
  rw [Nodes.remove_apply]; unfold HasChildList at hs
  rw [children_eq_kids _ _ hs] at hc
  simp [hs, hc]

/-- **C04.** `replace_self` of a parentless node raises `RSMNodeError` and changes nothing. -/
theorem C04_replace_self_parentless (h : Heap) (r : Ref) (reps : List Ref)
    (hr : h.parent r = none) : Nodes.replaceSelf r reps h = .err .rsmNodeError h := by
  rw [Nodes.replaceSelf_apply, hr]

/-- **C04.** All failures of `append` of one node: nothing changed, or the class restriction
rejected the parent and the child has already been listed although it has no parent. -/
theorem C04_append_failures (h h' : Heap) (s c : Ref) (e : PyErr)
    (herr : Nodes.append s c h = .err e h') :
    h' = h ∨ (e = .rsmNodeError ∧ h.parent c = none ∧ ¬ MayHaveParent h c s ∧
      h'.children s = h.children s ++ [c] ∧ h'.parent c = none) := by
  rw [Nodes.append_apply] at herr
  split at herr
  · cases herr; exact .inl rfl
  rename_i h1
  have hn : h.isInst s .NodeWithChildren = true := by simpa using h1
  split at herr
  · cases herr; exact .inl rfl
  rename_i h2
  have h2 : h.parent c = none := by simpa using h2
  split at herr
  · cases herr
  · rename_i h3
    cases herr
    exact .inr ⟨rfl, h2, h3, by simp [children_withKids _ _ _ _ hn], by simp [h2]⟩

/-- **C04.** All failures of `remove` and `remove_self` leave everything as it was. -/
theorem C04_remove_failures (h h' : Heap) (s c : Ref) (e : PyErr) :
    (Nodes.remove s c h = .err e h' → h' = h) ∧ (Nodes.removeSelf s h = .err e h' → h' = h) := by
  have key : ∀ s c, Nodes.remove s c h = .err e h' → h' = h := by
    intro s c herr
    rw [Nodes.remove_apply] at herr
    split at herr
    · cases herr; rfl
    · split at herr
      · cases herr
      · cases herr; rfl
  refine ⟨key s c, fun herr => ?_⟩
  rw [Nodes.removeSelf_apply] at herr
  cases hp : h.parent s with
  | none => rw [hp] at herr; cases herr
  | some p =>
    rw [hp] at herr
    dsimp only at herr
    cases hr : Nodes.remove p s h with
    | ok u h1 => rw [hr] at herr; cases herr
    | err e1 h1 => rw [hr] at herr; cases herr; exact key p s hr

example : demoHeap.parent 2 = some 0 ∧ 4 ∉ demoHeap.children 0 ∧ demoHeap.parent 4 = none := by
  decide

/-- **C04, failure 1.** A rejected `append` has already changed the children. -/
theorem C04_append_not_atomic :
    let h := runOps [.new (.new .Paragraph), .new (.new .Item)] .empty
    (Nodes.append 0 1 h).raised = some .rsmNodeError ∧ h.children 0 = [] ∧
    (Nodes.append 0 1 h).state.children 0 = [1] := by decide

/-- **C04, failure 2.** So has a rejected `prepend`. -/
theorem C04_prepend_not_atomic :
    let h := runOps [.new (.new .Paragraph), .new (.new .Item)] .empty
    (Nodes.prepend 0 1 h).raised = some .rsmNodeError ∧ h.children 0 = [] ∧
    (Nodes.prepend 0 1 h).state.children 0 = [1] := by decide

/-- **C04, failure 3.** A rejected `replace_self` has removed the node and listed the
replacement, which has no parent. -/
theorem C04_replace_self_not_atomic :
    let h := runOps [.new (.new .Section), .new (.new .Paragraph), .new (.new .Item),
      .append 0 1] .empty
    (Nodes.replaceSelf 1 [2] h).raised = some .rsmNodeError ∧
    (Nodes.replaceSelf 1 [2] h).state.children 0 = [2] ∧
    (Nodes.replaceSelf 1 [2] h).state.parent 2 = none := by decide

/-- **C04, failure 4.** `append` of a list stops at the bad element and keeps the earlier ones. -/
theorem C04_append_list_not_atomic :
    let h := runOps [.new (.new .Section), .new (.new .Section), .new (.new .Paragraph),
      .new (.new .Paragraph), .append 1 3] .empty
    (Nodes.appendAll 0 [2, 3] h).raised = some .rsmNodeError ∧
    (Nodes.appendAll 0 [2, 3] h).state.children 0 = [2] := by decide

/-! ## C05 -/

/-- **C05.** After any history, a node of a class with restricted parents that has a parent has
one of exactly an allowed class. -/
theorem C05_possible_parents (ops : List Op) (r p : Ref)
    (hp : (runOps ops .empty).parent r = some p)
    (hrestr : ((runOps ops .empty).get r).cls.possibleParents ≠ []) :
    ((runOps ops .empty).get p).cls ∈ ((runOps ops .empty).get r).cls.possibleParents :=
  ((ApiInv.empty.runOps ops).allowed r p hp).resolve_left hrestr

/-- **C05.** The three restricted classes: an `Item` sits in a list or table of contents, a
`Step` in a proof, subproof or step, a `Caption` in a figure or table. -/
theorem C05_restricted_classes (ops : List Op) (r p : Ref)
    (hp : (runOps ops .empty).parent r = some p) :
    (((runOps ops .empty).get r).cls = .Item →
      ((runOps ops .empty).get p).cls ∈ [Cls.Itemize, .Enumerate, .Contents]) ∧
    (((runOps ops .empty).get r).cls = .Step →
      ((runOps ops .empty).get p).cls ∈ [Cls.Proof, .Subproof, .Step]) ∧
    (((runOps ops .empty).get r).cls = .Caption →
      ((runOps ops .empty).get p).cls ∈ [Cls.Figure, .Table]) := by
  have key := C05_possible_parents ops r p hp
  refine ⟨fun h => ?_, fun h => ?_, fun h => ?_⟩ <;> rw [h] at key <;> exact key (by decide)

/-- The restriction concerns these three classes only. -/
theorem C05_only_these (c : Cls) :
    c.possibleParents ≠ [] ↔ c = .Item ∨ c = .Step ∨ c = .Caption := by
  cases c <;> decide

example :
    let h := runOps [.new (.new .Itemize), .new (.new .Item), .append 0 1] .empty
    h.parent 1 = some 0 ∧ (h.get 1).cls.possibleParents ≠ [] := by decide

end RSM
