import Verif.Lemmas.TrFormat
import Verif.Lemmas.BalMarks

/-! # Lemmas: when visiting a node raises an exception -/

namespace RSM
namespace Tr
open PyM

/-- The program raises an exception exactly if there is a reason, and then one there is a reason for. -/
structure Ends {α : Type} (m : TrM α) (s : TrState) (bad : PyErr → Prop) : Prop where
  ends : match m s with
    | .ok _ _ => ∀ e, ¬ bad e
    | .err e _ => bad e

section
variable {α β : Type} {s : TrState} {bad bad' : PyErr → Prop}

theorem Ends.pure {a : α} (h : ∀ e, ¬ bad e) : Ends (Pure.pure a : TrM α) s bad := ⟨h⟩
theorem Ends.throw {e : PyErr} (h : bad e) : Ends (PyM.throw e : TrM α) s bad := ⟨h⟩
theorem Ends.bind {m : TrM α} {f : α → TrM β} (hm : Ends m s bad)
    (hf : ∀ a s', m s = .ok a s' → Ends (f a) s' bad') : Ends (m >>= f) s fun e => bad e ∨ bad' e := by
  constructor
  rw [bind_apply]
  have h := hm.ends
  cases e : m s with
  | err x s' => rw [e] at h; exact .inl h
  | ok a s' =>
    rw [e] at h
    have h2 := (hf a s' e).ends
    dsimp only
    revert h2
    cases f a s' with
    | err x s2 => exact .inr
    | ok b s2 => exact fun h2 x hx => hx.elim (h x) (h2 x)
theorem Ends.iff {m : TrM α} (h : Ends m s bad) (hb : ∀ e, bad e ↔ bad' e) : Ends m s bad' := by
  constructor
  have := h.ends
  revert this
  cases m s with
  | err x s2 => exact (hb x).mp
  | ok b s2 => exact fun h x hx => h x ((hb x).mpr hx)
theorem Ends.next {m : TrM α} {f : α → TrM β} {a : α} {s' : TrState} (hm : m s = .ok a s')
    (hf : Ends (f a) s' bad) : Ends (m >>= f) s bad := by
  constructor
  rw [bind_apply, hm]
  exact hf.ends
theorem Ends.last {m : TrM α} {f : α → TrM β} (hm : Ends m s bad)
    (hf : ∀ a s', m s = .ok a s' → Ends (f a) s' fun _ => False) : Ends (m >>= f) s bad :=
  (hm.bind hf).iff fun e => by simp
theorem Ends.get {f : TrState → TrM β} (hf : Ends (f s) s bad) : Ends (PyM.get >>= f) s bad := Ends.next rfl hf
theorem Ends.node {r : Ref} {f : NodeRec → TrM β} (hf : Ends (f (s.heap.get r)) s bad) : Ends (Tr.node r >>= f) s bad :=
  Ends.next rfl hf
theorem Ends.assign {r : Ref} {g : NodeRec → NodeRec} {f : Unit → TrM β}
    (hf : Ends (f ()) { s with heap := s.heap.update r g } bad) : Ends (Tr.assign r g >>= f) s bad :=
  Ends.next rfl hf
theorem Ends.ok {m : TrM α} {a : α} {s' : TrState} (hm : m s = .ok a s') : Ends m s fun _ => False :=
  ⟨by rw [hm]; exact fun _ h => h⟩
end

/-! ## Numbers and names -/

/-- The model has steps enough to number the node. -/
def Num (k : Conf) (h : Heap) (r : Ref) : Prop := (h.fullNumber k.fuel r).isSome

theorem Num.frame {k : Conf} {h h' : Heap} (hf : SameFrame h h') {r} (hn : Num k h r) : Num k h' r := by
  unfold Num; rw [hf.fullNumber]; exact hn

section
variable {k : Conf} {s : TrState} {r : Ref}

theorem fullNumber_ok (hn : Num k s.heap r) : ∃ o, fullNumber k r s = .ok o s := by
  obtain ⟨o, ho⟩ := Option.isSome_iff_exists.mp hn
  refine ⟨o, ?_⟩
  simp only [fullNumber, bind_apply, get_apply, ho, pure_apply]

theorem reftext_ends (hn : Num k s.heap r) : Ends (reftext k r) s (BadTemplate (s.heap.get r).reftextTemplate) := by
  obtain ⟨o, ho⟩ := fullNumber_ok hn
  unfold reftext
  refine Ends.next ho (Ends.get ?_)
  dsimp only
  rcases formatGo_cases (s.heap.get r).cls.name (fmtOpt o) (s.heap.get r).reftextTemplate with ⟨x, hx, h⟩ | ⟨e, hx, h⟩
  · rw [hx]; exact Ends.next rfl (Ends.pure h)
  · rw [hx]; exact ⟨h⟩

theorem handrailItems_ends (hn : Num k s.heap r) (a c d) :
    Ends (handrailItems k r a c d) s (BadTemplate (s.heap.get r).reftextTemplate) := by
  unfold handrailItems
  exact Ends.node ((reftext_ends hn).last fun _ _ _ => Ends.pure fun _ h => h)

theorem wrapHeading_ends (hn : Num k s.heap r) (l) :
    Ends (wrapHeading k r l) s (BadTemplate (s.heap.get r).reftextTemplate) := by
  unfold wrapHeading
  exact Ends.node ((reftext_ends hn).last fun _ _ _ => Ends.pure fun _ h => h)

theorem wrapIf_ends (hn : Num k s.heap r) (l) :
    Ends (wrapIf k r l) s fun e => k.handrails = true ∧ BadTemplate (s.heap.get r).reftextTemplate e := by
  unfold wrapIf
  split
  · rename_i h; exact (wrapHeading_ends hn l).iff fun e => by simp [h]
  · rename_i h; exact Ends.pure fun e he => h he.1

theorem hrLabeled_ends (hn : Num k s.heap r) (l c) :
    Ends (hrLabeled k r l c) s (BadTemplate (s.heap.get r).reftextTemplate) := by
  unfold hrLabeled
  exact (handrailItems_ends hn _ _ _).last fun _ _ _ => Ends.pure fun _ h => h

theorem template_frame {h h' : Heap} (hf : SameFrame h h') (x : Ref) :
    (h'.get x).reftextTemplate = (h.get x).reftextTemplate := hf.field (·.reftextTemplate) (fun _ => rfl) x

theorem sectionItems_runs (hn : Num k s.heap r) (hl : (s.heap.get r).cls.level.isSome) :
    ∃ l s', sectionItems k r s = .ok l s' := by
  obtain ⟨lvl, hl⟩ := Option.isSome_iff_exists.mp hl
  have : ∀ s : TrState, Num k s.heap r → ∃ n, sectionHeading k r s = .ok n s := by
    intro s hn
    obtain ⟨o, ho⟩ := fullNumber_ok hn
    unfold sectionHeading
    simp only [bind_apply, node, gets_apply]
    by_cases h : (s.heap.get r).nonum = true
    · rw [if_pos h]; exact ⟨_, rfl⟩
    · rw [if_neg h]; simp only [bind_apply, ho]; exact ⟨_, rfl⟩
  obtain ⟨n, h⟩ := this { s with heap := s.heap.update r fun nd => { nd with types := ("level-".toList ++ natStr lvl) :: nd.types } }
    (hn.frame (SameFrame.update s.heap r (fun nd => { nd with types := ("level-".toList ++ natStr lvl) :: nd.types })
      fun _ => rfl))
  unfold sectionItems
  simp only [bind_apply, node, gets_apply, hl, assign, modify_apply, h]
  exact ⟨_, _, rfl⟩

theorem theoremItems_runs (hn : Num k s.heap r) : ∃ l, theoremItems k r s = .ok l s := by
  obtain ⟨o, ho⟩ := fullNumber_ok hn
  have : ∃ n, theoremNumber k r s = .ok n s := by
    unfold theoremNumber
    simp only [bind_apply, node, gets_apply]
    by_cases h : ¬ (s.heap.get r).nonum = true ∧ (s.heap.get r).number.truthy = true
    · rw [if_pos h]; simp only [bind_apply, ho]; exact ⟨_, rfl⟩
    · rw [if_neg h]; exact ⟨_, rfl⟩
  obtain ⟨n, h⟩ := this
  unfold theoremItems
  simp only [bind_apply, node, gets_apply, h]
  exact ⟨_, rfl⟩

theorem proofItems_runs : ∃ l s', proofItems r s = .ok l s' := by
  have : ∃ s', markLast r s = .ok () s' := by
    unfold markLast
    simp only [bind_apply, get_apply]
    cases s.heap.lastOfType r [.Step] <;> exact ⟨_, rfl⟩
  obtain ⟨s', h⟩ := this
  unfold proofItems
  simp only [bind_apply, h]
  exact ⟨_, _, rfl⟩

/-! ## Links -/

theorem ahref_ends {y : Ref} (hn : Num k s.heap y) (a b c) :
    Ends (ahref k r (.node y) a b c) s fun e =>
      ¬ ((s.heap.get r).cls.isSub .BaseReference = true ∧ (s.heap.get r).overwriteReftext ≠ []) ∧
        BadTemplate (s.heap.get y).reftextTemplate e := by
  unfold ahref
  refine Ends.next (a := ()) (s' := s) rfl (Ends.last ?_ ?_)
  · unfold linkText
    refine Ends.node ?_
    by_cases ho : (s.heap.get r).cls.isSub .BaseReference = true ∧ (s.heap.get r).overwriteReftext ≠ []
    · rw [if_pos ho]
      exact Ends.pure fun e he => he.1 ho
    · rw [if_neg ho]
      exact (reftext_ends hn).iff fun e => (and_iff_right ho).symm
  · intro a s' _
    have : ∀ s', ∃ s2, addReferenceType r s' = .ok () s2 := by
      intro s'
      unfold addReferenceType
      simp only [bind_apply, node, gets_apply]
      split <;> exact ⟨_, rfl⟩
    obtain ⟨s2, h2⟩ := this s'
    exact Ends.next h2 (Ends.node (Ends.pure fun _ h => h))

theorem ahref_url_ends {u : Str} (a b c) :
    Ends (ahref k r (.url u) a b c) s fun e => u = [] ∧ e = .rsmTranslatorError := by
  unfold ahref
  cases u with
  | nil => exact ⟨⟨rfl, rfl⟩⟩
  | cons x u =>
    refine Ends.next (a := ()) (s' := s) rfl ?_
    have h1 : ∃ o, linkText k r (.url (x :: u)) s = .ok o s := by
      unfold linkText
      simp only [bind_apply, node, gets_apply]
      split <;> exact ⟨_, rfl⟩
    have h2 : ∃ s2, addReferenceType r s = .ok () s2 := by
      unfold addReferenceType
      simp only [bind_apply, node, gets_apply]
      split <;> exact ⟨_, rfl⟩
    obtain ⟨o, h1⟩ := h1
    obtain ⟨s2, h2⟩ := h2
    exact Ends.next h1 (Ends.next h2 (Ends.node (Ends.pure fun e h => by cases h.1)))

theorem citeTags_ends : ∀ (xs : List Ref) (i : Nat) (s : TrState), (s.heap.get r).cls.isSub .BaseReference = false →
    (∀ y ∈ xs, Num k s.heap y) → Ends (citeTags k r i xs) s fun e =>
      ∃ y ∈ xs, BadTemplate (s.heap.get y).reftextTemplate e
  | [], _, _, _, _ => Ends.pure fun e h => by simp at h
  | x :: xs, i, s, hb, hn => by
    unfold citeTags
    refine Ends.get ?_
    refine Ends.iff (Ends.bind (ahref_ends (hn x (by simp)) _ _ _) (bad' := fun e =>
      ∃ y ∈ xs, BadTemplate (s.heap.get y).reftextTemplate e) ?_) ?_
    · intro a s' h'
      have hf : SameFrame s.heap s'.heap := by
        have := (ahref_keeps k r (.node x) ('#' :: (s.heap.get x).label)
          ((s.heap.get r).label ++ '-' :: natStr i) ["cite".toList]).keep s
        rw [h'] at this; exact this.frame
      refine Ends.last ((citeTags_ends xs (i + 1) s' (by rw [hf.cls]; exact hb)
        fun y hy => (hn y (by simp [hy])).frame hf).iff fun e => ?_) fun _ _ _ => Ends.pure fun _ h => h
      simp only [template_frame hf]
    · intro e
      simp [hb]

theorem visitCite_ends (hb : (s.heap.get r).cls.isSub .BaseReference = false)
    (hn : ∀ y ∈ (s.heap.get r).targets, Num k s.heap y) : Ends (visitCite k r) s fun e =>
      ∃ y ∈ (s.heap.get r).targets, BadTemplate (s.heap.get y).reftextTemplate e := by
  unfold visitCite
  refine Ends.get ?_
  dsimp only
  split
  · rename_i x hx
    rw [hx] at hn ⊢
    exact ((ahref_ends (hn x (by simp)) _ _ _).last fun _ _ _ => Ends.pure fun _ h => h).iff fun e => by simp [hb]
  · exact (citeTags_ends _ _ _ hb hn).last fun _ _ _ => Ends.pure fun _ h => h

theorem visitReference_ends (hb : (s.heap.get r).cls.isSub .BaseReference = true)
    (hn : ∀ y, (s.heap.get r).target = .node y → Num k s.heap y) : Ends (visitReference k r) s fun e =>
      (∀ y, (s.heap.get r).target ≠ .node y) ∧ e = .attributeError ∨
      (s.heap.get r).overwriteReftext = [] ∧ ∃ y, (s.heap.get r).target = .node y ∧ BadTemplate (s.heap.get y).reftextTemplate e := by
  unfold visitReference
  refine Ends.get ?_
  split
  · rename_i x hx
    refine ((ahref_ends (hn x hx) _ _ _).last fun _ _ _ => Ends.pure fun _ h => h).iff fun e => ?_
    rw [hx]
    simp [hb]
  · rename_i hx
    exact ⟨.inl ⟨fun y hy => hx y hy, rfl⟩⟩

theorem visitUrl_ends (hb : (s.heap.get r).cls.isSub .BaseReference = true)
    (hn : ∀ y, (s.heap.get r).target = .node y → Num k s.heap y) : Ends (visitUrl k r) s fun e =>
      ((s.heap.get r).target = .none ∨ (s.heap.get r).target = .str []) ∧ e = .rsmTranslatorError ∨
      (s.heap.get r).overwriteReftext = [] ∧ ∃ y, (s.heap.get r).target = .node y ∧ BadTemplate (s.heap.get y).reftextTemplate e := by
  unfold visitUrl
  refine Ends.get ?_
  split
  · rename_i hx
    exact ⟨.inl ⟨.inl hx, rfl⟩⟩
  · rename_i u hx
    refine ((ahref_url_ends _ _ _).last fun _ _ _ => Ends.pure fun _ h => h).iff fun e => ?_
    rw [hx]
    simp
  · rename_i x hx
    refine ((ahref_ends (hn x hx) _ _ _).last fun _ _ _ => Ends.pure fun _ h => h).iff fun e => ?_
    rw [hx]
    simp [hb]

/-! ## Entries of the bibliography -/

theorem warns_ok (l : List Warning) : ∀ s : TrState, ∃ s', forEach warn l s = .ok () s' := by
  induction l with
  | nil => exact fun s => ⟨s, rfl⟩
  | cons w l ih =>
    intro s
    obtain ⟨s', h⟩ := ih { s with log := s.log ++ [w] }
    exact ⟨s', h⟩

theorem bibitemText_ends : Ends (bibitemText r) s fun e => (s.heap.get r).year.truthy = true ∧
    (∀ y, (s.heap.get r).year ≠ .str y) ∧ e = .attributeError := by
  unfold bibitemText
  refine Ends.node ?_
  obtain ⟨s1, h1⟩ := warns_ok (bibitemParts (s.heap.get r)).2 s
  refine Ends.next h1 (Ends.last ?_ fun a s2 _ => ?_)
  · unfold bibitemYear
    split
    · rename_i ht
      split
      · rename_i y hy
        exact Ends.pure fun e he => he.2.1 y hy
      · rename_i hy
        exact ⟨⟨ht, hy, rfl⟩⟩
    · rename_i ht
      exact Ends.next (a := ()) (s' := { s1 with log := s1.log ++ [_] }) rfl (Ends.pure fun e he => ht he.1)
  · have : ∃ d s3, bibitemDoi (s.heap.get r) s2 = .ok d s3 := by
      unfold bibitemDoi; split <;> exact ⟨_, _, rfl⟩
    obtain ⟨d, s3, h3⟩ := this
    exact Ends.next h3 (Ends.pure fun _ h => h)

theorem hrVisitBibitem_ends : Ends (hrVisitBibitem r) s fun e => (s.heap.get r).year.truthy = true ∧
    (∀ y, (s.heap.get r).year ≠ .str y) ∧ e = .attributeError := by
  unfold hrVisitBibitem
  refine Ends.node (bibitemText_ends.last fun a s' _ => ?_)
  split
  · exact Ends.ok (s' := { s' with log := s'.log ++ [_] }) rfl
  · exact Ends.pure fun _ h => h

/-! ## Maps -/

theorem radius_none (c : Cls) : radius c = none ↔ c ∉ [.Section, .Subsection, .Subsubsection] := by
  cases c <;> decide

theorem minimapCircles_cases (h : Heap) (w : Bool) : ∀ (l : List Ref) (i : Nat),
    (∃ c, minimapCircles h w i l = .ok c ∧ ∀ y ∈ l, ∃ z, (h.get y).target = .node z ∧ IsSection h z) ∨
    minimapCircles h w i l = .error .keyError ∧ ∃ y ∈ l, ∀ z, (h.get y).target = .node z → ¬ IsSection h z
  | [], _ => .inl ⟨[], rfl, by simp⟩
  | y :: l, i => by
    unfold minimapCircles
    split
    · rename_i z hz
      split
      · rename_i hr
        refine .inr ⟨rfl, y, by simp, fun z' hz' => ?_⟩
        rw [hz] at hz'; cases hz'
        exact (radius_none _).mp hr
      · rename_i rad hr
        have hs : IsSection h z := by
          refine Classical.byContradiction fun hc => ?_
          rw [(radius_none _).mpr hc] at hr; cases hr
        rcases minimapCircles_cases h w l (i + 1) with ⟨c, h1, h2⟩ | ⟨h1, y', hy', h2⟩
        · rw [h1]
          refine .inl ⟨_, rfl, ?_⟩
          intro y' hy'
          rcases List.mem_cons.mp hy' with rfl | hy'
          · exact ⟨z, hz, hs⟩
          · exact h2 y' hy'
        · rw [h1]
          exact .inr ⟨rfl, y', by simp [hy'], h2⟩
    · rename_i hz
      exact .inr ⟨rfl, y, by simp, fun z hz' => absurd hz' (hz z)⟩

theorem isSub_reference (c : Cls) : c.isSub .Reference = true ↔ c = .Reference := by cases c <;> decide
theorem isSub_contents (c : Cls) : c.isSub .Contents = true ↔ c = .Contents := by cases c <;> decide

theorem minimap_ends {u : Tree} (ht : s.heap.traverse (fun r => s.heap.isInst r .Reference) k.fuel [u.root] =
    some (u.pre.filter fun r => s.heap.isInst r .Reference)) (f w) :
    Ends (minimap k u.root f w) s fun e => (∃ y ∈ u.pre, (s.heap.get y).cls = .Reference ∧
      ∀ z, (s.heap.get y).target = .node z → ¬ IsSection s.heap z) ∧ e = .keyError := by
  unfold minimap
  refine Ends.get ?_
  rw [ht]
  dsimp only
  have hm : ∀ y, y ∈ u.pre.filter (fun r => s.heap.isInst r .Reference) ↔ y ∈ u.pre ∧ (s.heap.get y).cls = .Reference := by
    intro y
    rw [List.mem_filter]
    exact and_congr_right fun _ => isSub_reference _
  rcases minimapCircles_cases s.heap w (u.pre.filter fun r => s.heap.isInst r .Reference) 0 with ⟨c, h1, h2⟩ | ⟨h1, y, hy, h2⟩
  · rw [h1]
    refine Ends.next (a := c) (s' := s) rfl (Ends.pure ?_)
    rintro e ⟨⟨y, hy, hc, hn⟩, _⟩
    obtain ⟨z, hz, hs⟩ := h2 y ((hm y).mpr ⟨hy, hc⟩)
    exact hn z hz hs
  · rw [h1]
    exact ⟨⟨y, ((hm y).mp hy).1, ((hm y).mp hy).2, h2⟩, rfl⟩

theorem find_zipIdx (h : Heap) : ∀ (l : List Ref) (n : Nat),
    ((l.zipIdx n).find? fun ci => h.isInstAny ci.1 [.Contents]).map (·.1) =
      l.find? fun c => (h.get c).cls = .Contents
  | [], _ => rfl
  | c :: l, n => by
    have hc : h.isInstAny c [.Contents] = decide ((h.get c).cls = .Contents) := by
      rw [Bool.eq_iff_iff, decide_eq_true_iff, ← isSub_contents]
      simp [Heap.isInstAny, Cls.isSubAny]
    rw [List.zipIdx_cons, List.find?_cons, List.find?_cons, hc]
    cases decide ((h.get c).cls = .Contents)
    · exact find_zipIdx h l (n + 1)
    · rfl

theorem firstOfType_contents (h : Heap) (r : Ref) :
    (h.firstOfType r [.Contents]).map (·.1) = (h.children r).find? fun c => (h.get c).cls = .Contents :=
  find_zipIdx h _ 0
end

end Tr
end RSM
