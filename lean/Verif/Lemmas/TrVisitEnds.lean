import Verif.Lemmas.TrEnds

/-! # Lemmas: a visit raises an exception exactly if there is an obstacle -/

namespace RSM
namespace Tr
open PyM

/-- What a visit needs of the document besides the absence of obstacles. -/
structure Fit (k : Conf) (h : Heap) (t : Tree) (r : Ref) : Prop where
  num : Num k h r
  par : ∀ p, h.parent r = some p → Num k h p
  tgt : ∀ y, LeadsTo h r y → Num k h y
  trav : ∀ u ∈ t.subtrees, h.traverse (fun r => h.isInst r .Reference) k.fuel [u.root] =
    some (u.pre.filter fun r => h.isInst r .Reference)
  uniq : ∀ u ∈ t.subtrees, ∀ v ∈ t.subtrees, u.root = v.root → u = v
  self : ∃ u ∈ t.subtrees, u.root = r
  kids : ∀ c ∈ h.children r, ∃ u ∈ t.subtrees, u.root = c
  sib : ∃ o, h.nextSibling r .any = .ok o

theorem obstacle_iff {b : Bool} {h : Heap} {t : Tree} {x : Ref} {e : PyErr} : Obstacle b h t x e ↔
    (b = false ∧ (h.get x).cls = .MathBlock ∧ (∀ p, h.parent x = some p → h.isInst p .Paragraph = false) ∧ e = .assertionError) ∨
    ((h.get x).cls = .URL ∧ ((h.get x).target = .none ∨ (h.get x).target = .str []) ∧ e = .rsmTranslatorError) ∨
    ((h.get x).cls = .Reference ∧ (∀ y, (h.get x).target ≠ .node y) ∧ e = .attributeError) ∨
    ((h.get x).cls ∈ [.Reference, .URL] ∧ (h.get x).overwriteReftext = [] ∧
      ∃ y, (h.get x).target = .node y ∧ BadTemplate (h.get y).reftextTemplate e) ∨
    ((h.get x).cls = .Cite ∧ ∃ y ∈ (h.get x).targets, BadTemplate (h.get y).reftextTemplate e) ∨
    ((h.get x).cls.isSub .Bibitem = true ∧ (h.get x).year.truthy = true ∧ (∀ y, (h.get x).year ≠ .str y) ∧ e = .attributeError) ∨
    ((h.get x).cls = .Caption ∧ h.parent x = none ∧ e = .attributeError) ∨
    (b = true ∧ (h.get x).cls = .Author ∧ ((h.get x).name = [] ∧ (h.get x).affiliation = [] ∧ (h.get x).email = []) ∧ e = .attributeError) ∨
    (b = true ∧ hasMenu (h.get x).cls = true ∧ BadTemplate (h.get x).reftextTemplate e) ∨
    (b = true ∧ (h.get x).cls = .MathBlock ∧ (h.get x).nonum = false ∧ BadTemplate (h.get x).reftextTemplate e) ∨
    (b = true ∧ ∃ u ∈ t.subtrees, ((h.get x).cls = .Contents ∧ u.root = x ∨
        (h.get x).cls = .Manuscript ∧ (h.children x).find? (fun c => (h.get c).cls = .Contents) = some u.root) ∧
      (∃ y ∈ u.pre, (h.get y).cls = .Reference ∧ ∀ z, (h.get y).target = .node z → ¬ IsSection h z) ∧ e = .keyError) := by
  constructor
  · intro o
    cases o with
    | formula h1 h2 h3 => exact .inl ⟨h1, h2, h3, rfl⟩
    | noTarget h1 h2 => exact .inr <| .inl ⟨h1, h2, rfl⟩
    | unresolved h1 h2 => exact .inr <| .inr <| .inl ⟨h1, h2, rfl⟩
    | reference h1 h2 h3 h4 => exact .inr <| .inr <| .inr <| .inl ⟨h1, h2, _, h3, h4⟩
    | cite h1 h2 h3 => exact .inr <| .inr <| .inr <| .inr <| .inl ⟨h1, _, h2, h3⟩
    | year h1 h2 h3 => exact .inr <| .inr <| .inr <| .inr <| .inr <| .inl ⟨h1, h2, h3, rfl⟩
    | caption h1 h2 => exact .inr <| .inr <| .inr <| .inr <| .inr <| .inr <| .inl ⟨h1, h2, rfl⟩
    | author h1 h2 h3 h4 h5 =>
      exact .inr <| .inr <| .inr <| .inr <| .inr <| .inr <| .inr <| .inl ⟨h1, h2, ⟨h3, h4, h5⟩, rfl⟩
    | menu h1 h2 h3 => exact .inr <| .inr <| .inr <| .inr <| .inr <| .inr <| .inr <| .inr <| .inl ⟨h1, h2, h3⟩
    | equation h1 h2 h3 h4 =>
      exact .inr <| .inr <| .inr <| .inr <| .inr <| .inr <| .inr <| .inr <| .inr <| .inl ⟨h1, h2, h3, h4⟩
    | minimap h1 h2 h3 h4 h5 h6 =>
      exact .inr <| .inr <| .inr <| .inr <| .inr <| .inr <| .inr <| .inr <| .inr <| .inr
        ⟨h1, _, h2, h3, ⟨_, h4, h5, h6⟩, rfl⟩
  · rintro (⟨h1, h2, h3, rfl⟩ | ⟨h1, h2, rfl⟩ | ⟨h1, h2, rfl⟩ | ⟨h1, h2, _, h3, h4⟩ | ⟨h1, _, h2, h3⟩ |
      ⟨h1, h2, h3, rfl⟩ | ⟨h1, h2, rfl⟩ | ⟨h1, h2, ⟨h3, h4, h5⟩, rfl⟩ | ⟨h1, h2, h3⟩ | ⟨h1, h2, h3, h4⟩ |
      ⟨h1, u, h2, h3, ⟨_, h4, h5, h6⟩, rfl⟩)
    · exact .formula h1 h2 h3
    · exact .noTarget h1 h2
    · exact .unresolved h1 h2
    · exact .reference h1 h2 h3 h4
    · exact .cite h1 h2 h3
    · exact .year h1 h2 h3
    · exact .caption h1 h2
    · exact .author h1 h2 h3 h4 h5
    · exact .menu h1 h2 h3
    · exact .equation h1 h2 h3 h4
    · exact .minimap h1 h2 h3 h4 h5 h6

section
variable {k : Conf} {s : TrState} {r : Ref} {t : Tree}

theorem visitMathBlock_ends : Ends (visitMathBlock r) s fun e =>
    (∀ p, s.heap.parent r = some p → s.heap.isInst p .Paragraph = false) ∧ e = .assertionError := by
  unfold visitMathBlock
  refine Ends.get ?_
  dsimp only
  cases hp : s.heap.parent r with
  | none =>
    dsimp only
    rw [if_neg (by simp)]
    exact Ends.throw ⟨fun p h => (by cases h), rfl⟩
  | some p =>
    dsimp only
    by_cases h : s.heap.isInst p .Paragraph = true
    · rw [if_pos h]
      exact Ends.pure fun e he => by rw [he.1 p rfl] at h; cases h
    · rw [if_neg h]
      refine Ends.throw ⟨fun q hq => ?_, rfl⟩
      cases hq
      simpa using h

theorem hrVisitMathBlock_ends (hn : Num k s.heap r) : Ends (hrVisitMathBlock k r) s fun e =>
    (s.heap.get r).nonum = false ∧ BadTemplate (s.heap.get r).reftextTemplate e := by
  unfold hrVisitMathBlock mathBlockLabel
  refine Ends.node (Ends.last (Ends.node ?_) fun _ _ _ => Ends.pure fun _ h => h)
  split
  · rename_i h; exact Ends.pure fun e he => by rw [he.1] at h; cases h
  · rename_i h
    exact ((reftext_ends hn).last fun _ _ _ => Ends.pure fun _ h => h).iff fun e => by simp [h]

theorem hrVisitMath_ok (hs : ∃ o, s.heap.nextSibling r .any = .ok o) : Ends (hrVisitMath r) s fun _ => False := by
  obtain ⟨o, ho⟩ := hs
  unfold hrVisitMath
  refine Ends.get ?_
  dsimp only
  rw [ho]
  refine Ends.next (a := o) (s' := s) rfl ?_
  split
  · exact Ends.pure fun _ h => h
  · split
    · split
      · exact Ends.assign (Ends.assign (Ends.pure fun _ h => h))
      · exact Ends.pure fun _ h => h
    · exact Ends.pure fun _ h => h

theorem hrVisitAuthor_ends (hn : Num k s.heap r) : Ends (hrVisitAuthor k r) s fun e =>
    BadTemplate (s.heap.get r).reftextTemplate e ∨
      ((s.heap.get r).name = [] ∧ (s.heap.get r).affiliation = [] ∧ (s.heap.get r).email = []) ∧ e = .attributeError := by
  unfold hrVisitAuthor
  refine Ends.node (Ends.bind (handrailItems_ends hn _ _ _) fun a s' _ => Ends.last ?_ fun _ _ _ => Ends.pure fun _ h => h)
  unfold authorCmd itemsOf
  by_cases h : (s.heap.get r).name ≠ [] ∨ (s.heap.get r).affiliation ≠ [] ∨ (s.heap.get r).email ≠ []
  · rw [if_pos h]
    refine Ends.pure fun e he => ?_
    rcases h with h | h | h
    · exact h he.1.1
    · exact h he.1.2.1
    · exact h he.1.2.2
  · rw [if_neg h]
    refine Ends.throw ⟨?_, rfl⟩
    simpa using h

theorem hrVisitManuscript_ends (F : Fit k s.heap t r) : Ends (hrVisitManuscript k r) s fun e =>
    ∃ u ∈ t.subtrees, (s.heap.children r).find? (fun c => (s.heap.get c).cls = .Contents) = some u.root ∧
      (∃ y ∈ u.pre, (s.heap.get y).cls = .Reference ∧ ∀ z, (s.heap.get y).target = .node z → ¬ IsSection s.heap z) ∧
      e = .keyError := by
  unfold hrVisitManuscript
  refine Ends.get ?_
  dsimp only
  have hc := firstOfType_contents s.heap r
  split
  · rename_i h
    rw [h] at hc
    refine Ends.pure ?_
    rintro e ⟨u, _, hu, _⟩
    rw [← hc] at hu; cases hu
  · rename_i toc i h
    rw [h] at hc
    obtain ⟨u, hu, rfl⟩ := F.kids toc (List.mem_of_find?_eq_some hc.symm)
    refine ((minimap_ends (F.trav u hu) _ _).last fun _ _ _ => Ends.pure fun _ h => h).iff fun e => ?_
    rw [← hc]
    constructor
    · exact fun he => ⟨u, hu, rfl, he⟩
    · rintro ⟨v, hv, hr, he⟩
      cases F.uniq u hu v hv (by simpa using hr)
      exact he

theorem hrVisitContents_ends (F : Fit k s.heap t r) : Ends (hrVisitContents k r) s fun e =>
    BadTemplate (s.heap.get r).reftextTemplate e ∨ ∃ u ∈ t.subtrees, u.root = r ∧
      (∃ y ∈ u.pre, (s.heap.get y).cls = .Reference ∧ ∀ z, (s.heap.get y).target = .node z → ¬ IsSection s.heap z) ∧
      e = .keyError := by
  unfold hrVisitContents
  refine Ends.node (Ends.bind (wrapHeading_ends F.num _) fun a s' h' => ?_)
  have hs : SameFrame s.heap s'.heap := by
    have := (wrapHeading_keeps k r (contentsItems (s.heap.get r))).keep s
    rw [h'] at this; exact this.frame
  obtain ⟨u, hu, hr⟩ := F.self
  have ht : s'.heap.traverse (fun r => s'.heap.isInst r .Reference) k.fuel [u.root] =
      some (u.pre.filter fun r => s'.heap.isInst r .Reference) := by
    simp only [hs.traverse, hs.isInst]
    exact F.trav u hu
  have := minimap_ends (s := s') ht "mouse".toList false
  rw [hr] at this
  refine (this.last fun _ _ _ => Ends.pure fun _ h => h).iff fun e => ?_
  simp only [hs.cls, hs.target, IsSection]
  constructor
  · exact fun he => ⟨u, hu, hr, he⟩
  · rintro ⟨v, hv, hr', he⟩
    cases F.uniq u hu v hv (hr.trans hr'.symm)
    exact he

theorem visitCaption_ends (hn : ∀ p, s.heap.parent r = some p → Num k s.heap p) : Ends (visitCaption k r) s fun e =>
    s.heap.parent r = none ∧ e = .attributeError := by
  unfold visitCaption
  refine Ends.get ?_
  split
  · rename_i h; exact Ends.throw ⟨h, rfl⟩
  · rename_i p h
    obtain ⟨o, ho⟩ := fullNumber_ok (hn p h)
    exact Ends.next ho (Ends.pure fun e he => by rw [he.1] at h; cases h)

/-- How a visit ends, by the class that has the method. -/
theorem visit_as {o : Cls} (h : methodClass visitNames (s.heap.get r).cls = .ok o) : visit k r s = visitWith k o r s := by
  simp only [visit, bind_apply, node, gets_apply, h, lift, pure_apply]

theorem Ends.of_eq {α : Type} {m m' : TrM α} {bad : PyErr → Prop} (h : m s = m' s) (he : Ends m' s bad) : Ends m s bad :=
  ⟨by rw [h]; exact he.ends⟩

/-- The reasons for an exception, by the class that has the method. -/
def Reason (k : Conf) (h : Heap) (t : Tree) (r : Ref) (e : PyErr) : Cls → Prop
  | .Manuscript => k.handrails = true ∧ ∃ u ∈ t.subtrees,
      (h.children r).find? (fun c => (h.get c).cls = .Contents) = some u.root ∧
      (∃ y ∈ u.pre, (h.get y).cls = .Reference ∧ ∀ z, (h.get y).target = .node z → ¬ IsSection h z) ∧ e = .keyError
  | .Author => k.handrails = true ∧ (BadTemplate (h.get r).reftextTemplate e ∨
      ((h.get r).name = [] ∧ (h.get r).affiliation = [] ∧ (h.get r).email = []) ∧ e = .attributeError)
  | .Abstract | .Paragraph | .Step | .Section | .Theorem | .Sketch | .Proof | .Bibliography =>
    k.handrails = true ∧ BadTemplate (h.get r).reftextTemplate e
  | .Contents => k.handrails = true ∧ (BadTemplate (h.get r).reftextTemplate e ∨ ∃ u ∈ t.subtrees, u.root = r ∧
      (∃ y ∈ u.pre, (h.get y).cls = .Reference ∧ ∀ z, (h.get y).target = .node z → ¬ IsSection h z) ∧ e = .keyError)
  | .MathBlock => k.handrails = false ∧
        (∀ p, h.parent r = some p → h.isInst p .Paragraph = false) ∧ e = .assertionError ∨
      k.handrails = true ∧ (h.get r).nonum = false ∧ BadTemplate (h.get r).reftextTemplate e
  | .Reference => (∀ y, (h.get r).target ≠ .node y) ∧ e = .attributeError ∨
      (h.get r).overwriteReftext = [] ∧ ∃ y, (h.get r).target = .node y ∧ BadTemplate (h.get y).reftextTemplate e
  | .URL => ((h.get r).target = .none ∨ (h.get r).target = .str []) ∧ e = .rsmTranslatorError ∨
      (h.get r).overwriteReftext = [] ∧ ∃ y, (h.get r).target = .node y ∧ BadTemplate (h.get y).reftextTemplate e
  | .Cite => ∃ y ∈ (h.get r).targets, BadTemplate (h.get y).reftextTemplate e
  | .Bibitem => (h.get r).year.truthy = true ∧ (∀ y, (h.get r).year ≠ .str y) ∧ e = .attributeError
  | .Caption => h.parent r = none ∧ e = .attributeError
  | _ => False

theorem Ends.choose {α : Type} {b : Bool} {m m' : TrM α} {bad : PyErr → Prop} (h : Ends m s bad)
    (h' : Ends m' s fun _ => False) : Ends (if b then m else m') s fun e => b = true ∧ bad e := by
  cases b
  · exact h'.iff fun e => by simp
  · exact h.iff fun e => by simp

theorem visitWith_ends (F : Fit k s.heap t r) (o : Cls) (hb : o ∈ [.Reference, .URL, .Cite] →
    (s.heap.get r).cls = o) (hl : o = .Section → (s.heap.get r).cls.level.isSome) :
    Ends (visitWith k o r) s fun e => Reason k s.heap t r e o := by
  have num := F.num
  obtain ⟨fn, hfn⟩ := fullNumber_ok num
  have labeled : ∀ (items : TrM (List Item)) (c : Bool), (∃ l s', items s = .ok l s' ∧ SameFrame s.heap s'.heap) →
      Ends (items >>= fun l => if k.handrails then hrLabeled k r l c else pure (.batchDefer l)) s fun e =>
        k.handrails = true ∧ BadTemplate (s.heap.get r).reftextTemplate e := by
    rintro items c ⟨l, s', h, hf⟩
    refine Ends.next h (Ends.choose ?_ (Ends.pure fun _ h => h))
    rw [← template_frame hf]
    exact hrLabeled_ends (num.frame hf) _ _
  cases o
  case Manuscript => exact Ends.choose (hrVisitManuscript_ends F) (Ends.ok rfl)
  case Author => exact Ends.choose (hrVisitAuthor_ends num) (Ends.ok rfl)
  case Abstract => exact Ends.node ((wrapIf_ends num _).last fun _ _ _ => Ends.pure fun _ h => h)
  case Paragraph =>
    refine Ends.choose ?_ (Ends.ok rfl)
    unfold hrVisitParagraph
    exact Ends.get ((reftext_ends num).last fun _ _ _ => Ends.pure fun _ h => h)
  case Step =>
    refine Ends.choose ?_ (Ends.ok rfl)
    unfold hrVisitStep
    exact Ends.get ((reftext_ends num).last fun _ _ _ => Ends.pure fun _ h => h)
  case Section =>
    obtain ⟨l, s', h⟩ := sectionItems_runs num (hl rfl)
    have hf : SameFrame s.heap s'.heap := by
      have := (sectionItems_keeps k r).keep s
      rw [h] at this; exact this.frame
    refine Ends.next h (Ends.last ?_ fun _ _ _ => Ends.pure fun _ h => h)
    have := wrapIf_ends (num.frame hf) l
    rw [template_frame hf] at this
    exact this
  case Theorem =>
    obtain ⟨l, h⟩ := theoremItems_runs num
    exact labeled _ _ ⟨l, s, h, SameFrame.refl _⟩
  case Sketch => exact Ends.node (Ends.choose (hrLabeled_ends num _ _) (Ends.ok rfl))
  case Proof =>
    obtain ⟨l, s', h⟩ := proofItems_runs (r := r) (s := s)
    have hf : SameFrame s.heap s'.heap := by
      have := (proofItems_keeps r).keep s
      rw [h] at this; exact this.frame
    exact labeled _ _ ⟨l, s', h, hf⟩
  case Bibliography =>
    refine Ends.choose ?_ (Ends.ok rfl)
    unfold hrVisitBibliography
    exact Ends.node ((wrapHeading_ends num _).last fun _ _ _ => Ends.pure fun _ h => h)
  case Contents => exact Ends.choose (hrVisitContents_ends F) (Ends.ok rfl)
  case Note => exact Ends.node (Ends.next hfn (Ends.pure fun _ h => h))
  case Figure => exact Ends.node (Ends.next hfn (Ends.pure fun _ h => h))
  case Math =>
    show Ends (if k.handrails then hrVisitMath r else _) s _
    cases k.handrails
    · exact Ends.ok rfl
    · exact hrVisitMath_ok F.sib
  case MathBlock =>
    show Ends (if k.handrails then hrVisitMathBlock k r else visitMathBlock r) s fun e => _ ∨ _
    cases k.handrails
    · exact visitMathBlock_ends.iff fun e => by simp
    · exact (hrVisitMathBlock_ends num).iff fun e => by simp
  case Reference => exact visitReference_ends (by rw [hb (by simp)]; rfl) fun y hy => F.tgt y (.inl ⟨by rw [hb (by simp)]; simp, hy⟩)
  case URL => exact visitUrl_ends (by rw [hb (by simp)]; rfl) fun y hy => F.tgt y (.inl ⟨by rw [hb (by simp)]; simp, hy⟩)
  case Cite => exact visitCite_ends (by rw [hb (by simp)]; rfl) fun y hy => F.tgt y (.inr ⟨hb (by simp), hy⟩)
  case Bibitem =>
    show Ends (if k.handrails then hrVisitBibitem r else _) s _
    cases k.handrails
    · exact Ends.node (bibitemText_ends.last fun _ _ _ => Ends.pure fun _ h => h)
    · exact hrVisitBibitem_ends
  case Caption => exact visitCaption_ends F.par
  case Subproof =>
    show Ends (if k.handrails then hrVisitSubproof r else _) s _
    cases k.handrails <;> exact Ends.ok rfl
  all_goals exact Ends.ok rfl

theorem reason_iff (c : Cls) {o : Cls} (ho : methodClass visitNames c = .ok o) {h : Heap} (hc : (h.get r).cls = c) (e : PyErr) :
    Reason k h t r e o ↔ Obstacle k.handrails h t r e := by
  rw [obstacle_iff, hc]
  obtain ⟨b1, h1⟩ : ∃ b, hasMenu c = b := ⟨_, rfl⟩
  obtain ⟨b2, h2⟩ : ∃ b, c.isSub .Bibitem = b := ⟨_, rfl⟩
  rw [h1, h2]
  cases c <;> cases b1 <;> first
    | exact absurd h1 (by decide)
    | (cases b2 <;> first
        | exact absurd h2 (by decide)
        | (cases ho; simp [Reason]; try tauto))

/-- A visit raises an exception exactly if there is an obstacle. -/
theorem visit_ends (F : Fit k s.heap t r) : Ends (visit k r) s (Obstacle k.handrails s.heap t r) := by
  obtain ⟨o, ho, _⟩ := methodClass_visit (s.heap.get r).cls
  refine Ends.of_eq (visit_as ho) ((visitWith_ends F o ?_ ?_).iff fun e => reason_iff _ ho rfl e)
  · revert ho
    generalize (s.heap.get r).cls = c
    cases c <;> intro ho <;> cases ho <;> decide
  · revert ho
    generalize (s.heap.get r).cls = c
    cases c <;> intro ho <;> cases ho <;> decide

end

end Tr
end RSM
