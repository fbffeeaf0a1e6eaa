import Verif.Lemmas.ReadyRun
import Verif.Lemmas.TrFormat
import Verif.Spec.Presentable

/-! What `transform` makes of documents of which a page can be made (helper lemmas). -/

namespace RSM
open Tr Transformer Tree

variable {h h' : Heap} {root : Ref} {t t' : Tree} {hr : Bool}

theorem Found.lost {z : Ref} (F : Found h t h' t' z)
    (hc : (h'.get z).cls ∉ [.Reference, .Error, .Cite, .Statement, .Subproof, .Item, .Itemize]) :
    z ∈ t.pre ∧ ¬ Pending h z ∧ (h'.get z).authored = (h.get z).authored := by
  simp only [List.mem_cons, List.not_mem_nil, or_false, not_or] at hc
  obtain ⟨c1, c2, c3, c4, c5, c6, c7⟩ := hc
  cases F with
  | author h1 h2 h3 => exact ⟨h1, h2, h3⟩
  | link h1 => exact absurd h1 c1
  | error h1 => exact absurd h1 c2
  | cite h1 => exact absurd h1 c3
  | made h1 =>
    rcases h1.2 with ⟨_, h1⟩ | ⟨h1, _⟩
    · simp only [List.mem_cons, List.not_mem_nil, or_false] at h1
      rcases h1 with h1 | h1 | h1 | h1
      exacts [absurd h1 c4, absurd h1 c5, absurd h1 c6, absurd h1 c7]
    · exact absurd h1 c1

theorem Transformed.placedOf (T : Transformed h root t h' t') (A : AsParsed h t) : TargetsPlaced h' t' := by
  intro x hx y hy
  have F := T.found x hx
  cases F with
  | author h1 h2 h3 =>
    exfalso
    obtain ⟨a1, a3, _⟩ := A x h1
    have hc := cls_of_authored h3
    rcases hy with ⟨hy1, hy2⟩ | ⟨hy1, _⟩
    · rw [hc] at hy1
      rw [target_of_authored h3] at hy2
      simp only [List.mem_cons, List.not_mem_nil, or_false] at hy1
      rcases hy1 with hy1 | hy1
      · rw [hy1] at a1; exact a1 (by decide)
      · exact a3 hy1 y hy2
    · rw [← hc, hy1] at a1; exact a1 (by decide)
  | link h1 _ h3 h4 =>
    rcases hy with ⟨_, hy⟩ | ⟨hy, _⟩
    · rw [h3] at hy; cases hy; exact T.placed _ h4
    · rw [h1] at hy; cases hy
  | error h1 =>
    rcases hy with ⟨hy, _⟩ | ⟨hy, _⟩
    · rw [h1] at hy; exact absurd hy (by decide)
    · rw [h1] at hy; cases hy
  | cite h1 _ h3 =>
    rcases hy with ⟨hy, _⟩ | ⟨_, hy⟩
    · rw [h1] at hy; exact absurd hy (by decide)
    · rcases h3 y hy with h | h
      · exact T.placed _ h
      · exact .inr h.1
  | made h1 =>
    obtain ⟨h0, h1⟩ := h1
    rcases hy with ⟨_, hy⟩ | ⟨_, hy⟩
    · rcases h1 with ⟨h1, _⟩ | ⟨_, z, hz, h1, _⟩
      · rw [h1] at hy; cases hy
      · rw [h1] at hy; cases hy; exact .inl hz
    · rw [h0] at hy; cases hy

theorem Transformed.wrapped (T : Transformed h root t h' t') (A : AsParsed h t) : StepsWrapped h' t' := by
  refine ⟨fun x hx hc => ?_, fun x hx hc p hp hs => ?_⟩
  · obtain ⟨h1, _, h3⟩ := (T.found x hx).lost (by rw [hc]; decide)
    have : (h'.get x).mustCloseP = (h.get x).mustCloseP := by
      have : (h'.get x).authored.mustCloseP = (h.get x).authored.mustCloseP := by rw [h3]
      exact this
    rw [this]
    exact (A x h1).2.2.1 (by rw [← cls_of_authored h3, hc]; decide)
  · have := T.steps x hx p hp hs
    rw [hc] at this
    exact absurd this (by decide)

theorem Transformed.fine (T : Transformed h root t h' t') (P : Presentable hr h t) {y : Ref} (hy : y ∈ t.pre) :
    Template (h'.get y).reftextTemplate := by
  obtain ⟨h1, h2⟩ := P.templates y hy
  rcases T.template y hy with h | h <;> rw [h]
  · exact h1
  · exact h2

theorem template_of_ok {s : Str} (h : (formatGo [] [] .lit s).toOption.isSome = true) : Template s := by
  have g := formatGo_filled [] [] s .lit trivial
  cases hr : formatGo [] [] .lit s with
  | ok x => rw [hr] at g; exact g
  | error e => rw [hr] at h; cases h

/-- The templates of the classes can be filled. -/
theorem classreftext_fine (c : Cls) : FineTemplate c.classreftext := by
  constructor <;> refine template_of_ok ?_ <;> cases c <;> decide +kernel

/-- Nothing keeps the translator from writing what `transform` made of such a document. -/
theorem Transformed.free (T : Transformed h root t h' t') (D : Doc h root t) (A : AsParsed h t) (P : Presentable hr h t) :
    ∀ x ∈ t'.pre, ∀ e, ¬ Obstacle hr h' t' x e := by
  intro x hx e o
  have auth := fun hc => (T.found x hx).lost hc
  cases o with
  | formula h0 h1 h2 =>
    obtain ⟨a1, a2, a3⟩ := auth (by rw [h1]; decide)
    have hc := cls_of_authored a3
    obtain ⟨p, p1, p2, p3⟩ := P.formulas h0 x a1 (by rw [← hc]; exact h1)
    have hne : x ≠ root := fun e => by rw [e, D.parent_root_none] at p1; cases p1
    obtain ⟨q, q1, q2, q3⟩ := D.parent_mem a1 hne
    rw [p1] at q2; cases q2
    have hpc := T.cls p q1
    have hpn : ¬ Pending h p := by
      unfold Pending
      unfold Heap.isInst at p2
      rintro (e | e | e) <;> rw [e] at p2 <;> exact absurd p2 (by decide)
    have := T.stay p q1 hpn p3 x q3 a2 (by rw [← hc, h1]; decide)
    have := h2 p this
    unfold Heap.isInst at this p2
    rw [hpc, p2] at this
    cases this
  | noTarget h1 h2 =>
    obtain ⟨a1, a2, a3⟩ := auth (by rw [h1]; decide)
    obtain ⟨c, l, e⟩ := P.links x a1 (by rw [← cls_of_authored a3]; exact h1)
    rw [target_of_authored a3, e] at h2
    rcases h2 with h2 | h2 <;> cases h2
  | unresolved h1 h2 =>
    cases T.found x hx with
    | author a1 a2 a3 => exact (A x a1).1 (by rw [← cls_of_authored a3, h1]; decide)
    | link _ _ h3 => exact h2 _ h3
    | error h3 => rw [h1] at h3; cases h3
    | cite h3 => rw [h1] at h3; cases h3
    | made h3 =>
      rcases h3.2 with ⟨_, h3⟩ | ⟨_, y, _, h3, _⟩
      · rw [h1] at h3; exact absurd h3 (by decide)
      · exact h2 _ h3
  | @reference y _ h1 _ h3 h4 =>
    cases T.found x hx with
    | author a1 a2 a3 =>
      rw [cls_of_authored a3] at h1
      rw [target_of_authored a3] at h3
      simp only [List.mem_cons, List.not_mem_nil, or_false] at h1
      rcases h1 with h1 | h1
      · exact (A x a1).1 (by rw [h1]; decide)
      · exact (A x a1).2.1 h1 _ h3
    | link _ _ g3 g4 =>
      rw [h3] at g3; cases g3
      exact (T.fine P g4).not_bad h4
    | error g => rw [g] at h1; exact absurd h1 (by decide)
    | cite g => rw [g] at h1; exact absurd h1 (by decide)
    | made g =>
      rcases g.2 with ⟨g, _⟩ | ⟨_, z, hz, g, gs⟩
      · rw [h3] at g; cases g
      · rw [h3] at g; cases g
        obtain ⟨b1, _, _⟩ := (T.found y hz).lost (by
          unfold IsSection at gs
          simp only [List.mem_cons, List.not_mem_nil, or_false] at gs
          rcases gs with gs | gs | gs <;> rw [gs] <;> decide)
        exact (T.fine P b1).not_bad h4
  | @cite y _ h1 h2 h3 =>
    cases T.found x hx with
    | author a1 a2 a3 => exact (A x a1).1 (by rw [← cls_of_authored a3, h1]; decide)
    | link g => rw [h1] at g; cases g
    | error g => rw [h1] at g; cases g
    | cite _ _ g =>
      rcases g y h2 with g | ⟨_, g | g⟩
      · exact (T.fine P g).not_bad h3
      · rw [g] at h3; exact (classreftext_fine .UnknownBibitem).1.not_bad h3
      · rw [g] at h3; exact (classreftext_fine .UnknownBibitem).2.not_bad h3
    | made g => rw [g.1] at h2; cases h2
  | year h1 h2 h3 =>
    obtain ⟨a1, a2, a3⟩ := auth (by
      intro hm
      simp only [List.mem_cons, List.not_mem_nil, or_false] at hm
      rcases hm with hm | hm | hm | hm | hm | hm | hm <;> rw [hm] at h1 <;> exact absurd h1 (by decide))
    obtain ⟨y, e⟩ := P.years x a1 (by rw [← cls_of_authored a3]; exact h1)
    have : (h'.get x).authored.year = (h.get x).authored.year := by rw [a3]
    exact h3 y ((show (h'.get x).year = (h.get x).year from this).trans e)
  | caption h1 h2 =>
    obtain ⟨a1, a2, a3⟩ := auth (by rw [h1]; decide)
    have hc := cls_of_authored a3
    by_cases e : x = root
    · rw [e] at a1 hc h1
      exact P.captions root a1 (by rw [← hc]; exact h1) D.parent_root_none
    · obtain ⟨q, _, q2, _⟩ := T.doc.parent_mem hx e
      rw [h2] at q2; cases q2
  | author h0 h1 h2 h3 h4 =>
    obtain ⟨a1, a2, a3⟩ := auth (by rw [h1]; decide)
    have e2 : (h'.get x).authored.name = (h.get x).authored.name := by rw [a3]
    have e3 : (h'.get x).authored.affiliation = (h.get x).authored.affiliation := by rw [a3]
    have e4 : (h'.get x).authored.email = (h.get x).authored.email := by rw [a3]
    rcases P.authors h0 x a1 (by rw [← cls_of_authored a3]; exact h1) with g | g | g
    · exact g (e2.symm.trans h2)
    · exact g (e3.symm.trans h3)
    · exact g (e4.symm.trans h4)
  | menu h0 h1 h2 =>
    obtain ⟨a1, a2, a3⟩ := auth (by
      intro hm
      simp only [List.mem_cons, List.not_mem_nil, or_false] at hm
      rcases hm with hm | hm | hm | hm | hm | hm | hm <;> rw [hm] at h1 <;> exact absurd h1 (by decide))
    exact (T.fine P a1).not_bad h2
  | equation h0 h1 _ h2 =>
    obtain ⟨a1, a2, a3⟩ := auth (by rw [h1]; decide)
    exact (T.fine P a1).not_bad h2
  | @minimap u y h0 h1 h2 h3 h4 h5 =>
    have hc : (h'.get u.root).cls = .Contents := by
      rcases h2 with ⟨h2, e⟩ | ⟨_, h2⟩
      · rw [e]; exact h2
      · simpa using List.find?_some h2
    obtain ⟨z, _, z1, z2⟩ := T.tables u h1 hc y h3 h4
    exact h5 z z1 z2

end RSM
