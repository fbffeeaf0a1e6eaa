import Verif.Lemmas.TrTags

/-! # Lemmas: no tag repeats a class -/

namespace RSM
namespace Tr
open PyM

/-- No tag repeats a class. -/
inductive TagsOk : List Item → Prop
  | nil : TagsOk []
  | cons {i l} (h : ∀ a, i.tag? = some a → a.classes.Nodup) (hl : TagsOk l) : TagsOk (i :: l)

theorem tagsOk_iff {l : List Item} :
    TagsOk l ↔ ∀ i ∈ l, ∀ a, i.tag? = some a → a.classes.Nodup := by
  constructor
  · intro h
    induction h with
    | nil => simp
    | cons h _ ih =>
      intro i hi
      rcases List.mem_cons.mp hi with rfl | hi
      · exact h
      · exact ih i hi
  · intro h
    induction l with
    | nil => exact .nil
    | cons i l ih =>
      exact .cons (h i (by simp)) (ih fun j hj => h j (by simp [hj]))

theorem TagsOk.append {a b : List Item} (ha : TagsOk a) (hb : TagsOk b) : TagsOk (a ++ b) := by
  rw [tagsOk_iff] at *
  intro i hi
  rcases List.mem_append.mp hi with h | h
  · exact ha i h
  · exact hb i h
theorem TagsOk.sub {a b : List Item} (hb : TagsOk b) (h : ∀ i ∈ a, i ∈ b) : TagsOk a := by
  rw [tagsOk_iff] at *
  exact fun i hi => hb i (h i hi)
theorem TagsOk.take {l : List Item} (h : TagsOk l) (n : Nat) : TagsOk (l.take n) :=
  h.sub fun _ hi => List.mem_of_mem_take hi
theorem TagsOk.drop {l : List Item} (h : TagsOk l) (n : Nat) : TagsOk (l.drop n) :=
  h.sub fun _ hi => List.mem_of_mem_drop hi
theorem TagsOk.dropLast {l : List Item} (h : TagsOk l) : TagsOk l.dropLast :=
  h.sub fun _ hi => List.dropLast_subset _ hi
theorem TagsOk.getLast {l : List Item} (h : TagsOk l) : TagsOk l.getLast?.toList :=
  h.sub fun i hi => by
    cases e : l.getLast? with
    | none => simp [e] at hi
    | some x => simp [e] at hi; subst hi; exact List.mem_of_getLast? e
theorem TagsOk.getElem {l : List Item} (h : TagsOk l) (n : Nat) : TagsOk l[n]?.toList :=
  h.sub fun i hi => by
    cases e : l[n]? with
    | none => simp [e] at hi
    | some x => simp [e] at hi; subst hi; exact List.mem_of_getElem? e
theorem TagsOk.insertAt {l : List Item} (h : TagsOk l) (n : Nat) {i : Item}
    (hi : ∀ a, i.tag? = some a → a.classes.Nodup) : TagsOk (insertAt n i l) :=
  (h.take n).append (.cons hi (h.drop n))
theorem TagsOk.set {l : List Item} (h : TagsOk l) (n : Nat) {i : Item}
    (hi : ∀ a, i.tag? = some a → a.classes.Nodup) : TagsOk (l.set n i) := by
  rw [tagsOk_iff] at *
  intro j hj
  rcases List.mem_or_eq_of_mem_set hj with h1 | rfl
  · exact h j h1
  · exact hi
theorem TagsOk.map {α : Type} {l : List α} {f : α → Item}
    (h : ∀ x a, (f x).tag? = some a → a.classes.Nodup) : TagsOk (l.map f) := by
  rw [tagsOk_iff]
  intro i hi
  obtain ⟨x, _, rfl⟩ := List.mem_map.mp hi
  exact h x

theorem tag_text (s : Str) : ∀ a, (Item.text s).tag? = some a → a.classes.Nodup := by
  intro a h; cases h
theorem tag_defer (s d : Str) : ∀ a, (Item.defer s d).tag? = some a → a.classes.Nodup := by
  intro a h; cases h
theorem tag_openTag {t : TagArgs} (h : t.classes.Nodup) :
    ∀ a, (Item.openTag t).tag? = some a → a.classes.Nodup := by
  intro a e; cases e; exact h
theorem tag_openClose {t : TagArgs} (h : t.classes.Nodup) :
    ∀ a, (Item.openClose t).tag? = some a → a.classes.Nodup := by
  intro a e; cases e; exact h
theorem tag_openManual {t : TagArgs} (h : t.classes.Nodup) :
    ∀ a, (Item.openManual t).tag? = some a → a.classes.Nodup := by
  intro a e; cases e; exact h

theorem tag_ite {p : Prop} [Decidable p] {i j : Item}
    (hi : ∀ a, i.tag? = some a → a.classes.Nodup) (hj : ∀ a, j.tag? = some a → a.classes.Nodup) :
    ∀ a, (if p then i else j).tag? = some a → a.classes.Nodup := by
  split <;> assumption

/-- Proves that concrete lists of items repeat no classes. -/
macro "tagsok" : tactic => `(tactic| repeat' first
  | assumption
  | exact TagsOk.nil
  | exact tag_text _ | exact tag_defer _ _
  | exact tag_openTag (nodup_fromKeys _) | exact tag_openTag (by simp)
  | exact tag_openClose (by simp) | exact tag_openManual (by simp)
  | exact tag_openManual (nodup_fromKeys _)
  | refine TagsOk.cons ?_ ?_
  | refine TagsOk.take ?_ _ | refine TagsOk.drop ?_ _ | refine TagsOk.dropLast ?_
  | refine TagsOk.getLast ?_ | refine TagsOk.getElem ?_ _
  | refine TagsOk.append ?_ ?_
  | refine TagsOk.insertAt ?_ _ ?_
  | refine TagsOk.set ?_ _ ?_
  | refine TagsOk.map fun _ => ?_
  | refine tag_ite ?_ ?_
  | split)

def AllTrue : TrState → Prop := fun _ => True

theorem manuscriptItems_ok (nd) : TagsOk (manuscriptItems nd) := by unfold manuscriptItems heading; tagsok
theorem authorParagraphs_ok (nd) : TagsOk (authorParagraphs nd) := by
  unfold authorParagraphs paragraphTag; tagsok
theorem abstractItems_ok (nd) : TagsOk (abstractItems nd) := by unfold abstractItems heading; tagsok
theorem paragraphItems_ok (h r) : TagsOk (paragraphItems h r) := by unfold paragraphItems; tagsok
theorem contentsItems_ok (nd) : TagsOk (contentsItems nd) := by unfold contentsItems heading; tagsok
theorem mathItems_ok (nd) : TagsOk (mathItems nd) := by unfold mathItems; tagsok
theorem sketchItems_ok (nd) : TagsOk (sketchItems nd) := by unfold sketchItems; tagsok
theorem bibliographyItems_ok (nd) : TagsOk (bibliographyItems nd) := by
  unfold bibliographyItems heading; tagsok
theorem replaceWithHandrails_ok (tag l o c d) (h : tag.classes.Nodup) :
    TagsOk (replaceWithHandrails tag l o c d) := by
  have := tag_openTag h
  unfold replaceWithHandrails hrCollapseZone hrMenuZone hrBorderZone hrSpacerZone hrContentZone
  tagsok
theorem wrapItem_ok (n l c m o b i) (h : TagsOk l) : TagsOk (wrapItem n l c m o b i) := by
  unfold wrapItem hrCollapseZone hrMenuZone hrBorderZone hrSpacerZone hrInfoZoneIcon
  tagsok

theorem gives_true {α : Type} {P : α → Prop} {m : TrM α}
    (h : ∀ s a s', m s = .ok a s' → P a) : Gives AllTrue P m := by
  constructor
  intro s _
  cases e : m s with
  | ok a s' => exact ⟨trivial, h s a s' e⟩
  | err x s' => trivial

theorem Gives.skip {α β : Type} {Q : β → Prop} {m : TrM α} {f : α → TrM β}
    (hf : ∀ a, Gives AllTrue Q (f a)) : Gives AllTrue Q (m >>= f) :=
  Gives.bind (P := fun _ => True) (gives_true fun _ _ _ _ => trivial) fun a _ => hf a

/-- Goes through a program, leaving the claims about the values. -/
macro "givesT" : tactic => `(tactic| repeat' first
  | assumption
  | exact Gives.throw _
  | (refine Gives.pure ?_)
  | (with_reducible refine Gives.skip fun _ => ?_)
  | split)

theorem sectionItems_ok (k r) : Gives AllTrue TagsOk (sectionItems k r) := by
  unfold sectionItems heading; givesT; tagsok
theorem theoremItems_ok (k r) : Gives AllTrue TagsOk (theoremItems k r) := by
  unfold theoremItems; givesT; tagsok
theorem proofItems_ok (r) : Gives AllTrue TagsOk (proofItems r) := by
  unfold proofItems; givesT; tagsok
theorem minimap_ok (k r f w) : Gives AllTrue TagsOk (minimap k r f w) := by
  unfold minimap; givesT; tagsok
theorem handrailItems_ok (k r a c d) : Gives AllTrue TagsOk (handrailItems k r a c d) := by
  unfold handrailItems; givesT
  exact replaceWithHandrails_ok _ _ _ _ _ (nodup_fromKeys _)
theorem wrapHeading_ok (k r l) (h : TagsOk l) : Gives AllTrue TagsOk (wrapHeading k r l) := by
  unfold wrapHeading; givesT
  exact wrapItem_ok _ _ _ _ _ _ _ h
theorem wrapIf_ok (k r l) (h : TagsOk l) : Gives AllTrue TagsOk (wrapIf k r l) := by
  unfold wrapIf; split
  · exact wrapHeading_ok k r l h
  · exact Gives.pure h

/-- The tags of a command repeat no classes. -/
inductive CmdOk : Cmd → Prop
  | item {i} (h : TagsOk [i]) : CmdOk (.item i)
  | batchDefer {l} (h : TagsOk l) : CmdOk (.batchDefer l)

theorem authorCmd_ok (nd) : CmdOk (authorCmd nd) := by
  have := authorParagraphs_ok nd
  unfold authorCmd
  split
  · exact .batchDefer (by tagsok)
  · exact .item (by tagsok)

theorem hrLabeled_ok (k r l c) (h : TagsOk l) : Gives AllTrue CmdOk (hrLabeled k r l c) := by
  unfold hrLabeled
  refine Gives.bind (handrailItems_ok ..) fun _ h' => Gives.pure (.batchDefer ?_)
  tagsok

theorem visitWith_ok (k o r) (h1 : o ≠ .SourceCode) (h2 : k.handrails = true → o ≠ .MathBlock) :
    Gives AllTrue CmdOk (visitWith k o r) := by
  cases o <;> first | exact absurd rfl h1 | skip
  case Manuscript =>
    simp only [visitWith, hrVisitManuscript]
    split
    · have ht : ∀ nd : NodeRec, TagsOk (if nd.title ≠ [] then
          wrapItem 4 (manuscriptItems nd) ["heading".toList] "Title" .on else manuscriptItems nd) := by
        intro nd; split
        · exact wrapItem_ok _ _ _ _ _ _ _ (manuscriptItems_ok _)
        · exact manuscriptItems_ok _
      have hs : ∀ (h : Heap) (t : Ref) (nd : NodeRec), TagsOk (if k.addSource = true then insertAt 2 (sourceDiv h t) (if nd.title ≠ [] then
          wrapItem 4 (manuscriptItems nd) ["heading".toList] "Title" .on else manuscriptItems nd) else (if nd.title ≠ [] then
          wrapItem 4 (manuscriptItems nd) ["heading".toList] "Title" .on else manuscriptItems nd)) := by
        intro h t nd; split
        · exact (ht nd).insertAt _ (tag_text _)
        · exact ht nd
      refine Gives.skip fun t => ?_
      split
      · exact Gives.pure (.batchDefer (hs _ _ _))
      · refine Gives.bind (minimap_ok ..) fun m hm => Gives.pure (.batchDefer ?_)
        have := hs t.heap t.tree (t.heap.get r)
        tagsok
    · givesT
      exact .batchDefer (manuscriptItems_ok _)
  case Author =>
    simp only [visitWith, hrVisitAuthor]
    split
    · refine Gives.skip fun nd => ?_
      refine Gives.bind (handrailItems_ok ..) fun l hl => ?_
      refine Gives.bind (P := TagsOk) (gives_true ?_) fun l' hl' => ?_
      · intro s a s' e
        have h := authorCmd_ok nd
        unfold itemsOf at e
        cases h' : authorCmd nd with
        | item i => rw [h'] at e; cases e
        | batch l => rw [h'] at e h; cases h
        | batchDefer l =>
          rw [h'] at e h
          cases e
          cases h; assumption
      · exact Gives.pure (.batchDefer (by tagsok))
    · givesT
      exact authorCmd_ok _
  case Abstract =>
    simp only [visitWith]
    refine Gives.skip fun nd => ?_
    exact Gives.bind (wrapIf_ok _ _ _ (abstractItems_ok _)) fun l hl => Gives.pure (.batchDefer hl)
  case Section =>
    simp only [visitWith]
    refine Gives.bind (sectionItems_ok ..) fun l hl => ?_
    exact Gives.bind (wrapIf_ok _ _ _ hl) fun l hl => Gives.pure (.batchDefer hl)
  case Contents =>
    simp only [visitWith, hrVisitContents]
    split
    · refine Gives.skip fun nd => ?_
      refine Gives.bind (wrapHeading_ok _ _ _ (contentsItems_ok _)) fun l hl => ?_
      refine Gives.bind (minimap_ok ..) fun m hm => Gives.pure (.batchDefer ?_)
      tagsok
    · givesT; exact .batchDefer (contentsItems_ok _)
  case Bibliography =>
    simp only [visitWith, hrVisitBibliography]
    split
    · refine Gives.skip fun nd => ?_
      have := bibliographyItems_ok nd
      exact Gives.bind (wrapHeading_ok _ _ _ (by tagsok)) fun l hl => Gives.pure (.batchDefer hl)
    · givesT; exact .batchDefer (bibliographyItems_ok _)
  case Paragraph =>
    simp only [visitWith, hrVisitParagraph]
    split
    · refine Gives.skip fun t => ?_
      refine Gives.skip fun l => ?_
      refine Gives.pure (.batchDefer (TagsOk.append (replaceWithHandrails_ok _ _ _ _ _ ?_)
        ((paragraphItems_ok _ _).drop 1)))
      split
      · exact nodup_fromKeys _
      · rename_i h
        show List.Nodup (_ ++ [_])
        exact List.nodup_append.mpr ⟨nodup_fromKeys _, by simp, fun a ha b hb e => by
          simp at hb; subst hb; subst e; exact h ha⟩
    · givesT; exact .batchDefer (paragraphItems_ok _ _)
  case Theorem =>
    simp only [visitWith]
    refine Gives.bind (theoremItems_ok ..) fun l hl => ?_
    split
    · exact hrLabeled_ok _ _ _ _ hl
    · exact Gives.pure (.batchDefer hl)
  case Proof =>
    simp only [visitWith]
    refine Gives.bind (proofItems_ok ..) fun l hl => ?_
    split
    · exact hrLabeled_ok _ _ _ _ hl
    · exact Gives.pure (.batchDefer hl)
  case Sketch =>
    simp only [visitWith]
    refine Gives.skip fun nd => ?_
    split
    · exact hrLabeled_ok _ _ _ _ (sketchItems_ok _)
    · exact Gives.pure (.batchDefer (sketchItems_ok _))
  case MathBlock =>
    have hk : k.handrails = false := by
      cases h : k.handrails
      · rfl
      · exact absurd rfl (h2 h)
    simp only [visitWith, hk, visitMathBlock, Bool.false_eq_true, if_false]
    givesT
    all_goals exact .batchDefer (by tagsok)
  case Math =>
    have := mathItems_ok
    simp only [visitWith, hrVisitMath]
    givesT
    all_goals exact .batchDefer (by first | exact this _ | exact .cons (tag_openManual (by simp)) (this _))
  case Bibitem =>
    simp only [visitWith, hrVisitBibitem]
    have : ∀ (nd : NodeRec) (x c m o b i), TagsOk (wrapItem 1 [.openTag (nodeTag nd), .text x] c m o b i) :=
      fun nd x c m o b i => wrapItem_ok _ _ _ _ _ _ _ (by tagsok)
    givesT
    · exact .batchDefer (this ..)
    · exact .batchDefer (((TagsOk.set (this ..) _ (tag_openClose (by simp))).insertAt _
        (tag_text _)).insertAt _ (tag_text _))
    · exact .batchDefer (by tagsok)
  case Subproof =>
    simp only [visitWith, hrVisitSubproof]
    givesT
    · refine .batchDefer ?_
      unfold hrCollapseZone hrMenuZoneEmpty hrBorderZoneEmpty hrSpacerZone hrContentZone
      refine .cons (tag_openTag ((nodup_fromKeys _).erase _)) ?_
      tagsok
    · exact .batchDefer (by tagsok)
  case Step =>
    simp only [visitWith, hrVisitStep]
    givesT
    all_goals first
      | exact .item (.cons (tag_openTag (nodup_fromKeys _)) .nil)
      | (unfold hrCollapseZone hrMenuZone hrBorderZone hrSpacerZone hrContentZone
         exact .batchDefer (by tagsok))
  case Span =>
    simp only [visitWith, spanCmd]
    givesT
    exact .batchDefer (by tagsok)
  all_goals
    simp only [visitWith, visitNode, visitNote, visitReference, visitUrl, visitCite, visitFigure,
      visitCaption]
    givesT
    all_goals first
      | exact .item (by tagsok)
      | exact .batchDefer (by tagsok)

theorem visit_nodup {k r s s' c} (h1 : (s.heap.get r).cls ≠ .SourceCode)
    (h2 : k.handrails = true → (s.heap.get r).cls ≠ .MathBlock) (hok : visit k r s = .ok c s') :
    ∀ a ∈ c.tags, a.classes.Nodup := by
  have hm : ∀ c : Cls, ∃ d, methodClass visitNames c = .ok d ∧ (d = .SourceCode ↔ c = .SourceCode) ∧
      (d = .MathBlock ↔ c = .MathBlock) := by
    intro c; cases c <;> exact ⟨_, rfl, by decide, by decide⟩
  obtain ⟨d, hd, ha, hb⟩ := hm (s.heap.get r).cls
  have hv : visit k r s = visitWith k d r s := by
    simp only [visit, bind_apply, node, gets_apply, hd, lift, pure_apply]
  rw [hv] at hok
  have := (visitWith_ok k d r (fun h => h1 (ha.mp h)) (fun h h' => h2 h (hb.mp h'))).gives s trivial
  rw [hok] at this
  intro a ha
  obtain ⟨i, hi, e⟩ := mem_tags.mp ha
  cases this.2 with
  | item h => exact tagsOk_iff.mp h i hi a e
  | batchDefer h => exact tagsOk_iff.mp h i hi a e

end Tr
end RSM
