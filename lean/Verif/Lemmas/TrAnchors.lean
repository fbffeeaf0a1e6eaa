import Verif.Lemmas.TrLinks

/-! # Lemmas: the visit methods that write the label of the node as id -/

namespace RSM
namespace Tr
open PyM Html

section
variable {α β : Type} {r : Ref} {l : Str} {P : α → Prop} {Q : β → Prop}

/-- The node has the label. -/
def LabelIs (r : Ref) (l : Str) (s : TrState) : Prop := (s.heap.get r).label = l

theorem labelIs_keep {s s' : TrState} (h : LabelIs r l s) (hk : Keep s s') : LabelIs r l s' := by
  unfold LabelIs at *
  rw [← h]
  exact hk.frame.label r

theorem Gives.past {m : TrM α} {f : α → TrM β} (hm : Keeps m)
    (hf : ∀ a, Gives (LabelIs r l) Q (f a)) : Gives (LabelIs r l) Q (m >>= f) :=
  Gives.bind (P := fun _ => True) (Gives.of_keep fun s hs => labelIs_keep hs (hm.keep s))
    fun a _ => hf a

theorem Gives.onNode {f : NodeRec → TrM β}
    (hf : ∀ nd, nd.label = l → Gives (LabelIs r l) Q (f nd)) :
    Gives (LabelIs r l) Q (Tr.node r >>= f) :=
  Gives.bind (Gives.node r) fun nd ⟨_, hs, e⟩ => hf nd (by rw [e]; exact hs)

theorem Gives.onGet {f : TrState → TrM β}
    (hf : ∀ s, (s.heap.get r).label = l → Gives (LabelIs r l) Q (f s)) :
    Gives (LabelIs r l) Q (PyM.get >>= f) :=
  Gives.bind Gives.get fun s hs => hf s hs
end

theorem Gives.ite {α : Type} {I : TrState → Prop} {P : α → Prop} {p : Prop} [Decidable p]
    {a b : TrM α} (ha : Gives I P a) (hb : Gives I P b) : Gives I P (if p then a else b) := by
  split <;> assumption

/-- A sequence that returns: both parts return. -/
theorem bindOk {α β : Type} {m : TrM α} {f : α → TrM β} {s s' : TrState} {b : β}
    (h : (m >>= f) s = .ok b s') : ∃ a s1, m s = .ok a s1 ∧ f a s1 = .ok b s' := by
  rw [bind_apply] at h
  cases e : m s with
  | ok a s1 => rw [e] at h; exact ⟨a, s1, rfl, h⟩
  | err x s1 => rw [e] at h; cases h

/-- The command opens an element with the id `l`. -/
inductive CmdOpens (l : Str) : Cmd → Prop
  | item {i} (h : Opens l [i]) : CmdOpens l (.item i)
  | batchDefer {items} (h : Opens l items) : CmdOpens l (.batchDefer items)

theorem CmdOpens.hasId {l : Str} {c : Cmd} (h : CmdOpens l c) (hl : l ≠ []) : HasId c.text l := by
  cases h with
  | item h => have := h.hasId hl; simpa [Cmd.text] using this
  | batchDefer h => exact h.hasId hl

variable {r : Ref} {l : Str}

theorem name_div : NameOk "div".toList := by decide
theorem name_section : NameOk "section".toList := by decide
theorem name_ul : NameOk "ul".toList := by decide
theorem name_ol : NameOk "ol".toList := by decide
theorem name_li : NameOk "li".toList := by decide
theorem name_span : NameOk "span".toList := by decide
theorem name_figure : NameOk "figure".toList := by decide
theorem name_table : NameOk "table".toList := by decide
theorem name_thead : NameOk "thead".toList := by decide
theorem name_tbody : NameOk "tbody".toList := by decide
theorem name_tr : NameOk "tr".toList := by decide
theorem name_td : NameOk "td".toList := by decide

/-- Proves that the name of a tag is one. -/
macro "nameok" : tactic => `(tactic| first
  | exact name_div
  | exact name_section
  | exact name_ul
  | exact name_ol
  | exact name_li
  | exact name_span
  | exact name_figure
  | exact name_table
  | exact name_thead
  | exact name_tbody
  | exact name_tr
  | exact name_td)

/-- Goes through a program, leaving the claims about the values. -/
macro "anchors" : tactic => `(tactic| repeat' first
  | exact Gives.throw _
  | (refine Gives.pure ?_)
  | (with_reducible refine Gives.onNode fun _ _ => ?_)
  | (with_reducible refine Gives.onGet fun _ _ => ?_)
  | (with_reducible refine Gives.past (reftext_keeps _ _) fun _ => ?_)
  | (with_reducible refine Gives.past (fullNumber_keeps _ _) fun _ => ?_)
  | (with_reducible refine Gives.past (minimap_keeps _ _ _ _) fun _ => ?_)
  | (with_reducible refine Gives.past (bibitemText_keeps _) fun _ => ?_)
  | (with_reducible refine Gives.past (itemsOf_keeps _) fun _ => ?_)
  | (with_reducible refine Gives.past (Keeps.warn _) fun _ => ?_)
  | (with_reducible refine Gives.past (Keeps.lift _) fun _ => ?_)
  | (refine Gives.past (Keeps.assign _ _ (fun _ => rfl)) fun _ => ?_)
  | split)

/-- Finds the tag among the items. -/
macro "opens" : tactic => `(tactic| repeat' first
  | exact Opens.here (by assumption) (by nameok)
  | refine Opens.there ?_
  | refine Opens.left ?_)

theorem manuscriptItems_opens {nd : NodeRec} (h : nd.label = l) : Opens l (manuscriptItems nd) := by
  unfold manuscriptItems; opens
theorem abstractItems_opens {nd : NodeRec} (h : nd.label = l) : Opens l (abstractItems nd) := by
  unfold abstractItems; opens
theorem paragraphItems_opens {hp : Heap} (h : (hp.get r).label = l) : Opens l (paragraphItems hp r) := by
  unfold paragraphItems; opens
theorem contentsItems_opens {nd : NodeRec} (h : nd.label = l) : Opens l (contentsItems nd) := by
  unfold contentsItems heading; opens
theorem mathItems_opens {nd : NodeRec} (h : nd.label = l) : Opens l (mathItems nd) := by
  unfold mathItems; opens
theorem sketchItems_opens {nd : NodeRec} (h : nd.label = l) : Opens l (sketchItems nd) := by
  unfold sketchItems; opens
theorem bibliographyItems_opens {nd : NodeRec} (h : nd.label = l) : Opens l (bibliographyItems nd) := by
  unfold bibliographyItems heading; opens
theorem replaceWithHandrails_opens {tag : TagArgs} (h : tag.id = l) (hn : NameOk tag.tag) (m o c d) :
    Opens l (replaceWithHandrails tag m o c d) := Opens.here h hn
theorem sectionItems_opens (k) : Gives (LabelIs r l) (Opens l) (sectionItems k r) := by
  have : Keeps (sectionHeading k r) := by
    have := fullNumber_keeps k r
    unfold sectionHeading; keeps
  unfold sectionItems heading; anchors
  refine Gives.past this fun _ => Gives.pure ?_
  opens
theorem wrapHeading_opens (k) {items : List Item} (h : Opens l items) :
    Gives (LabelIs r l) (Opens l) (wrapHeading k r items) := by
  unfold wrapHeading; anchors
  exact h.sub (subset_wrapItem _ _ _ _ _ _ _)
theorem wrapIf_opens (k) {items : List Item} (h : Opens l items) :
    Gives (LabelIs r l) (Opens l) (wrapIf k r items) := by
  unfold wrapIf; split
  · exact wrapHeading_opens k h
  · exact Gives.pure h
theorem handrailItems_opens (k a c d) :
    Gives (LabelIs r l) (Opens l) (handrailItems k r a c d) := by
  unfold handrailItems; anchors
  exact replaceWithHandrails_opens (by assumption) (by nameok) _ _ _ _
theorem theoremItems_opens (k) : Gives (LabelIs r l) (Opens l) (theoremItems k r) := by
  have : Keeps (theoremNumber k r) := by
    have := fullNumber_keeps k r
    unfold theoremNumber; keeps
  unfold theoremItems
  refine Gives.onNode fun nd h => Gives.past this fun _ => Gives.pure ?_
  opens
theorem proofItems_opens : Gives (LabelIs r l) (Opens l) (proofItems r) := by
  unfold proofItems
  refine Gives.past (by unfold markLast; keeps) fun _ => ?_
  anchors; opens
theorem hrLabeled_opens (k items d) : Gives (LabelIs r l) (CmdOpens l) (hrLabeled k r items d) := by
  unfold hrLabeled
  refine Gives.bind (handrailItems_opens k _ _ _) fun hs h => Gives.pure (.batchDefer h.left)
theorem authorCmd_opens {nd : NodeRec} (h : nd.label = l) : CmdOpens l (authorCmd nd) := by
  unfold authorCmd; split
  · refine .batchDefer ?_; opens
  · refine .item ?_; opens

theorem subset_insertAt {n : Nat} {x : Item} (items : List Item) : items ⊆ insertAt n x items := by
  intro y hy
  unfold insertAt
  rw [← List.take_append_drop n items, List.mem_append] at hy
  simp only [List.mem_append, List.mem_cons]
  tauto

theorem hrVisitBibitem_opens : Gives (LabelIs r l) (CmdOpens l) (hrVisitBibitem r) := by
  unfold hrVisitBibitem
  anchors
  · refine .batchDefer (Opens.sub ?_ (subset_wrapItem _ _ _ _ _ _ _)); opens
  · refine .batchDefer (Opens.sub (Opens.sub ?_ (subset_insertAt _)) (subset_insertAt _))
    simp only [wrapItem]
    opens

theorem hrVisitManuscript_opens (k) : Gives (LabelIs r l) (CmdOpens l) (hrVisitManuscript k r) := by
  unfold hrVisitManuscript
  refine Gives.onGet fun s hs => ?_
  have h1 : Opens l (if (s.heap.get r).title ≠ [] then
      wrapItem 4 (manuscriptItems (s.heap.get r)) ["heading".toList] "Title" .on
      else manuscriptItems (s.heap.get r)) := by
    split
    · exact (manuscriptItems_opens hs).sub (subset_wrapItem _ _ _ _ _ _ _)
    · exact manuscriptItems_opens hs
  dsimp only
  generalize (if (s.heap.get r).title ≠ [] then
      wrapItem 4 (manuscriptItems (s.heap.get r)) ["heading".toList] "Title" .on
      else manuscriptItems (s.heap.get r)) = items at h1
  have h2 : Opens l (if k.addSource = true then insertAt 2 (sourceDiv s.heap s.tree) items
      else items) := by
    split
    · exact h1.sub (subset_insertAt _)
    · exact h1
  generalize (if k.addSource = true then insertAt 2 (sourceDiv s.heap s.tree) items
      else items) = items2 at h2
  split
  · exact Gives.pure (.batchDefer h2)
  · refine Gives.past (minimap_keeps _ _ _ _) fun m => Gives.pure (.batchDefer (h2.sub ?_))
    intro y hy
    rw [← List.take_append_drop 3 items2, List.mem_append] at hy
    simp only [List.mem_append]
    tauto

theorem hrVisitContents_opens (k) : Gives (LabelIs r l) (CmdOpens l) (hrVisitContents k r) := by
  unfold hrVisitContents
  refine Gives.onNode fun nd hn => Gives.bind (wrapHeading_opens k (contentsItems_opens hn))
    fun items h => Gives.past (minimap_keeps _ _ _ _) fun m => Gives.pure (.batchDefer (h.sub ?_))
  intro y hy
  have : y ∈ items.dropLast ∨ y ∈ items.getLast?.toList := by
    rcases List.eq_nil_or_concat items with rfl | ⟨a, b, rfl⟩
    · cases hy
    · simpa using hy
  simp only [List.mem_append]
  tauto

theorem hrVisitBibliography_opens (k) :
    Gives (LabelIs r l) (CmdOpens l) (hrVisitBibliography k r) := by
  unfold hrVisitBibliography
  refine Gives.onNode fun nd hn => Gives.bind (wrapHeading_opens k (Opens.right (Opens.here hn (by nameok))))
    fun items h => Gives.pure (.batchDefer h)

/-- The classes with a visit method that writes the label of the node as the id of an element. -/
def anchorOwners : List Cls :=
  [.Manuscript, .Author, .Abstract, .Paragraph, .Step, .Section, .Enumerate, .Itemize, .Item,
   .Contents, .Note, .Math, .MathBlock, .Code, .CodeBlock, .Algorithm, .Error, .Span, .Construct,
   .ClaimBlock, .Theorem, .Statement, .Subproof, .Sketch, .Proof, .Bibliography, .Bibitem, .Draft,
   .Figure, .Table, .TableHead, .TableBody, .TableRow, .TableDatum]

theorem visitWith_opens (k) {o : Cls} (ho : o ∈ anchorOwners) :
    Gives (LabelIs r l) (CmdOpens l) (visitWith k o r) := by
  cases o <;> first | exact absurd ho (by decide) | skip
  case Manuscript =>
    show Gives _ _ (if _ then _ else _)
    split
    · exact hrVisitManuscript_opens k
    · exact Gives.onNode fun nd h => Gives.pure (.batchDefer (manuscriptItems_opens h))
  case Author =>
    show Gives _ _ (if _ then _ else _)
    split
    · unfold hrVisitAuthor
      refine Gives.onNode fun nd h => Gives.bind (handrailItems_opens k _ _ _) fun hs h =>
        Gives.past (itemsOf_keeps _) fun _ => Gives.pure (.batchDefer h.left)
    · exact Gives.onNode fun nd h => Gives.pure (authorCmd_opens h)
  case Abstract =>
    exact Gives.onNode fun nd h => Gives.bind (wrapIf_opens k (abstractItems_opens h)) fun _ h =>
      Gives.pure (.batchDefer h)
  case Paragraph =>
    show Gives _ _ (if _ then _ else _)
    split
    · unfold hrVisitParagraph
      refine Gives.onGet fun s hs => Gives.past (reftext_keeps _ _) fun _ => ?_
      dsimp only
      refine Gives.pure (.batchDefer (Opens.left ?_))
      split
      · exact replaceWithHandrails_opens hs (by nameok) _ _ _ _
      · exact replaceWithHandrails_opens hs (by nameok) _ _ _ _
    · exact Gives.onGet fun nd h => Gives.pure (.batchDefer (paragraphItems_opens h))
  case Step =>
    show Gives _ _ (if _ then _ else _)
    split
    · unfold hrVisitStep
      refine Gives.onGet fun s hs => Gives.past (reftext_keeps _ _) fun _ => ?_
      exact Gives.pure (.batchDefer (Opens.here hs (by nameok)))
    · exact Gives.onNode fun nd h => Gives.pure (.item (Opens.here h (by nameok)))
  case Section =>
    exact Gives.bind (sectionItems_opens k) fun _ h => Gives.bind (wrapIf_opens k h) fun _ h =>
      Gives.pure (.batchDefer h)
  case Contents =>
    show Gives _ _ (if _ then _ else _)
    split
    · exact hrVisitContents_opens k
    · exact Gives.onNode fun nd h => Gives.pure (.batchDefer (contentsItems_opens h))
  case Note =>
    show Gives _ _ (visitNote k r)
    unfold visitNote
    anchors
    refine .batchDefer ?_; opens
  case Math =>
    show Gives _ _ (if _ then _ else _)
    split
    · unfold hrVisitMath
      anchors
      all_goals first
        | exact .batchDefer (mathItems_opens (by assumption))
        | exact .batchDefer (Opens.there (mathItems_opens (by assumption)))
    · exact Gives.onNode fun nd h => Gives.pure (.batchDefer (mathItems_opens h))
  case MathBlock =>
    show Gives _ _ (if _ then _ else _)
    split
    · unfold hrVisitMathBlock
      refine Gives.onNode fun nd h => Gives.past ?_ fun _ => ?_
      · have := reftext_keeps k r
        unfold mathBlockLabel; keeps
      · exact Gives.pure (.batchDefer
          (Opens.there (Opens.left (replaceWithHandrails_opens h (by nameok) _ _ _ _))))
    · unfold visitMathBlock
      refine Gives.onGet fun s hs => ?_
      dsimp only
      refine Gives.ite ?_ (Gives.throw _)
      refine Gives.pure (CmdOpens.batchDefer ?_); opens
  case Theorem =>
    refine Gives.bind (theoremItems_opens k) fun items h => ?_
    split
    · exact hrLabeled_opens k _ _
    · exact Gives.pure (.batchDefer h)
  case Subproof =>
    show Gives _ _ (if _ then _ else _)
    split
    · unfold hrVisitSubproof
      exact Gives.onNode fun nd h => Gives.pure (.batchDefer (Opens.here h (by nameok)))
    · exact Gives.onNode fun nd h => Gives.pure (.batchDefer (Opens.here h (by nameok)))
  case Sketch =>
    refine Gives.onNode fun nd h => ?_
    split
    · exact hrLabeled_opens k _ _
    · exact Gives.pure (.batchDefer (sketchItems_opens h))
  case Proof =>
    refine Gives.bind proofItems_opens fun items h => ?_
    split
    · exact hrLabeled_opens k _ _
    · exact Gives.pure (.batchDefer h)
  case Bibliography =>
    show Gives _ _ (if _ then _ else _)
    split
    · exact hrVisitBibliography_opens k
    · exact Gives.onNode fun nd h => Gives.pure (.batchDefer (bibliographyItems_opens h))
  case Bibitem =>
    show Gives _ _ (if _ then _ else _)
    split
    · exact hrVisitBibitem_opens
    · anchors
      refine .batchDefer ?_; opens
  case Figure =>
    show Gives _ _ (visitFigure k r)
    unfold visitFigure
    anchors <;> refine .batchDefer ?_ <;> opens
  case Span => exact Gives.onNode fun nd h => Gives.pure (.batchDefer (Opens.here h (by nameok)))
  all_goals first
    | exact Gives.onNode fun nd h => Gives.pure (.item (Opens.here h (by nameok)))
    | exact Gives.onNode fun nd h => Gives.pure (.batchDefer (Opens.here h (by nameok)))

/-! ## Links -/

theorem spaced_eq : ∀ ws : List Str, join " ".toList ws = spaced ws
  | [] => rfl
  | [_] => rfl
  | w :: v :: ws => by
    simp only [join, spaced, spaced_eq (v :: ws)]
    simp [show " ".toList = [' '] from rfl]

theorem hasLink_mono {s out i l t : Str} {cs : List Str} (h : HasLink s i cs l t) (ho : s <:+: out) :
    HasLink out i cs l t := List.IsInfix.trans h ho

theorem makeTag_link {i l t : Str} {cs : List Str} (hc : cs ≠ []) :
    HasLink (makeTag "a" i cs (kwargs := [("href", '#' :: l)]) ++ t ++ "</a>".toList) i cs l t := by
  unfold HasLink makeTag
  rw [← spaced_eq]
  refine List.IsPrefix.isInfix ⟨[], ?_⟩
  simp only [ne_eq, hc, not_false_eq_true, if_true]
  simp [join]

/-- The text of a link to the node `x`: the author's text for it, or else the text that the node has
for references to it. -/
def LinkText (k : Conf) (s : TrState) (r x : Ref) (text : Str) : Prop :=
  if (s.heap.get r).cls.isSub .BaseReference ∧ (s.heap.get r).overwriteReftext ≠ [] then
    text = (s.heap.get r).overwriteReftext
  else reftext k x s = .ok text s

theorem fullNumber_state {k x s t s'} (h : fullNumber k x s = .ok t s') : s' = s := by
  unfold fullNumber at h
  rw [bind_apply, get_apply] at h
  cases e : s.heap.fullNumber k.fuel x with
  | none => simp only [e] at h; cases h
  | some y => simp only [e] at h; cases h; rfl

theorem lift_state {α : Type} {x : Except PyErr α} {s t s'} (h : lift x s = .ok t s') : s' = s := by
  cases x with
  | ok a => cases h; rfl
  | error e => cases h

theorem reftext_state {k x s t s'} (h : reftext k x s = .ok t s') : s' = s := by
  unfold reftext at h
  obtain ⟨fn, s1, e1, h⟩ := bindOk h
  obtain ⟨s2, s3, e2, h⟩ := bindOk h
  obtain ⟨t', s4, e3, h⟩ := bindOk h
  cases h
  have := fullNumber_state e1
  subst this
  cases e2
  exact lift_state e3

theorem ahref_ok {k r x l i add s a s'} (hu : (s.heap.get r).cls.isSub .URL = false)
    (h : ahref k r (.node x) ('#' :: l) i add s = .ok a s') :
    ∃ text classes, LinkText k s r x text ∧
      HasLink a i (classes ++ add) l text ∧
      (∀ c ∈ classes, c = "reference".toList ∨ c ∈ (s.heap.get r).types) ∧
      "reference".toList ∈ classes := by
  unfold ahref at h
  obtain ⟨⟨⟩, s1, e1, h1⟩ := bindOk h
  obtain ⟨text, s2, e2, h2⟩ := bindOk h1
  obtain ⟨⟨⟩, s3, e3, h3⟩ := bindOk h2
  clear h h1 h2
  cases e1
  have ht : LinkText k s r x text ∧ s2 = s := by
    unfold linkText at e2
    unfold LinkText
    simp only [bind_apply, node, gets_apply] at e2
    split at e2
    · rename_i hc
      rw [if_pos hc]
      cases e2
      exact ⟨rfl, rfl⟩
    · rename_i hc
      rw [if_neg hc]
      have := reftext_state e2
      subst this
      exact ⟨e2, rfl⟩
  obtain ⟨ht, rfl⟩ := ht
  simp only [addReferenceType, bind_apply, node, gets_apply] at e3 h3
  cases h3
  have hm : "reference".toList ∈ (s'.heap.get r).types ∧
      ∀ c ∈ (s'.heap.get r).types, c = "reference".toList ∨ c ∈ (s2.heap.get r).types := by
    split at e3
    · rename_i hc
      cases e3
      simp
    · rename_i hc
      cases e3
      refine ⟨?_, fun c hc => .inr hc⟩
      exact Decidable.byContradiction fun hn => hc ⟨by simp [hu], hn⟩
  refine ⟨text, (s'.heap.get r).types, ht, makeTag_link ?_, hm.2, hm.1⟩
  intro e
  have := (List.append_eq_nil_iff.mp e).1
  rw [this] at hm
  exact absurd hm.1 (by simp)

theorem visit_eq {k r s d} (hd : methodClass visitNames (s.heap.get r).cls = .ok d) :
    visit k r s = visitWith k d r s := by
  simp only [visit, bind_apply, node, gets_apply, hd, lift, pure_apply]

/-! ## References -/

theorem reference_link {k r x s c s'} (hc : (s.heap.get r).cls = .Reference)
    (ht : (s.heap.get r).target = .node x) (h : visit k r s = .ok c s') :
    ∃ text classes, LinkText k s r x text ∧ HasLink c.text [] classes (s.heap.get x).label text ∧
      (∀ c ∈ classes, c = "reference".toList ∨ c ∈ (s.heap.get r).types) ∧
      "reference".toList ∈ classes := by
  rw [visit_eq (d := .Reference) (by rw [hc]; rfl)] at h
  change visitReference k r s = _ at h
  simp only [visitReference, bind_apply, get_apply, ht] at h
  split at h
  · rename_i a s1 e
    cases h
    obtain ⟨text, classes, h1, h2, h3, h4⟩ := ahref_ok (by rw [hc]; decide) e
    refine ⟨text, classes, h1, ?_, h3, h4⟩
    rw [List.append_nil] at h2
    exact h2
  · cases h

/-! ## Citations -/

theorem join_infix {sep x : Str} : ∀ {xs : List Str}, x ∈ xs → x <:+: join sep xs
  | [y], h => by
    rw [List.mem_singleton] at h
    subst h
    exact List.infix_refl _
  | y :: z :: xs, h => by
    rw [List.mem_cons] at h
    rcases h with rfl | h
    · exact ⟨[], sep ++ join sep (z :: xs), by simp [join]⟩
    · exact (join_infix (sep := sep) h).trans ⟨y ++ sep, [], by simp [join]⟩

theorem citeTags_ok {k r} : ∀ {i xs s ss s'}, (s.heap.get r).cls.isSub .URL = false →
    citeTags k r i xs s = .ok ss s' → ∀ n x, xs[n]? = some x → ∃ s1 a, SameFrame s.heap s1.heap ∧
      a ∈ ss ∧ ∃ text classes, LinkText k s1 r x text ∧
        HasLink a ((s.heap.get r).label ++ '-' :: natStr (i + n)) (classes ++ ["cite".toList])
          (s.heap.get x).label text ∧ "reference".toList ∈ classes
  | i, [], s, ss, s', _, _ => by simp
  | i, y :: xs, s, ss, s', hu, h => by
    unfold citeTags at h
    rw [bind_apply, get_apply] at h
    obtain ⟨a, s1, e1, h⟩ := bindOk h
    obtain ⟨ss', s2, e2, h⟩ := bindOk h
    cases h
    have hk := (ahref_keeps k r (.node y) ('#' :: (s.heap.get y).label)
      ((s.heap.get r).label ++ '-' :: natStr i) ["cite".toList]).keep s
    rw [e1] at hk
    have hf : SameFrame s.heap s1.heap := hk.frame
    intro n x hn
    cases n with
    | zero =>
      simp only [List.getElem?_cons_zero, Option.some.injEq] at hn
      subst hn
      obtain ⟨text, classes, h1, h2, h3, h4⟩ := ahref_ok hu e1
      exact ⟨s, a, SameFrame.refl _, .head _, text, classes, h1, h2, h4⟩
    | succ n =>
      simp only [List.getElem?_cons_succ] at hn
      obtain ⟨s3, b, g1, g2, text, classes, g3, g4, g5⟩ :=
        citeTags_ok (by rw [hf.cls]; exact hu) e2 n x hn
      refine ⟨s3, b, hf.trans g1, .tail _ g2, text, classes, g3, ?_, g5⟩
      rw [hf.label, hf.label, show i + 1 + n = i + (n + 1) by omega] at g4
      exact g4

theorem SameFrame.overwrite {a b : Heap} (h : SameFrame a b) (x) :
    (b.get x).overwriteReftext = (a.get x).overwriteReftext :=
  (congrArg NodeRec.overwriteReftext (h.2 x) :)
theorem SameFrame.backlinks {a b : Heap} (h : SameFrame a b) (x) :
    (b.get x).backlinks = (a.get x).backlinks :=
  (congrArg NodeRec.backlinks (h.2 x) :)

theorem reftext_frame {k x s1 text s} (hf : SameFrame s.heap s1.heap)
    (h : reftext k x s1 = .ok text s1) : reftext k x s = .ok text s := by
  unfold reftext at h ⊢
  obtain ⟨fn, s2, e1, g1⟩ := bindOk h
  obtain ⟨s3, s4, e2, g2⟩ := bindOk g1
  obtain ⟨t', s5, e3, g3⟩ := bindOk g2
  clear h g1 g2
  have := fullNumber_state e1
  subst this
  cases e2
  have := lift_state e3
  subst this
  have e1' : fullNumber k x s = .ok fn s := by
    unfold fullNumber at e1 ⊢
    simp only [bind_apply, get_apply] at e1 ⊢
    rw [hf.fullNumber] at e1
    cases e : s.heap.fullNumber k.fuel x with
    | none => simp only [e] at e1; cases e1
    | some y => simp only [e] at e1 ⊢; cases e1; rfl
  have e3' : lift (formatGo (s.heap.get x).cls.name (fmtOpt fn) .lit (s.heap.get x).reftextTemplate) s =
      .ok t' s := by
    have ht : (s5.heap.get x).reftextTemplate = (s.heap.get x).reftextTemplate :=
      (congrArg NodeRec.reftextTemplate (hf.2 x) :)
    rw [hf.cls, ht] at e3
    revert e3
    cases formatGo (s.heap.get x).cls.name (fmtOpt fn) .lit (s.heap.get x).reftextTemplate with
    | ok a => intro e; cases e; rfl
    | error e => intro e; cases e
  rw [bind_apply, e1']
  simp only [bind_apply, get_apply, e3', pure_apply]
  cases g3
  rfl

theorem LinkText.frame {k s1 r x text s} (hf : SameFrame s.heap s1.heap)
    (h : LinkText k s1 r x text) : LinkText k s r x text := by
  unfold LinkText at h ⊢
  rw [hf.cls, hf.overwrite] at h
  split at h
  · rename_i hc; rw [if_pos hc]; exact h
  · rename_i hc; rw [if_neg hc]; exact reftext_frame hf h

theorem visit_hasId {k r l s c s'} {d : Cls} (hd : methodClass visitNames (s.heap.get r).cls = .ok d)
    (ho : d ∈ anchorOwners) (hl : (s.heap.get r).label = l) (hne : l ≠ [])
    (h : visit k r s = .ok c s') : HasId c.text l := by
  rw [visit_eq hd] at h
  have := (visitWith_opens (r := r) (l := l) k ho).gives s hl
  rw [h] at this
  exact this.2.hasId hne

theorem visitCite_single {k r s x} (hT : (s.heap.get r).targets = [x]) :
    visitCite k r s = ((ahref k r (.node x) ('#' :: (s.heap.get x).label) (s.heap.get r).label
      (if s.heap.isInst x .UnknownBibitem then ["cite".toList, "unknown".toList] else ["cite".toList])) >>=
        fun a => pure (.item (.text ('[' :: a ++ "]".toList)))) s := by
  simp only [visitCite, bind_apply, get_apply, hT]

theorem visitCite_many {k r s} (hT : ∀ x, (s.heap.get r).targets ≠ [x]) :
    visitCite k r s = (citeTags k r 0 (s.heap.get r).targets >>= fun ss =>
      pure (.item (.text ("[<span id=\"".toList ++ (s.heap.get r).label ++ "\">".toList ++
        join ", ".toList ss ++ "</span>]".toList)))) s := by
  match h : (s.heap.get r).targets with
  | [] => simp only [visitCite, bind_apply, get_apply, h]
  | [x] => exact absurd h (hT x)
  | x :: y :: xs => simp only [visitCite, bind_apply, get_apply, h]

theorem cite_hasId {k r l s c s'} (hc : (s.heap.get r).cls = .Cite) (hl : (s.heap.get r).label = l)
    (hne : l ≠ []) (h : visit k r s = .ok c s') : HasId c.text l := by
  rw [visit_eq (d := .Cite) (by rw [hc]; rfl)] at h
  change visitCite k r s = _ at h
  by_cases hT : ∃ x, (s.heap.get r).targets = [x]
  · obtain ⟨x, hT⟩ := hT
    rw [visitCite_single hT, bind_apply] at h
    split at h
    · rename_i a s1 e
      cases h
      rw [hl] at e
      obtain ⟨text, classes, h1, h2, h3, h4⟩ := ahref_ok (by rw [hc]; decide) e
      refine hasId_mono (s := a) ?_ ⟨['['], "]".toList, by simp [Cmd.text, Item.makeText]⟩
      unfold HasLink at h2
      rw [if_pos hne] at h2
      refine ⟨"a".toList, by decide, by decide, List.IsInfix.trans ?_ h2⟩
      exact ⟨[], _, by simp only [List.append_assoc, List.nil_append, List.cons_append]; rfl⟩
    · cases h
  · rw [visitCite_many (fun x e => hT ⟨x, e⟩), bind_apply] at h
    split at h
    · rename_i ss s1 e
      cases h
      rw [hl]
      refine ⟨"span".toList, by decide, by decide, ?_⟩
      refine ⟨['['], ">".toList ++ join ", ".toList ss ++ "</span>]".toList, ?_⟩
      simp only [Cmd.text, Item.makeText, List.append_assoc]
      rfl
    · cases h

theorem cite_link {k r s c s'} (hc : (s.heap.get r).cls = .Cite) {x : Ref}
    (hx : x ∈ (s.heap.get r).targets) (h : visit k r s = .ok c s') :
    ∃ text id classes, reftext k x s = .ok text s ∧ HasLink c.text id classes (s.heap.get x).label text ∧
      "reference".toList ∈ classes ∧ "cite".toList ∈ classes := by
  have hb : ¬ ((s.heap.get r).cls.isSub .BaseReference = true ∧ (s.heap.get r).overwriteReftext ≠ []) := by
    rw [hc]; intro h; exact absurd h.1 (by decide)
  rw [visit_eq (d := .Cite) (by rw [hc]; rfl)] at h
  change visitCite k r s = _ at h
  by_cases hT : ∃ x, (s.heap.get r).targets = [x]
  · obtain ⟨y, hT⟩ := hT
    rw [hT, List.mem_singleton] at hx
    subst hx
    rw [visitCite_single hT, bind_apply] at h
    split at h
    · rename_i a s1 e
      cases h
      obtain ⟨text, classes, h1, h2, h3, h4⟩ := ahref_ok (by rw [hc]; decide) e
      unfold LinkText at h1
      rw [if_neg hb] at h1
      refine ⟨text, _, _, h1, hasLink_mono h2 ⟨['['], "]".toList, by simp [Cmd.text, Item.makeText]⟩,
        List.mem_append_left _ h4, List.mem_append_right _ ?_⟩
      split <;> simp
    · cases h
  · rw [visitCite_many (fun x e => hT ⟨x, e⟩), bind_apply] at h
    split at h
    · rename_i ss s1 e
      cases h
      obtain ⟨n, hn⟩ := List.mem_iff_getElem?.mp hx
      obtain ⟨s1, a, g1, g2, text, classes, g3, g4, g5⟩ := citeTags_ok (by rw [hc]; decide) e n x hn
      have g3 := g3.frame g1
      unfold LinkText at g3
      rw [if_neg hb] at g3
      refine ⟨text, _, _, g3, hasLink_mono g4 ((join_infix (sep := ", ".toList) g2).trans ?_), List.mem_append_left _ g5,
        List.mem_append_right _ (by simp)⟩
      exact ⟨"[<span id=\"".toList ++ (s.heap.get r).label ++ "\">".toList, "</span>]".toList, by
        simp [Cmd.text, Item.makeText]⟩
    · cases h

theorem backlinkTags_link : ∀ {i : Nat} {ls : List Str} {n : Nat} {l : Str}, ls[n]? = some l →
    ∃ a ∈ backlinkTags i ls, HasLink a [] ["reference".toList, "backlink".toList] l ('↖' :: natStr (i + n))
  | i, m :: ls, 0, l, h => by
    simp only [List.getElem?_cons_zero, Option.some.injEq] at h
    subst h
    refine ⟨_, .head _, ?_⟩
    have := makeTag_link (i := []) (l := m) (t := '↖' :: natStr i) (cs := ["reference".toList, "backlink".toList])
      (by simp)
    simpa using this
  | i, m :: ls, n + 1, l, h => by
    simp only [List.getElem?_cons_succ] at h
    obtain ⟨a, h1, h2⟩ := backlinkTags_link (i := i + 1) h
    exact ⟨a, .tail _ h1, by rw [show i + (n + 1) = i + 1 + n by omega]; exact h2⟩

theorem bibitem_backlink {k r s c s'} (hk : k.handrails = false)
    (hc : methodClass visitNames (s.heap.get r).cls = .ok .Bibitem) {n : Nat} {l : Str}
    (hn : (s.heap.get r).backlinks[n]? = some l) (h : visit k r s = .ok c s') :
    HasLink c.text [] ["reference".toList, "backlink".toList] l ('↖' :: natStr (n + 1)) := by
  rw [visit_eq hc] at h
  change (if k.handrails = true then _ else _ : TrM Cmd) s = _ at h
  rw [hk] at h
  simp only [Bool.false_eq_true, if_false] at h
  obtain ⟨nd, s1, e1, g1⟩ := bindOk h
  obtain ⟨text, s2, e2, g2⟩ := bindOk g1
  clear h g1
  cases e1
  cases g2
  unfold bibitemText at e2
  obtain ⟨nd, s3, e3, f1⟩ := bindOk e2
  obtain ⟨-, s4, -, f2⟩ := bindOk f1
  obtain ⟨year, s5, -, f3⟩ := bindOk f2
  obtain ⟨doi, s6, -, f4⟩ := bindOk f3
  clear e2 f1 f2 f3
  cases e3
  cases f4
  obtain ⟨a, h1, h2⟩ := backlinkTags_link (i := 1) hn
  rw [Nat.add_comm n 1]
  refine hasLink_mono h2 ((join_infix (sep := ",".toList) h1).trans ?_)
  have hne : (s.heap.get r).backlinks ≠ [] := by intro e; rw [e] at hn; simp at hn
  rw [if_pos hne]
  generalize join ". ".toList _ ++ ".".toList ++ doi = q
  refine List.IsInfix.trans (l₂ := q ++ ("<br />[".toList ++
    join ",".toList (backlinkTags 1 (s.heap.get r).backlinks) ++ "]".toList)) ?_ ?_
  · exact ⟨q ++ "<br />[".toList, "]".toList, by simp only [List.append_assoc]⟩
  · exact item_infix (i := .text _) (.tail _ (.head _))

end Tr
end RSM
