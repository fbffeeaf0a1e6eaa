import Verif.Lemmas.RenderTree
import Verif.Props.Reading
import Verif.Props.TrOutcome
import Verif.Props.Page

/-! # The page is the nested rendering of the document (C80)

`Render.page` (Spec/Render) says what the page of a document is, node by node: what stands before the children,
the children one after the other, and what stands after them.  It knows no commands, no deferred commands, no
stack, and no notes on nodes. -/

namespace RSM
namespace Tr
open PyM

section
variable {h : Heap} {k : Conf} {root : Ref} {t : Tree} {s s' : TrState} {page : Str}

/-- **C80.** A node has one full number. -/
theorem C80_number_unique {x : Ref} {o o' : Option Str} (h1 : FullNumber h x o) (h2 : FullNumber h x o') : o = o' := by
  have key : ∀ {l}, Ancestors h x l → o = o' := fun {l} ha => by
    have e1 := C12_full_number_complete h x l ha (l.length + 1) (by omega) o h1
    have e2 := C12_full_number_complete h x l ha (l.length + 1) (by omega) o' h2
    exact Option.some.inj (e1.symm.trans e2)
  cases h1 with
  | manuscript hm => cases h2 <;> first | rfl | contradiction
  | nonum hm hn => cases h2 <;> first | rfl | contradiction | simp_all
  | inScope _ _ ha => exact key ha
  | unnumberedScope _ _ ha => exact key ha
  | noScope _ _ ha => exact key ha

theorem fills_unique {cls num tmpl out out' : Str} (h1 : Render.Fills cls num tmpl out)
    (h2 : Render.Fills cls num tmpl out') : out = out' := by
  have e1 : "{nodeclass}".toList = '{' :: 'n' :: "odeclass}".toList := by decide +kernel
  have e2 : "{number}".toList = '{' :: 'n' :: 'u' :: "mber}".toList := by decide +kernel
  have e3 : "odeclass}".toList = 'o' :: "declass}".toList := by decide +kernel
  have key : ∀ {tm o o'}, Render.Fills cls num tm o → ∀ {tm'}, Render.Fills cls num tm' o' → tm = tm' → o = o' := by
    intro tm o o' h1
    induction h1 generalizing o' with
    | nil =>
      intro tm' h2 e
      cases h2 with
      | nil => rfl
      | nodeclass => rw [e1] at e; cases e
      | number => rw [e2] at e; cases e
      | _ => cases e
    | char hc1 hc2 _ ih =>
      intro tm' h2 e
      cases h2 with
      | nil => cases e
      | char _ _ h => injection e with a b; rw [a, ih h b]
      | opening => injection e with a; exact absurd a hc1
      | closing => injection e with a; exact absurd a hc2
      | nodeclass => rw [e1] at e; injection e with a; exact absurd a hc1
      | number => rw [e2] at e; injection e with a; exact absurd a hc1
    | opening _ ih =>
      intro tm' h2 e
      cases h2 with
      | nil => cases e
      | char hc _ h => injection e with a b; exact absurd a.symm hc
      | opening h => injection e with a b; injection b with a b; rw [ih h b]
      | closing => injection e with a; cases a
      | nodeclass => rw [e1] at e; injection e with a b; injection b with a; cases a
      | number => rw [e2] at e; injection e with a b; injection b with a; cases a
    | closing _ ih =>
      intro tm' h2 e
      cases h2 with
      | nil => cases e
      | char _ hc h => injection e with a b; exact absurd a.symm hc
      | opening h => injection e with a; cases a
      | closing h => injection e with a b; injection b with a b; rw [ih h b]
      | nodeclass => rw [e1] at e; injection e with a b; cases a
      | number => rw [e2] at e; injection e with a b; cases a
    | nodeclass _ ih =>
      intro tm' h2 e
      cases h2 with
      | nil => rw [e1] at e; cases e
      | char hc _ h => rw [e1] at e; injection e with a b; exact absurd a.symm hc
      | opening h => rw [e1] at e; injection e with a b; injection b with a; cases a
      | closing h => rw [e1] at e; injection e with a; cases a
      | nodeclass h => rw [ih h (List.append_cancel_left e)]
      | number h => rw [e1, e2, e3] at e; injection e with a b; injection b with a b; injection b with a; cases a
    | number _ ih =>
      intro tm' h2 e
      cases h2 with
      | nil => rw [e2] at e; cases e
      | char hc _ h => rw [e2] at e; injection e with a b; exact absurd a.symm hc
      | opening h => rw [e2] at e; injection e with a b; injection b with a; cases a
      | closing h => rw [e2] at e; injection e with a; cases a
      | nodeclass h => rw [e1, e2, e3] at e; injection e with a b; injection b with a b; injection b with a; cases a
      | number h => rw [ih h (List.append_cancel_left e)]
  exact key h1 h2 rfl

/-- **C80.** A node is referred to with one text. -/
theorem C80_text_unique {x : Ref} {a b : Str} (h1 : Render.RefText h x a) (h2 : Render.RefText h x b) : a = b := by
  obtain ⟨o1, w1, f1, g1, rfl⟩ := h1
  obtain ⟨o2, w2, f2, g2, rfl⟩ := h2
  obtain rfl := C80_number_unique f1 f2
  rw [fills_unique g1 g2]

/-- **C80.** So there are functions that give the full number and the text of each node. -/
theorem C80_names (h : Heap) : ∃ (num : Ref → Option Str) (ref : Ref → Str),
    (∀ x o, FullNumber h x o → num x = o) ∧ ∀ x a, Render.RefText h x a → ref x = a := by
  classical
  refine ⟨fun x => if e : ∃ o, FullNumber h x o then e.choose else none,
    fun x => if e : ∃ a, Render.RefText h x a then e.choose else [], fun x o ho => ?_, fun x a ha => ?_⟩
  · have e : ∃ o, FullNumber h x o := ⟨o, ho⟩
    dsimp only; rw [dif_pos e]; exact C80_number_unique e.choose_spec ho
  · have e : ∃ a, Render.RefText h x a := ⟨a, ha⟩
    dsimp only; rw [dif_pos e]; exact C80_text_unique e.choose_spec ha

theorem named_of {num : Ref → Option Str} {ref : Ref → Str} {fuel : Nat} (hk : k.fuel = fuel)
    (hnum : ∀ x o, FullNumber h x o → num x = o) (href : ∀ x a, Render.RefText h x a → ref x = a) {x : Ref} {l}
    (ha : Ancestors h x l) (hl : l.length < fuel) : Named k h num ref x := by
  obtain ⟨o, ho, hf⟩ := fullNumber_spec ha hl
  subst hk
  refine ⟨fun o' h' => ?_, fun o' a h' hw => ?_⟩
  · rw [ho] at h'; cases h'; exact (hnum x _ hf).symm
  · rw [ho] at h'; cases h'; exact (href x _ ⟨_, a, hf, hw, rfl⟩).symm

/-- **C80.** The page that the plain translator writes for a document is the one described. -/
theorem C80_page (D : Doc s.heap root t) (hf : 2 * t.size ≤ k.fuel) (hk : k.handrails = false)
    (hp : TargetsPlaced s.heap t) (hd : Render.Describable s.heap t) {num : Ref → Option Str} {ref : Ref → Str}
    (hnum : ∀ x o, FullNumber s.heap x o → num x = o) (href : ∀ x a, Render.RefText s.heap x a → ref x = a)
    (hok : translate k root s = .ok page s') : page = Render.page s.heap num ref k.highlight t := by
  rw [translate_eq k D hf] at hok
  split at hok
  · cases hok
  · cases e : evalTree k t (started root s) with
    | err x s1 => rw [e] at hok; cases hok
    | ok a s1 =>
      rw [e] at hok
      cases hok
      have pos := t.size_pos
      have named : ∀ x ∈ t.pre, Named k s.heap num ref x := by
        intro x hx
        obtain ⟨l, h1, h2, _⟩ := D.ancestors hx
        exact named_of rfl hnum href h1 (by omega)
      have W := evalTree_paged (s := started root s) (h0 := s.heap) (num := num) (ref := ref) hk t D.tree D.nodup (fun q h => by cases h) (by
        intro x hx
        refine ⟨hd.kinds x hx, hd.urls x hx, fun y hy => ?_⟩
        rcases hy with rfl | hy | hy
        · exact named y hx
        · by_cases h0 : x = root
          · rw [h0, D.parent_root_none] at hy; cases hy
          · obtain ⟨q, hq, h1, h2⟩ := D.parent_mem hx h0
            rw [hy] at h1; cases h1; exact named _ hq
        · rcases hp x hx y hy with h1 | h1
          · exact named y h1
          · exact named_of (l := []) rfl hnum href h1 (by simp; omega))
        ⟨rfl, fun x => ⟨_, _, rfl⟩⟩ (by
          constructor
          · intro x hx
            have e : x = root := by rw [D.root_eq] at hx; simpa using hx
            subst e
            show (s.heap.get x).types = _
            unfold Render.types Render.lastStep
            rw [D.parent_root_none]
            simp
          · intro x _ _; rfl
          · exact hd.fresh) e
      rw [W.body]; rfl

theorem infix_mid {a b c d : Str} (h : a <:+: c) : a <:+: b ++ c ++ d := by
  obtain ⟨u, v, rfl⟩ := h
  exact ⟨b ++ u, v ++ d, by simp⟩

mutual
theorem page_infix (num : Ref → Option Str) (ref : Ref → Str) (hl : Str → Str → Str) : ∀ (t u : Tree), u ∈ t.subtrees →
    Render.page h num ref hl u <:+: Render.page h num ref hl t
  | .node i ks, u, hu => by
    rw [Tree.subtrees] at hu
    rcases List.mem_cons.mp hu with rfl | hu
    · exact List.infix_rfl
    · show _ <:+: Render.opening h num ref hl i ++ Render.pages h num ref hl ks ++ Render.closing h i
      exact infix_mid (pages_infix num ref hl ks u hu)
theorem pages_infix (num : Ref → Option Str) (ref : Ref → Str) (hl : Str → Str → Str) : ∀ (ts : List Tree) (u : Tree),
    u ∈ Tree.subtreesL ts → Render.page h num ref hl u <:+: Render.pages h num ref hl ts
  | [], u, hu => by rw [Tree.subtreesL] at hu; cases hu
  | t :: ts, u, hu => by
    rw [Tree.subtreesL] at hu
    rw [Render.pages]
    rcases List.mem_append.mp hu with hu | hu
    · exact (page_infix num ref hl t u hu).trans (List.prefix_append _ _).isInfix
    · exact (pages_infix num ref hl ts u hu).trans (List.suffix_append _ _).isInfix
end

/-- **C80.** Hence what is written of a part of the document stands together on the page: the page of every
subtree is a connected piece of the page. -/
theorem C80_nested (D : Doc s.heap root t) (hf : 2 * t.size ≤ k.fuel) (hk : k.handrails = false)
    (hp : TargetsPlaced s.heap t) (hd : Render.Describable s.heap t) {num : Ref → Option Str} {ref : Ref → Str}
    (hnum : ∀ x o, FullNumber s.heap x o → num x = o) (href : ∀ x a, Render.RefText s.heap x a → ref x = a)
    (hok : translate k root s = .ok page s') :
    ∀ u ∈ t.subtrees, Render.page s.heap num ref k.highlight u <:+: page := by
  intro u hu
  rw [C80_page D hf hk hp hd hnum href hok]
  exact page_infix num ref k.highlight t u hu

theorem mem_subtrees {t : Tree} {x : Ref} (hx : x ∈ t.pre) : ∃ ks, .node x ks ∈ t.subtrees := by
  obtain ⟨u, hu, h⟩ := Tree.exists_subtree hx
  obtain ⟨i, ks⟩ := u
  have h : i = x := h
  exact ⟨ks, h ▸ hu⟩

/-- **C80.** What is to be shown of a node before its children is shown. -/
theorem C80_shown (D : Doc s.heap root t) (hf : 2 * t.size ≤ k.fuel) (hk : k.handrails = false)
    (hp : TargetsPlaced s.heap t) (hd : Render.Describable s.heap t) {num : Ref → Option Str} {ref : Ref → Str}
    (hnum : ∀ x o, FullNumber s.heap x o → num x = o) (href : ∀ x a, Render.RefText s.heap x a → ref x = a)
    (hok : translate k root s = .ok page s') :
    ∀ x ∈ t.pre, Render.opening s.heap num ref k.highlight x <:+: page := by
  intro x hx
  obtain ⟨ks, hu⟩ := mem_subtrees hx
  refine List.IsInfix.trans ?_ (C80_nested D hf hk hp hd hnum href hok _ hu)
  exact ⟨[], _, by rw [List.nil_append, Render.page, List.append_assoc]⟩

theorem infix_line {a b : Str} (h : a <:+: b) : a <:+: Render.line b := by
  obtain ⟨u, v, rfl⟩ := h
  exact ⟨'\n' :: u, v ++ "\n".toList, by simp [Render.line]⟩

theorem element_plain (name c : Str) : Render.element name [] c =
    "<".toList ++ name ++ ">".toList ++ c ++ ("</".toList ++ name ++ ">".toList) := by
  unfold Render.element Render.tag Render.endTag
  rw [if_pos rfl, if_pos rfl]
  simp only [List.filter_nil, List.flatMap_nil, List.append_nil]

/-- **C80.** The heading of a numbered section is its full number and its title, at the level of the section. -/
theorem C80_heading (D : Doc s.heap root t) (hf : 2 * t.size ≤ k.fuel) (hk : k.handrails = false)
    (hp : TargetsPlaced s.heap t) (hd : Render.Describable s.heap t) (hok : translate k root s = .ok page s')
    {x : Ref} (hx : x ∈ t.pre) {n : Str} (hn : FullNumber s.heap x (some n)) {level : Str}
    (hl : ((s.heap.get x).cls, level) ∈ [(Cls.Section, "h2".toList), (.Subsection, "h3".toList), (.Subsubsection, "h4".toList)])
    (hu : (s.heap.get x).nonum = false) :
    "<".toList ++ level ++ ">".toList ++ n ++ ". ".toList ++ (s.heap.get x).title ++ "</".toList ++ level ++ ">".toList <:+: page := by
  obtain ⟨num, ref, h1, h2⟩ := C80_names s.heap
  refine List.IsInfix.trans ?_ (C80_shown D hf hk hp hd h1 h2 hok x hx)
  have e := h1 x _ hn
  simp only [List.mem_cons, List.not_mem_nil, or_false, Prod.mk.injEq] at hl
  unfold Render.opening
  dsimp only
  have key : ∀ {l : Str} {a : Str}, 'h' :: l = level → "<".toList ++ level ++ ">".toList ++ n ++ ". ".toList ++
      (s.heap.get x).title ++ "</".toList ++ level ++ ">".toList <:+: a ++ Render.line (Render.element ('h' :: l) []
        ((if (s.heap.get x).nonum = true then [] else Render.shown (num x) ++ ". ".toList) ++ (s.heap.get x).title)) := by
    intro l a hl
    refine List.IsInfix.trans (infix_line ?_) (List.suffix_append _ _).isInfix
    rw [hl, e, if_neg (by rw [hu]; decide), element_plain]
    show _ <:+: _ ++ (n ++ _ ++ _) ++ _
    simp only [List.append_assoc]
    exact List.infix_rfl
  rcases hl with ⟨hc, hl⟩ | ⟨hc, hl⟩ | ⟨hc, hl⟩ <;> rw [hc] <;> exact key (by rw [hl]; decide +kernel)

theorem attr_infix {name id : Str} {classes : List Str} {more : List (Str × Str)} {n v : Str} (h : (n, v) ∈ more) (hv : v ≠ []) :
    Render.attr n v <:+: Render.tag name id classes more := by
  have : Render.attr n v <:+: (more.filter (·.2 ≠ [])).flatMap (fun a => Render.attr a.1 a.2) := by
    obtain ⟨a, b, e⟩ := List.append_of_mem (List.mem_filter.mpr ⟨h, by simpa using hv⟩ :
      (n, v) ∈ more.filter (·.2 ≠ []))
    rw [e, List.flatMap_append, List.flatMap_cons]
    exact ⟨_, _, List.append_assoc _ _ _⟩
  unfold Render.tag
  refine List.IsInfix.trans this ?_
  refine List.IsInfix.trans ?_ (List.prefix_append _ _).isInfix
  refine List.IsInfix.trans ?_ (List.prefix_append _ _).isInfix
  exact (List.suffix_append _ _).isInfix

/-- **C80.** A figure that is not to be numbered shows the number `None` (the caption too, for which the number of
the figure is asked in the same way). -/
theorem C80_unnumbered_figure (D : Doc s.heap root t) (hf : 2 * t.size ≤ k.fuel) (hk : k.handrails = false)
    (hp : TargetsPlaced s.heap t) (hd : Render.Describable s.heap t) (hok : translate k root s = .ok page s')
    {x : Ref} (hx : x ∈ t.pre) (hc : (s.heap.get x).cls = .Figure) (hu : (s.heap.get x).nonum = true) :
    "Figure None.".toList <:+: page := by
  obtain ⟨num, ref, h1, h2⟩ := C80_names s.heap
  refine List.IsInfix.trans ?_ (C80_shown D hf hk hp hd h1 h2 hok x hx)
  have e := h1 x _ (.nonum (by rw [hc]; decide) hu)
  unfold Render.opening
  dsimp only
  rw [hc]
  dsimp only
  refine List.IsInfix.trans ?_ (List.suffix_append _ _).isInfix
  rw [e]
  have e2 : "Figure ".toList ++ Render.shown none ++ ".".toList = "Figure None.".toList := by decide +kernel
  rw [e2]
  refine List.IsInfix.trans ?_ (attr_infix (List.mem_cons_of_mem _ (List.mem_cons_self ..)) (by decide))
  exact ⟨_, _, rfl⟩

end

/-! The document of Props/TrOutcome meets the hypotheses, and its page is written. -/

theorem trHeap_describable : Render.Describable trHeap trTree := by
  have h : ∀ x ∈ trTree.pre, (trHeap.get x).cls ∉ [.Node, .NodeWithChildren, .Heading, .BaseParagraph, .BaseReference,
      .PendingReference, .PendingPrev, .PendingCite] ∧ (trHeap.get x).cls ≠ .URL ∧
      (trHeap.get x).mustCloseP = false := by decide
  exact ⟨fun x hx => (h x hx).1, fun x hx e => absurd e (h x hx).2.1, fun x hx _ => (h x hx).2.2⟩

example : ∃ num ref page s', (∀ x o, FullNumber trHeap x o → num x = o) ∧
    (∀ x a, Render.RefText trHeap x a → ref x = a) ∧ translate plainConf 0 { heap := trHeap } = .ok page s' ∧
    page = Render.page trHeap num ref plainConf.highlight trTree := by
  obtain ⟨num, ref, h1, h2⟩ := C80_names trHeap
  have e : (translate plainConf 0 { heap := trHeap }).raised = none := by decide +kernel
  generalize hs : ({ heap := trHeap } : TrState) = s at e
  have D : Doc s.heap 0 trTree := hs ▸ trDoc
  have hp : TargetsPlaced s.heap trTree := hs ▸ trHeap_placed.1
  have hd : Render.Describable s.heap trTree := hs ▸ trHeap_describable
  have g1 : ∀ x o, FullNumber s.heap x o → num x = o := hs ▸ h1
  have g2 : ∀ x a, Render.RefText s.heap x a → ref x = a := hs ▸ h2
  have hh : s.heap = trHeap := hs ▸ rfl
  cases h : translate plainConf 0 s with
  | err => rw [h] at e; cases e
  | ok page s' =>
    have := C80_page D (by decide) rfl hp hd g1 g2 h
    exact ⟨num, ref, page, s', h1, h2, rfl, hh ▸ this⟩

/-- What `Render.page` says of that document, to the letter: the lines of the page. -/
example : Render.page trHeap (fun x => (trHeap.fullNumber 50 x).getD none) (fun _ => "REF".toList) plainConf.highlight trTree =
    List.intercalate "\n".toList (List.map String.toList
    ["", "<body>", "", "<div class=\"manuscriptwrapper\">", "", "<div class=\"manuscript\">", "",
      "<section class=\"level-1\">", "", "<h1>T</h1>", "", "<div class=\"author\">", "",
      "<div class=\"paragraph\">", "", "<p>Ann</p>", "</div>", "</div>", "",
      "<section class=\"section level-2 appendix\">", "", "<h2>1. Intro</h2>", "", "<div class=\"paragraph\">",
      "", "<p>Let <span class=\"math\">\\(x\\)</span>. Then</p>", "", "</div>", "",
      "<div id=\"thm\" class=\"theorem big\">", "", "<div class=\"paragraph hr-label\">", "",
      "<p><span class=\"span label\">Theorem 1.1.</span></p>", "", "</div>", "", "</div>", "",
      "<div class=\"paragraph\">", "", "<p><a class=\"reference\" href=\"#thm\">REF</a></p>", "", "</div>", "",
      "</section>", "", "</section>", "", "</div>", "", "</div>", "", "</body>", ""]) := by decide +kernel

end Tr

open Transformer Tree PyM RSM.Parser Tr

section
variable {h h' : Heap} {root : Ref} {t t' : Tree} {fuel : Nat} {log : List TWarning} {s' : TState}

/-- What the parser and the transformer leave can be described. -/
theorem Transformed.describable (T : Transformed h root t h' t') (A : AsParsed h t) : Render.Describable h' t' := by
  refine ⟨fun x hx => ?_, fun x hx hc => ?_, fun x hx hc => ?_⟩
  · cases T.found x hx with
    | author h1 h2 h3 =>
      have hA := (A x h1).1
      rw [cls_of_authored h3]
      unfold Pending at h2
      revert hA h2
      generalize (h.get x).cls = cl
      cases cl <;> decide
    | link h1 => rw [h1]; decide
    | error h1 => rw [h1]; decide
    | cite h1 => rw [h1]; decide
    | made h1 =>
      rcases h1.2 with ⟨_, h1⟩ | ⟨h1, _⟩
      · revert h1
        generalize (h'.get x).cls = cl
        cases cl <;> decide
      · rw [h1]; decide
  · obtain ⟨h1, _, h3⟩ := (T.found x hx).lost (by rw [hc]; decide)
    rw [target_of_authored h3]
    exact (A x h1).2.1 (by rw [← cls_of_authored h3]; exact hc)
  · obtain ⟨h1, _, h3⟩ := (T.found x hx).lost (by
      revert hc
      generalize (h'.get x).cls = cl
      cases cl <;> decide)
    have : (h'.get x).mustCloseP = (h.get x).mustCloseP := by
      have : (h'.get x).authored.mustCloseP = (h.get x).authored.mustCloseP := by rw [h3]
      exact this
    rw [this]
    exact (A x h1).2.2.1 (by rw [← cls_of_authored h3]; exact hc)

/-- **C80.** The page of what `transform` returns is the one described. -/
theorem C80_transformed (hr : ResolveInput h root t) (ha : StepKidsAllowed h t) (hi : TocInput h t)
    (A : AsParsed h t) (hf : 12 * t.size < fuel)
    (hok : transform fuel root { heap := h, log := log } = .ok () s') {num : Ref → Option Str} {ref : Ref → Str}
    (hnum : ∀ x o, FullNumber s'.heap x o → num x = o) (href : ∀ x a, Render.RefText s'.heap x a → ref x = a) :
    ∃ t', Doc s'.heap root t' ∧ ∀ (k : Conf), k.handrails = false → 2 * t'.size ≤ k.fuel → ∀ page s3,
      translate k root { heap := s'.heap } = .ok page s3 → page = Render.page s'.heap num ref k.highlight t' := by
  obtain ⟨t', T⟩ := transformed hr ha hi hf hok
  exact ⟨t', T.doc, fun k hk hf page s3 h3 =>
    C80_page (s := { heap := s'.heap }) T.doc hf hk (T.placedOf A) (T.describable A) hnum href h3⟩
end

/-- **C80.** The page of a source that is parsed, transformed and translated is the one described. -/
theorem C80_source {c : Cst} {fuel : Nat} {s s' : ParserState} {r : Ref} {t : Tree} (S : Source c) (F : Forest s.heap)
    (hf : 12 * c.size < fuel) (h : parse fuel c s = .ok r s') (hE : ErrorsUnlabelled c) (hT : TocFine c)
    (D : Doc s'.heap r t) {fuel' : Nat} (hf' : 12 * t.size < fuel') {log : List TWarning} {s2 : TState}
    (h2 : transform fuel' r { heap := s'.heap, log := log } = .ok () s2) {num : Ref → Option Str} {ref : Ref → Str}
    (hnum : ∀ x o, FullNumber s2.heap x o → num x = o) (href : ∀ x a, Render.RefText s2.heap x a → ref x = a) :
    ∃ t', Doc s2.heap r t' ∧ ∀ (k : Conf), k.handrails = false → 2 * t'.size ≤ k.fuel → ∀ page s3,
      translate k r { heap := s2.heap } = .ok page s3 → page = Render.page s2.heap num ref k.highlight t' := by
  obtain ⟨hS, -, -, hR, hI⟩ := C76_input S F hf h D
  exact C80_transformed (hR hE) hS (hI hT) (parse_asParsed S F hf h D) hf' h2 hnum href

/-- The sample source has a page, and it is the one described. -/
example (k : Conf) (hk : k.handrails = false) : ∃ s1 t1, parse 600 sample fresh = .ok 0 s1 ∧ Doc s1.heap 0 t1 ∧
    ∀ fuel', 12 * t1.size < fuel' → ∃ s2 t2 num ref, transform fuel' 0 { heap := s1.heap } = .ok () s2 ∧
      Doc s2.heap 0 t2 ∧ (∀ x o, FullNumber s2.heap x o → num x = o) ∧ (∀ x a, Render.RefText s2.heap x a → ref x = a) ∧
      (2 * t2.size ≤ k.fuel → ∃ s3, translate k 0 { heap := s2.heap } =
        .ok (Render.page s2.heap num ref k.highlight t2) s3) := by
  obtain ⟨s1, t1, h1, D1, H⟩ := C79_always (s := fresh) sample_wellFormed Forest.empty sample_fuel
    sample_errors sample_tocFine sample_structured (sample_page k.handrails) []
  refine ⟨s1, t1, h1, D1, fun fuel' hf => ?_⟩
  obtain ⟨s2, t2, h2, D2, H2⟩ := H fuel' hf
  obtain ⟨num, ref, g1, g2⟩ := C80_names s2.heap
  obtain ⟨t3, D3, h3⟩ := C80_source sample_wellFormed.source Forest.empty sample_fuel h1 sample_errors sample_tocFine D1
    hf h2 g1 g2
  have e := D3.unique D2
  subst e
  refine ⟨s2, t3, num, ref, h2, D2, g1, g2, fun hfuel => ?_⟩
  obtain ⟨page, s3, h4⟩ := H2 k rfl hfuel
  exact ⟨s3, h3 k hk hfuel page s3 h4 ▸ h4⟩

end RSM
