import Verif.Lemmas.RailsTree
import Verif.Lemmas.Steady
import Verif.Props.Render

/-! # The page with handrails is the nested rendering of the document (C81)

`Rails.page` (Spec/Rails) says what the page of a document is when handrails are wanted, node by node. -/

namespace RSM
namespace Tr
open PyM

section
variable {h : Heap} {k : Conf} {root : Ref} {t : Tree} {s s' : TrState} {page : Str}

/-- **C81.** The page that the translator with handrails writes for a document is the one described. -/
theorem C81_page (D : Doc s.heap root t) (hf : 2 * t.size ≤ k.fuel) (hk : k.handrails = true)
    (hp : TargetsPlaced s.heap t) (hd : Render.Describable s.heap t) (hw : Rails.Written s.heap t)
    {num : Ref → Option Str} {ref : Ref → Str}
    (hnum : ∀ x o, FullNumber s.heap x o → num x = o) (href : ∀ x a, Render.RefText s.heap x a → ref x = a)
    (hok : translate k root s = .ok page s') :
    page = Rails.page s.heap num ref k.highlight (if k.addSource then some (s.heap.get root).src else none) t := by
  rw [translate_eq k D hf] at hok
  split at hok
  · cases hok
  · cases e : evalTree k t (started root s) with
    | err x s1 => rw [e] at hok; cases hok
    | ok a s1 =>
      rw [e] at hok
      cases hok
      have pos := t.size_pos
      have named : ∀ x ∈ t.pre, Named k s.heap num ref x := by
        intro x hx
        obtain ⟨l, h1, h2, _⟩ := D.ancestors hx
        exact named_of rfl hnum href h1 (by omega)
      have W := evalTree_railed (s := started root s) (h := s.heap) (num := num) (ref := ref)
        (src := if k.addSource then some (s.heap.get root).src else none) hk t D.tree D.nodup (fun q h => by cases h)
        (by omega) rfl (by
          intro y hy
          unfold Rails.next at hy
          rw [D.root_eq, D.parent_root_none] at hy
          cases hy) (by
        intro x hx
        refine ⟨⟨hd.kinds x hx, hd.urls x hx, fun y hy => ?_⟩, hw.entries x hx, hw.dots x hx⟩
        rcases hy with rfl | hy | hy
        · exact named y hx
        · by_cases h0 : x = root
          · rw [h0, D.parent_root_none] at hy; cases hy
          · obtain ⟨q, hq, h1, h2⟩ := D.parent_mem hx h0
            rw [hy] at h1; cases h1; exact named _ hq
        · rcases hp x hx y hy with h1 | h1
          · exact named y h1
          · exact named_of (l := []) rfl hnum href h1 (by simp; omega))
        (SameFrame.refl _) (by
          constructor
          · intro x hx
            have e : x = root := by rw [D.root_eq] at hx; simpa using hx
            subst e
            show (s.heap.get x).types = _
            unfold Render.types Render.lastStep
            rw [D.parent_root_none]
            simp
          · intro x _ _; rfl
          · exact hd.fresh
          · intro x hx
            have e : x = root := by rw [D.root_eq] at hx; cases hx; rfl
            subst e
            unfold Rails.words
            rw [D.parent_root_none]
            rfl
          · intro x _ _; rfl
          · intro x _; rfl) e
      rw [W.body]; rfl

mutual
theorem rails_infix (num : Ref → Option Str) (ref : Ref → Str) (hl : Str → Str → Str) (src : Option Str) :
    ∀ (t u : Tree), u ∈ t.subtrees → Rails.page h num ref hl src u <:+: Rails.page h num ref hl src t
  | .node i ks, u, hu => by
    rw [Tree.subtrees] at hu
    rcases List.mem_cons.mp hu with rfl | hu
    · exact List.infix_rfl
    · show _ <:+: Rails.opening h num ref hl src i ks ++ Rails.pages h num ref hl src ks ++ Rails.closing h num i
      exact infix_mid (rails_infixes num ref hl src ks u hu)
theorem rails_infixes (num : Ref → Option Str) (ref : Ref → Str) (hl : Str → Str → Str) (src : Option Str) :
    ∀ (ts : List Tree) (u : Tree), u ∈ Tree.subtreesL ts →
      Rails.page h num ref hl src u <:+: Rails.pages h num ref hl src ts
  | [], u, hu => by rw [Tree.subtreesL] at hu; cases hu
  | t :: ts, u, hu => by
    rw [Tree.subtreesL] at hu
    rw [Rails.pages]
    rcases List.mem_append.mp hu with hu | hu
    · exact (rails_infix num ref hl src t u hu).trans (List.prefix_append _ _).isInfix
    · exact (rails_infixes num ref hl src ts u hu).trans (List.suffix_append _ _).isInfix
end

/-- **C81.** Hence what is written of a part of the document stands together on the page. -/
theorem C81_nested (D : Doc s.heap root t) (hf : 2 * t.size ≤ k.fuel) (hk : k.handrails = true)
    (hp : TargetsPlaced s.heap t) (hd : Render.Describable s.heap t) (hw : Rails.Written s.heap t)
    {num : Ref → Option Str} {ref : Ref → Str}
    (hnum : ∀ x o, FullNumber s.heap x o → num x = o) (href : ∀ x a, Render.RefText s.heap x a → ref x = a)
    (hok : translate k root s = .ok page s') : ∀ u ∈ t.subtrees,
      Rails.page s.heap num ref k.highlight (if k.addSource then some (s.heap.get root).src else none) u <:+: page := by
  intro u hu
  rw [C81_page D hf hk hp hd hw hnum href hok]
  exact rails_infix num ref k.highlight _ t u hu

/-- **C81.** What is to be shown of a node before and after its children is shown. -/
theorem C81_shown (D : Doc s.heap root t) (hf : 2 * t.size ≤ k.fuel) (hk : k.handrails = true)
    (hp : TargetsPlaced s.heap t) (hd : Render.Describable s.heap t) (hw : Rails.Written s.heap t)
    {num : Ref → Option Str} {ref : Ref → Str}
    (hnum : ∀ x o, FullNumber s.heap x o → num x = o) (href : ∀ x a, Render.RefText s.heap x a → ref x = a)
    (hok : translate k root s = .ok page s') : ∀ x ks, .node x ks ∈ t.subtrees →
      Rails.opening s.heap num ref k.highlight (if k.addSource then some (s.heap.get root).src else none) x ks <:+: page ∧
      Rails.closing s.heap num x <:+: page := by
  intro x ks hu
  have := C81_nested D hf hk hp hd hw hnum href hok _ hu
  rw [Rails.page] at this
  exact ⟨List.IsInfix.trans ⟨[], _, by rw [List.nil_append, List.append_assoc]⟩ this,
    (List.suffix_append _ _).isInfix.trans this⟩

/-- **C81.** The number of a step is written in the info zone of its handrail. -/
theorem C81_step_number (D : Doc s.heap root t) (hf : 2 * t.size ≤ k.fuel) (hk : k.handrails = true)
    (hp : TargetsPlaced s.heap t) (hd : Render.Describable s.heap t) (hw : Rails.Written s.heap t)
    (hok : translate k root s = .ok page s') {x : Ref} (hx : x ∈ t.pre) (hc : (s.heap.get x).cls = .Step) {n : Str}
    (hn : FullNumber s.heap x (some n)) :
    "<div class=\"step-number\"><p>⟨".toList ++ n ++ "⟩</p></div>".toList <:+: page := by
  obtain ⟨num, ref, h1, h2⟩ := C80_names s.heap
  obtain ⟨ks, hu⟩ := mem_subtrees hx
  refine List.IsInfix.trans ?_ (C81_shown D hf hk hp hd hw h1 h2 hok x ks hu).2
  unfold Rails.closing
  rw [hc, h1 x _ hn]
  dsimp only
  unfold Rails.stop Rails.box Rails.numberInfo
  dsimp only
  exact ⟨Render.line (Render.endTag "div".toList) ++ (Render.line (Render.tag "div".toList [] ["hr-info-zone".toList]) ++ "<div class=\"hr-info\">".toList),
    "</div>".toList ++ Render.line (Render.endTag "div".toList) ++ Render.line (Render.endTag "div".toList), by
      simp only [List.append_assoc]⟩

/-- **C81.** A dot after a formula is written with the formula, so that no line break parts them. -/
theorem C81_dot (D : Doc s.heap root t) (hf : 2 * t.size ≤ k.fuel) (hk : k.handrails = true)
    (hp : TargetsPlaced s.heap t) (hd : Render.Describable s.heap t) (hw : Rails.Written s.heap t)
    (hok : translate k root s = .ok page s') {x : Ref} (hx : x ∈ t.pre) (hc : Rails.dotted s.heap x = true) :
    "\\)</span><span>.</span></span>".toList <:+: page := by
  obtain ⟨num, ref, h1, h2⟩ := C80_names s.heap
  obtain ⟨ks, hu⟩ := mem_subtrees hx
  refine List.IsInfix.trans ?_ (C81_shown D hf hk hp hd hw h1 h2 hok x ks hu).2
  have hm : (s.heap.get x).cls = .Math := by
    unfold Rails.dotted at hc
    simpa using (Bool.and_eq_true_iff.mp hc).1
  unfold Rails.closing
  rw [hm, if_pos hc]
  have e : "\\)".toList ++ Render.endTag "span".toList ++ "<span>.</span></span>".toList =
      "\\)</span><span>.</span></span>".toList := by decide +kernel
  dsimp only
  rw [e]
end

/-! The document of Props/TrOutcome meets the hypotheses, and its page is written. -/

theorem trHeap_written : Rails.Written trHeap trTree := by
  have h : ∀ x ∈ trTree.pre, (trHeap.get x).cls.isSub .Bibitem = false ∧ (trHeap.get x).followedByDot = false := by decide
  exact ⟨fun x hx e => absurd e (by rw [(h x hx).1]; decide), fun x hx _ => (h x hx).2⟩

example : Rails.dotted trHeap 5 = true ∧ Rails.words trHeap 7 = " Then".toList := by decide +kernel

example : ∃ num ref page s', (∀ x o, FullNumber trHeap x o → num x = o) ∧
    (∀ x a, Render.RefText trHeap x a → ref x = a) ∧ translate railsConf 0 { heap := trHeap } = .ok page s' ∧
    page = Rails.page trHeap num ref railsConf.highlight (some (trHeap.get 0).src) trTree ∧
    "\\)</span><span>.</span></span>".toList <:+: page := by
  obtain ⟨num, ref, h1, h2⟩ := C80_names trHeap
  have e : (translate railsConf 0 { heap := trHeap }).raised = none := by decide +kernel
  generalize hs : ({ heap := trHeap } : TrState) = s at e
  have D : Doc s.heap 0 trTree := hs ▸ trDoc
  have hp : TargetsPlaced s.heap trTree := hs ▸ trHeap_placed.1
  have hd : Render.Describable s.heap trTree := hs ▸ trHeap_describable
  have hw : Rails.Written s.heap trTree := hs ▸ trHeap_written
  have g1 : ∀ x o, FullNumber s.heap x o → num x = o := hs ▸ h1
  have g2 : ∀ x a, Render.RefText s.heap x a → ref x = a := hs ▸ h2
  have hh : s.heap = trHeap := hs ▸ rfl
  cases h : translate railsConf 0 s with
  | err => rw [h] at e; cases e
  | ok page s' =>
    have := C81_page D (by decide) rfl hp hd hw g1 g2 h
    exact ⟨num, ref, page, s', h1, h2, rfl, hh ▸ this, C81_dot D (by decide) rfl hp hd hw h (x := 5) (by decide)
      (hh ▸ (by decide +kernel : Rails.dotted trHeap 5 = true))⟩

/-- A manuscript with a formula before a dot, and a bibliography. -/
def railHeap : Heap :=
  { next := 7
    get := fun r => match r with
      | 0 => { NodeRec.new .Manuscript with kids := [1, 5] }
      | 1 => { NodeRec.new .Paragraph with parent := some 0, kids := [2, 4], label := "par", nodeid := some 1 }
      | 2 => { NodeRec.new .Math with parent := some 1, kids := [3] }
      | 3 => { NodeRec.new .Text with parent := some 2, text := "x" }
      | 4 => { NodeRec.new .Text with parent := some 1, text := "." }
      | 5 => { NodeRec.new .Bibliography with parent := some 0, kids := [6] }
      | 6 => { NodeRec.new .Bibitem with parent := some 5, label := "knuth", number := .int 1, author := "Donald Knuth"
                                         title := "TAOCP", kind := "book", publisher := "AW", year := .str "1968"
                                         doi := "10.1/2", backlinks := ["cite-0".toList] }
      | _ => NodeRec.new .Node }

def railTree : Tree := .node 0 [.node 1 [.node 2 [.node 3 []], .node 4 []], .node 5 [.node 6 []]]

theorem railDoc : Doc railHeap 0 railTree where
  root_eq := rfl
  tree := by simp only [railTree, IsTree, IsForest]; decide
  nodup := by decide
  bound := by decide

theorem railHeap_written : Rails.Written railHeap railTree := by
  have h : ∀ x ∈ railTree.pre, ((railHeap.get x).cls.isSub .Bibitem = true → x = 6) ∧
      (railHeap.get x).followedByDot = false := by decide
  refine ⟨fun x hx e => ?_, fun x hx _ => (h x hx).2⟩
  rw [(h x hx).1 e]
  exact ⟨⟨by decide, by decide, by decide, by decide, by decide, fun y hy => by cases hy; decide⟩,
    by decide, by decide, by decide⟩

theorem railHeap_describable : Render.Describable railHeap railTree := by
  have h : ∀ x ∈ railTree.pre, (railHeap.get x).cls ∉ [.Node, .NodeWithChildren, .Heading, .BaseParagraph, .BaseReference,
      .PendingReference, .PendingPrev, .PendingCite] ∧ (railHeap.get x).cls ≠ .URL ∧
      (railHeap.get x).mustCloseP = false := by decide
  exact ⟨fun x hx => (h x hx).1, fun x hx e => absurd e (h x hx).2.1, fun x hx _ => (h x hx).2.2⟩

theorem railHeap_placed : TargetsPlaced railHeap railTree := by
  have h : ∀ x ∈ railTree.pre, (railHeap.get x).target = .none ∧ (railHeap.get x).targets = [] := by decide
  intro x hx y hy
  rcases hy with ⟨_, hy⟩ | ⟨_, hy⟩
  · rw [(h x hx).1] at hy; cases hy
  · rw [(h x hx).2] at hy; cases hy

example : ∃ num ref page s', (∀ x o, FullNumber railHeap x o → num x = o) ∧
    (∀ x a, Render.RefText railHeap x a → ref x = a) ∧ translate railsConf 0 { heap := railHeap } = .ok page s' ∧
    page = Rails.page railHeap num ref railsConf.highlight (some (railHeap.get 0).src) railTree := by
  obtain ⟨num, ref, h1, h2⟩ := C80_names railHeap
  have e : (translate railsConf 0 { heap := railHeap }).raised = none := by decide +kernel
  generalize hs : ({ heap := railHeap } : TrState) = s at e
  have D : Doc s.heap 0 railTree := hs ▸ railDoc
  have hp : TargetsPlaced s.heap railTree := hs ▸ railHeap_placed
  have hd : Render.Describable s.heap railTree := hs ▸ railHeap_describable
  have hw : Rails.Written s.heap railTree := hs ▸ railHeap_written
  have g1 : ∀ x o, FullNumber s.heap x o → num x = o := hs ▸ h1
  have g2 : ∀ x a, Render.RefText s.heap x a → ref x = a := hs ▸ h2
  have hh : s.heap = railHeap := hs ▸ rfl
  cases h : translate railsConf 0 s with
  | err => rw [h] at e; cases e
  | ok page s' =>
    have := C81_page D (by decide) rfl hp hd hw g1 g2 h
    exact ⟨num, ref, page, s', h1, h2, rfl, hh ▸ this⟩

/-- What `Rails.page` says of the paragraph, to the letter: the lines. -/
example : Rails.page railHeap (fun _ => none) (fun _ => "Paragraph".toList) railsConf.highlight none
    (.node 1 [.node 2 [.node 3 []], .node 4 []]) =
    List.intercalate "\n".toList (List.map String.toList
    ["", "<div id=\"par\" class=\"paragraph hr hr-hidden\" tabindex=0 data-nodeid=\"1\">", "",
      "<div class=\"hr-collapse-zone\">", "<div class=\"hr-spacer\"></div>", "</div>", "",
      "<div class=\"hr-menu-zone\">", "", "<div class=\"hr-menu\">", "", "  <div class=\"hr-menu-label\">",
      "    <span class=\"hr-menu-item-text\">Paragraph</span>", "  </div>", "",
      "  <div class=\"hr-menu-separator\"></div>", "", "  <div class=\"hr-menu-item link\">",
      "    <span class=\"icon link\">", "    </span>", "    <span class=\"hr-menu-item-text\">Copy link</span>",
      "  </div>", "", "  <div class=\"hr-menu-item\">", "    <span class=\"icon tree\">", "    </span>",
      "    <span class=\"hr-menu-item-text\">Tree</span>", "  </div>", "", "  <div class=\"hr-menu-item\">",
      "    <span class=\"icon code\">", "    </span>", "    <span class=\"hr-menu-item-text\">Source</span>",
      "  </div>", "", "</div>", "", "</div>", "", "<div class=\"hr-border-zone\">", "",
      "                <div class=\"hr-border-dots\">", "                  <div class=\"icon dots\">",
      "                  </div>", "                </div>", "                <div class=\"hr-border-rect\">",
      "                </div>", "", "</div>", "", "<div class=\"hr-spacer-zone\">",
      "<div class=\"hr-spacer\"></div>", "</div>", "", "<div class=\"hr-content-zone\">", "",
      "<p><span class=\"inline-math-wrapper\">", "<span class=\"math\">\\(x\\)</span><span>.</span></span></p>", "",
      "</div>", "", "<div class=\"hr-info-zone\">", "<div class=\"hr-info\"></div>", "</div>", "", "</div>", ""]) := by
  decide +kernel

/-- And of the entry of the bibliography. -/
example : Rails.page railHeap (fun _ => none) (fun _ => []) railsConf.highlight none (.node 6 []) =
    List.intercalate "\n".toList (List.map String.toList
    ["", "<div id=\"knuth\" class=\"bibitem\">", "", "<div class=\"hr-hidden hr\" tabindex=0>", "",
      "<div class=\"hr-collapse-zone\">", "<div class=\"hr-spacer\"></div>", "</div>", "",
      "<div class=\"hr-menu-zone\">", "", "<div class=\"hr-menu\">", "", "  <div class=\"hr-menu-item\">",
      "    <span class=\"icon tree\">", "    </span>", "    <span class=\"hr-menu-item-text\">Tree</span>",
      "  </div>", "", "  <div class=\"hr-menu-item\">", "    <span class=\"icon code\">", "    </span>",
      "    <span class=\"hr-menu-item-text\">Source</span>", "  </div>", "", "</div>", "", "</div>", "",
      "<div class=\"hr-border-zone\">", "", "                <div class=\"hr-border-dots\">",
      "                  <div class=\"icon dots\">", "                  </div>", "                </div>",
      "                <div class=\"hr-border-rect\">", "                </div>", "", "</div>", "",
      "<div class=\"hr-spacer-zone\">", "<div class=\"hr-spacer\"></div>", "</div>", "",
      "<div class=\"hr-content-zone\">",
      "<p>1. Donald Knuth. \"TAOCP\". AW. 1968. <br />[<a class=\"reference backlink\" href=\"#cite-0\">↖1</a>]</p>",
      "</div>", "", "<div class=\"hr-info-zone\">", "<div class=\"hr-info\">",
      "<a id=\"knuth-doi\" class=\"bibitem-doi\" href=\"https://doi.org/10.1/2\" target=\"_blank\">",
      "<div class=\"icon ext\">", "                </div></a>", "</div>", "</div>", "", "</div>", "", "</div>", ""]) := by
  decide +kernel

/-- A display formula that stands in a section, not in a paragraph. -/
def looseHeap : Heap :=
  { next := 4
    get := fun r => match r with
      | 0 => { NodeRec.new .Manuscript with kids := [1] }
      | 1 => { NodeRec.new .Section with parent := some 0, kids := [2], number := .int 1, title := "S" }
      | 2 => { NodeRec.new .MathBlock with parent := some 1, kids := [3], number := .int 1 }
      | 3 => { NodeRec.new .Text with parent := some 2, text := "x" }
      | _ => NodeRec.new .Node }

/-- **C81.** The translators differ on display formulas that are not in a paragraph: the plain one raises, the one
with handrails writes them, after a `</p>` that closes nothing. -/
theorem C81_loose_formula : (translate plainConf 0 { heap := looseHeap }).raised = some .assertionError ∧
    ∃ page ∈ (translate railsConf 0 { heap := looseHeap }).value, ¬ Html.Balanced page := by
  constructor <;> decide +kernel

end Tr

open Transformer Tree PyM RSM.Parser Tr

section
variable {h h' : Heap} {root : Ref} {t t' : Tree} {fuel : Nat} {log : List TWarning} {s' : TState}

theorem entryPlain_backlink {n : NodeRec} (e : Rails.EntryPlain n) (k : Nat) :
    Rails.EntryPlain { n with backlinks := n.backlinks ++ [citeLabel k] } := by
  refine ⟨e.fields, e.label, e.doi, fun l hl => ?_⟩
  rcases List.mem_append.mp hl with hl | hl
  · exact e.backlinks l hl
  · rw [List.mem_singleton.mp hl]
    unfold citeLabel
    rw [List.mem_append, not_or]
    exact ⟨by decide, digit_noQuote k⟩

/-- The entries of the bibliography stay plain. -/
theorem entry_steady (t : Tree) : Steady fun x n => x ∈ t.pre → n.cls = .Bibitem → Rails.EntryPlain n where
  links x n p ks h hx hc := let e := h hx hc; ⟨e.fields, e.label, e.doi, e.backlinks⟩
  unlabel x n h hx hc := let e := h hx hc; ⟨e.fields, ⟨List.not_mem_nil, List.not_mem_nil⟩, e.doi, e.backlinks⟩
  noTarget x _ hc := by cases hc
  error x a l _ _ y _ hc := by cases hc
  unknown x a l _ _ y _ hc := by cases hc
  reference x a z _ y _ hc := by cases hc
  cite ys k y _ hc := by cases hc
  backlink x n k h hx hc := entryPlain_backlink (h hx hc) k
  made c hm y _ hc := by
    have hc : c = .Bibitem := hc
    rw [hc] at hm
    exact absurd hm (by decide)
  depth x n k h hx hc := let e := h hx hc; ⟨e.fields, e.label, e.doi, e.backlinks⟩
  number x n k h hx hc := let e := h hx hc; ⟨⟨(noAngle_int k).1, e.fields.2⟩, e.label, e.doi, e.backlinks⟩
  letter x n c hm h hx hc := by
    have e := h hx hc
    refine ⟨⟨?_, e.fields.2⟩, e.label, e.doi, e.backlinks⟩
    have : ∀ c ∈ asciiUppercase, '<' ∉ PyNum.fmt (.str [c]) := by decide
    exact this c hm
  template x n h hx hc := let e := h hx hc; ⟨e.fields, e.label, e.doi, e.backlinks⟩
  entry h _ fuel sec text _ y _ hc := by cases hc
  kind x n h hx hc := let e := h hx hc; ⟨e.fields, e.label, e.doi, e.backlinks⟩
  assumption x n h hx hc := let e := h hx hc; ⟨e.fields, e.label, e.doi, e.backlinks⟩
  id x n k h hx hc := let e := h hx hc; ⟨e.fields, e.label, e.doi, e.backlinks⟩

theorem Transformed.written (T : Transformed h root t h' t') (A : AsParsed h t)
    (hE : ∀ x ∈ t.pre, (h'.get x).cls = .Bibitem → Rails.EntryPlain (h'.get x)) : Rails.Written h' t' := by
  refine ⟨fun x hx hc => ?_, fun x hx hc => ?_⟩
  · obtain ⟨h1, _, h3⟩ := (T.found x hx).lost (by
      revert hc
      generalize (h'.get x).cls = cl
      cases cl <;> decide)
    refine hE x h1 ?_
    have hA := (A x h1).1
    rw [← cls_of_authored h3] at hA
    revert hA hc
    generalize (h'.get x).cls = cl
    cases cl <;> decide
  · obtain ⟨h1, _, h3⟩ := (T.found x hx).lost (by rw [hc]; decide)
    have : (h'.get x).authored.followedByDot = (h.get x).authored.followedByDot := by rw [h3]
    exact this.trans ((A x h1).2.2.2 (by rw [← cls_of_authored h3]; exact hc))

/-- **C81.** The page with handrails of what `transform` returns is the one described. -/
theorem C81_transformed (hr : ResolveInput h root t) (ha : StepKidsAllowed h t) (hi : TocInput h t)
    (A : AsParsed h t) (hE : ∀ x ∈ t.pre, (h.get x).cls = .Bibitem → Rails.EntryPlain (h.get x))
    (hf : 12 * t.size < fuel)
    (hok : transform fuel root { heap := h, log := log } = .ok () s') {num : Ref → Option Str} {ref : Ref → Str}
    (hnum : ∀ x o, FullNumber s'.heap x o → num x = o) (href : ∀ x a, Render.RefText s'.heap x a → ref x = a) :
    ∃ t', Doc s'.heap root t' ∧ ∀ (k : Conf), k.handrails = true → 2 * t'.size ≤ k.fuel → ∀ page s3,
      translate k root { heap := s'.heap } = .ok page s3 → page =
        Rails.page s'.heap num ref k.highlight (if k.addSource then some (s'.heap.get root).src else none) t' := by
  obtain ⟨t', T⟩ := transformed hr ha hi hf hok
  have hE' := transform_steady (entry_steady t) fuel root (s := { heap := h, log := log }) (fun x hx => hE x hx)
  rw [hok] at hE'
  exact ⟨t', T.doc, fun k hk hf page s3 h3 => C81_page (s := { heap := s'.heap }) T.doc hf hk (T.placedOf A)
    (T.describable A) (T.written A fun x hx => hE' x hx) hnum href h3⟩
end

/-- **C81.** The page with handrails of a source that is parsed, transformed and translated is the one described,
if the entries of its bibliography have no tags in them. -/
theorem C81_source {c : Cst} {fuel : Nat} {s s' : ParserState} {r : Ref} {t : Tree} (S : Source c) (F : Forest s.heap)
    (hf : 12 * c.size < fuel) (h : parse fuel c s = .ok r s') (hE : ErrorsUnlabelled c) (hT : TocFine c)
    (D : Doc s'.heap r t) (hB : ∀ x ∈ t.pre, (s'.heap.get x).cls = .Bibitem → Rails.EntryPlain (s'.heap.get x))
    {fuel' : Nat} (hf' : 12 * t.size < fuel') {log : List TWarning} {s2 : TState}
    (h2 : transform fuel' r { heap := s'.heap, log := log } = .ok () s2) {num : Ref → Option Str} {ref : Ref → Str}
    (hnum : ∀ x o, FullNumber s2.heap x o → num x = o) (href : ∀ x a, Render.RefText s2.heap x a → ref x = a) :
    ∃ t', Doc s2.heap r t' ∧ ∀ (k : Conf), k.handrails = true → 2 * t'.size ≤ k.fuel → ∀ page s3,
      translate k r { heap := s2.heap } = .ok page s3 → page =
        Rails.page s2.heap num ref k.highlight (if k.addSource then some (s2.heap.get r).src else none) t' := by
  obtain ⟨hS, -, -, hR, hI⟩ := C76_input S F hf h D
  exact C81_transformed (hR hE) hS (hI hT) (parse_asParsed S F hf h D) hB hf' h2 hnum href

/-- Deciding whether a year has no tag in it. -/
def plainYear : PyNum → Bool
  | .str y => decide ('<' ∉ y)
  | _ => true

instance (nd : NodeRec) : Decidable (Rails.EntryPlain nd) :=
  decidable_of_iff (('<' ∉ nd.number.fmt ∧ '<' ∉ nd.author ∧ '<' ∉ nd.title ∧ '<' ∉ nd.journal ∧ '<' ∉ nd.publisher ∧
      plainYear nd.year = true) ∧ ('"' ∉ nd.label ∧ '\n' ∉ nd.label) ∧ ('>' ∉ nd.doi ∧ '\n' ∉ nd.doi) ∧
      ∀ l ∈ nd.backlinks, '"' ∉ l) (by
    have hy : plainYear nd.year = true ↔ ∀ y, nd.year = .str y → '<' ∉ y := by
      cases nd.year with
      | none => exact ⟨fun _ => nofun, fun _ => rfl⟩
      | int k => exact ⟨fun _ => nofun, fun _ => rfl⟩
      | str s => exact ⟨fun h y e => by cases e; exact of_decide_eq_true h, fun h => decide_eq_true (h s rfl)⟩
    rw [hy]
    exact ⟨fun h => ⟨h.1, h.2.1, h.2.2.1, h.2.2.2⟩, fun h => ⟨h.1, h.2, h.3, h.4⟩⟩)

/-- The sample source has a page with handrails, and it is the one described. -/
example (k : Conf) (hk : k.handrails = true) : ∃ s1 t1, parse 600 sample fresh = .ok 0 s1 ∧ Doc s1.heap 0 t1 ∧
    ∀ fuel', 12 * t1.size < fuel' → ∃ s2 t2 num ref, transform fuel' 0 { heap := s1.heap } = .ok () s2 ∧
      Doc s2.heap 0 t2 ∧ (∀ x o, FullNumber s2.heap x o → num x = o) ∧ (∀ x a, Render.RefText s2.heap x a → ref x = a) ∧
      (2 * t2.size ≤ k.fuel → ∃ s3, translate k 0 { heap := s2.heap } =
        .ok (Rails.page s2.heap num ref k.highlight (if k.addSource then some (s2.heap.get 0).src else none) t2) s3) := by
  obtain ⟨s1, t1, h1, D1, H⟩ := C79_always (s := fresh) sample_wellFormed Forest.empty sample_fuel
    sample_errors sample_tocFine sample_structured (sample_page k.handrails) []
  refine ⟨s1, t1, h1, D1, fun fuel' hf => ?_⟩
  obtain ⟨s2, t2, h2, D2, H2⟩ := H fuel' hf
  obtain ⟨num, ref, g1, g2⟩ := C80_names s2.heap
  have hB : ∀ x ∈ t1.pre, (s1.heap.get x).cls = .Bibitem → Rails.EntryPlain (s1.heap.get x) := by
    have key : ∀ x ∈ List.range (parse 600 sample fresh).state.heap.next,
        ((parse 600 sample fresh).state.heap.get x).cls = .Bibitem →
        Rails.EntryPlain ((parse 600 sample fresh).state.heap.get x) := by decide +kernel
    rw [h1] at key
    exact fun x hx hc => key x (List.mem_range.mpr (D1.bound x hx)) hc
  obtain ⟨t3, D3, h3⟩ := C81_source sample_wellFormed.source Forest.empty sample_fuel h1 sample_errors sample_tocFine D1
    hB hf h2 g1 g2
  have e := D3.unique D2
  subst e
  refine ⟨s2, t3, num, ref, h2, D2, g1, g2, fun hfuel => ?_⟩
  obtain ⟨page, s3, h4⟩ := H2 k rfl hfuel
  exact ⟨s3, h3 k hk hfuel page s3 h4 ▸ h4⟩

end RSM
