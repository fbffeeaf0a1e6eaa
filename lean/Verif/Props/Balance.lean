import Verif.Lemmas.BalTree
import Verif.Props.TrTwice
import Verif.Props.Builder

/-!
# C37: the output is well nested
-/

namespace RSM
open Tr Html

/-! ## C37 -/

/-- **C37.** Whatever a document is, translating it gives well-nested HTML (every element that is
opened is closed, in the right order, and nothing else is closed), with and without handrails,
provided that
* no text of a node has angle brackets (texts are not escaped),
* display formulas stand directly in paragraphs, and a paragraph that ends in one has no other,
* the document was not translated before,
* with handrails: the labels and DOIs of bibliography entries can stand in attributes. -/
theorem C37_well_nested (k : Conf) (ho : Outside k) {root : Ref} {t : Tree} {s s' : TrState} {out : Str}
    (hd : Doc s.heap root t) (hfuel : 2 * t.size ≤ k.fuel)
    (hclean : CleanHeap s.heap) (hplaced : FormulasPlaced s.heap t) (hnew : Untouched s.heap t)
    (hlink : k.handrails = true → ∀ x ∈ t.pre, s.heap.isInst x .Bibitem = true → LinkSafe (s.heap.get x))
    (hok : translate k root s = .ok out s') : Balanced out := by
  rw [translate_eq k hd hfuel] at hok
  split at hok
  · cases hok
  have hmb : ∀ x, s.heap.isInst x .MathBlock = true ↔ (s.heap.get x).cls = .MathBlock :=
    fun x => isSub_mathBlock _
  have h := evalTree_good (h0 := s.heap) ho t (s := started root s) hd.tree hd.nodup
    (fun x hx => ⟨fun h => hlink h x hx, fun h => hplaced.parent x hx ((hmb x).mpr h),
      fun hc l m e hm y hy h => by
        have := hplaced.last x hx hc l m e ((hmb m).mpr hm) y hy
        rw [(hmb y).mpr h] at this; cases this⟩)
    ⟨SameFrame.refl _, hclean⟩ hnew
  cases e : evalTree k t (started root s) with
  | err x s1 => rw [e] at hok; cases hok
  | ok u s1 =>
    rw [e] at hok h
    simp only [Res.ok.injEq] at hok
    obtain ⟨rfl, -⟩ := hok
    obtain ⟨o, hb, hn⟩ := h.out
    have hroot : s.heap.parent t.root = none := IsTree.parent_root hd.tree
    have hnot : (s.heap.get t.root).cls ≠ .MathBlock := by
      intro hc
      obtain ⟨p, hp, _⟩ := hplaced.parent t.root t.root_mem_pre ((hmb _).mpr hc)
      rw [hroot] at hp; cases hp
    unfold before after at hn
    simp only [hnot, false_and, if_false] at hn
    have : s1.body = o := by rw [hb]; rfl
    rw [this]
    exact hn.balanced

/-! ### The hypotheses can be met -/

/-- A manuscript with a section, an author, a theorem with a proof, a paragraph with two display
formulas, a paragraph with an inline formula and a full stop, a figure, and a bibliography with one
entry. -/
def balHeap : Heap :=
  { next := 20
    get := fun r => match r with
      | 0 => { NodeRec.new .Manuscript with kids := [1, 2, 17], title := "T" }
      | 1 => { NodeRec.new .Author with parent := some 0, name := "Ann" }
      | 2 => { NodeRec.new .Section with parent := some 0, title := "Intro", number := .int 1
                                         kids := [3, 9, 12] }
      | 3 => { NodeRec.new .Paragraph with parent := some 2, kids := [4, 5, 6, 7, 8] }
      | 4 => { NodeRec.new .Text with parent := some 3, text := "Let " }
      | 5 => { NodeRec.new .MathBlock with parent := some 3, number := .int 1 }
      | 6 => { NodeRec.new .Text with parent := some 3, text := " and " }
      | 7 => { NodeRec.new .MathBlock with parent := some 3, number := .int 2 }
      | 8 => { NodeRec.new .Text with parent := some 3, text := " hold." }
      | 9 => { NodeRec.new .Paragraph with parent := some 2, kids := [10, 11] }
      | 10 => { NodeRec.new .Math with parent := some 9 }
      | 11 => { NodeRec.new .Text with parent := some 9, text := ". Then" }
      | 12 => { NodeRec.new .Theorem with parent := some 2, number := .int 1, label := "thm"
                                          kids := [13] }
      | 13 => { NodeRec.new .Proof with parent := some 12, kids := [14] }
      | 14 => { NodeRec.new .Step with parent := some 13, number := .int 1, kids := [15] }
      | 15 => { NodeRec.new .Cite with parent := some 14, targets := [18], label := "cite-0" }
      | 17 => { NodeRec.new .Bibliography with parent := some 0, kids := [18] }
      | 18 => { NodeRec.new .Bibitem with parent := some 17, number := .int 1, author := "A", title := "B"
                                          year := .str "1999", doi := "10.1/x", label := "b"
                                          backlinks := ["cite-0"] }
      | _ => NodeRec.new .Node }

def balTree : Tree :=
  .node 0 [.node 1 [], .node 2 [.node 3 [.node 4 [], .node 5 [], .node 6 [], .node 7 [], .node 8 []],
    .node 9 [.node 10 [], .node 11 []], .node 12 [.node 13 [.node 14 [.node 15 []]]]],
    .node 17 [.node 18 []]]

instance (n : PyNum) : Decidable (CleanNum n) := by cases n <;> unfold CleanNum <;> infer_instance
instance (n : Target) : Decidable (CleanTarget n) := by cases n <;> unfold CleanTarget <;> infer_instance

instance (nd : NodeRec) : Decidable (Clean nd) :=
  decidable_of_iff (NoAngle nd.label ∧ (∀ x ∈ nd.types, NoAngle x) ∧ (CleanNum nd.number) ∧ NoAngle nd.reftextTemplate ∧ NoAngle nd.text ∧ NoAngle nd.title ∧ NoAngle nd.src ∧ NoAngle nd.name ∧ NoAngle nd.affiliation ∧ NoAngle nd.email ∧ (∀ x ∈ nd.keywords, NoAngle x) ∧ (∀ x ∈ nd.msc, NoAngle x) ∧ NoAngle nd.lang ∧ (CleanTarget nd.target) ∧ NoAngle nd.overwriteReftext ∧ NoAngle nd.author ∧ (CleanNum nd.year) ∧ NoAngle nd.journal ∧ NoAngle nd.publisher ∧ NoAngle nd.doi ∧ (∀ x ∈ nd.backlinks, NoAngle x) ∧ NoAngle nd.path ∧ NoAngle nd.scale)
    ⟨fun ⟨a0, a1, a2, a3, a4, a5, a6, a7, a8, a9, a10, a11, a12, a13, a14, a15, a16, a17, a18, a19, a20, a21, a22⟩ => ⟨a0, a1, a2, a3, a4, a5, a6, a7, a8, a9, a10, a11, a12, a13, a14, a15, a16, a17, a18, a19, a20, a21, a22⟩,
     fun ⟨a0, a1, a2, a3, a4, a5, a6, a7, a8, a9, a10, a11, a12, a13, a14, a15, a16, a17, a18, a19, a20, a21, a22⟩ => ⟨a0, a1, a2, a3, a4, a5, a6, a7, a8, a9, a10, a11, a12, a13, a14, a15, a16, a17, a18, a19, a20, a21, a22⟩⟩

theorem balHeap_clean : CleanHeap balHeap := by
  intro x
  have : ∀ x < 20, Clean (balHeap.get x) := by decide +kernel
  by_cases h : x < 20
  · exact this x h
  · have e : balHeap.get x = NodeRec.new .Node := by
      unfold balHeap
      dsimp only
      split <;> first | rfl | omega
    rw [e]; decide +kernel

theorem balDoc : Doc balHeap 0 balTree where
  root_eq := rfl
  tree := by
    simp only [balTree, IsTree, IsForest]
    repeat' (first | exact trivial | rfl | constructor)
  nodup := by decide
  bound := by decide

theorem balPlaced : FormulasPlaced balHeap balTree where
  parent := by
    have h : ∀ x ∈ balTree.pre, balHeap.isInst x .MathBlock = true → x = 5 ∨ x = 7 := by decide
    intro x hx hm
    obtain rfl | rfl := h x hx hm <;> exact ⟨3, rfl, rfl⟩
  last := by
    have h : ∀ p ∈ balTree.pre, (balHeap.get p).cls = .Paragraph → ∀ m ∈ (balHeap.children p).getLast?,
      balHeap.isInst m .MathBlock = false := by decide
    intro p hp hc l m e hm
    rw [h p hp hc m (by rw [e]; simp)] at hm
    cases hm

theorem outside_plain : Outside plainConf where
  highlight := fun _ _ h _ => Nets.balanced (NoAngle.inert h)
  shorten := fun _ h => h

theorem outside_rails : Outside railsConf where
  highlight := fun _ _ h _ => Nets.balanced (NoAngle.inert h)
  shorten := fun _ h => h

instance (nd : NodeRec) : Decidable (LinkSafe nd) :=
  decidable_of_iff ('"' ∉ nd.label ∧ '\n' ∉ nd.label ∧ '\n' ∉ nd.doi ∧ ∀ x ∈ nd.backlinks, '"' ∉ x)
    ⟨fun ⟨a, b, c, d⟩ => ⟨a, b, c, d⟩, fun ⟨a, b, c, d⟩ => ⟨a, b, c, d⟩⟩

/-- The hypotheses hold for the example, for both translators, and both return. -/
example : CleanHeap balHeap ∧ FormulasPlaced balHeap balTree ∧ Untouched balHeap balTree ∧
    (∀ x ∈ balTree.pre, balHeap.isInst x .Bibitem = true → LinkSafe (balHeap.get x)) ∧
    Outside plainConf ∧ Outside railsConf ∧
    (translate plainConf 0 { heap := balHeap }).raised = none ∧
    (translate railsConf 0 { heap := balHeap }).raised = none :=
  ⟨balHeap_clean, balPlaced, by unfold Untouched; decide, by decide, outside_plain, outside_rails,
    by decide +kernel, by decide +kernel⟩

/-! ### The hypotheses are needed -/

/-- A paragraph with two display formulas that ends with the second. -/
def twoMathHeap : Heap :=
  { next := 4
    get := fun r => match r with
      | 0 => { NodeRec.new .Manuscript with kids := [1] }
      | 1 => { NodeRec.new .Paragraph with parent := some 0, kids := [2, 3] }
      | 2 => { NodeRec.new .MathBlock with parent := some 1, number := .int 1 }
      | 3 => { NodeRec.new .MathBlock with parent := some 1, number := .int 2 }
      | _ => NodeRec.new .Node }

/-- **C37.** Without the condition on the last formula it is false, for both translators: a
paragraph of two display formulas is closed once more than it is opened. -/
theorem C37_two_formulas :
    (∃ out ∈ (translate plainConf 0 { heap := twoMathHeap }).value, ¬Balanced out) ∧
    ∃ out ∈ (translate railsConf 0 { heap := twoMathHeap }).value, ¬Balanced out := by
  constructor <;> decide +kernel

/-- A paragraph with the given text. -/
def textHeap (text : Str) : Heap :=
  { next := 3
    get := fun r => match r with
      | 0 => { NodeRec.new .Manuscript with kids := [1] }
      | 1 => { NodeRec.new .Paragraph with parent := some 0, kids := [2] }
      | 2 => { NodeRec.new .Text with parent := some 1, text := text }
      | _ => NodeRec.new .Node }

/-- **C37.** Without the condition on the texts it is false, for both translators: texts are not
escaped. -/
theorem C37_not_escaped :
    (∃ out ∈ (translate plainConf 0 { heap := textHeap "Use <b> here." }).value, ¬Balanced out) ∧
    ∃ out ∈ (translate railsConf 0 { heap := textHeap "Use <b> here." }).value, ¬Balanced out := by
  constructor <;> decide +kernel

/-- **C37.** With handrails, the first translation of a document may be well nested and the second
not. -/
theorem C37_second_translation :
    (∃ out ∈ (translate railsConf 0 { heap := dotHeap }).value, Balanced out) ∧
    ∃ out ∈ (translate railsConf 0 (translate railsConf 0 { heap := dotHeap }).state).value,
      ¬Balanced out := by
  constructor <;> decide +kernel

/-! ## The page -/

namespace Html

theorem scan_space {w : Str} (h : ∀ c ∈ w, isSpace c = true) (o : List Str) :
    scan w ⟨o, none⟩ = some ⟨o, none⟩ := by
  induction w with
  | nil => rfl
  | cons c w ih =>
    have hc : c ≠ '<' := by
      rintro rfl
      exact absurd (h '<' (by simp)) (by decide)
    simp only [scan, feed, hc, if_false, Option.bind_some]
    exact ih fun c hm => h c (by simp [hm])

theorem scan_space_tag {w : Str} (h : ∀ c ∈ w, isSpace c = true) (o : List Str) (b : Str) :
    ∃ b', scan w ⟨o, some b⟩ = some ⟨o, some b'⟩ := by
  induction w generalizing b with
  | nil => exact ⟨b, rfl⟩
  | cons c w ih =>
    have hc : c ≠ '<' := by
      rintro rfl
      exact absurd (h '<' (by simp)) (by decide)
    have hd : c ≠ '>' := by
      rintro rfl
      exact absurd (h '>' (by simp)) (by decide)
    simp only [scan, feed, hc, hd, if_false, Option.bind_some]
    exact ih (fun c hm => h c (by simp [hm])) _

theorem balanced_lstrip {s : Str} (h : Balanced s) : Balanced (lstrip s) := by
  have e : s = s.takeWhile isSpace ++ lstrip s := (List.takeWhile_append_dropWhile).symm
  unfold Balanced at h ⊢
  rw [e, scan_append, scan_space fun c hc => List.all_eq_true.mp List.all_takeWhile c hc] at h
  exact h

theorem balanced_rstrip {s : Str} (h : Balanced s) : Balanced (rstrip s) := by
  have e : s = rstrip s ++ (s.reverse.takeWhile isSpace).reverse := by
    have := (List.takeWhile_append_dropWhile (p := isSpace) (l := s.reverse)).symm
    have h2 := congrArg List.reverse this
    rwa [List.reverse_reverse, List.reverse_append] at h2
  have hw : ∀ c ∈ (s.reverse.takeWhile isSpace).reverse, isSpace c = true := fun c hc =>
    List.all_eq_true.mp List.all_takeWhile c (List.mem_reverse.mp hc)
  unfold Balanced at h ⊢
  rw [e, scan_append] at h
  cases hs : scan (rstrip s) ⟨[], none⟩ with
  | none => rw [hs] at h; cases h
  | some x =>
    obtain ⟨o, b⟩ := x
    rw [hs] at h
    cases b with
    | none => rw [Option.bind_some, scan_space hw] at h; exact h
    | some b =>
      obtain ⟨b', e'⟩ := scan_space_tag hw o b
      rw [Option.bind_some, e'] at h
      cases h

end Html

open Build in
/-- **C37.** The page that the builder makes of a well-nested body is well nested, if its title is;
the body of a manuscript with a title gives the title without angle brackets (C54). -/
theorem C37_page {body title : Str} (hb : Balanced body) (ht : TitleOf body title) (hn : Balanced title) :
    Balanced (page body) := by
  rw [C54_page body title ht]
  have e1 : Nets pageStart [] ["head".toList, "html".toList] := fun st =>
    scan_frame pageStart (p := []) (q := ["head".toList, "html".toList]) (by decide +kernel) st
  have e2 : Nets "<title>".toList [] ["title".toList] := fun _ => rfl
  have e3 : Nets "</title>\n</head>\n\n".toList ["title".toList, "head".toList] [] := fun st => rfl
  have e4 : Nets "\n\n</html>\n".toList ["html".toList] [] := fun st => rfl
  exact Nets.balanced (((((e1.append (e2.frame ["head".toList, "html".toList])).append
    (hn.inert.any ["title".toList, "head".toList, "html".toList])).append
      (e3.frame ["html".toList])).append
        ((balanced_rstrip (balanced_lstrip hb)).inert.any ["html".toList])).append e4)

/-- Such a body. -/
example : Balanced "<body><h1>On sums</h1><p>Text</p></body>".toList ∧
    TitleOf "<body><h1>On sums</h1><p>Text</p></body>" "On sums" ∧ Balanced "On sums".toList := by
  refine ⟨by decide +kernel, ?_, by decide +kernel⟩
  rw [← C54_title]; decide +kernel

/-- **C37.** So the page of a manuscript with a title of one line, written by the plain translator,
is well nested. -/
theorem C37_manuscript_page (k : Conf) (ho : Outside k) (hplain : k.handrails = false)
    {root : Ref} {t : Tree} {s s' : TrState} {out : Str}
    (hd : Doc s.heap root t) (hfuel : 2 * t.size ≤ k.fuel)
    (hclean : CleanHeap s.heap) (hplaced : FormulasPlaced s.heap t) (hnew : Untouched s.heap t)
    (hm : (s.heap.get root).cls = .Manuscript) (hne : (s.heap.get root).title ≠ [])
    (hnl : '\n' ∉ (s.heap.get root).title)
    (hok : translate k root s = .ok out s') : Balanced (Build.page out) := by
  have hc := hclean root
  refine C37_page (C37_well_nested k ho hd hfuel hclean hplaced hnew (by simp [hplain]) hok)
    (C54_manuscript_title hplain hd hfuel hm hc.label hc.types hne hnl ?_ hok)
    (Nets.balanced hc.title.inert)
  intro h
  exact hc.title.1 (h.subset (by decide))

example : (balHeap.get 0).cls = .Manuscript ∧ (balHeap.get 0).title ≠ [] ∧ '\n' ∉ (balHeap.get 0).title := by
  decide

end RSM
