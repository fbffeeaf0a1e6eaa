import Verif.Lemmas.ParserSays

/-! What the parser makes of each node (helper lemmas). -/

namespace RSM
namespace Parser
open PyM Nodes

/-! ## Texts -/

theorem point_eq (p : Int × Int) : pointStr p = place p := by
  rfl

theorem errorText_eq (c : Cst) : (errorRecord c).text = errorText c := by
  show "[CST error at ".toList ++ pointStr c.start ++ " - ".toList ++ pointStr c.stop ++ "]".toList = _
  rw [point_eq, point_eq]; rfl

theorem natStr_no (n : Nat) : '\\' ∉ natStr n := by
  intro hc
  unfold natStr at hc
  exact absurd (Nat.isDigit_of_mem_toDigits (by decide) (by decide) hc) (by decide)

theorem intStr_no : ∀ n : Int, '\\' ∉ intStr n
  | .ofNat n => natStr_no n
  | .negSucc n => by
    intro h
    rcases List.mem_cons.mp h with h | h
    · exact absurd h (by decide)
    · exact natStr_no _ h

theorem errorText_no (c : Cst) : '\\' ∉ errorText c := by
  unfold errorText place
  have h1 : '\\' ∉ "[CST error at ".toList := by decide
  have h2 : '\\' ∉ "(".toList := by decide
  have h3 : '\\' ∉ ", ".toList := by decide
  have h4 : '\\' ∉ ")".toList := by decide
  have h5 : '\\' ∉ " - ".toList := by decide
  have h6 : '\\' ∉ "]".toList := by decide
  simp only [List.mem_append, not_or]
  exact ⟨⟨⟨⟨h1, ⟨⟨⟨h2, intStr_no _⟩, h3⟩, intStr_no _⟩, h4⟩, h5⟩, ⟨⟨⟨h2, intStr_no _⟩, h3⟩, intStr_no _⟩, h4⟩, h6⟩

theorem ink_error (c : Cst) : Normalize.ink (Normalize.readAs false (errorRecord c).text) =
    Normalize.ink (errorText c) := by
  rw [errorText_eq]
  congr 1
  exact Normalize.U_noBackslash (errorText_no c)

theorem ink_padding (type : Str) (c : Cst) (prev next : Option Cst) (s : Str) :
    Normalize.ink (Normalize.readAs false (padding type c prev next s)) =
      Normalize.ink (Normalize.readAs false s) := by
  unfold padding padText
  split
  · simp only
    have hb : ∀ b : Bool, Normalize.AllSp (if b then [' '] else []) := by
      intro b; cases b
      · intro c h; cases h
      · exact Normalize.allSp_blank
    exact (Normalize.R_trail false _ _ (hb _)).trans (Normalize.R_lead false _ s (hb _))
  · rfl

theorem padding_other {type : Str} (h : type ≠ "text".toList) (c : Cst) (prev next : Option Cst) (s : Str) :
    padding type c prev next s = s := by
  unfold padding padText
  rw [if_neg h]

/-! ## Classes -/

theorem lookup_plain {type : Str} {cls : Cls} (h : astTypes.lookup type = some cls) :
    cls ≠ .Keyword ∧ cls ≠ .Bibliography ∧ (cls.isSub .Text = true ↔ type = "text".toList) ∧
      (cls = .Text ↔ type = "text".toList) ∧ cls ≠ .Error ∧ (asisTypes.contains type = true → cls.isSub .Text = false) := by
  have : ∀ p ∈ astTypes, p.2 ≠ .Keyword ∧ p.2 ≠ .Bibliography ∧ (p.2.isSub .Text = true ↔ p.1 = "text".toList) ∧
      (p.2 = .Text ↔ p.1 = "text".toList) ∧ p.2 ≠ .Error ∧
      (asisTypes.contains p.1 = true → p.2.isSub .Text = false) := by decide +kernel
  exact this _ (mem_of_lookup h)

theorem made_plain {type : Str} {cls : Cls}
    (h : astTypes.lookup type = some cls ∨ type = "ERROR".toList ∧ cls = .Error) :
    cls ≠ .Keyword ∧ cls ≠ .Bibliography := by
  rcases h with h | ⟨_, rfl⟩
  · exact ⟨(lookup_plain h).1, (lookup_plain h).2.1⟩
  · exact ⟨by decide, by decide⟩

theorem leftOut_eq {n : NodeRec} (h : n.cls ≠ .Keyword ∧ n.cls ≠ .Bibliography) :
    leftOut n = n.cls.isSub .Text := by
  unfold leftOut
  rw [decide_eq_false h.1, decide_eq_false h.2, Bool.or_false, Bool.or_false]

theorem out_made {b : Bool} {kind : Str} {c : Cst} {o : Out} {ps : List Part} {n : NodeRec} {first : List Item}
    (S : Says b o ps) (hk : kind ≠ "bibitem".toList ∧ kind ≠ "bibtex".toList ∧ kind ≠ "bibliography".toList)
    (hcls : classOf kind = n.cls) (hn : n.cls ≠ .Keyword ∧ n.cls ≠ .Bibliography)
    (hl : lookR (Normalize.unescAttrs n) = lookOf kind c) (hc : ¬ IsClaim kind c) (hf : outIL first = []) :
    outI (.node n (first ++ kept n.cls o.items)) = outline (.node kind c ps) := by
  rw [outI, leftOut_eq hn, outline, hcls]
  by_cases ht : n.cls.isSub .Text = true
  · rw [if_pos ht, if_pos (.inr (.inr ht))]
  · rw [if_neg ht, if_neg (by rintro (h | h | h); exacts [hk.2.2 h, hk.2.1 h, ht h]), if_neg hc, hl,
      outIL_append, hf, List.nil_append]
    unfold Parser.kept
    split
    · rw [S.outl]
    · rw [outIL]

/-! ## The manuscript and its sections -/

theorem heading_facts {c : Cst} (hc : IsHeading c) : kindOf c = c.type ∧ hidden c.type c = titleIds c ∧
    c.type ≠ "text".toList ∧ c.type ≠ "mathblock".toList ∧ asisTypes.contains c.type = false ∧
    c.type ≠ "comment".toList ∧ c.type ≠ "specialblock".toList ∧ c.type ≠ "specialinline".toList ∧
    c.type ≠ "bibtex".toList ∧ c.type ≠ "bibitem".toList ∧ c.type ≠ "td".toList ∧
    c.type ≠ "paragraph".toList := by
  have hno : ∀ w ∈ ["text".toList, "mathblock".toList, "comment".toList, "specialblock".toList,
      "specialinline".toList, "bibtex".toList, "bibitem".toList, "td".toList, "paragraph".toList, "block".toList,
      "inline".toList, "ref".toList, "previous".toList, "url".toList, "cite".toList, "math".toList, "code".toList,
      "codeblock".toList, "algorithm".toList],
      w ≠ "source_file".toList ∧ "section".toList.isSuffixOf w = false := by decide
  have hne : ∀ w ∈ ["text".toList, "mathblock".toList, "comment".toList, "specialblock".toList,
      "specialinline".toList, "bibtex".toList, "bibitem".toList, "td".toList, "paragraph".toList, "block".toList,
      "inline".toList, "ref".toList, "previous".toList, "url".toList, "cite".toList, "math".toList, "code".toList,
      "codeblock".toList, "algorithm".toList], c.type ≠ w := by
    intro w hw e
    obtain ⟨h1, h2⟩ := hno w hw
    rcases (isHeading_iff c).mp hc with h | h
    · exact h1 (e.symm.trans h)
    · rw [e] at h
      unfold endsWith at h
      rw [h2] at h; cases h
  have hasis : asisTypes.contains c.type = false := by
    rw [Bool.eq_false_iff]
    intro h
    have hm : c.type ∈ asisTypes := by simpa using h
    have : ∀ w ∈ asisTypes, w ∈ ["text".toList, "mathblock".toList, "comment".toList, "specialblock".toList,
      "specialinline".toList, "bibtex".toList, "bibitem".toList, "td".toList, "paragraph".toList, "block".toList,
      "inline".toList, "ref".toList, "previous".toList, "url".toList, "cite".toList, "math".toList, "code".toList,
      "codeblock".toList, "algorithm".toList] := by decide
    exact hne _ (this _ hm) rfl
  simp only [List.forall_mem_cons] at hne
  obtain ⟨h1, h2, h3, h4, h5, h6, h7, h8, h9, h10, h11, h12, h13, h14, h15, -⟩ := hne
  refine ⟨?_, ?_, h1, h2, hasis, h3, h4, h5, h6, h7, h8, h9⟩
  · unfold kindOf
    rw [if_neg (by tauto), if_neg (by tauto)]
  · unfold hidden titleIds
    rw [if_pos hc, if_neg (by tauto), if_neg (by tauto), if_neg h15]
    simp

theorem headingRecord_asis {c : Cst} {n : NodeRec} (h : headingRecord c = .ok n) : n.asis = false := by
  unfold headingRecord at h
  split at h
  · cases h
  · rename_i m hm
    rw [(ingestMeta_core h).2.2.2.2.1, ← (make_ok hm).2.2.2.1]
    split <;> rfl

theorem says_heading {b : Bool} {c : Cst} {o : Out} {n : NodeRec} (hc : IsHeading c) (hn : headingRecord c = .ok n)
    (S : Says b o (partsWhere (partOf (kindOf c) c) c.children)) :
    Says b ⟨[.node n (kept n.cls o.items)], o.events⟩
      [.node (kindOf c) c (partsWhere (partOf (kindOf c) c) c.children)] := by
  obtain ⟨k1, _, t1, t2, t3, _⟩ := heading_facts hc
  have hl := (headingRecord_ok hn).2
  obtain ⟨c1, c2, c3, c4, c5⟩ := lookup_class hl
  obtain ⟨p1, p2, p3, _⟩ := lookup_plain hl
  have hT : n.cls.isSub .Text = false := by rw [Bool.eq_false_iff]; exact fun h => t1 (p3.mp h)
  rw [k1] at S ⊢
  have hev : errorEvents c.type c = [] := by unfold errorEvents; rw [if_neg c2]
  have := says_made (top := n) (first := []) (kind := c.type) (c := c) S ⟨c3, c4, c5⟩
    (out_made S ⟨c3, c4, c5⟩ c1 ⟨p1, p2⟩ (headingRecord_look hn hc) (fun h => t2 h.1) (by rw [outIL]))
    (by
      rw [readI, hT, reads, if_neg (show ¬ (c.type = "bibliography".toList ∨ _) by tauto), if_neg t1, if_neg c2, verbatimKinds_eq, t3, c1, List.nil_append]
      simp only [Bool.false_eq_true, if_false, List.nil_append]
      unfold Parser.kept
      split
      · exact S.text
      · rw [readIL])
    (headingRecord_asis hn) (by rw [c1])
    (fun v => ⟨.inl (by
      intro i hi
      rw [List.nil_append] at hi
      unfold Parser.kept at hi
      split at hi
      · exact (S.uni v.node.2).1 i hi
      · cases hi), trivial⟩)
  rw [hev] at this
  exact this

/-! ## Other nodes -/

theorem asis_leftOut {a : NodeRec} (h : a.cls = .SourceCode ∨ a.cls = .Text) :
    leftOut a = true ∧ a.cls.isSub .Text = true := by
  unfold leftOut
  rcases h with h | h <;> rw [h] <;> decide

theorem says_node {b : Bool} {kind : Str} {c : Cst} {prev next : Option Cst} {n : NodeRec} {a : Option NodeRec}
    {ids : List Nat} {o : Out} {ps : List Part} (hc : ¬ IsHeading c)
    (hn : nodeRecord kind c prev next = .ok (n, a, ids)) (S : Says b o ps) :
    Says b ⟨[.node (topRec kind c n) (firstItems kind n a ++ kept (topRec kind c n).cls o.items)],
      errorEvents kind c ++ o.events⟩ [.node kind c ps] := by
  obtain ⟨fr, hl, has, htx, ⟨m, ha⟩⟩ := nodeRecord_ok hn
  obtain ⟨hlook, hclaim, -⟩ := nodeRecord_look hn hc
  obtain ⟨c1, c3, c4, c5⟩ := kind_made hl
  have hpl := made_plain hl
  have hbib : ¬ (kind = "bibliography".toList ∨ kind = "bibtex".toList ∨ kind = "bibitem".toList) := by tauto
  -- the verbatim content
  have hav : (a = none ∧ verbatimKinds.contains kind = false) ∨ ∃ x, a = some x ∧ verbatimKinds.contains kind = true ∧
      (x.cls = .SourceCode ∨ x.cls = .Text) ∧ readI (.node x []) =
        Normalize.ink ((c.namedChildren.getLast?.map Cst.text).getD []) := by
    cases a with
    | none => exact .inl ⟨rfl, asisRecord_none ha⟩
    | some x =>
      obtain ⟨h1, _, h2, h3, y, h4, h5⟩ := asisRecord_ok ha
      refine .inr ⟨x, rfl, h1, h2, ?_⟩
      rw [readI, (asis_leftOut h2).2, h3, h5, h4, readIL]
      simp [Normalize.readAs]
  have hfo : outIL (a.toList.map fun a => .node a []) = [] := by
    rcases hav with ⟨rfl, _⟩ | ⟨x, rfl, _, h, _⟩
    · simp [outIL]
    · simp [outIL, outI, (asis_leftOut h).1]
  have hfu : UniL (a.toList.map fun a => .node a []) := by
    cases a with
    | none => trivial
    | some x => exact ⟨⟨.inr (by simp), trivial⟩, trivial⟩
  have hfl : (a.toList.map fun a => Item.node a []).length ≤ 1 := by cases a <;> simp
  by_cases hcl : IsClaim kind c
  · -- a claim
    have hcond : kind = "mathblock".toList ∧ n.isclaim = true := ⟨hcl.1, hclaim.trans hcl.2⟩
    have hv : verbatimKinds.contains kind = true := by rw [hcl.1]; decide
    obtain ⟨x, rfl, _, hx, hr⟩ := hav.resolve_left (by rintro ⟨_, h⟩; rw [hv] at h; cases h)
    have e1 : topRec kind c n = claimRec c := by unfold topRec; rw [if_pos hcond]
    have e2 : firstItems kind n (some x) = [.node n [.node x []]] := by
      unfold firstItems; rw [if_pos hcond]; rfl
    have e3 : Parser.kept (claimRec c).cls o.items = o.items := by
      unfold Parser.kept; exact if_pos (show Cls.isSub .ClaimBlock .NodeWithChildren = true by decide)
    have hnwc := n.cls
    have hcls : n.cls = .MathBlock := by rw [← c1, hcl.1]; decide
    have hlo : leftOut n = false := by rw [leftOut_eq hpl, hcls]; decide
    rw [e1]
    refine says_made S ⟨c3, c4, c5⟩ ?_ ?_ rfl (by rw [hcl.1]; exact (by decide : Cls.ClaimBlock = .Subproof ↔ classOf "mathblock".toList = .Subproof)) ?_
    · rw [e2, e3, outI, outline, if_neg (by rw [show leftOut (claimRec c) = false from rfl]; simp),
        if_neg (by
          rintro (h | h | h)
          · exact c5 h
          · exact c4 h
          · rw [c1, hcls] at h; exact absurd h (by decide)), if_pos hcl, List.singleton_append, outIL, outI,
        if_neg (by rw [hlo]; simp), hlook, S.outl, outIL, outI, (asis_leftOut hx).1]
      rw [if_pos rfl, outIL]
      rfl
    · rw [e2, e3, readI, reads, if_neg (show ¬ (kind = "bibliography".toList ∨ _) from hbib),
        if_neg (by rw [hcl.1]; decide : ¬ kind = "text".toList),
        if_neg (by rw [hcl.1]; decide : ¬ kind = "ERROR".toList), if_pos hv, ← hr,
        show (claimRec c).cls.isSub .Text = false from rfl, if_neg Bool.false_ne_true, List.nil_append, List.singleton_append,
        readIL, readI, hcls, if_neg (by decide : ¬ Cls.isSub .MathBlock .Text = true), S.text, readIL, readIL]
      simp
    · intro v
      rw [e2, e3, S.empty (v.node.1 hv)]
      refine ⟨.inr (by simp), ?_⟩
      exact ⟨⟨.inr (by simp), hfu⟩, trivial⟩
  · have hcond : ¬ (kind = "mathblock".toList ∧ n.isclaim = true) := fun h => hcl ⟨h.1, hclaim ▸ h.2⟩
    have e1 : topRec kind c n = n := by unfold topRec; rw [if_neg hcond]
    have e2 : firstItems kind n a = a.toList.map fun a => .node a [] := by unfold firstItems; rw [if_neg hcond]
    rw [e1, e2]
    refine says_made S ⟨c3, c4, c5⟩ (out_made S ⟨c3, c4, c5⟩ c1 hpl hlook hcl hfo) ?_ has (by rw [c1]) ?_
    · rw [readI, readIL_append, reads, if_neg (show ¬ (kind = "bibliography".toList ∨ _) from hbib)]
      by_cases h1 : kind = "text".toList
      · have hcls : n.cls = .Text := by rw [← c1, h1]; decide
        obtain ⟨rfl, _⟩ := hav.resolve_right (by
          rintro ⟨x, _, h, _⟩
          rw [h1] at h
          exact absurd h (by decide))
        rw [if_pos h1, has, htx, hcls, if_pos rfl, ink_padding, if_pos (by decide : Cls.isSub .Text .Text = true)]
        unfold Parser.kept
        rw [if_neg (by decide)]
        simp [readIL]
      by_cases h2 : kind = "ERROR".toList
      · have hcls : n.cls = .Error := by rw [← c1, h2]; decide
        obtain ⟨rfl, _⟩ := hav.resolve_right (by
          rintro ⟨x, _, h, _⟩
          rw [h2] at h
          exact absurd h (by decide))
        rw [if_neg h1, if_pos h2, has, htx, hcls, if_neg (by decide : ¬ Cls.Error = Cls.Text), if_pos rfl, padding_other h1, ink_error,
          if_pos (by decide : Cls.isSub .Error .Text = true)]
        unfold Parser.kept
        rw [if_neg (by decide)]
        simp [readIL]
      have hlk : astTypes.lookup kind = some n.cls := hl.resolve_right fun h => h2 h.1
      obtain ⟨_, _, p3, _⟩ := lookup_plain hlk
      rw [if_neg h1, if_neg h2, if_neg (fun h => h1 (p3.mp h) : ¬ n.cls.isSub .Text = true), List.nil_append]
      rcases hav with ⟨rfl, h3⟩ | ⟨x, rfl, h3, _, hr⟩
      · rw [if_neg (by rw [h3]; simp), c1]
        unfold Parser.kept
        simp only [Option.toList_none, List.map_nil]
        rw [readIL, List.nil_append]
        split
        · exact S.text
        · rw [readIL]
      · rw [if_pos h3, ← hr]
        unfold Parser.kept
        rw [if_pos (asis_nwc h3 hlk).1, S.text]
        simp [readIL]
    · intro v
      refine ⟨?_, hfu⟩
      rcases hav with ⟨rfl, h3⟩ | ⟨x, rfl, h3, _, _⟩
      · left
        intro i hi
        simp only [Option.toList_none, List.map_nil, List.nil_append] at hi
        unfold Parser.kept at hi
        split at hi
        · exact (S.uni v.node.2).1 i hi
        · cases hi
      · right
        rw [S.empty (v.node.1 h3)]
        unfold Parser.kept
        simp

/-! ## Bibliographies -/

theorem says_bibliography (b : Bool) (c : Cst) :
    Says b ⟨[], [.bibliography]⟩ [.node "bibliography".toList c []] where
  subs := List.nil_sublist _
  outl := by rw [outIL, outlines, outline, if_pos (.inl rfl), outlines]; rfl
  text := by rw [readIL, readsL, reads, if_pos (.inl rfl), readsL]; rfl
  empty e := by cases e
  uni _ := ⟨(by intro _ h; cases h), trivial⟩
  warn := by
    rw [walks, walk, walks, List.append_nil, warnings, if_neg (by decide), if_pos rfl, warnings]; rfl
  bib := by rw [walks, walk, walks, List.append_nil, bibAfter, bibAfter]; simp [hasBib]
  bibs L M h _ := by
    rw [walks, walk, walks, List.append_nil, List.foldl_cons]
    show Bibs _ (List.foldl addPart (addPart M _) [])
    rw [show addPart M (.node "bibliography".toList c []) = M ++ [[]] by rw [addPart, if_pos rfl]]
    exact List.rel_append h (.cons .nil .nil)

theorem bibRecords_ok : ∀ {cs : List Cst} {ns : List NodeRec}, bibRecords cs = .ok ns → List.Forall₂ EntryOf ns cs
  | [], ns, h => by cases h; exact .nil
  | c :: cs, ns, h => by
    rw [bibRecords] at h
    obtain ⟨n, h1, h⟩ := bind_ok h
    obtain ⟨ns', h2, h⟩ := bind_ok h
    cases h
    exact .cons h1 (bibRecords_ok h2)

/-- Parts that are entries of a bibliography. -/
def EntryPart : Part → Prop
  | .node kind _ kids => kind = "bibitem".toList ∧ kids = []

theorem entryParts {cs : List Cst} :
    ∀ p ∈ partsWhere (fun y => y.named && y.type = "bibitem".toList) cs, EntryPart p := by
  rw [partsWhere_eq]
  intro p hp
  obtain ⟨c, hc, hp⟩ := List.mem_flatMap.mp hp
  have ht : c.type = "bibitem".toList := by
    have := (List.mem_filter.mp hc).2
    simpa using (Bool.and_eq_true_iff.mp this).2
  rw [parts_eq, ht, if_neg (by decide), if_neg (fun h => absurd h.1 (by decide)), if_neg (by decide), if_pos rfl,
    List.mem_singleton] at hp
  subst hp
  exact ⟨rfl, rfl⟩

theorem entries_walk : ∀ {ps : List Part}, (∀ p ∈ ps, EntryPart p) → walks ps = ps
  | [], _ => by rw [walks]
  | .node k c ks :: ps, h => by
    obtain ⟨_, e⟩ := h (.node k c ks) (by simp)
    subst e
    rw [walks, walk, walks, entries_walk fun p hp => h p (by simp [hp])]
    rfl

theorem entries_warn : ∀ {ps : List Part} (b : Bool), (∀ p ∈ ps, EntryPart p) → warnings b ps = [] ∧ bibAfter b ps = b
  | [], b, _ => by rw [warnings, bibAfter]; exact ⟨rfl, rfl⟩
  | .node k c ks :: ps, b, h => by
    obtain ⟨e, _⟩ := h (.node k c ks) (by simp)
    subst e
    rw [warnings, bibAfter, if_neg (by decide), if_neg (by decide), if_neg (by decide), decide_eq_false (by decide),
      Bool.or_false]
    exact entries_warn b fun p hp => h p (by simp [hp])

theorem entries_add : ∀ {ps : List Part} (M : List (List Cst)), (∀ p ∈ ps, EntryPart p) → ps.foldl addPart M = M
  | [], M, _ => rfl
  | .node k c ks :: ps, M, h => by
    obtain ⟨e, _⟩ := h (.node k c ks) (by simp)
    subst e
    rw [List.foldl_cons, addPart, if_neg (by decide), if_neg (by decide)]
    exact entries_add M fun p hp => h p (by simp [hp])

theorem says_bibtex {b : Bool} {c : Cst} {es : List Event} {ps : List Part} (hp : ∀ p ∈ ps, EntryPart p)
    (hw : warningsOf es = if b then
      (c.namedChildren.filter fun x => x.type = "ERROR".toList).map fun x => .badBibitem x.start
      else [.noBibliography]) (hb : hasBib b es = b)
    (hbs : ∀ L M, Bibs L M → b = !M.isEmpty →
      Bibs (es.foldl Event.apply L) (addPart M (.node "bibtex".toList c ps))) :
    Says b ⟨[], es⟩ [.node "bibtex".toList c ps] where
  subs := List.nil_sublist _
  outl := by rw [outIL, outlines, outline, if_pos (.inr (.inl rfl)), outlines]; rfl
  text := by rw [readIL, readsL, reads, if_pos (.inr (.inl rfl)), readsL]; rfl
  empty e := by cases e
  uni _ := ⟨(by intro _ h; cases h), trivial⟩
  warn := by
    rw [walks, walk, walks, List.append_nil, entries_walk hp, warnings, if_neg (by decide), if_neg (by decide),
      if_pos rfl, (entries_warn b hp).1, List.append_nil]
    exact hw
  bib := by
    rw [walks, walk, walks, List.append_nil, entries_walk hp, bibAfter, decide_eq_false (by decide), Bool.or_false,
      (entries_warn b hp).2]
    exact hb
  bibs L M h e := by
    rw [walks, walk, walks, List.append_nil, entries_walk hp, List.foldl_cons, entries_add _ hp]
    exact hbs L M h e

theorem apply_warnings (ws : List PWarning) (L : List (List NodeRec)) :
    (ws.map Event.warning).foldl Event.apply L = L := by
  induction ws with
  | nil => rfl
  | cons w ws ih => rw [List.map_cons, List.foldl_cons]; exact ih

theorem apply_entries : ∀ (ns : List NodeRec) (L : List (List NodeRec)) (l : List NodeRec),
    (ns.map Event.entry).foldl Event.apply (L ++ [l]) = L ++ [l ++ ns]
  | [], L, l => by simp
  | n :: ns, L, l => by
    rw [List.map_cons, List.foldl_cons]
    have : Event.apply (L ++ [l]) (.entry n) = L ++ [l ++ [n]] := by
      simp [Event.apply]
    rw [this, apply_entries ns L (l ++ [n])]
    simp

theorem bibs_add {L : List (List NodeRec)} {M : List (List Cst)} {ns : List NodeRec} {c : Cst} {ps : List Part}
    (h : Bibs L M) (hM : M ≠ [])
    (hn : List.Forall₂ EntryOf ns (c.namedChildren.filter fun x => x.type = "bibitem".toList)) :
    Bibs ((ns.map Event.entry).foldl Event.apply L) (addPart M (.node "bibtex".toList c ps)) := by
  rw [addPart, if_neg (by decide), if_pos rfl]
  have hM' := List.dropLast_append_getLast hM
  generalize M.dropLast = M1 at hM'
  generalize M.getLast hM = m at hM'
  subst hM'
  obtain ⟨L1, L2, h1, h2, rfl⟩ : ∃ L1 L2, Bibs L1 M1 ∧ Bibs L2 [m] ∧ L = L1 ++ L2 := by
    have hd := List.forall₂_take_append L M1 [m] h
    have hd2 := List.forall₂_drop_append L M1 [m] h
    exact ⟨_, _, hd, hd2, (List.take_append_drop _ _).symm⟩
  cases h2 with
  | cons h2 h3 =>
    cases h3
    rw [apply_entries]
    simp only [List.getLast?_append, List.getLast?_singleton, Option.some_or]
    exact List.rel_append h1 (.cons (List.rel_append h2 hn) .nil)

theorem warnings_map (ws : List PWarning) (ns : List NodeRec) :
    warningsOf (ws.map Event.warning ++ ns.map Event.entry) = ws := by
  rw [warningsOf_append]
  have h1 : warningsOf (ws.map Event.warning) = ws := by
    unfold warningsOf
    rw [List.filterMap_map]
    exact List.filterMap_some
  have h2 : warningsOf (ns.map Event.entry) = [] := by
    unfold warningsOf
    rw [List.filterMap_map]
    simp
  rw [h1, h2, List.append_nil]

theorem hasBib_map (b : Bool) (ws : List PWarning) (ns : List NodeRec) :
    hasBib b (ws.map Event.warning ++ ns.map Event.entry) = b := by
  simp [hasBib]

theorem named_filter (c : Cst) (q : Cst → Bool) :
    (c.children.filter fun x => x.named && q x) = c.namedChildren.filter q := by
  unfold Cst.namedChildren
  rw [List.filter_filter]
  congr 1
  funext x
  rw [Bool.and_comm]

theorem says_bibitem {b : Bool} {c : Cst} {n : NodeRec} (hn : bibRecord c = .ok n) :
    Says b ⟨[.node n []], []⟩ [.node "bibitem".toList c []] := by
  have hcls := (bibRecord_ok hn).2
  constructor
  · simp only [List.map_cons, List.map_nil, subI, Item.rec', subP, hcls]
    exact (by decide)
  · rw [outIL, outIL, outlines, outlines, outI, outIL, outline, bibRecord_look hn,
      if_neg (by unfold leftOut; rw [hcls]; decide), if_neg (by decide), if_neg (fun h => absurd h.1 (by decide))]
    rw [if_neg (by decide)]
  · rw [readIL, readIL, readI, hcls, readIL, readsL, readsL, reads, if_neg (by decide : ¬ Cls.isSub .Bibitem .Text = true),
      if_pos (.inr (.inr rfl))]
    rfl
  · intro e; cases e
  · intro _
    refine ⟨fun i hi ht => ?_, ⟨.inr (by simp), trivial⟩, trivial⟩
    rw [List.mem_singleton] at hi
    subst hi
    rw [Item.rec', hcls] at ht
    exact absurd ht (by decide)
  · rw [walks, walk, walks, List.append_nil, warnings, if_neg (by decide), if_neg (by decide), if_neg (by decide),
      warnings]
    rfl
  · rw [walks, walk, walks, List.append_nil, bibAfter, bibAfter, decide_eq_false (by decide)]
    simp [hasBib]
  · intro L M h _
    rw [walks, walk, walks, List.append_nil, List.foldl_cons, addPart, if_neg (by decide), if_neg (by decide)]
    exact h

/-! ## The whole tree -/

theorem firstType_eq {c x : Cst} (h : item c.namedChildren 0 = .ok x) : firstType c = x.type := by
  have h := item_ok h
  unfold firstType
  rw [List.head?_eq_getElem?, h]
  rfl

theorem says_ev : ∀ (k : Nat) (p : Cls) (b : Bool) (x : Sib) (o : Out), ev k p b x = .ok o → Says b o (parts x.2.1)
  | 0, _, _, _, _, h => by rw [ev] at h; cases h
  | k + 1, p, b, (prev, c, next), o, h => by
    rw [ev] at h
    rw [parts_eq]
    by_cases h1 : c.type = "comment".toList
    · rw [if_pos h1] at h ⊢
      cases h
      exact .nil b
    rw [if_neg h1] at h ⊢
    by_cases h2 : c.type = "specialblock".toList ∧ c.children.head?.map Cst.type = some "bibliography".toList
    · rw [if_pos h2] at h ⊢
      cases h
      exact says_bibliography b c
    rw [if_neg h2] at h ⊢
    by_cases h3 : c.type = "bibtex".toList
    · rw [if_pos h3] at h ⊢
      rw [h3]
      cases b with
      | true =>
        rw [if_pos rfl] at h
        obtain ⟨ns, hn, h⟩ := bind_ok h
        cases h
        have hf := bibRecords_ok hn
        rw [sibs_map, named_filter] at hf
        rw [show ((c.namedChildren.filter fun x => x.type = "ERROR".toList).map
          fun x => Event.warning (.badBibitem x.start)) =
          ((c.namedChildren.filter fun x => x.type = "ERROR".toList).map fun x => .badBibitem x.start).map
            Event.warning by rw [List.map_map]; rfl]
        refine says_bibtex entryParts ?_ (hasBib_map _ _ _) fun L M hB e => ?_
        · rw [warnings_map]; rfl
        · rw [List.foldl_append, apply_warnings]
          exact bibs_add hB (by rintro rfl; cases e) hf
      | false =>
        rw [if_neg (by simp)] at h
        cases h
        refine says_bibtex entryParts rfl rfl fun L M hB e => ?_
        have : M = [] := by cases M with
          | nil => rfl
          | cons _ _ => cases e
        subst this
        cases hB
        rw [addPart, if_neg (by decide), if_pos rfl]
        exact .nil
    rw [if_neg h3] at h ⊢
    by_cases h4 : c.type = "bibitem".toList
    · rw [if_pos h4] at h ⊢
      obtain ⟨n, hn, h⟩ := bind_ok h
      split at h
      · cases h
        rw [h4]
        exact says_bibitem hn
      · cases h
    rw [if_neg h4] at h ⊢
    have K : ∀ (q : Cls) (xs : List Sib) (b : Bool) (o : Out), evs (ev k) q b xs = .ok o →
        Says b o (xs.flatMap fun x => parts x.2.1) := fun q xs b o h => says_evs (fun x _ b o h => says_ev k q b x o h) h
    by_cases h5 : c.type = "source_file".toList ∨ endsWith c.type "section".toList = true
    · rw [if_pos h5] at h
      have hH : IsHeading c := (isHeading_iff c).mpr h5
      obtain ⟨k1, k2, t1, t2, t3, t4, t5, t6, t7, t8, t9, t10⟩ := heading_facts hH
      obtain ⟨n, hn, h⟩ := bind_ok h
      obtain ⟨_, _, h⟩ := bind_ok h
      obtain ⟨o', ho, h⟩ := bind_ok h
      cases h
      rw [if_neg (by
        rintro (e | ⟨e | e, _⟩)
        · exact t9 e
        · exact t5 e
        · exact t6 e), if_neg (fun e => t10 e.1)]
      have S := K _ _ _ _ ho
      rw [flatMap_push k2.symm] at S
      rw [← k1] at S
      exact says_heading hH hn S
    rw [if_neg h5] at h
    have hH : ¬ IsHeading c := fun hh => h5 ((isHeading_iff c).mp hh)
    obtain ⟨r, hr, h⟩ := bind_ok h
    -- a node that is made
    have M : ∀ (type : Str) (y : Cst) (skip : List Nat) (hy : ¬ IsHeading y)
        (hs : skip = if y.type = "block".toList ∨ y.type = "inline".toList then
          (y.byField "tag".toList).toList.map Cst.id else [])
        (h : (do
          let (n, a, ids) ← nodeRecord type y prev next
          allowed p (topRec type y n).cls
          let o ← evs (ev k) (topRec type y n).cls b (pushSibs y (skip ++ ids))
          .ok ⟨[.node (topRec type y n) (firstItems type n a ++ kept (topRec type y n).cls o.items)],
            errorEvents type y ++ o.events⟩ : Except PyErr Out) = .ok o),
        Says b o [.node type y (partsWhere (partOf type y) y.children)] := by
      intro type y skip hy hs h
      obtain ⟨⟨n, a, ids⟩, hn, h⟩ := bind_ok h
      obtain ⟨_, _, h⟩ := bind_ok h
      obtain ⟨o', ho, h⟩ := bind_ok h
      cases h
      have S := K _ _ _ _ ho
      rw [flatMap_push (kind := type)] at S
      · exact says_node hy hn S
      · unfold hidden
        rw [if_neg hy, List.nil_append, hs, (nodeRecord_look hn hy).2.2, List.append_assoc]
    unfold roleOf at hr
    by_cases r1 : c.type = "specialblock".toList ∨ c.type = "specialinline".toList
    · rw [if_pos r1] at hr
      obtain ⟨y, hy, hr⟩ := bind_ok hr
      have hf := firstType_eq hy
      have ntd : c.type ≠ "td".toList := by rcases r1 with e | e <;> rw [e] <;> decide
      have npar : c.type ≠ "paragraph".toList := by rcases r1 with e | e <;> rw [e] <;> decide
      have nbl : ¬ (c.type = "block".toList ∨ c.type = "inline".toList) := by
        rcases r1 with e | e <;> rw [e] <;> decide
      by_cases r2 : y.type = "table".toList
      · rw [if_pos r2] at hr
        cases hr
        rw [if_pos (.inr ⟨r1, hf.trans r2⟩), ← flatMap_take]
        exact K _ _ _ _ h
      · rw [if_neg r2] at hr
        cases hr
        rw [if_neg (by
          rintro (e | e)
          · exact ntd e
          · exact r2 (hf.symm.trans e.2)), if_neg (fun h => npar h.1)]
        have hk : kindOf c = y.type := by unfold kindOf; rw [if_pos r1, hf]
        rw [hk]
        exact M _ _ _ hH (by rw [if_neg nbl]) h
    rw [if_neg r1] at hr
    by_cases r3 : c.type = "mathblock".toList
    · rw [if_pos r3] at hr
      cases hr
      have nbl : ¬ (c.type = "block".toList ∨ c.type = "inline".toList) := by rw [r3]; decide
      rw [if_neg (show ¬ (c.type = "td".toList ∨ _) by
        rintro (e | e)
        · rw [r3] at e; exact absurd e (by decide)
        · exact r1 e.1), if_neg (fun h => by rw [r3] at h; exact absurd h.1 (by decide))]
      have hk : kindOf c = c.type := by unfold kindOf; rw [if_neg r1, if_neg nbl]
      rw [hk]
      exact M _ _ _ hH (by rw [if_neg nbl]) h
    rw [if_neg r3] at hr
    by_cases r4 : c.type = "td".toList
    · rw [if_pos r4] at hr
      obtain ⟨y, hy, hr⟩ := bind_ok hr
      cases hr
      rw [if_pos (.inl r4), ← flatMap_take]
      exact K _ _ _ _ h
    rw [if_neg r4] at hr
    rw [if_neg (by
      rintro (e | e)
      · exact r4 e
      · exact r1 e.1)]
    by_cases r5 : c.type = "paragraph".toList
    · rw [if_pos r5] at hr
      obtain ⟨y, hy, hr⟩ := bind_ok hr
      have hf := firstType_eq hy
      have nbl : ¬ (c.type = "block".toList ∨ c.type = "inline".toList) := by rw [r5]; decide
      by_cases r6 : y.type = "item".toList ∨ y.type = "caption".toList
      · rw [if_pos r6] at hr
        cases hr
        rw [if_pos ⟨r5, hf ▸ r6⟩, partsInstead_eq (item_ok hy)]
        refine M _ _ _ ?_ ?_ h
        · rw [isHeading_iff]; rcases r6 with e | e <;> rw [e] <;> decide
        · rw [if_neg]; rcases r6 with e | e <;> rw [e] <;> decide
      · rw [if_neg r6] at hr
        cases hr
        rw [if_neg (fun e => r6 (hf ▸ e.2))]
        have hk : kindOf c = c.type := by unfold kindOf; rw [if_neg r1, if_neg nbl]
        rw [hk]
        exact M _ _ _ hH (by rw [if_neg nbl]) h
    rw [if_neg r5] at hr
    rw [if_neg (fun h => r5 h.1)]
    by_cases r7 : c.type = "block".toList ∨ c.type = "inline".toList
    · rw [if_pos r7] at hr
      split at hr
      · cases hr
      · rename_i t ht
        cases hr
        have hk : kindOf c = t.type := by unfold kindOf; rw [if_neg r1, if_pos r7, ht]; rfl
        rw [hk]
        exact M _ _ _ hH (by rw [if_pos r7, ht]; rfl) h
    · rw [if_neg r7] at hr
      cases hr
      have hk : kindOf c = c.type := by unfold kindOf; rw [if_neg r1, if_neg r7]
      rw [hk]
      exact M _ _ _ hH (by rw [if_neg r7]) h

end Parser
end RSM
