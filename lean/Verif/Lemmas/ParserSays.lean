import Verif.Lemmas.ParserLook
import Verif.Lemmas.ParserMain

/-! What the parser makes of a tree is what the specification says (helper lemmas). -/

namespace RSM
namespace Parser
open PyM Nodes

/-! ## Items -/

/-- Nodes that the outline leaves out. -/
def leftOut (n : NodeRec) : Bool := n.cls.isSub .Text || n.cls = .Keyword || n.cls = .Bibliography

mutual
/-- The outline of an item, titles unescaped. -/
def outI : Item → List Outline
  | .node n ks => if leftOut n then [] else [.node (lookR (Normalize.unescAttrs n)) (outIL ks)]
def outIL : List Item → List Outline
  | [] => []
  | i :: is => outI i ++ outIL is
end

mutual
/-- The non-blank characters of an item. -/
def readI : Item → Str
  | .node n ks => (if n.cls.isSub .Text then Normalize.ink (Normalize.readAs n.asis n.text) else []) ++ readIL ks
def readIL : List Item → Str
  | [] => []
  | i :: is => readI i ++ readIL is
end

/-- The record of an item. -/
def Item.rec' : Item → NodeRec
  | .node n _ => n

/-- No text among the items is verbatim. -/
def NoAsis (is : List Item) : Prop := ∀ i ∈ is, i.rec'.cls.isSub .Text = true → i.rec'.asis = false

mutual
/-- Verbatim texts stand alone. -/
def Uni : Item → Prop
  | .node _ ks => (NoAsis ks ∨ ks.length ≤ 1) ∧ UniL ks
def UniL : List Item → Prop
  | [] => True
  | i :: is => Uni i ∧ UniL is
end

theorem outIL_append : ∀ a b : List Item, outIL (a ++ b) = outIL a ++ outIL b
  | [], b => by rw [outIL]; rfl
  | i :: a, b => by rw [List.cons_append, outIL, outIL, outIL_append a b, List.append_assoc]

theorem readIL_append : ∀ a b : List Item, readIL (a ++ b) = readIL a ++ readIL b
  | [], b => by rw [readIL]; rfl
  | i :: a, b => by rw [List.cons_append, readIL, readIL, readIL_append a b, List.append_assoc]

theorem uniL_append : ∀ {a b : List Item}, UniL a → UniL b → UniL (a ++ b)
  | [], b, _, h => h
  | i :: a, b, h, h' => by
    rw [UniL] at h
    rw [List.cons_append, UniL]
    exact ⟨h.1, uniL_append h.2 h'⟩

theorem outlines_append : ∀ a b : List Part, outlines (a ++ b) = outlines a ++ outlines b
  | [], b => by rw [outlines]; rfl
  | i :: a, b => by rw [List.cons_append, outlines, outlines, outlines_append a b, List.append_assoc]

theorem readsL_append : ∀ a b : List Part, readsL (a ++ b) = readsL a ++ readsL b
  | [], b => by rw [readsL]; rfl
  | i :: a, b => by rw [List.cons_append, readsL, readsL, readsL_append a b, List.append_assoc]

theorem walks_append : ∀ a b : List Part, walks (a ++ b) = walks a ++ walks b
  | [], b => by rw [walks]; rfl
  | i :: a, b => by rw [List.cons_append, walks, walks, walks_append a b, List.append_assoc]

theorem VerbatimAlone.append {a b : List Part} (h : VerbatimAlone (a ++ b)) : VerbatimAlone a ∧ VerbatimAlone b := by
  unfold VerbatimAlone at h ⊢
  rw [walks_append] at h
  exact ⟨fun p hp => h p (List.mem_append_left _ hp), fun p hp => h p (List.mem_append_right _ hp)⟩

theorem VerbatimAlone.node {kind c} {ps : List Part} (h : VerbatimAlone [.node kind c ps]) :
    (verbatimKinds.contains kind = true → ps = []) ∧ VerbatimAlone ps := by
  unfold VerbatimAlone at h ⊢
  rw [walks, walk, walks, List.append_nil] at h
  exact ⟨h (.node kind c ps) (by simp), fun p hp => h p (List.mem_cons_of_mem _ hp)⟩

/-! ## Warnings and bibliographies -/

/-- Whether there is a bibliography after the parts. -/
def bibAfter (b : Bool) : List Part → Bool
  | [] => b
  | .node kind _ _ :: ps => bibAfter (b || kind = "bibliography".toList) ps

theorem bibAfter_append : ∀ (b : Bool) (x y : List Part), bibAfter b (x ++ y) = bibAfter (bibAfter b x) y
  | _, [], _ => rfl
  | b, .node kind _ _ :: ps, y => by rw [List.cons_append, bibAfter, bibAfter, bibAfter_append]

theorem warnings_append : ∀ (b : Bool) (x y : List Part),
    warnings b (x ++ y) = warnings b x ++ warnings (bibAfter b x) y
  | _, [], _ => by rw [warnings]; rfl
  | b, .node kind c ks :: ps, y => by
    rw [List.cons_append, warnings, warnings, bibAfter]
    have hne : "ERROR".toList ≠ "bibliography".toList ∧ "bibtex".toList ≠ "bibliography".toList := by decide
    by_cases h1 : kind = "ERROR".toList
    · have : decide (kind = "bibliography".toList) = false := decide_eq_false (by rw [h1]; exact hne.1)
      rw [if_pos h1, if_pos h1, warnings_append b ps y, this, Bool.or_false]; rfl
    by_cases h2 : kind = "bibliography".toList
    · rw [if_neg h1, if_pos h2, if_neg h1, if_pos h2, warnings_append true ps y, decide_eq_true h2, Bool.or_true]
    have : decide (kind = "bibliography".toList) = false := decide_eq_false h2
    rw [if_neg h1, if_neg h2, if_neg h1, if_neg h2, this, Bool.or_false]
    by_cases h3 : kind = "bibtex".toList
    · rw [if_pos h3, if_pos h3, warnings_append b ps y, List.append_assoc]
    · rw [if_neg h3, if_neg h3, warnings_append b ps y]

/-- Records and nodes of bibliography entries. -/
def EntryOf (n : NodeRec) (c : Cst) : Prop := bibRecord c = .ok n

abbrev Bibs := List.Forall₂ (List.Forall₂ EntryOf)

theorem hasBib_append (b : Bool) (x y : List Event) : hasBib b (x ++ y) = hasBib (hasBib b x) y := by
  simp [hasBib, Bool.or_assoc]

/-- An item is a subproof. -/
def subI (i : Item) : Bool := i.rec'.cls = .Subproof

/-- A part is a subproof. -/
def subP : Part → Bool
  | .node kind _ _ => classOf kind = .Subproof

/-- What comes of a part of the tree is what the parts say. -/
structure Says (b : Bool) (o : Out) (ps : List Part) : Prop where
  subs : (o.items.map subI).Sublist (ps.map subP)
  outl : outIL o.items = outlines ps
  text : readIL o.items = readsL ps
  empty : ps = [] → o.items = []
  uni : VerbatimAlone ps → NoAsis o.items ∧ UniL o.items
  warn : warningsOf o.events = warnings b (walks ps)
  bib : hasBib b o.events = bibAfter b (walks ps)
  bibs : ∀ L M, Bibs L M → b = !M.isEmpty → Bibs (o.events.foldl Event.apply L) ((walks ps).foldl addPart M)

theorem addPart_isEmpty (M : List (List Cst)) (p : Part) : (!(addPart M p).isEmpty) = bibAfter (!M.isEmpty) [p] := by
  obtain ⟨kind, c, ks⟩ := p
  rw [addPart, bibAfter, bibAfter]
  by_cases h : kind = "bibliography".toList
  · rw [if_pos h, decide_eq_true h]; simp
  · rw [if_neg h, decide_eq_false h, Bool.or_false]
    split
    · cases hl : M.getLast? with
      | none => rfl
      | some l =>
        simp only [Bool.not_eq_eq_eq_not, Bool.not_not]
        cases M with
        | nil => cases hl
        | cons m M => simp
    · rfl

theorem foldl_isEmpty : ∀ (ps : List Part) (M : List (List Cst)),
    (!(ps.foldl addPart M).isEmpty) = bibAfter (!M.isEmpty) ps
  | [], M => by rw [bibAfter]; rfl
  | p :: ps, M => by
    rw [List.foldl_cons, foldl_isEmpty ps, addPart_isEmpty]
    exact (bibAfter_append _ [p] ps).symm

theorem Says.nil (b : Bool) : Says b {} [] where
  subs := List.Sublist.refl _
  outl := by rw [outIL, outlines]
  text := by rw [readIL, readsL]
  empty _ := rfl
  uni _ := ⟨(by intro _ h; cases h), trivial⟩
  warn := by rw [walks, warnings]; rfl
  bib := by rw [walks, bibAfter]; simp [hasBib]
  bibs L M h _ := by rw [walks]; exact h

theorem Says.append {b : Bool} {o o' : Out} {ps ps' : List Part} (h : Says b o ps)
    (h' : Says (hasBib b o.events) o' ps') : Says b ⟨o.items ++ o'.items, o.events ++ o'.events⟩ (ps ++ ps') where
  subs := by rw [List.map_append, List.map_append]; exact h.subs.append h'.subs
  outl := by rw [outIL_append, outlines_append, h.outl, h'.outl]
  text := by rw [readIL_append, readsL_append, h.text, h'.text]
  empty e := by
    obtain ⟨e1, e2⟩ := List.append_eq_nil_iff.mp e
    simp only [h.empty e1, h'.empty e2, List.append_nil]
  uni v := by
    obtain ⟨v1, v2⟩ := v.append
    obtain ⟨a1, a2⟩ := h.uni v1
    obtain ⟨b1, b2⟩ := h'.uni v2
    refine ⟨fun i hi => ?_, uniL_append a2 b2⟩
    rcases List.mem_append.mp hi with hi | hi
    · exact a1 i hi
    · exact b1 i hi
  warn := by
    rw [walks_append, warnings_append, ← h.bib, ← h.warn, ← h'.warn]
    exact warningsOf_append _ _
  bib := by rw [walks_append, bibAfter_append, ← h.bib, ← h'.bib, hasBib_append]
  bibs L M hb e := by
    rw [walks_append, List.foldl_append]
    rw [List.foldl_append]
    refine h'.bibs _ _ (h.bibs L M hb e) ?_
    rw [foldl_isEmpty, ← e, h.bib]

theorem says_evs {f : Cls → Bool → Sib → Except PyErr Out} {p : Cls} : ∀ {xs : List Sib} {b : Bool} {o : Out},
    (∀ x ∈ xs, ∀ b o, f p b x = .ok o → Says b o (parts x.2.1)) → evs f p b xs = .ok o →
      Says b o (xs.flatMap fun x => parts x.2.1)
  | [], b, o, _, h => by cases h; exact .nil b
  | x :: xs, b, o, hf, h => by
    rw [evs] at h
    obtain ⟨o1, h1, h⟩ := bind_ok h
    obtain ⟨o2, h2, h⟩ := bind_ok h
    cases h
    rw [List.flatMap_cons]
    exact (hf x (by simp) _ _ h1).append (says_evs (fun y hy => hf y (by simp [hy])) h2)

/-! ## Parts -/

theorem parts_eq (c : Cst) : parts c =
    if c.type = "comment".toList then []
    else if c.type = "specialblock".toList ∧ c.children.head?.map Cst.type = some "bibliography".toList then
      [.node "bibliography".toList c []]
    else if c.type = "bibtex".toList then
      [.node c.type c (partsWhere (fun y => y.named && y.type = "bibitem".toList) c.children)]
    else if c.type = "bibitem".toList then [.node c.type c []]
    else if c.type = "td".toList ∨
        (c.type = "specialblock".toList ∨ c.type = "specialinline".toList) ∧ firstType c = "table".toList then
      partsFirst c.children
    else if c.type = "paragraph".toList ∧ (firstType c = "item".toList ∨ firstType c = "caption".toList) then
      partsInstead c.children
    else [.node (kindOf c) c (partsWhere (partOf (kindOf c) c) c.children)] := by
  cases c; rw [parts]; rfl

theorem partsWhere_eq (p : Cst → Bool) : ∀ cs : List Cst, partsWhere p cs = (cs.filter p).flatMap parts
  | [] => by rw [partsWhere]; rfl
  | c :: cs => by
    rw [partsWhere, partsWhere_eq p cs, List.filter_cons]
    split <;> simp

theorem neighbours_filter (q : Cst → Bool) : ∀ (prev : Option Cst) (cs : List Cst),
    ((neighbours prev cs).filter fun x => q x.2.1).map (fun x => x.2.1) = cs.filter q
  | _, [] => rfl
  | prev, c :: cs => by
    rw [neighbours, List.filter_cons, List.filter_cons]
    simp only
    split
    · rw [List.map_cons, neighbours_filter q]
    · rw [neighbours_filter q]

theorem sibs_map (c : Cst) (cond : Cst → Bool) :
    (sibs c cond).map (fun x => x.2.1) = c.children.filter fun x => x.named && cond x :=
  neighbours_filter (fun x => x.named && cond x) none c.children

theorem flatMap_sibs (c : Cst) (cond : Cst → Bool) :
    ((sibs c cond).flatMap fun x => parts x.2.1) = partsWhere (fun x => x.named && cond x) c.children := by
  rw [partsWhere_eq, ← sibs_map, List.flatMap_map]

theorem flatMap_push {kind : Str} {c : Cst} {skip : List Nat} (h : skip = hidden kind c) :
    ((pushSibs c skip).flatMap fun x => parts x.2.1) = partsWhere (partOf kind c) c.children := by
  unfold pushSibs
  rw [flatMap_sibs]
  congr 1
  funext x
  unfold partOf
  rw [shownTypes_eq, h, Bool.and_assoc]

theorem partsFirst_eq : ∀ cs : List Cst, partsFirst cs = ((cs.filter Cst.named).take 1).flatMap parts
  | [] => by rw [partsFirst]; rfl
  | c :: cs => by
    rw [partsFirst, List.filter_cons]
    split
    · simp
    · exact partsFirst_eq cs

theorem partsInstead_eq : ∀ {cs : List Cst} {x : Cst}, (cs.filter Cst.named)[0]? = some x →
    partsInstead cs = [.node x.type x (partsWhere (partOf x.type x) x.children)]
  | [], x, h => by cases h
  | .node i t n f y a b ds :: cs, x, h => by
    rw [partsInstead]
    rw [List.filter_cons] at h
    cases n with
    | true =>
      rw [if_pos (by rfl)] at h
      cases h
      rfl
    | false =>
      rw [if_neg (by simp [Cst.named])] at h
      rw [if_neg (by simp)]
      exact partsInstead_eq h

theorem flatMap_take (c : Cst) :
    (((sibs c fun _ => true).take 1).flatMap fun x => parts x.2.1) = partsFirst c.children := by
  rw [partsFirst_eq]
  have := sibs_map c fun _ => true
  simp only [Bool.and_true] at this
  have e : (((sibs c fun _ => true).take 1).map fun x => x.2.1) = (c.children.filter Cst.named).take 1 := by
    rw [List.map_take, this]
  rw [← e, List.flatMap_map]

/-! ## Single nodes -/

theorem isHeading_iff (c : Cst) : IsHeading c ↔ c.type = "source_file".toList ∨ endsWith c.type "section".toList = true := by
  unfold IsHeading endsWith
  rw [List.isSuffixOf_iff_suffix]

theorem says_made {b : Bool} {kind : Str} {c : Cst} {o : Out} {ps : List Part} {top : NodeRec}
    {first : List Item}
    (S : Says b o ps) (hk : kind ≠ "bibitem".toList ∧ kind ≠ "bibtex".toList ∧ kind ≠ "bibliography".toList)
    (hout : outI (.node top (first ++ kept top.cls o.items)) = outline (.node kind c ps))
    (htext : readI (.node top (first ++ kept top.cls o.items)) = reads (.node kind c ps))
    (hasis : top.asis = false) (hsub : top.cls = .Subproof ↔ classOf kind = .Subproof)
    (huni : VerbatimAlone [.node kind c ps] → (NoAsis (first ++ kept top.cls o.items) ∨
      (first ++ kept top.cls o.items).length ≤ 1) ∧ UniL first) :
    Says b ⟨[.node top (first ++ kept top.cls o.items)], errorEvents kind c ++ o.events⟩ [.node kind c ps] where
  subs := by
    simp only [List.map_cons, List.map_nil, subI, Item.rec', subP, hsub]
    exact List.Sublist.refl _
  outl := by rw [outIL, outIL, outlines, outlines, hout]
  text := by rw [readIL, readIL, readsL, readsL, htext]
  empty e := by cases e
  uni v := by
    obtain ⟨h1, h2⟩ := huni v
    refine ⟨fun i hi _ => ?_, ?_⟩
    · rw [List.mem_singleton] at hi
      subst hi
      exact hasis
    · rw [UniL, Uni]
      refine ⟨⟨h1, uniL_append h2 ?_⟩, trivial⟩
      unfold Parser.kept
      split
      · exact (S.uni v.node.2).2
      · trivial
  warn := by
    rw [walks, walk, walks, List.append_nil, warnings, if_neg hk.2.2, if_neg hk.2.1, ← S.warn]
    show warningsOf (errorEvents kind c ++ o.events) = _
    rw [warningsOf_append]
    unfold errorEvents
    split <;> rfl
  bib := by
    rw [walks, walk, walks, List.append_nil, bibAfter, decide_eq_false hk.2.2, Bool.or_false, ← S.bib]
    show hasBib b (errorEvents kind c ++ o.events) = _
    rw [hasBib_append]
    unfold errorEvents
    split <;> simp [hasBib]
  bibs L M h e := by
    rw [walks, walk, walks, List.append_nil, List.foldl_cons, addPart, if_neg hk.2.2, if_neg hk.2.1]
    show Bibs ((errorEvents kind c ++ o.events).foldl Event.apply L) _
    rw [List.foldl_append]
    have : (errorEvents kind c).foldl Event.apply L = L := by
      unfold errorEvents
      split <;> rfl
    rw [this]
    exact S.bibs L M h e

end Parser
end RSM
