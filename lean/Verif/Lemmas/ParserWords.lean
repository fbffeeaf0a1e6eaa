import Verif.Lemmas.NormWords
import Verif.Lemmas.NormVerb
import Verif.Lemmas.ParserFinal
import Verif.Spec.Prose

/-! The words of what the parser makes of a tree (helper lemmas). -/

namespace RSM
namespace Parser
open PyM Nodes
open Normalize (Piece Flow Before words glyphs LTree fL fT oT G AllSp vT vL wT wL vOwn wrongOwn NoV)

/-! ## The tree with blanks -/

/-- The node of a sibling, with blanks. -/
def sp (x : Sib) : Cst := x.2.1.spaced x.1 x.2.2

theorem spacedL_eq : ∀ (prev : Option Cst) (cs : List Cst), Cst.spacedL prev cs = (neighbours prev cs).map sp
  | _, [] => by rw [Cst.spacedL]; rfl
  | prev, c :: cs => by rw [Cst.spacedL, spacedL_eq (some c) cs]; rfl

section
variable (x : Sib)

theorem sp_type : (sp x).type = x.2.1.type := by
  obtain ⟨p, ⟨i, t, n, f, s, a, b, cs⟩, q⟩ := x; unfold sp; rw [Cst.spaced]; rfl
theorem sp_named : (sp x).named = x.2.1.named := by
  obtain ⟨p, ⟨i, t, n, f, s, a, b, cs⟩, q⟩ := x; unfold sp; rw [Cst.spaced]; rfl
theorem sp_id : (sp x).id = x.2.1.id := by
  obtain ⟨p, ⟨i, t, n, f, s, a, b, cs⟩, q⟩ := x; unfold sp; rw [Cst.spaced]; rfl
theorem sp_field : (sp x).field = x.2.1.field := by
  obtain ⟨p, ⟨i, t, n, f, s, a, b, cs⟩, q⟩ := x; unfold sp; rw [Cst.spaced]; rfl
theorem sp_start : (sp x).start = x.2.1.start := by
  obtain ⟨p, ⟨i, t, n, f, s, a, b, cs⟩, q⟩ := x; unfold sp; rw [Cst.spaced]; rfl
theorem sp_stop : (sp x).stop = x.2.1.stop := by
  obtain ⟨p, ⟨i, t, n, f, s, a, b, cs⟩, q⟩ := x; unfold sp; rw [Cst.spaced]; rfl
theorem sp_children : (sp x).children = (neighbours none x.2.1.children).map sp := by
  obtain ⟨p, ⟨i, t, n, f, s, a, b, cs⟩, q⟩ := x; unfold sp; rw [Cst.spaced, spacedL_eq]; rfl
theorem sp_text : (sp x).text = padding "text".toList x.2.1 x.1 x.2.2 x.2.1.text := by
  obtain ⟨p, ⟨i, t, n, f, s, a, b, cs⟩, q⟩ := x
  unfold sp padding padText
  rw [Cst.spaced, if_pos rfl]
  cases p <;> cases q <;> rfl
end

theorem map_filter_sp (q : Cst → Bool) (hq : ∀ x, q (sp x) = q x.2.1) (l : List Sib) :
    (l.map sp).filter q = (l.filter fun x => q x.2.1).map sp := by
  rw [List.filter_map]
  congr 1
  exact List.filter_congr fun x _ => hq x

theorem sp_namedChildren (x : Sib) : (sp x).namedChildren = (sibs x.2.1 fun _ => true).map sp := by
  unfold Cst.namedChildren sibs
  rw [sp_children, map_filter_sp _ sp_named]
  simp

theorem sibs_named (c : Cst) : (sibs c fun _ => true).map (fun x => x.2.1) = c.namedChildren := by
  rw [sibs_map]
  unfold Cst.namedChildren
  simp

theorem sp_named_map {β : Type} (g : Cst → β) (hg : ∀ x, g (sp x) = g x.2.1) (x : Sib) :
    (sp x).namedChildren.map g = x.2.1.namedChildren.map g := by
  rw [sp_namedChildren, ← sibs_named, List.map_map, List.map_map]
  exact List.map_congr_left fun y _ => hg y

theorem neighbours_map : ∀ (prev : Option Cst) (cs : List Cst), (neighbours prev cs).map (fun x => x.2.1) = cs
  | _, [] => rfl
  | prev, c :: cs => by rw [neighbours, List.map_cons, neighbours_map]

theorem sp_children_map {β : Type} (g : Cst → β) (hg : ∀ x, g (sp x) = g x.2.1) (x : Sib) :
    (sp x).children.map g = x.2.1.children.map g := by
  rw [sp_children, List.map_map]
  conv_rhs => rw [← neighbours_map none x.2.1.children, List.map_map]
  exact List.map_congr_left fun y _ => hg y

theorem find_map_sp {β : Type} (g : Cst → β) (hg : ∀ x, g (sp x) = g x.2.1) (q : Cst → Bool)
    (hq : ∀ x, q (sp x) = q x.2.1) : ∀ l : List Sib,
    ((l.map sp).find? q).map g = ((l.map fun x => x.2.1).find? q).map g
  | [] => rfl
  | x :: l => by
    rw [List.map_cons, List.map_cons, List.find?_cons, List.find?_cons, hq]
    cases q x.2.1 with
    | true => simp only [Option.map_some]; rw [hg]
    | false => exact find_map_sp g hg q hq l

theorem sp_byField {β : Type} (g : Cst → β) (hg : ∀ x, g (sp x) = g x.2.1) (x : Sib) (f : Str) :
    ((sp x).byField f).map g = (x.2.1.byField f).map g := by
  unfold Cst.byField
  rw [sp_children, find_map_sp g hg _ (fun y => by rw [sp_field]), neighbours_map]

theorem sp_firstType (x : Sib) : firstType (sp x) = firstType x.2.1 := by
  unfold firstType
  rw [← List.head?_map, ← List.head?_map, sp_named_map Cst.type sp_type]

theorem sp_kindOf (x : Sib) : kindOf (sp x) = kindOf x.2.1 := by
  unfold kindOf
  rw [sp_type, sp_firstType, sp_byField Cst.type sp_type]

theorem sp_isHeading (x : Sib) : IsHeading (sp x) ↔ IsHeading x.2.1 := by
  unfold IsHeading
  rw [sp_type]

theorem map_toList {α β : Type} (g : α → β) (o : Option α) : o.toList.map g = (o.map g).toList := by
  cases o <;> rfl

theorem sp_hidden (kind : Str) (x : Sib) : hidden kind (sp x) = hidden kind x.2.1 := by
  unfold hidden
  simp only [map_toList, sp_byField Cst.id sp_id, sp_type, List.map_take, List.map_drop,
    sp_named_map Cst.id sp_id, sp_isHeading]

theorem sp_partOf (kind : Str) (x y : Sib) : partOf kind (sp x) (sp y) = partOf kind x.2.1 y.2.1 := by
  unfold partOf
  rw [sp_named, sp_type, sp_id, sp_hidden]

theorem flatMap_sp {kind : Str} {x : Sib} {skip : List Nat} (h : skip = hidden kind x.2.1) :
    ((pushSibs x.2.1 skip).flatMap fun y => parts (sp y)) = partsWhere (partOf kind (sp x)) (sp x).children := by
  rw [partsWhere_eq, sp_children, List.filter_map, List.flatMap_map]
  unfold pushSibs sibs
  congr 1
  refine List.filter_congr fun y _ => ?_
  simp only [Function.comp]
  rw [sp_partOf]
  unfold partOf
  rw [shownTypes_eq, h, Bool.and_assoc]

theorem flatMap_take_sp (x : Sib) :
    (((sibs x.2.1 fun _ => true).take 1).flatMap fun y => parts (sp y)) = partsFirst (sp x).children := by
  rw [partsFirst_eq, show (sp x).children.filter Cst.named = (sp x).namedChildren from rfl, sp_namedChildren,
    ← List.map_take, List.flatMap_map]

theorem parts_sp (x : Sib) : parts (sp x) =
    if x.2.1.type = "comment".toList then []
    else if x.2.1.type = "specialblock".toList ∧
        x.2.1.children.head?.map Cst.type = some "bibliography".toList then
      [.node "bibliography".toList (sp x) []]
    else if x.2.1.type = "bibtex".toList then
      [.node x.2.1.type (sp x) (partsWhere (fun y => y.named && y.type = "bibitem".toList) (sp x).children)]
    else if x.2.1.type = "bibitem".toList then [.node x.2.1.type (sp x) []]
    else if x.2.1.type = "td".toList ∨
        (x.2.1.type = "specialblock".toList ∨ x.2.1.type = "specialinline".toList) ∧
          firstType x.2.1 = "table".toList then
      partsFirst (sp x).children
    else if x.2.1.type = "paragraph".toList ∧
        (firstType x.2.1 = "item".toList ∨ firstType x.2.1 = "caption".toList) then
      partsInstead (sp x).children
    else [.node (kindOf x.2.1) (sp x) (partsWhere (partOf (kindOf x.2.1) (sp x)) (sp x).children)] := by
  rw [parts_eq, sp_type, sp_firstType, sp_kindOf, ← List.head?_map, sp_children_map Cst.type sp_type, List.head?_map]

theorem sp_isClaim (kind : Str) (x : Sib) : IsClaim kind (sp x) ↔ IsClaim kind x.2.1 := by
  have hfil : ∀ (l : List Sib) (q q' : Cst → Bool), (∀ y, q (sp y) = q' y.2.1) →
      ((l.map sp).filter q).isEmpty = ((l.map fun y => y.2.1).filter q').isEmpty := by
    intro l q q' h
    rw [List.filter_map, List.filter_map, List.isEmpty_map, List.isEmpty_map]
    congr 1
    exact List.filter_congr fun y _ => h y
  have hkey : ∀ y : Sib, pairKey (sp y) = pairKey y.2.1 := by
    intro y
    unfold pairKey
    have : (fun k : Cst => k.namedChildren.head?.map Cst.type) = fun k => (k.namedChildren.map Cst.type).head? := by
      funext k; rw [List.head?_map]
    rw [this]
    have h2 : ∀ o : Option Cst, (o.bind fun k => (k.namedChildren.map Cst.type).head?) =
        (o.map fun k => (k.namedChildren.map Cst.type).head?).join := by intro o; cases o <;> rfl
    rw [h2, h2, ← List.head?_map, ← List.head?_map,
      sp_named_map (fun k => (k.namedChildren.map Cst.type).head?) fun z => by rw [sp_named_map Cst.type sp_type]]
  have hflag : ∀ (c : Cst) (k : Str), metaFlag c k = !((c.byField "meta".toList).map fun m =>
      (m.namedChildren.filter fun p => "pair".toList.isSuffixOf p.type && decide (pairKey p = some k)).isEmpty).getD true := by
    intro c k
    unfold metaFlag lastPair
    cases c.byField "meta".toList with
    | none => rfl
    | some m =>
      simp only [Option.toList_some, List.flatMap_cons, List.flatMap_nil, List.append_nil, Option.map_some,
        Option.getD_some]
      cases (m.namedChildren.filter fun p => "pair".toList.isSuffixOf p.type && decide (pairKey p = some k)) with
      | nil => rfl
      | cons a l => rw [List.getLast?_cons]; rfl
  unfold IsClaim
  rw [hflag, hflag, sp_byField]
  intro y
  rw [sp_namedChildren, ← sibs_named]
  exact hfil _ _ _ fun z => by rw [sp_type, hkey]

theorem sp_errorText (x : Sib) : errorText (sp x) = errorText x.2.1 := by
  unfold errorText
  rw [sp_start, sp_stop]

theorem sp_verbatim (x : Sib) : ∃ y : Sib, (x.2.1.namedChildren.getLast? = some y.2.1 ∧
    verbatimText (sp x) = (sp y).text) ∨ (x.2.1.namedChildren = [] ∧ verbatimText (sp x) = []) := by
  unfold verbatimText
  rw [sp_namedChildren, ← sibs_named]
  cases h : (sibs x.2.1 fun _ => true).getLast? with
  | none =>
    rw [List.getLast?_eq_none_iff] at h
    rw [h]
    exact ⟨x, .inr ⟨rfl, rfl⟩⟩
  | some y =>
    refine ⟨y, .inl ?_⟩
    rw [List.getLast?_map, List.getLast?_map, h]
    exact ⟨rfl, rfl⟩

theorem padding_words (x : Sib) (v : Bool) :
    words (G v (sp x).text) = words (G v x.2.1.text) := by
  rw [sp_text]
  unfold padding padText
  rw [if_pos rfl]
  have hb : ∀ b : Bool, AllSp (if b then [' '] else []) := by
    intro b; cases b
    · intro c h; cases h
    · exact Normalize.allSp_blank
  simp only
  rw [Normalize.G_trail _ _ _ (hb _), Normalize.G_lead _ _ _ (hb _), Normalize.words_trail _ (hb _),
    Normalize.words_lead _ (hb _)]

/-! ## Items as trees -/

mutual
/-- An item as a tree. -/
def toL : Item → LTree
  | .node n ks => .node 0 n (toLL ks)
def toLL : List Item → List LTree
  | [] => []
  | i :: is => toL i :: toLL is
end

theorem toLL_append : ∀ a b : List Item, toLL (a ++ b) = toLL a ++ toLL b
  | [], b => by rw [toLL]; rfl
  | i :: a, b => by rw [List.cons_append, toLL, toLL, toLL_append a b]; rfl

/-- What precedes what comes after the trees. -/
def endL (b : Before) : List LTree → Before
  | [] => b
  | t :: ts => endL (b.step t.attrs.cls t.attrs.asis) ts

theorem fL_append : ∀ (b : Before) (x y : List LTree), fL b (x ++ y) = fL b x ++ fL (endL b x) y
  | b, [], y => by rw [fL, endL]; rfl
  | b, t :: x, y => by
    rw [List.cons_append, Normalize.fL_cons, Normalize.fL_cons, fL_append _ x y, endL]
    simp only [List.append_assoc]

theorem endL_append : ∀ (b : Before) (x y : List LTree), endL b (x ++ y) = endL (endL b x) y
  | b, [], y => by rw [endL]; rfl
  | b, t :: x, y => by rw [List.cons_append, endL, endL, endL_append _ x y]

/-- What precedes what comes after the parts. -/
def endP (b : Before) : List Part → Before
  | [] => b
  | .node kind c _ :: ps =>
    if kind = "bibliography".toList ∨ kind = "bibtex".toList then endP b ps
    else endP (b.step (if IsClaim kind c then .ClaimBlock else classOf kind) false) ps

theorem endP_append : ∀ (b : Before) (x y : List Part), endP b (x ++ y) = endP (endP b x) y
  | b, [], y => by rw [endP]; rfl
  | b, .node kind c _ :: x, y => by
    rw [List.cons_append, endP, endP]
    split <;> rw [endP_append _ x y]

theorem flows_append : ∀ (b : Before) (x y : List Part), flows b (x ++ y) = flows b x ++ flows (endP b x) y
  | b, [], y => by rw [flows, endP]; rfl
  | b, .node kind c _ :: x, y => by
    rw [List.cons_append, flows, flows, endP]
    split
    · rw [flows_append _ x y]
    · simp only
      rw [flows_append _ x y]
      simp only [List.append_assoc]

theorem step_verbatim {b : Before} (h : b.verbatim = false) (cls : Cls) : (b.step cls false).verbatim = false := by
  unfold Before.step
  split
  · cases b with
    | text v => exact h
    | inline => rfl
    | other => rfl
  · split <;> rfl

/-- The items show what the parts, with blanks, are to show. -/
structure Flows (o : Out) (ps0 ps : List Part) : Prop where
  len : ps.length = ps0.length
  flow : ∀ b : Before, b.verbatim = false → fL b (toLL o.items) = flows b ps
  last : ∀ b : Before, b.verbatim = false → endL b (toLL o.items) = endP b ps
  verb : ∀ b : Before, b.verbatim = false → (endP b ps).verbatim = false
  asis : ∀ i ∈ o.items, i.rec'.asis = false
  vs : vL strip (toLL o.items) = verbsL ps0
  lone : wL (toLL o.items) = []

theorem toLL_noV : ∀ {is : List Item}, (∀ i ∈ is, i.rec'.asis = false) → NoV (toLL is)
  | [], _ => by rw [toLL]; intro k hk; cases hk
  | .node n ks :: is, h => by
    rw [toLL, NoV.cons]
    refine ⟨?_, toLL_noV fun i hi => h i (by simp [hi])⟩
    have := h (.node n ks) (by simp)
    rw [toL]
    exact Bool.and_eq_false_iff.mpr (.inr this)

theorem vL_append (g) (a b : List LTree) : vL g (a ++ b) = vL g a ++ vL g b := by
  rw [Normalize.vL_eq, Normalize.vL_eq, Normalize.vL_eq, List.flatMap_append]

theorem wL_append (a b : List LTree) : wL (a ++ b) = wL a ++ wL b := by
  rw [Normalize.wL_eq, Normalize.wL_eq, Normalize.wL_eq, List.flatMap_append]

theorem verbsL_append : ∀ a b : List Part, verbsL (a ++ b) = verbsL a ++ verbsL b
  | [], b => by rw [verbsL]; rfl
  | p :: a, b => by rw [List.cons_append, verbsL, verbsL, verbsL_append a b, List.append_assoc]

theorem wrongOwn_noV {c : Cls} {ks : List LTree} (h : NoV ks) : wrongOwn c ks = [] := by
  unfold wrongOwn
  rw [if_neg]
  intro e
  rw [Bool.and_eq_true] at e
  obtain ⟨k, hk, hv⟩ := List.any_eq_true.mp e.1
  rw [h k hk] at hv
  cases hv

theorem wrongOwn_one {c : Cls} {k : LTree} (h : c.isSub .Construct = false) : wrongOwn c [k] = [] := by
  unfold wrongOwn
  rw [h]
  simp

theorem vOwn_yes {g} {c : Cls} {k : LTree} (h : k.isV = true) :
    vOwn g c [k] = [⟨c, k.attrs.cls, k.attrs.lang, g k.attrs.text⟩] := by
  show (if k.isV then _ else _) = _
  rw [if_pos h]

theorem vOwn_no {g} {c : Cls} {k : LTree} (h : k.isV = false) : vOwn g c [k] = [] := by
  show (if k.isV then _ else _) = _
  rw [h, if_neg Bool.false_ne_true]

theorem Flows.nil : Flows {} [] [] where
  len := rfl
  flow b _ := by rw [toLL, fL, flows]
  last b _ := by rw [toLL, endL, endP]
  verb b h := by rw [endP]; exact h
  asis i hi := by cases hi
  vs := by rw [toLL, vL, verbsL]
  lone := by rw [toLL, wL]

theorem Flows.append {o o' : Out} {qs qs' ps ps' : List Part} (h : Flows o qs ps) (h' : Flows o' qs' ps')
    (es : List Event) : Flows ⟨o.items ++ o'.items, es⟩ (qs ++ qs') (ps ++ ps') where
  len := by rw [List.length_append, List.length_append, h.len, h'.len]
  flow b hb := by
    have h1 := h.verb b hb
    show fL b (toLL (o.items ++ o'.items)) = _
    rw [toLL_append, fL_append, flows_append, h.flow b hb, h.last b hb, h'.flow _ h1]
  last b hb := by
    have h1 := h.verb b hb
    show endL b (toLL (o.items ++ o'.items)) = _
    rw [toLL_append, endL_append, endP_append, h.last b hb, h'.last _ h1]
  verb b hb := by rw [endP_append]; exact h'.verb _ (h.verb b hb)
  asis i hi := by
    rcases List.mem_append.mp hi with hi | hi
    · exact h.asis i hi
    · exact h'.asis i hi
  vs := by
    show vL strip (toLL (o.items ++ o'.items)) = _
    rw [toLL_append, vL_append, h.vs, h'.vs, verbsL_append]
  lone := by
    show wL (toLL (o.items ++ o'.items)) = _
    rw [toLL_append, wL_append, h.lone, h'.lone]
    rfl

theorem flows_evs {f : Cls → Bool → Sib → Except PyErr Out} {p : Cls} : ∀ {xs : List Sib} {b : Bool} {o : Out},
    (∀ x ∈ xs, ∀ b o, f p b x = .ok o → VerbatimAlone (parts x.2.1) → Flows o (parts x.2.1) (parts (sp x))) →
      evs f p b xs = .ok o → VerbatimAlone (xs.flatMap fun x => parts x.2.1) →
      Flows o (xs.flatMap fun x => parts x.2.1) (xs.flatMap fun x => parts (sp x))
  | [], b, o, _, h, _ => by cases h; exact .nil
  | x :: xs, b, o, hf, h, v => by
    rw [evs] at h
    obtain ⟨o1, h1, h⟩ := bind_ok h
    obtain ⟨o2, h2, h⟩ := bind_ok h
    cases h
    rw [List.flatMap_cons] at v
    rw [List.flatMap_cons, List.flatMap_cons]
    exact (hf x (by simp) _ _ h1 v.append.1).append (flows_evs (fun y hy => hf y (by simp [hy])) h2 v.append.2) _

/-- A node that is made. -/
theorem flows_made {kind : Str} {x : Sib} {top : NodeRec} {ks : List Item} {es : List Event}
    {ps : List Part} {q : Part} (hk : ¬ (kind = "bibliography".toList ∨ kind = "bibtex".toList)) (ha : top.asis = false)
    (hcls : top.cls = if IsClaim kind x.2.1 then .ClaimBlock else classOf kind)
    (hf : ∀ b : Before, b.verbatim = false → fT b (toL (.node top ks)) = flow (.node kind (sp x) ps))
    (hv : vT strip (toL (.node top ks)) = verbs q) (hw : wT (toL (.node top ks)) = []) :
    Flows ⟨[.node top ks], es⟩ [q] [.node kind (sp x) ps] where
  len := rfl
  flow b hb := by
    rw [flows, if_neg hk]
    simp only [sp_isClaim, flows, List.append_nil]
    rw [← hcls, ← hf _ (step_verbatim hb _)]
    show fL b (toLL [.node top ks]) = _
    rw [toLL, toLL, Normalize.fL_cons, fL, List.append_nil]
    rw [toL]
    show b.gap (b.step top.cls top.asis) ++ fT (b.step top.cls top.asis) _ = _
    rw [ha]
  last b hb := by
    rw [endP, if_neg hk, endP]
    simp only [sp_isClaim]
    rw [← hcls]
    show endL b (toLL [.node top ks]) = _
    rw [toLL, toLL, endL, endL, toL]
    show b.step top.cls top.asis = _
    rw [ha]
  verb b hb := by
    rw [endP, if_neg hk, endP]
    exact step_verbatim hb _
  asis i hi := by
    rw [List.mem_singleton] at hi
    subst hi
    exact ha
  vs := by
    show vL strip (toLL [.node top ks]) = _
    rw [toLL, toLL, vL, vL, hv, verbsL, verbsL]
  lone := by
    show wL (toLL [.node top ks]) = _
    rw [toLL, toLL, wL, wL, hw]
    rfl

theorem flows_skip {kind : Str} {c : Cst} {ps : List Part} {es : List Event} {q : Part} (hq : verbs q = [])
    (hk : kind = "bibliography".toList ∨ kind = "bibtex".toList) : Flows ⟨[], es⟩ [q] [.node kind c ps] where
  len := rfl
  flow b _ := by rw [flows, if_pos hk, flows, toLL, fL]
  last b _ := by rw [endP, if_pos hk, endP, toLL, endL]
  verb b hb := by rw [endP, if_pos hk, endP]; exact hb
  asis i hi := by cases hi
  vs := by rw [toLL, vL, verbsL, verbsL, hq]; rfl
  lone := by rw [toLL, wL]

/-! ## Single nodes -/

theorem verbs_other {kind : Str} {c : Cst} {ps : List Part} (h : verbatimKinds.contains kind = false) :
    verbs (.node kind c ps) = if (classOf kind).isSub .NodeWithChildren then verbsL ps else [] := by
  rw [verbs, h, if_neg Bool.false_ne_true]

/-- A node without verbatim content of its own. -/
theorem vw_kept {o : Out} {qs ps : List Part} {n : NodeRec} {kind : Str} {c : Cst} (S : Flows o qs ps)
    (hT : n.cls.isSub .Text = true → n.cls.isSub .NodeWithChildren = false) (hc : classOf kind = n.cls)
    (hv : verbatimKinds.contains kind = false) :
    vT strip (toL (.node n (kept n.cls o.items))) = verbs (.node kind c qs) ∧
      wT (toL (.node n (kept n.cls o.items))) = [] := by
  rw [verbs_other hv, hc, toL, vT, wT]
  by_cases h : n.cls.isSub .Text = true
  · rw [if_pos h, if_pos h, hT h, if_neg Bool.false_ne_true]
    exact ⟨rfl, rfl⟩
  · rw [if_neg h, if_neg h]
    unfold Parser.kept
    split
    · have := toLL_noV S.asis
      rw [this.vOwn, wrongOwn_noV this, S.vs, S.lone]
      exact ⟨rfl, rfl⟩
    · rw [toLL, vL, wL]
      exact ⟨rfl, rfl⟩

theorem setTarget_lang {type : Str} {c : Cst} {n m : NodeRec} {ids : List Nat} (h : setTarget type c n = .ok (m, ids)) :
    m.lang = n.lang := by
  unfold setTarget at h
  split at h
  · obtain ⟨t, _, h⟩ := bind_ok h
    simp only at h
    split at h <;> (cases h; rfl)
  · cases h; rfl

theorem setCite_lang {type : Str} {c : Cst} {n m : NodeRec} {ids : List Nat} (h : setCite type c n = .ok (m, ids)) :
    m.lang = n.lang := by
  unfold setCite at h
  split at h
  · obtain ⟨t, _, h⟩ := bind_ok h
    cases h; rfl
  · cases h; rfl

theorem setPrev_lang (type : Str) (n : NodeRec) : (setPrev type n).lang = n.lang := by
  unfold setPrev
  repeat' split
  all_goals rfl

theorem setKind_lang (type : Str) (c : Cst) (n : NodeRec) : (setKind type c n).lang = n.lang := by
  unfold setKind
  repeat' split
  all_goals rfl

/-- The verbatim content of a node. -/
theorem nodeRecord_verbatim {kind : Str} {c : Cst} {p q : Option Cst} {n y : NodeRec} {ids : List Nat}
    (h : nodeRecord kind c p q = .ok (n, some y, ids)) (hc : ¬ IsHeading c) :
    (⟨classOf kind, y.cls, y.lang, strip y.text⟩ : Normalize.Verbatim) = verbatimIn kind c := by
  have hl : n.lang = (metaText c "lang".toList).getD [] := by
    have h1 := (nodeRecord_look h hc).1
    have hk := (nodeRecord_ok h).2.1
    have h2 : (lookR (Normalize.unescAttrs n)).lang = (lookOf kind c).lang := by rw [h1]
    have h3 : (lookR (Normalize.unescAttrs n)).lang = n.lang := rfl
    rw [← h3, h2]
    unfold lookOf
    rw [if_neg (kind_made hk).2.1]
  unfold nodeRecord at h
  obtain ⟨n1, h1, h⟩ := bind_ok h
  obtain ⟨n2, h2, h⟩ := bind_ok h
  obtain ⟨a', h3, h⟩ := bind_ok h
  obtain ⟨⟨n4, s1⟩, h4, h⟩ := bind_ok h
  obtain ⟨⟨n5, s2⟩, h5, h⟩ := bind_ok h
  cases h
  rw [padText_eq] at hl
  have e : n2.lang = (metaText c "lang".toList).getD [] := by
    rw [← hl]
    show _ = n5.lang
    rw [setCite_lang h5, setPrev_lang, setTarget_lang h4, setKind_lang]
  unfold verbatimIn verbatimText
  unfold asisRecord at h3
  split at h3
  · obtain ⟨x, hx, h3⟩ := bind_ok h3
    have hlast : c.namedChildren.getLast? = some x := by
      unfold lastItem at hx
      split at hx
      · rename_i e; cases hx; exact e
      · cases hx
    rw [hlast]
    split at h3
    · cases h3
    split at h3
    · rename_i hcode
      cases h3
      simp only [hcode, if_true]
      rw [← e]
      rfl
    · rename_i hcode
      cases h3
      simp only [hcode, if_false]
      rfl
  · cases h3

theorem flows_heading {x : Sib} {o : Out} {n : NodeRec} {es : List Event} (hc : IsHeading x.2.1)
    (hn : headingRecord x.2.1 = .ok n) {qs ps : List Part} (S : Flows o qs ps) :
    Flows ⟨[.node n (kept n.cls o.items)], es⟩ [.node (kindOf x.2.1) x.2.1 qs] [.node (kindOf x.2.1) (sp x) ps] := by
  obtain ⟨k1, _, t1, t2, t3, _⟩ := heading_facts hc
  have hl := (headingRecord_ok hn).2
  obtain ⟨c1, c2, c3, c4, c5⟩ := lookup_class hl
  obtain ⟨p1, p2, p3, _⟩ := lookup_plain hl
  have hT : n.cls.isSub .Text = false := by rw [Bool.eq_false_iff]; exact fun h => t1 (p3.mp h)
  have hcl : ∀ c, ¬ IsClaim x.2.1.type c := fun c h => t2 h.1
  rw [k1]
  have hvw := vw_kept (c := x.2.1) S (fun h => by rw [hT] at h; cases h) c1 (by rw [← t3, verbatimKinds_eq])
  refine flows_made (by rintro (h | h); exacts [c5 h, c4 h]) (headingRecord_asis hn) ?_ (fun b _ => ?_) hvw.1 hvw.2
  · rw [if_neg (hcl _), c1]
  · rw [toL, fT, hT, if_neg Bool.false_ne_true, if_neg p1, Parser.flow, if_neg t1, if_neg c2, if_neg (hcl _),
      verbatimKinds_eq, t3, if_neg Bool.false_ne_true, c1]
    unfold Parser.kept
    split
    · rw [S.flow .other rfl]
    · rw [toLL, fL]

theorem asis_isV {kind : Str} {c : Cst} {m y : NodeRec} (h : asisRecord kind c m = .ok (some y)) :
    (LTree.node 0 y []).isV = true := by
  obtain ⟨_, _, h2, h3, _⟩ := asisRecord_ok h
  unfold Normalize.LTree.isV
  rw [Bool.and_eq_true]
  exact ⟨(asis_leftOut h2).2, h3⟩

/-- A node that is not a claim. -/
theorem node_vw {kind : Str} {c : Cst} {n : NodeRec} {a : Option NodeRec} {p q : Option Cst}
    {ids : List Nat} {o : Out} {ps ps' : List Part} {b : Bool} (hc : ¬ IsHeading c)
    (hn : nodeRecord kind c p q = .ok (n, a, ids)) (S : Says b o ps) (F : Flows o ps ps')
    (v : VerbatimAlone [.node kind c ps]) :
    vT strip (toL (.node n ((a.toList.map fun a => .node a []) ++ kept n.cls o.items))) = verbs (.node kind c ps) ∧
      wT (toL (.node n ((a.toList.map fun a => .node a []) ++ kept n.cls o.items))) = [] := by
  obtain ⟨fr, hl, has, htx, ⟨m, ha⟩⟩ := nodeRecord_ok hn
  obtain ⟨c1, c3, c4, c5⟩ := kind_made hl
  cases a with
  | none =>
    refine vw_kept F (fun h => ?_) c1 (asisRecord_none ha)
    revert h
    cases n.cls <;> decide
  | some y =>
    have h1 : verbatimKinds.contains kind = true := (asisRecord_ok ha).1
    have hyV := asis_isV ha
    have hyT : y.cls.isSub .Text = true := (Normalize.isV_text hyV).1
    have hT : n.cls.isSub .Text = false ∧ n.cls.isSub .Construct = false := by
      have : ∀ k ∈ verbatimKinds, (classOf k).isSub .Text = false ∧ (classOf k).isSub .Construct = false := by decide +kernel
      rw [← c1]
      exact this kind (by simpa using h1)
    have hi : o.items = [] := S.empty (v.node.1 h1)
    have e : (Option.some y).toList.map (fun a => Item.node a []) ++ kept n.cls o.items = [.node y []] := by
      rw [hi]; unfold Parser.kept; split <;> rfl
    rw [e, verbs, if_pos h1, ← nodeRecord_verbatim hn hc, c1, toL, vT, wT, hT.1, if_neg Bool.false_ne_true, if_neg Bool.false_ne_true,
      toLL, toLL, toL, toLL, vL, vL, wL, wL, wrongOwn_one hT.2, vT, wT, if_pos hyT, if_pos hyT,
      vOwn_yes hyV]
    exact ⟨rfl, rfl⟩

theorem flows_node {kind : Str} {x : Sib} {n : NodeRec} {a : Option NodeRec} {p q : Option Cst} {es : List Event}
    {ids : List Nat} {o : Out} {ps ps' : List Part} {b : Bool} (hc : ¬ IsHeading x.2.1)
    (hpq : kind = "text".toList → p = x.1 ∧ q = x.2.2)
    (hn : nodeRecord kind x.2.1 p q = .ok (n, a, ids)) (S : Says b o ps) (F : Flows o ps ps')
    (v : VerbatimAlone [.node kind x.2.1 ps]) :
    Flows ⟨[.node (topRec kind x.2.1 n) (firstItems kind n a ++ kept (topRec kind x.2.1 n).cls o.items)], es⟩
      [.node kind x.2.1 ps] [.node kind (sp x) ps'] := by
  obtain ⟨fr, hl, has, htx, ⟨m, ha⟩⟩ := nodeRecord_ok hn
  obtain ⟨hlook, hclaim, -⟩ := nodeRecord_look hn hc
  obtain ⟨c1, c3, c4, c5⟩ := kind_made hl
  have hpl := made_plain hl
  have hbib : ¬ (kind = "bibliography".toList ∨ kind = "bibtex".toList) := by tauto
  -- the verbatim content
  have hav : (a = none ∧ verbatimKinds.contains kind = false) ∨ ∃ y, a = some y ∧ verbatimKinds.contains kind = true ∧
      words (fL .other (toLL [.node y []])) = words (glyphs (verbatimText (sp x))) := by
    cases a with
    | none => exact .inl ⟨rfl, asisRecord_none ha⟩
    | some y =>
      obtain ⟨h1, _, h2, h3, z, h4, h5⟩ := asisRecord_ok ha
      refine .inr ⟨y, rfl, h1, ?_⟩
      have ht := (asis_leftOut h2).2
      have hs : Before.other.step y.cls y.asis = .text true := by
        unfold Before.step
        rw [if_pos ht, h3]
      rw [toLL, toLL, Normalize.fL_cons, fL, List.append_nil, Normalize.gap_other, List.nil_append, toL]
      show words (fT (Before.other.step y.cls y.asis) _) = _
      rw [hs, fT, if_pos ht, h5]
      obtain ⟨w, ⟨hw1, hw2⟩ | ⟨hw1, _⟩⟩ := sp_verbatim x
      · rw [h4] at hw1
        cases hw1
        rw [hw2]
        exact (padding_words w true).symm
      · rw [hw1] at h4
        cases h4
  by_cases hcl : IsClaim kind x.2.1
  · -- a claim
    have hcond : kind = "mathblock".toList ∧ n.isclaim = true := ⟨hcl.1, hclaim.trans hcl.2⟩
    have hv : verbatimKinds.contains kind = true := by rw [hcl.1]; decide
    obtain ⟨y, rfl, _, hr⟩ := hav.resolve_left (by rintro ⟨_, h⟩; rw [hv] at h; cases h)
    have e1 : topRec kind x.2.1 n = claimRec x.2.1 := by unfold topRec; rw [if_pos hcond]
    have e2 : firstItems kind n (some y) = [.node n [.node y []]] := by
      unfold firstItems; rw [if_pos hcond]; rfl
    have e3 : Parser.kept (claimRec x.2.1).cls o.items = o.items := by
      unfold Parser.kept; exact if_pos (show Cls.isSub .ClaimBlock .NodeWithChildren = true by decide)
    have hcls : n.cls = .MathBlock := by rw [← c1, hcl.1]; decide
    have hi : o.items = [] := S.empty (v.node.1 hv)
    have hfl : flows .other ps' = [] := by
      rw [← F.flow .other rfl, hi, toLL, fL]
    rw [e1, e2, e3, hi]
    have hy := nodeRecord_verbatim hn hc
    have hyV : (LTree.node 0 y []).isV = true := asis_isV ha
    have hyT : y.cls.isSub .Text = true := (Normalize.isV_text hyV).1
    have hnV : (toL (.node n [.node y []])).isV = false := by
      rw [toL]; exact Bool.and_eq_false_iff.mpr (.inr has)
    refine flows_made hbib rfl (by rw [if_pos hcl]; rfl) (fun b _ => ?_) ?_ ?_
    rotate_left
    · rw [verbs, if_pos hv, ← hy, c1, hcls, List.append_nil, toL, vT, show (claimRec x.2.1).cls = .ClaimBlock from rfl,
        if_neg (by decide), toLL, toLL, vL, vL, vOwn_no hnV, toL, vT, hcls, if_neg (by decide), toLL, toLL, vL, vL, toL, toLL,
        vOwn_yes hyV, vT, if_pos hyT]
      rfl
    · rw [List.append_nil, toL, wT, show (claimRec x.2.1).cls = .ClaimBlock from rfl,
        if_neg (by decide), toLL, toLL, wL, wL, wrongOwn_noV (NoV.cons.mpr ⟨hnV, fun k hk => by cases hk⟩), toL, wT, hcls,
        if_neg (by decide), toLL, toLL, wL, wL, wrongOwn_one (by decide), toL, toLL, wT, if_pos hyT]
      rfl
    rw [toL, fT, show (claimRec x.2.1).cls = .ClaimBlock from rfl, if_neg (by decide), if_neg (by decide), Parser.flow,
      if_neg (by rw [hcl.1]; decide : ¬ kind = "text".toList), if_neg (by rw [hcl.1]; decide : ¬ kind = "ERROR".toList),
      if_pos ((sp_isClaim kind x).mpr hcl), hfl, List.append_nil, toLL, toLL, Normalize.fL_cons, fL, Normalize.gap_other,
      List.append_nil, List.nil_append, toL, fT, hcls, if_neg (by decide), if_neg (by decide), hr, c1, hcls]
  · have hcond : ¬ (kind = "mathblock".toList ∧ n.isclaim = true) := fun h => hcl ⟨h.1, hclaim ▸ h.2⟩
    have e1 : topRec kind x.2.1 n = n := by unfold topRec; rw [if_neg hcond]
    have e2 : firstItems kind n a = a.toList.map fun a => .node a [] := by unfold firstItems; rw [if_neg hcond]
    rw [e1, e2]
    refine flows_made hbib has (by rw [if_neg hcl, c1]) (fun b hb => ?_) (node_vw hc hn S F v).1 (node_vw hc hn S F v).2
    rw [toL, Parser.flow]
    by_cases h1 : kind = "text".toList
    · have hcls : n.cls = .Text := by rw [← c1, h1]; decide
      obtain ⟨rfl, rfl⟩ := hpq h1
      rw [fT, if_pos h1, if_pos (by rw [hcls]; decide), htx, hcls, if_pos rfl, h1, ← sp_text, hb]
    by_cases h2 : kind = "ERROR".toList
    · have hcls : n.cls = .Error := by rw [← c1, h2]; decide
      rw [fT, if_neg h1, if_pos h2, if_pos (by rw [hcls]; decide), htx, hcls, if_neg (by decide), if_pos rfl,
        padding_other h1, hb, errorText_eq, sp_errorText]
      congr 1
      exact Normalize.U_noBackslash (errorText_no x.2.1)
    have hlk : astTypes.lookup kind = some n.cls := hl.resolve_right fun h => h2 h.1
    obtain ⟨_, _, p3, _⟩ := lookup_plain hlk
    rw [fT, if_neg h1, if_neg h2, if_neg (fun h => h1 (p3.mp h) : ¬ n.cls.isSub .Text = true), if_neg hpl.1,
      if_neg (fun h => hcl ((sp_isClaim kind x).mp h))]
    rcases hav with ⟨rfl, h3⟩ | ⟨y, rfl, h3, hr⟩
    · rw [if_neg (by rw [h3]; simp), c1]
      simp only [Option.toList_none, List.map_nil, List.nil_append]
      unfold Parser.kept
      split
      · rw [F.flow .other rfl]
      · rw [toLL, fL]
    · have hi : o.items = [] := S.empty (v.node.1 h3)
      have hfl : flows (.text true) ps' = [] := by
        have h4 := F.len
        rw [v.node.1 h3] at h4
        rw [List.eq_nil_of_length_eq_zero h4, flows]
      rw [if_pos h3, hfl, List.append_nil, c1, hi, ← hr]
      unfold Parser.kept
      simp

theorem flows_bibitem {x : Sib} {n : NodeRec} {q : Part} (hq : verbs q = []) (hn : bibRecord x.2.1 = .ok n) :
    Flows ⟨[.node n []], []⟩ [q] [.node "bibitem".toList (sp x) []] := by
  have hcls := (bibRecord_ok hn).2
  refine flows_made (by decide) ?_ ?_ (fun b _ => ?_) ?_ ?_
  · unfold bibRecord at hn
    obtain ⟨_, _, hn⟩ := bind_ok hn
    obtain ⟨_, _, hn⟩ := bind_ok hn
    rw [(bibLoop_core hn).2.2.2.2.1]
    rfl
  · rw [if_neg (fun h => absurd h.1 (by decide)), hcls]; rfl
  · rw [toL, fT, hcls, if_neg (by decide), if_neg (by decide), Parser.flow, if_neg (by decide), if_neg (by decide),
      if_neg (fun h => absurd h.1 (by decide)), if_neg (by decide), flows, toLL, fL]
    split <;> rfl
  · rw [toL, vT, hq, toLL, vL]
    split <;> rfl
  · rw [toL, wT, toLL, wL]
    split <;> rfl

/-! ## The whole tree -/

theorem sib_first {x : Sib} {y : Cst} (h : item x.2.1.namedChildren 0 = .ok y) :
    ∃ z : Sib, z.2.1 = y ∧ (sp x).namedChildren[0]? = some (sp z) := by
  have h := item_ok h
  rw [← sibs_named, List.getElem?_map, Option.map_eq_some_iff] at h
  obtain ⟨z, hz, e⟩ := h
  refine ⟨z, e, ?_⟩
  rw [sp_namedChildren, List.getElem?_map, hz]
  rfl

theorem flows_ev : ∀ (k : Nat) (p : Cls) (b : Bool) (x : Sib) (o : Out), ev k p b x = .ok o →
    VerbatimAlone (parts x.2.1) → Flows o (parts x.2.1) (parts (sp x))
  | 0, _, _, _, _, h, _ => by rw [ev] at h; cases h
  | k + 1, p, b, (prev, c, next), o, h, v => by
    have h0 := h
    rw [ev] at h
    rw [parts_sp]
    simp only at v ⊢
    rw [parts_eq] at v ⊢
    by_cases h1 : c.type = "comment".toList
    · rw [if_pos h1] at h v ⊢
      rw [if_pos h1]
      cases h
      exact .nil
    rw [if_neg h1] at h v ⊢
    rw [if_neg h1]
    by_cases h2 : c.type = "specialblock".toList ∧ c.children.head?.map Cst.type = some "bibliography".toList
    · rw [if_pos h2] at h v ⊢
      rw [if_pos h2]
      cases h
      exact flows_skip (by rw [verbs]; rfl) (.inl rfl)
    rw [if_neg h2] at h v ⊢
    rw [if_neg h2]
    by_cases h3 : c.type = "bibtex".toList
    · rw [if_pos h3] at h v ⊢
      rw [if_pos h3]
      have e : o.items = [] := by
        split at h
        · obtain ⟨ns, hn, h⟩ := bind_ok h
          cases h
          rfl
        · cases h
          rfl
      obtain ⟨is, es⟩ := o
      cases e
      exact flows_skip (by rw [verbs, h3]; rfl) (.inr h3)
    rw [if_neg h3] at h v ⊢
    rw [if_neg h3]
    by_cases h4 : c.type = "bibitem".toList
    · rw [if_pos h4] at h v ⊢
      rw [if_pos h4]
      obtain ⟨n, hn, h⟩ := bind_ok h
      split at h
      · cases h
        rw [h4]
        exact flows_bibitem (by rw [verbs]; rfl) hn
      · cases h
    rw [if_neg h4] at h v ⊢
    rw [if_neg h4]
    have K : ∀ (q : Cls) (xs : List Sib) (b : Bool) (o : Out), evs (ev k) q b xs = .ok o →
        VerbatimAlone (xs.flatMap fun x => parts x.2.1) →
        Flows o (xs.flatMap fun x => parts x.2.1) (xs.flatMap fun x => parts (sp x)) :=
      fun q xs b o h => flows_evs (fun x _ b o h => flows_ev k q b x o h) h
    by_cases h5 : c.type = "source_file".toList ∨ endsWith c.type "section".toList = true
    · rw [if_pos h5] at h
      have hH : IsHeading c := (isHeading_iff c).mpr h5
      obtain ⟨k1, k2, t1, t2, t3, t4, t5, t6, t7, t8, t9, t10⟩ := heading_facts hH
      obtain ⟨n, hn, h⟩ := bind_ok h
      obtain ⟨_, _, h⟩ := bind_ok h
      obtain ⟨o', ho, h⟩ := bind_ok h
      cases h
      have g1 : ¬ (c.type = "td".toList ∨ (c.type = "specialblock".toList ∨ c.type = "specialinline".toList) ∧
          firstType c = "table".toList) := by
        rintro (e | ⟨e | e, _⟩)
        · exact t9 e
        · exact t5 e
        · exact t6 e
      have g2 : ¬ (c.type = "paragraph".toList ∧ (firstType c = "item".toList ∨ firstType c = "caption".toList)) :=
        fun e => t10 e.1
      rw [if_neg g1, if_neg g2] at v ⊢
      rw [if_neg g1, if_neg g2]
      have S := K _ _ _ _ ho
      rw [flatMap_push k2.symm, flatMap_sp (x := (prev, c, next)) k2.symm] at S
      rw [← k1] at S
      exact flows_heading (x := (prev, c, next)) hH hn (S v.node.2)
    rw [if_neg h5] at h
    have hH : ¬ IsHeading c := fun hh => h5 ((isHeading_iff c).mp hh)
    obtain ⟨r, hr, h⟩ := bind_ok h
    -- a node that is made
    have M : ∀ (type : Str) (z : Sib) (skip : List Nat) (hy : ¬ IsHeading z.2.1)
        (hpq : type = "text".toList → prev = z.1 ∧ next = z.2.2)
        (hs : skip = if z.2.1.type = "block".toList ∨ z.2.1.type = "inline".toList then
          (z.2.1.byField "tag".toList).toList.map Cst.id else [])
        (h : (do
          let (n, a, ids) ← nodeRecord type z.2.1 prev next
          allowed p (topRec type z.2.1 n).cls
          let o ← evs (ev k) (topRec type z.2.1 n).cls b (pushSibs z.2.1 (skip ++ ids))
          .ok ⟨[.node (topRec type z.2.1 n) (firstItems type n a ++ kept (topRec type z.2.1 n).cls o.items)],
            errorEvents type z.2.1 ++ o.events⟩ : Except PyErr Out) = .ok o)
        (v : VerbatimAlone [.node type z.2.1 (partsWhere (partOf type z.2.1) z.2.1.children)]),
        Flows o [.node type z.2.1 (partsWhere (partOf type z.2.1) z.2.1.children)]
          [.node type (sp z) (partsWhere (partOf type (sp z)) (sp z).children)] := by
      intro type z skip hy hpq hs h v
      obtain ⟨⟨n, a, ids⟩, hn, h⟩ := bind_ok h
      obtain ⟨_, _, h⟩ := bind_ok h
      obtain ⟨o', ho, h⟩ := bind_ok h
      cases h
      have S := K _ _ _ _ ho
      have S' := says_evs (fun x _ b o h => says_ev k _ b x o h) ho
      have hid : skip ++ ids = hidden type z.2.1 := by
        unfold hidden
        rw [if_neg hy, List.nil_append, hs, (nodeRecord_look hn hy).2.2, List.append_assoc]
      rw [flatMap_push hid, flatMap_sp hid] at S
      rw [flatMap_push hid] at S'
      exact flows_node hy hpq hn S' (S v.node.2) v
    unfold roleOf at hr
    by_cases r1 : c.type = "specialblock".toList ∨ c.type = "specialinline".toList
    · rw [if_pos r1] at hr
      obtain ⟨y, hy, hr⟩ := bind_ok hr
      have hf := firstType_eq hy
      have ntd : c.type ≠ "td".toList := by rcases r1 with e | e <;> rw [e] <;> decide
      have npar : c.type ≠ "paragraph".toList := by rcases r1 with e | e <;> rw [e] <;> decide
      have nbl : ¬ (c.type = "block".toList ∨ c.type = "inline".toList) := by
        rcases r1 with e | e <;> rw [e] <;> decide
      by_cases r2 : y.type = "table".toList
      · rw [if_pos r2] at hr
        cases hr
        have g : c.type = "td".toList ∨ (c.type = "specialblock".toList ∨ c.type = "specialinline".toList) ∧
          firstType c = "table".toList := .inr ⟨r1, hf.trans r2⟩
        rw [if_pos g] at v ⊢
        rw [if_pos g]
        rw [← flatMap_take] at v ⊢
        have S := K _ _ _ _ h v
        rw [flatMap_take_sp (prev, c, next)] at S
        exact S
      · rw [if_neg r2] at hr
        cases hr
        have g1 : ¬ (c.type = "td".toList ∨ (c.type = "specialblock".toList ∨ c.type = "specialinline".toList) ∧
            firstType c = "table".toList) := by
          rintro (e | e)
          · exact ntd e
          · exact r2 (hf.symm.trans e.2)
        have g2 : ¬ (c.type = "paragraph".toList ∧
            (firstType c = "item".toList ∨ firstType c = "caption".toList)) := fun e => npar e.1
        rw [if_neg g1, if_neg g2] at v ⊢
        rw [if_neg g1, if_neg g2]
        have hk : kindOf c = y.type := by unfold kindOf; rw [if_pos r1, hf]
        rw [hk] at v ⊢
        exact M _ (prev, c, next) _ hH (fun _ => ⟨rfl, rfl⟩) (by rw [if_neg nbl]) h v
    rw [if_neg r1] at hr
    by_cases r3 : c.type = "mathblock".toList
    · rw [if_pos r3] at hr
      cases hr
      have nbl : ¬ (c.type = "block".toList ∨ c.type = "inline".toList) := by rw [r3]; decide
      have g1 : ¬ (c.type = "td".toList ∨ (c.type = "specialblock".toList ∨ c.type = "specialinline".toList) ∧
          firstType c = "table".toList) := by
        rintro (e | e)
        · rw [r3] at e; exact absurd e (by decide)
        · exact r1 e.1
      have g2 : ¬ (c.type = "paragraph".toList ∧
          (firstType c = "item".toList ∨ firstType c = "caption".toList)) :=
        fun h => by rw [r3] at h; exact absurd h.1 (by decide)
      rw [if_neg g1, if_neg g2] at v ⊢
      rw [if_neg g1, if_neg g2]
      have hk : kindOf c = c.type := by unfold kindOf; rw [if_neg r1, if_neg nbl]
      rw [hk] at v ⊢
      exact M _ (prev, c, next) _ hH (fun _ => ⟨rfl, rfl⟩) (by rw [if_neg nbl]) h v
    rw [if_neg r3] at hr
    by_cases r4 : c.type = "td".toList
    · rw [if_pos r4] at hr
      obtain ⟨y, hy, hr⟩ := bind_ok hr
      cases hr
      have g : c.type = "td".toList ∨ (c.type = "specialblock".toList ∨ c.type = "specialinline".toList) ∧
        firstType c = "table".toList := .inl r4
      rw [if_pos g] at v ⊢
      rw [if_pos g]
      rw [← flatMap_take] at v ⊢
      have S := K _ _ _ _ h v
      rw [flatMap_take_sp (prev, c, next)] at S
      exact S
    rw [if_neg r4] at hr
    have g1 : ¬ (c.type = "td".toList ∨ (c.type = "specialblock".toList ∨ c.type = "specialinline".toList) ∧
        firstType c = "table".toList) := by
      rintro (e | e)
      · exact r4 e
      · exact r1 e.1
    rw [if_neg g1] at v ⊢
    rw [if_neg g1]
    by_cases r5 : c.type = "paragraph".toList
    · rw [if_pos r5] at hr
      obtain ⟨y, hy, hr⟩ := bind_ok hr
      have hf := firstType_eq hy
      have nbl : ¬ (c.type = "block".toList ∨ c.type = "inline".toList) := by rw [r5]; decide
      by_cases r6 : y.type = "item".toList ∨ y.type = "caption".toList
      · rw [if_pos r6] at hr
        cases hr
        have g : c.type = "paragraph".toList ∧ (firstType c = "item".toList ∨ firstType c = "caption".toList) :=
          ⟨r5, hf ▸ r6⟩
        rw [if_pos g] at v ⊢
        rw [if_pos g]
        obtain ⟨z, rfl, hz⟩ := sib_first (x := (prev, c, next)) hy
        rw [partsInstead_eq (item_ok hy)] at v ⊢
        rw [partsInstead_eq hz, sp_type]
        refine M _ z _ ?_ ?_ ?_ h v
        · rw [isHeading_iff]; rcases r6 with e | e <;> rw [e] <;> decide
        · intro e; rcases r6 with e' | e' <;> rw [e'] at e <;> exact absurd e (by decide)
        · rw [if_neg]; rcases r6 with e | e <;> rw [e] <;> decide
      · rw [if_neg r6] at hr
        cases hr
        have g : ¬ (c.type = "paragraph".toList ∧
          (firstType c = "item".toList ∨ firstType c = "caption".toList)) := fun e => r6 (hf ▸ e.2)
        rw [if_neg g] at v ⊢
        rw [if_neg g]
        have hk : kindOf c = c.type := by unfold kindOf; rw [if_neg r1, if_neg nbl]
        rw [hk] at v ⊢
        exact M _ (prev, c, next) _ hH (fun _ => ⟨rfl, rfl⟩) (by rw [if_neg nbl]) h v
    rw [if_neg r5] at hr
    have g : ¬ (c.type = "paragraph".toList ∧
      (firstType c = "item".toList ∨ firstType c = "caption".toList)) := fun e => r5 e.1
    rw [if_neg g] at v ⊢
    rw [if_neg g]
    by_cases r7 : c.type = "block".toList ∨ c.type = "inline".toList
    · rw [if_pos r7] at hr
      split at hr
      · cases hr
      · rename_i t ht
        cases hr
        have hk : kindOf c = t.type := by unfold kindOf; rw [if_neg r1, if_pos r7, ht]; rfl
        rw [hk] at v ⊢
        exact M _ (prev, c, next) _ hH (fun _ => ⟨rfl, rfl⟩) (by rw [if_pos r7, ht]; rfl) h v
    · rw [if_neg r7] at hr
      cases hr
      have hk : kindOf c = c.type := by unfold kindOf; rw [if_neg r1, if_neg r7]
      rw [hk] at v ⊢
      exact M _ (prev, c, next) _ hH (fun _ => ⟨rfl, rfl⟩) (by rw [if_neg r7]) h v

/-! ## The document -/

/-- There are no bibliographies in the trees. -/
def Clear (h : Heap) (ts : List Tree) : Prop := ∀ x ∈ Tree.preL ts, isBib h x = false

theorem Clear.head {h : Heap} {x : Ref} {ks ts : List Tree} (C : Clear h (.node x ks :: ts)) : isBib h x = false ∧ Clear h ks :=
  ⟨C x (by rw [Tree.preL, Tree.pre]; simp), fun y hy => C y (by rw [Tree.preL, Tree.pre]; simp [hy])⟩

theorem Clear.tail {h : Heap} {t : Tree} {ts : List Tree} (C : Clear h (t :: ts)) : Clear h ts := fun x hx =>
  C x (by rw [Tree.preL]; exact List.mem_append_right _ hx)

mutual
theorem built_fT {h : Heap} {lo hi : Nat} : ∀ {t : Tree} {p q : Option Ref} {n : NodeRec} {ks : List Item} (b : Before),
    IsTree h p t → Clear h [t] → bare (h.get t.root) = bare { n with parent := q } →
    BuiltL h lo hi (some t.root) ks (skids h t.root) → fT b (Normalize.label h t) = fT b (toL (.node n ks))
  | .node x ts, p, q, n, ks, b, T, C, e, B => by
    rw [Tree.root] at e B
    rw [skids_tree T C.head.1] at B
    rw [IsTree] at T
    rw [Normalize.label, toL, fT, fT, built_fL .other T.2.2 C.head.2 B, nbare_of_bare e, Normalize.cls_bare]
    rfl
theorem built_fL {h : Heap} {lo hi : Nat} : ∀ {ts : List Tree} {p q : Option Ref} {items : List Item} (b : Before),
    IsForest h p ts → Clear h ts → BuiltL h lo hi q items (rootsL h ts) →
    fL b (Normalize.labelL h ts) = fL b (toLL items)
  | [], p, q, items, b, _, _, B => by rw [builtL_nil B, Normalize.labelL, toLL]
  | .node x ks :: ts, p, q, items, b, T, C, B => by
    rw [IsForest] at T
    rw [rootsL_cons, Tree.root, C.head.1, if_neg (by simp)] at B
    obtain ⟨n, is, rest, rfl, _, _, e, _, B1, B2⟩ := builtL_cons B
    have hC : Clear h [.node x ks] := fun y hy =>
      C y (by rw [Tree.preL, Tree.preL, List.append_nil] at hy; rw [Tree.preL]; exact List.mem_append_left _ hy)
    have e1 : (Normalize.label h (.node x ks)).attrs = Normalize.bare n := nbare_of_bare e
    have e2 : (toL (.node n is)).attrs = n := by rw [toL]; rfl
    rw [Normalize.labelL, toLL, Normalize.fL_cons, Normalize.fL_cons, built_fL _ T.2 C.tail B2,
      built_fT (t := .node x ks) _ T.1 hC e B1, e1, e2, Normalize.cls_bare]
    rfl
end

theorem asis_of_bare {h : Heap} {t : Tree} {n : NodeRec} (e : (Normalize.label h t).attrs = Normalize.bare n) :
    (Normalize.label h t).isV = (n.cls.isSub .Text && n.asis) := by
  unfold Normalize.LTree.isV Normalize.LTree.isT
  rw [e, Normalize.cls_bare]
  rfl

/-- A list of trees and one of items, in the same order, bibliographies apart. -/
theorem built_noV {h : Heap} {lo hi : Nat} : ∀ {ts : List Tree} {q : Option Ref} {items : List Item},
    BuiltL h lo hi q items (rootsL h ts) → NoV (toLL items) → NoV (Normalize.labelL h ts)
  | [], _, _, _, _ => by rw [Normalize.labelL]; intro k hk; cases hk
  | .node x ks :: ts, q, items, B, hn => by
    rw [Normalize.labelL, NoV.cons]
    rw [rootsL_cons, Tree.root] at B
    cases hx : isBib h x with
    | true =>
      rw [hx, if_pos rfl] at B
      refine ⟨?_, built_noV B hn⟩
      have hc : (h.get x).cls = .Bibliography := of_decide_eq_true hx
      rw [asis_of_bare (n := h.get x) rfl, hc]
      rfl
    | false =>
      rw [hx, if_neg (by simp)] at B
      obtain ⟨n, is, rest, rfl, _, _, e, _, B1, B2⟩ := builtL_cons B
      rw [toLL, NoV.cons] at hn
      refine ⟨?_, built_noV B2 hn.2⟩
      rw [asis_of_bare (t := .node x ks) (nbare_of_bare e)]
      have := hn.1
      rw [toL] at this
      exact this

theorem built_any {h : Heap} {lo hi : Nat} : ∀ {ts : List Tree} {q : Option Ref} {items : List Item},
    Clear h ts → BuiltL h lo hi q items (rootsL h ts) →
    (Normalize.labelL h ts).any Normalize.LTree.isV = (toLL items).any Normalize.LTree.isV ∧
      (Normalize.labelL h ts).length = (toLL items).length
  | [], _, _, _, B => by rw [builtL_nil B, Normalize.labelL, toLL]; exact ⟨rfl, rfl⟩
  | .node x ks :: ts, q, items, C, B => by
    rw [rootsL_cons, Tree.root, C.head.1, if_neg (by simp)] at B
    obtain ⟨n, is, rest, rfl, _, _, e, _, B1, B2⟩ := builtL_cons B
    obtain ⟨h1, h2⟩ := built_any C.tail B2
    have e3 : (Normalize.label h (.node x ks)).isV = (toL (.node n is)).isV := by
      rw [asis_of_bare (t := .node x ks) (nbare_of_bare e), toL]
      rfl
    rw [Normalize.labelL, toLL, List.any_cons, List.any_cons, List.length_cons, List.length_cons, h1, h2, e3]
    exact ⟨rfl, rfl⟩

mutual
theorem built_vT {h : Heap} {lo hi : Nat} : ∀ {t : Tree} {p q : Option Ref} {n : NodeRec} {ks : List Item},
    IsTree h p t → Clear h [t] → bare (h.get t.root) = bare { n with parent := q } →
    BuiltL h lo hi (some t.root) ks (skids h t.root) →
    vT strip (Normalize.label h t) = vT strip (toL (.node n ks)) ∧ wT (Normalize.label h t) = wT (toL (.node n ks))
  | .node x ts, p, q, n, ks, T, C, e, B => by
    rw [Tree.root] at e B
    rw [skids_tree T C.head.1] at B
    rw [IsTree] at T
    obtain ⟨h1, h2, h3, h4⟩ := built_vL T.2.2 C.head.2 B
    rw [Normalize.label, toL, vT, vT, wT, wT, h1, h2, nbare_of_bare e, Normalize.cls_bare, h3, h4]
    exact ⟨rfl, rfl⟩
theorem built_vL {h : Heap} {lo hi : Nat} : ∀ {ts : List Tree} {p q : Option Ref} {items : List Item},
    IsForest h p ts → Clear h ts → BuiltL h lo hi q items (rootsL h ts) →
    vL strip (Normalize.labelL h ts) = vL strip (toLL items) ∧ wL (Normalize.labelL h ts) = wL (toLL items) ∧
      (∀ c, vOwn strip c (Normalize.labelL h ts) = vOwn strip c (toLL items)) ∧
      (∀ c, wrongOwn c (Normalize.labelL h ts) = wrongOwn c (toLL items))
  | [], p, q, items, _, _, B => by
    rw [builtL_nil B, Normalize.labelL, toLL]; exact ⟨rfl, rfl, fun _ => rfl, fun _ => rfl⟩
  | .node x ks :: ts, p, q, items, T, C, B => by
    rw [IsForest] at T
    rw [rootsL_cons, Tree.root, C.head.1, if_neg (by simp)] at B
    obtain ⟨n, is, rest, rfl, _, _, e, _, B1, B2⟩ := builtL_cons B
    have hC : Clear h [.node x ks] := fun y hy =>
      C y (by rw [Tree.preL, Tree.preL, List.append_nil] at hy; rw [Tree.preL]; exact List.mem_append_left _ hy)
    have e1 : (Normalize.label h (.node x ks)).attrs = Normalize.bare n := nbare_of_bare e
    have e2 : (toL (.node n is)).attrs = n := by rw [toL]; rfl
    obtain ⟨a1, a2⟩ := built_vT (t := .node x ks) T.1 hC e B1
    obtain ⟨b1, b2, b3, b4⟩ := built_vL T.2 C.tail B2
    have e3 : (Normalize.label h (.node x ks)).isV = (toL (.node n is)).isV := by
      rw [asis_of_bare e1]
      unfold Normalize.LTree.isV Normalize.LTree.isT
      rw [e2]
    refine ⟨?_, ?_, fun c => ?_, fun c => ?_⟩
    · rw [Normalize.labelL, toLL, vL, vL, a1, b1]
    · rw [Normalize.labelL, toLL, wL, wL, a2, b2]
    · rw [Normalize.labelL, toLL]
      cases rest with
      | nil =>
        have : ts = [] := by
          cases ts with
          | nil => rfl
          | cons t ts =>
            obtain ⟨y, ls⟩ := t
            rw [rootsL_cons, Tree.root, (C.tail.head).1, if_neg (by simp)] at B2
            exact absurd (builtL_cons B2) (by rintro ⟨_, _, _, h, _⟩; cases h)
        subst this
        rw [Normalize.labelL, toLL]
        show (if _ then _ else _) = (if _ then _ else _)
        rw [e3, e1, e2, Normalize.cls_bare]
        rfl
      | cons i rest =>
        cases ts with
        | nil =>
          rw [show rootsL h [] = [] from rfl] at B2
          have := builtL_nil B2
          cases this
        | cons t ts => rw [Normalize.labelL, toLL]; rfl
    · rw [Normalize.labelL, toLL]
      have h1 : (Normalize.labelL h ts).any Normalize.LTree.isV = (toLL rest).any Normalize.LTree.isV ∧
          (Normalize.labelL h ts).length = (toLL rest).length := built_any C.tail B2
      unfold wrongOwn
      rw [List.any_cons, List.any_cons, e3, h1.1, List.length_cons, List.length_cons, h1.2]
end

theorem pieces_append (a b : Flow) : pieces (a ++ b) = pieces a ++ pieces b := by
  unfold pieces
  rw [List.filterMap_append, List.filter_append]

theorem pieces_gap (b b' : Before) : pieces (b.gap b') = [] := by
  unfold Before.gap
  split <;> rfl

theorem fT_verbatim {b b' : Before} (h : b.verbatim = b'.verbatim) : ∀ t : LTree, fT b t = fT b' t
  | .node i a ks => by rw [fT, fT, h]

/-- At the root, up to the bibliographies and the white space there. -/
theorem built_pieces {h : Heap} {lo hi : Nat} : ∀ {ts : List Tree} {p q : Option Ref} {items : List Item} (b b' : Before),
    b.verbatim = false → b'.verbatim = false → IsForest h p ts → (∀ x ks, Tree.node x ks ∈ ts → Clear h ks) →
    (∀ i ∈ items, i.rec'.asis = false) → BuiltL h lo hi q items (rootsL h ts) →
    pieces (fL b (Normalize.labelL h ts)) = pieces (fL b' (toLL items))
  | [], p, q, items, b, b', _, _, _, _, _, B => by rw [builtL_nil B, Normalize.labelL, toLL, fL, fL]
  | .node x ks :: ts, p, q, items, b, b', hb, hb', T, C, A, B => by
    rw [IsForest] at T
    rw [rootsL_cons, Tree.root] at B
    cases hx : isBib h x with
    | true =>
      rw [hx, if_pos rfl] at B
      have hc : (h.get x).cls = .Bibliography := of_decide_eq_true hx
      have e1 : (Normalize.label h (.node x ks)).attrs.cls = .Bibliography := hc
      rw [Normalize.labelL, Normalize.fL_cons, pieces_append, pieces_append, pieces_gap, List.nil_append,
        built_pieces _ b' ?_ hb' T.2 (fun y l hy => C y l (by simp [hy])) A B]
      · rw [Normalize.label, fT, Normalize.cls_bare, hc, if_neg (by decide), if_neg (by decide)]
        rfl
      · rw [e1]; rfl
    | false =>
      rw [hx, if_neg (by simp)] at B
      obtain ⟨n, is, rest, rfl, _, _, e, _, B1, B2⟩ := builtL_cons B
      have hn : n.asis = false := A (.node n is) (by simp)
      have hC : Clear h [.node x ks] := by
        intro y hy
        rw [Tree.preL, Tree.preL, List.append_nil, Tree.pre] at hy
        rcases List.mem_cons.mp hy with rfl | hy
        · exact hx
        · exact C x ks (by simp) y hy
      have e1 : (Normalize.label h (.node x ks)).attrs = Normalize.bare n := nbare_of_bare e
      have e2 : (toL (.node n is)).attrs = n := by rw [toL]; rfl
      have v1 := step_verbatim hb n.cls
      have v2 := step_verbatim hb' n.cls
      rw [Normalize.labelL, toLL, Normalize.fL_cons, Normalize.fL_cons, pieces_append, pieces_append, pieces_append,
        pieces_append, pieces_gap, pieces_gap, e1, e2, Normalize.cls_bare,
        show (Normalize.bare n).asis = n.asis from rfl, hn,
        built_pieces _ (b'.step n.cls false) v1 v2 T.2 (fun y l hy => C y l (by simp [hy]))
          (fun i hi => A i (by simp [hi])) B2,
        built_fT (t := .node x ks) _ T.1 hC e B1, fT_verbatim (v1.trans v2.symm)]

theorem bibitems_verbs {h : Heap} : ∀ {ks : List Tree} {p : Option Ref}, IsForest h p ks →
    (∀ k ∈ ks, (h.get k.root).cls = .Bibitem) →
    vL strip (Normalize.labelL h ks) = [] ∧ wL (Normalize.labelL h ks) = [] ∧ NoV (Normalize.labelL h ks)
  | [], _, _, _ => by
    rw [Normalize.labelL, vL, wL]
    exact ⟨rfl, rfl, fun k hk => by cases hk⟩
  | .node y ls :: ks, p, T, hc => by
    rw [IsForest, IsTree] at T
    have hy : (h.get y).cls = .Bibitem := hc (.node y ls) (by simp)
    have hl : h.children y = [] := by
      unfold Heap.children Heap.isInst
      rw [hy]; rfl
    rw [hl] at T
    have : ls = [] := List.map_eq_nil_iff.mp T.1.2.1.symm
    subst this
    obtain ⟨h1, h2, h3⟩ := bibitems_verbs T.2 fun k hk => hc k (by simp [hk])
    rw [Normalize.labelL, vL, wL, h1, h2, NoV.cons, asis_of_bare (n := h.get y) rfl, hy, Normalize.label, vT, wT, Normalize.cls_bare, hy,
      if_neg (by decide), if_neg (by decide), Normalize.labelL, vL, wL]
    exact ⟨rfl, rfl, rfl, h3⟩

/-- At the root, bibliographies apart. -/
theorem built_verbs {h : Heap} {lo hi : Nat} : ∀ {ts : List Tree} {p q : Option Ref} {items : List Item},
    IsForest h p ts → (∀ x ks, Tree.node x ks ∈ ts → Clear h ks) →
    (∀ x ks, Tree.node x ks ∈ ts → isBib h x = true → ∀ k ∈ ks, (h.get k.root).cls = .Bibitem) →
    BuiltL h lo hi q items (rootsL h ts) →
    vL strip (Normalize.labelL h ts) = vL strip (toLL items) ∧ wL (Normalize.labelL h ts) = wL (toLL items)
  | [], p, q, items, _, _, _, B => by rw [builtL_nil B, Normalize.labelL, toLL]; exact ⟨rfl, rfl⟩
  | .node x ks :: ts, p, q, items, T, C, E, B => by
    rw [IsForest] at T
    rw [rootsL_cons, Tree.root] at B
    rw [Normalize.labelL, vL, wL]
    cases hx : isBib h x with
    | true =>
      rw [hx, if_pos rfl] at B
      obtain ⟨h1, h2⟩ := built_verbs T.2 (fun y l hy => C y l (by simp [hy])) (fun y l hy => E y l (by simp [hy])) B
      have hc : (h.get x).cls = .Bibliography := of_decide_eq_true hx
      rw [h1, h2]
      have T1 := T.1
      rw [IsTree] at T1
      obtain ⟨b1, b2, b3⟩ := bibitems_verbs T1.2.2 (E x ks (by simp) hx)
      rw [Normalize.label, vT, wT, Normalize.cls_bare, hc, if_neg (by decide), if_neg (by decide), b3.vOwn, wrongOwn_noV b3, b1, b2]
      exact ⟨rfl, rfl⟩
    | false =>
      rw [hx, if_neg (by simp)] at B
      obtain ⟨n, is, rest, rfl, _, _, e, _, B1, B2⟩ := builtL_cons B
      have hC : Clear h [.node x ks] := by
        intro y hy
        rw [Tree.preL, Tree.preL, List.append_nil, Tree.pre] at hy
        rcases List.mem_cons.mp hy with rfl | hy
        · exact hx
        · exact C x ks (by simp) y hy
      obtain ⟨h1, h2⟩ := built_verbs T.2 (fun y l hy => C y l (by simp [hy])) (fun y l hy => E y l (by simp [hy])) B2
      obtain ⟨a1, a2⟩ := built_vT (t := .node x ks) T.1 hC e B1
      rw [toLL, vL, wL, h1, h2, a1, a2]
      exact ⟨rfl, rfl⟩

theorem flatten_wordsFrom : ∀ (w : List Piece) (s : Flow), (Normalize.wordsFrom w s).flatten = w ++ s.filterMap id
  | w, [] => by
    rw [Normalize.wordsFrom]
    cases w <;> simp
  | w, none :: s => by
    rw [Normalize.wordsFrom, List.flatten_append, flatten_wordsFrom [] s]
    cases w <;> simp
  | w, some p :: s => by
    rw [Normalize.wordsFrom, flatten_wordsFrom _ s]
    simp

theorem pieces_of_words {a b : Flow} (h : words a = words b) : pieces a = pieces b := by
  unfold pieces
  have e : ∀ s : Flow, (words s).flatten = s.filterMap id := fun s => flatten_wordsFrom [] s
  rw [← e a, ← e b, h]

mutual
theorem parent_pre {h : Heap} {x : Ref} : ∀ {t : Tree} {p : Option Ref}, IsTree h p t → x ∈ t.pre →
    h.parent x = p ∨ ∃ r ∈ t.pre, h.parent x = some r
  | .node y ks, p, T, hx => by
    rw [IsTree] at T
    rw [Tree.pre] at hx ⊢
    rcases List.mem_cons.mp hx with rfl | hx
    · exact .inl T.1
    · rcases parent_preL T.2.2 hx with h | ⟨r, hr, h⟩
      · exact .inr ⟨y, by simp, h⟩
      · exact .inr ⟨r, by simp [hr], h⟩
theorem parent_preL {h : Heap} {x : Ref} : ∀ {ts : List Tree} {p : Option Ref}, IsForest h p ts → x ∈ Tree.preL ts →
    h.parent x = p ∨ ∃ r ∈ Tree.preL ts, h.parent x = some r
  | [], _, _, hx => by rw [Tree.preL] at hx; cases hx
  | t :: ts, p, T, hx => by
    rw [IsForest] at T
    rw [Tree.preL] at hx ⊢
    rcases List.mem_append.mp hx with hx | hx
    · rcases parent_pre T.1 hx with h | ⟨r, hr, h⟩
      · exact .inl h
      · exact .inr ⟨r, List.mem_append_left _ hr, h⟩
    · rcases parent_preL T.2 hx with h | ⟨r, hr, h⟩
      · exact .inl h
      · exact .inr ⟨r, List.mem_append_right _ hr, h⟩
end

theorem mem_preL_node {x y : Ref} {ks : List Tree} : ∀ {ts : List Tree}, Tree.node x ks ∈ ts → y ∈ (Tree.node x ks).pre →
    y ∈ Tree.preL ts
  | t :: ts, h, hy => by
    rw [Tree.preL]
    rcases List.mem_cons.mp h with rfl | h
    · exact List.mem_append_left _ hy
    · exact List.mem_append_right _ (mem_preL_node h hy)

theorem forest_node {h : Heap} {p : Option Ref} {x : Ref} {ks : List Tree} : ∀ {ts : List Tree}, IsForest h p ts →
    Tree.node x ks ∈ ts → IsTree h p (.node x ks)
  | t :: ts, T, hm => by
    rw [IsForest] at T
    rcases List.mem_cons.mp hm with rfl | hm
    · exact T.1
    · exact forest_node T.2 hm

/-- Bibliographies are nowhere but below the root. -/
theorem clear_below {h : Heap} {root : Ref} {ts : List Tree} (D : Doc h root (.node root ts))
    (hb : ∀ x ∈ Tree.preL ts, isBib h x = true → h.parent x = some root) :
    ∀ x ks, Tree.node x ks ∈ ts → Clear h ks := by
  intro x ks hm y hy
  have hr : root ∉ Tree.preL ts := by
    have := D.nodup
    rw [Tree.pre] at this
    exact (List.nodup_cons.mp this).1
  have T := D.tree
  rw [IsTree] at T
  have T1 := forest_node T.2.2 hm
  rw [IsTree] at T1
  cases e : isBib h y with
  | false => rfl
  | true =>
    have hmy : y ∈ (Tree.node x ks).pre := by rw [Tree.pre]; simp [hy]
    have hp := hb y (mem_preL_node hm hmy) e
    exfalso
    rcases parent_preL T1.2.2 hy with h | ⟨r, hr', h⟩
    · rw [hp] at h
      cases h
      exact hr (mem_preL_node hm (by rw [Tree.pre]; simp))
    · rw [hp] at h
      cases h
      exact hr (mem_preL_node hm (by rw [Tree.pre]; simp [hr']))

theorem root_flows {c : Cst} (S : Source c) {n : NodeRec} {o : Out} (he : evRoot c = .ok (n, o))
    (v : VerbatimAlone (sourceParts c)) : Flows o (sourceParts c) (sourceParts (c.spaced none none)) := by
  unfold evRoot at he
  obtain ⟨n', h1, he⟩ := bind_ok he
  obtain ⟨o', h2, he⟩ := bind_ok he
  cases he
  have hc : IsHeading c := .inl S.1
  have hf := heading_facts hc
  have hs := flows_evs (fun x _ b o => flows_ev _ _ b x o) h2
  rw [flatMap_push hf.2.1.symm, flatMap_sp (x := (none, c, none)) hf.2.1.symm] at hs
  have e1 : sourceParts c = partsWhere (partOf c.type c) c.children := by unfold sourceParts; rw [hf.1]
  have e2 : sourceParts (c.spaced none none) =
      partsWhere (partOf c.type (sp (none, c, none))) (sp (none, c, none)).children := by
    show sourceParts (sp (none, c, none)) = _
    unfold sourceParts
    rw [sp_kindOf]
    show partsWhere (partOf (kindOf c) _) _ = _
    rw [hf.1]
  rw [e1] at v
  rw [e1, e2]
  exact hs v

end Parser
end RSM
