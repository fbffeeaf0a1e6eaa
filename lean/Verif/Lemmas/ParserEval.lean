import Verif.Lemmas.ParserRun
import Verif.Spec.Parser
import Verif.Lemmas.ParserRecords

/-! The parser as a function of the tree (helper lemmas). -/

namespace RSM
namespace Parser
open PyM Nodes Heap

/-- A node between its siblings. -/
abbrev Sib := Option Cst × Cst × Option Cst

/-- The named children that satisfy the condition. -/
def sibs (c : Cst) (cond : Cst → Bool) : List Sib :=
  (neighbours none c.children).filter fun x => x.2.1.named && cond x.2.1

/-- The entry for the stack. -/
def entry (p : Option Ref) (x : Sib) : Entry := ⟨p, x.1, x.2.1, x.2.2⟩

theorem entriesOf_eq (p : Option Ref) (c : Cst) (cond) : entriesOf p c cond = (sibs c cond).map (entry p) := rfl

/-- The children to be pushed. -/
def pushSibs (c : Cst) (skip : List Nat) : List Sib :=
  sibs c fun x => pushTypes.contains x.type && !skip.contains x.id

theorem pushed_eq (p : Ref) (c : Cst) (skip) : pushed p c skip = (pushSibs c skip).map (entry (some p)) := rfl

/-- What comes of a part of the tree. -/
structure Out where
  items : List Item := []
  events : List Event := []

/-- Whether a node of class `c` can be put below one of class `p`, if that has children at all. -/
def allowed (p c : Cls) : Except PyErr Unit :=
  if p.isSub .NodeWithChildren = false ∨ c.possibleParents = [] ∨ p ∈ c.possibleParents then .ok ()
  else .error .rsmNodeError

/-- Whether there is a bibliography after the events. -/
def hasBib (b : Bool) (es : List Event) : Bool :=
  b || es.any fun e => match e with
    | .bibliography => true
    | _ => false

/-- Several parts one after the other. -/
def evs (f : Cls → Bool → Sib → Except PyErr Out) (p : Cls) : Bool → List Sib → Except PyErr Out
  | _, [] => .ok {}
  | b, x :: xs => do
    let o ← f p b x
    let o' ← evs f p (hasBib b o.events) xs
    .ok ⟨o.items ++ o'.items, o.events ++ o'.events⟩

/-- The records of bibliography entries. -/
def bibRecords : List Cst → Except PyErr (List NodeRec)
  | [] => .ok []
  | c :: cs => do
    let n ← bibRecord c
    let ns ← bibRecords cs
    .ok (n :: ns)

/-- The topmost record that a node makes. -/
def topRec (type : Str) (c : Cst) (n : NodeRec) : NodeRec :=
  if type = "mathblock".toList ∧ n.isclaim = true then claimRec c else n

/-- The items below the topmost one at first. -/
def firstItems (type : Str) (n : NodeRec) (a : Option NodeRec) : List Item :=
  if type = "mathblock".toList ∧ n.isclaim = true then [.node n (a.toList.map fun a => .node a [])]
  else a.toList.map fun a => .node a []

/-- The children of a node that can have some. -/
def kept (c : Cls) (items : List Item) : List Item := if c.isSub .NodeWithChildren then items else []

/-- The warning for an error node. -/
def errorEvents (type : Str) (c : Cst) : List Event :=
  if type = "ERROR".toList then [.warning (.cstErrors c.start c.stop)] else []

/-- What the parser makes of a node below one of class `p`, when there is a bibliography or not. -/
def ev : Nat → Cls → Bool → Sib → Except PyErr Out
  | 0, _, _, _ => .error .outOfFuel
  | k + 1, p, b, (prev, c, next) =>
    if c.type = "comment".toList then .ok {}
    else if c.type = "specialblock".toList ∧
        c.children.head?.map Cst.type = some "bibliography".toList then .ok ⟨[], [.bibliography]⟩
    else if c.type = "bibtex".toList then
      if b then do
        let ns ← bibRecords ((sibs c fun x => x.type = "bibitem".toList).map (·.2.1))
        .ok ⟨[], ((c.namedChildren.filter fun x => x.type = "ERROR".toList).map
          fun x => .warning (.badBibitem x.start)) ++ ns.map .entry⟩
      else .ok ⟨[], [.warning .noBibliography]⟩
    else if c.type = "bibitem".toList then do
      let n ← bibRecord c
      if p.isSub .NodeWithChildren then .ok ⟨[.node n []], []⟩ else .error .attributeError
    else if c.type = "source_file".toList ∨ endsWith c.type "section".toList then do
      let n ← headingRecord c
      allowed p n.cls
      let o ← evs (ev k) n.cls b (pushSibs c (titleIds c))
      .ok ⟨[.node n (kept n.cls o.items)], o.events⟩
    else do
      let r ← roleOf c
      match r with
      | .through => evs (ev k) p b ((sibs c fun _ => true).take 1)
      | .as type x skip => do
        let (n, a, ids) ← nodeRecord type x prev next
        allowed p (topRec type x n).cls
        let o ← evs (ev k) (topRec type x n).cls b (pushSibs x (skip ++ ids))
        .ok ⟨[.node (topRec type x n) (firstItems type n a ++ kept (topRec type x n).cls o.items)],
          errorEvents type x ++ o.events⟩

/-! ## No further manuscript -/

theorem Cst.self_mem_nodes (c : Cst) : c ∈ c.nodes := by cases c; rw [Cst.nodes]; simp

theorem Cst.nodes_eq (c : Cst) : c.nodes = c :: Cst.nodesL c.children := by cases c; rw [Cst.nodes]; rfl

theorem nodesL_of_mem : ∀ {cs : List Cst} {c x : Cst}, c ∈ cs → x ∈ c.nodes → x ∈ Cst.nodesL cs
  | d :: cs, c, x, h, hx => by
    rw [Cst.nodesL, List.mem_append]
    rcases List.mem_cons.mp h with rfl | h
    · exact .inl hx
    · exact .inr (nodesL_of_mem h hx)

theorem nodes_child {c d x : Cst} (hd : d ∈ c.children) (hx : x ∈ d.nodes) : x ∈ c.nodes := by
  rw [c.nodes_eq]; exact List.mem_cons_of_mem _ (nodesL_of_mem hd hx)

theorem NoSource.self {c : Cst} (h : NoSource c) : c.type ≠ "source_file".toList := h c c.self_mem_nodes

theorem NoSource.child {c d : Cst} (h : NoSource c) (hd : d ∈ c.children) : NoSource d :=
  fun x hx => h x (nodes_child hd hx)

theorem NoSource.named {c d : Cst} (h : NoSource c) (hd : d ∈ c.namedChildren) : NoSource d :=
  h.child (List.mem_filter.mp hd).1

theorem neighbours_mem : ∀ {cs : List Cst} {prev : Option Cst} {x : Sib}, x ∈ neighbours prev cs → x.2.1 ∈ cs
  | c :: cs, prev, x, h => by
    rw [neighbours] at h
    rcases List.mem_cons.mp h with rfl | h
    · simp
    · exact List.mem_cons_of_mem _ (neighbours_mem h)

theorem sibs_mem {c : Cst} {cond} {x : Sib} (h : x ∈ sibs c cond) : x.2.1 ∈ c.children :=
  neighbours_mem (List.mem_filter.mp h).1

theorem roleOf_noSource {c x : Cst} {type : Str} {skip} (N : NoSource c)
    (h : roleOf c = .ok (.as type x skip)) : type ≠ "source_file".toList ∧ NoSource x := by
  unfold roleOf at h
  split at h
  · obtain ⟨y, hy, h⟩ := bind_ok h
    have Ny := N.named (List.mem_of_getElem? (item_ok hy))
    split at h
    · cases h
    · cases h; exact ⟨Ny.self, N⟩
  split at h
  · cases h; exact ⟨N.self, N⟩
  split at h
  · obtain ⟨y, hy, h⟩ := bind_ok h
    cases h
  split at h
  · obtain ⟨y, hy, h⟩ := bind_ok h
    have Ny := N.named (List.mem_of_getElem? (item_ok hy))
    split at h
    · cases h; exact ⟨Ny.self, Ny⟩
    · cases h; exact ⟨N.self, N⟩
  split at h
  · split at h
    · cases h
    · rename_i t ht
      cases h
      exact ⟨(N.child (List.mem_of_find?_eq_some ht)).self, N⟩
  · cases h; exact ⟨N.self, N⟩

end Parser
end RSM
