import Verif.Lemmas.ParserMain

/-! The parser does what the function of the tree says: the induction (helper lemmas). -/

namespace RSM
namespace Parser
open PyM Nodes Heap

/-- The claim for trees up to a size. -/
def Claim (k : Nat) : Prop :=
  ∀ (x : Sib) (p root : Ref) (s : PState) (L : List (List NodeRec)), x.2.1.size ≤ k → Inv s L root →
    p < s.heap.next → isBib s.heap p = false → NoSource x.2.1 →
    Outcome p root s L (run k (entry (some p) x) s) (ev k (s.heap.get p).cls (!L.isEmpty) x)

theorem Outcome.append {p root : Ref} {s s1 : PState} {L : List (List NodeRec)} {r : Res PState Unit}
    {o : Out} {x : Except PyErr Out} (hp : p < s.heap.next)
    (P : Post p s.heap s1.heap o.items) (hlog : s1.log = s.log ++ warningsOf o.events)
    (R : Outcome p root s1 (o.events.foldl Event.apply L) r x) :
    Outcome p root s L r (do
      let o' ← x
      .ok ⟨o.items ++ o'.items, o.events ++ o'.events⟩) := by
  cases x with
  | error e => exact R
  | ok o' =>
    obtain ⟨s2, e2, I2, P2, l2⟩ := R
    exact ⟨s2, e2, by rw [List.foldl_append]; exact I2, P.trans hp P2, by
      rw [l2, hlog, warningsOf_append, List.append_assoc]⟩

theorem runs {k : Nat} (C : Claim k) {p root : Ref} : ∀ (xs : List Sib) {s : PState} {L : List (List NodeRec)},
    (∀ x ∈ xs, x.2.1.size ≤ k ∧ NoSource x.2.1) → Inv s L root → p < s.heap.next →
    isBib s.heap p = false →
    Outcome p root s L (forEach (run k) (xs.map (entry (some p))) s)
      (evs (ev k) (s.heap.get p).cls (!L.isEmpty) xs)
  | [], s, L, _, I, _, _ => ⟨s, rfl, I, Post.refl _ _, by simp [warningsOf]⟩
  | x :: xs, s, L, hx, I, hp, hb => by
    obtain ⟨h1, h2⟩ := hx x (by simp)
    have R := C x p root s L h1 I hp hb h2
    rw [List.map_cons, forEach_cons, evs]
    cases he : ev k (s.heap.get p).cls (!L.isEmpty) x with
    | error e =>
      rw [he] at R
      obtain ⟨s1, e1⟩ := R
      rw [e1]
      exact ⟨s1, rfl⟩
    | ok o =>
      rw [he] at R
      obtain ⟨s1, e1, I1, P1, l1⟩ := R
      rw [e1]
      have hcl := bare_cls (P1.old p hp)
      have R2 := runs C xs (fun y hy => hx y (by simp [hy])) I1 (Nat.lt_of_lt_of_le hp P1.next)
        (by rw [isBib_of_bare (P1.old p hp)]; exact hb)
      rw [hcl, ← hasBib_eq] at R2
      exact Outcome.append hp P1 l1 R2

/-! ## The entries of a bibliography -/

theorem run_bibitem {b : Ref} {x : Sib} (hx : x.2.1.type = "bibitem".toList) (s : PState) :
    visit (entry (some b) x) s = visitBibitem (entry (some b) x) s := by
  unfold visit
  rw [show (entry (some b) x).cst.type = "bibitem".toList from hx, if_neg (by decide), if_neg (by
    rintro ⟨h, _⟩; revert h; decide), if_neg (by decide), if_pos rfl]

theorem run_entries {k : Nat} {p root b : Ref} : ∀ (xs : List Sib) {s : PState} {L : List (List NodeRec)},
    (∀ x ∈ xs, x.2.1.type = "bibitem".toList) → Inv s L root → s.bib = some b → p < s.heap.next →
    Outcome p root s L (forEach (run (k + 1)) (xs.map (entry (some b))) s) (do
      let ns ← bibRecords (xs.map (·.2.1))
      .ok ⟨[], ns.map .entry⟩)
  | [], s, L, _, I, _, _ => ⟨s, rfl, I, Post.refl _ _, by simp [warningsOf]⟩
  | x :: xs, s, L, hx, I, hb, hp => by
    rw [List.map_cons, forEach_cons, List.map_cons, bibRecords, run_succ, run_bibitem (hx x (by simp))]
    cases hn : bibRecord x.2.1 with
    | error e =>
      refine ⟨s, ?_⟩
      unfold visitBibitem
      rw [bind_apply, lift_of_error (show bibRecord (entry (some b) x).cst = .error e from hn)]
    | ok n =>
      obtain ⟨s1, e1, I1, P1, l1, b1⟩ := visit_entry (p := p) I hb hn
      rw [e1]
      have R := run_entries (k := k) (p := p) xs (fun y hy => hx y (by simp [hy])) I1 (by rw [b1, hb])
        (Nat.lt_of_lt_of_le hp P1.next)
      have R2 := Outcome.append (o := ⟨[], [.entry n]⟩) hp P1 (by rw [l1]; simp [warningsOf]) R
      simp only [forEach_nil]
      cases hns : bibRecords (xs.map (·.2.1)) with
      | error e => rw [hns] at R2; exact R2
      | ok ns => rw [hns] at R2; exact R2

theorem warn_all (cs : List Cst) : ∀ (s : PState), forEach (fun x : Cst => warn (.badBibitem x.start)) cs s =
    .ok () { s with log := s.log ++ cs.map fun x => .badBibitem x.start } := by
  induction cs with
  | nil => intro s; simp
  | cons c cs ih =>
    intro s
    rw [forEach_cons]
    simp only [warn, modify_apply]
    have := ih { s with log := s.log ++ [.badBibitem c.start] }
    rw [show (fun x : Cst => warn (.badBibitem x.start)) =
      fun x : Cst => PyM.modify fun s : PState => { s with log := s.log ++ [.badBibitem x.start] } from rfl] at this
    rw [this]
    simp

theorem foldl_warnings {α : Type} (f : α → PWarning) (L : List (List NodeRec)) : ∀ (l : List α),
    (l.map fun x => Event.warning (f x)).foldl Event.apply L = L
  | [] => rfl
  | x :: l => by rw [List.map_cons, List.foldl_cons]; exact foldl_warnings f L l

theorem warningsOf_map {α : Type} (f : α → PWarning) : ∀ (l : List α),
    warningsOf (l.map fun x => Event.warning (f x)) = l.map f
  | [] => rfl
  | x :: l => by
    rw [List.map_cons, List.map_cons, ← warningsOf_map f l]
    rfl

theorem run_bibtex {k : Nat} {p root : Ref} {s : PState} {L : List (List NodeRec)} (c : Cst)
    (I : Inv s L root) (hp : p < s.heap.next) (hk : c.size ≤ k + 1) :
    Outcome p root s L (match visitBibtex c s with
      | .ok new s' => forEach (run k) new s'
      | .err e s' => .err e s')
      (if (!L.isEmpty) = true then do
        let ns ← bibRecords ((sibs c fun x => x.type = "bibitem".toList).map (·.2.1))
        .ok ⟨[], ((c.namedChildren.filter fun x => x.type = "ERROR".toList).map
          fun x => .warning (.badBibitem x.start)) ++ ns.map .entry⟩
      else .ok ⟨[], [.warning .noBibliography]⟩) := by
  unfold visitBibtex
  cases hb : s.bib with
  | none =>
    have hL := I.bib_none.mp hb
    subst hL
    simp only [List.isEmpty_nil, Bool.not_true, Bool.false_eq_true, if_false]
    exact ⟨{ s with log := s.log ++ [.noBibliography] }, rfl, I.log _, ⟨Nat.le_refl _, fun _ _ => rfl,
      [], by simp, by rw [BuiltL]; simp⟩, rfl⟩
  | some b =>
    have hL : L ≠ [] := fun h => by rw [I.bib_none.mpr h] at hb; cases hb
    have hL' : L.isEmpty = false := by cases L with
      | nil => exact absurd rfl hL
      | cons _ _ => rfl
    simp only [hL', Bool.not_false, if_true]
    rw [bind_apply, warn_all]
    simp only [pure_apply]
    have hbi : ∀ x ∈ sibs c (fun x => x.type = "bibitem".toList), x.2.1.type = "bibitem".toList := by
      intro x hx
      have := (List.mem_filter.mp hx).2
      simp only [Bool.and_eq_true, decide_eq_true_eq] at this
      exact this.2
    rw [entriesOf_eq]
    have R : Outcome p root
        { s with
          log := s.log ++ (c.namedChildren.filter fun x => x.type = "ERROR".toList).map
            fun x => .badBibitem x.start } L
        (forEach (run k) ((sibs c fun x => x.type = "bibitem".toList).map (entry (some b)))
          { s with
            log := s.log ++ (c.namedChildren.filter fun x => x.type = "ERROR".toList).map
              fun x => .badBibitem x.start })
        (do
          let ns ← bibRecords ((sibs c fun x => x.type = "bibitem".toList).map (·.2.1))
          .ok ⟨[], ns.map .entry⟩) := by
      cases k with
      | succ j => exact run_entries _ hbi (I.log _) hb hp
      | zero =>
        have : c.children = [] := by
          have := Cst.size_eq c
          cases hc : c.children with
          | nil => rfl
          | cons d ds =>
            rw [hc, Cst.sizeL, d.size_eq] at this
            omega
        have hnil : (sibs c fun x => x.type = "bibitem".toList) = [] := by
          unfold sibs; rw [this]; rfl
        rw [hnil]
        exact ⟨_, rfl, I.log _, Post.refl _ _, by simp [warningsOf]⟩
    have R2 := Outcome.append (s := s) (L := L)
      (o := ⟨[], (c.namedChildren.filter fun x => x.type = "ERROR".toList).map
        fun x => .warning (.badBibitem x.start)⟩)
      (s1 := ⟨s.heap, s.root, s.bib, s.log ++ List.map (fun x => .badBibitem x.start)
        (c.namedChildren.filter fun x => x.type = "ERROR".toList)⟩) hp (Post.refl _ _) (by rw [warningsOf_map])
      (by rw [foldl_warnings]; exact R)
    cases hns : bibRecords ((sibs c fun x => x.type = "bibitem".toList).map (·.2.1)) with
    | error e => rw [hns] at R2; exact R2
    | ok ns => rw [hns] at R2; exact R2

/-! ## Nodes -/

theorem noteRoot_none {n : NodeRec} (hn : n.cls.isSub .Manuscript = false) (x : Ref) (s : PState) :
    noteRoot n x s = .ok () s := by
  unfold noteRoot; rw [hn]; rfl

theorem claim_type {type : Str} {cls : Cls} (h : astTypes.lookup type = some cls)
    (ht : type = "mathblock".toList) : cls.possibleParents = [] := by
  subst ht
  have : astTypes.lookup "mathblock".toList = some .MathBlock := by decide +kernel
  rw [this] at h
  cases h
  rfl

/-- The nodes that come of one CST node. -/
theorem create {s : PState} (F : Forest s.heap) {type : Str} {c : Cst} {prev next : Option Cst}
    {n : NodeRec} {a : Option NodeRec} {ids : List Nat}
    (hrec : nodeRecord type c prev next = .ok (n, a, ids)) (ht : type ≠ "source_file".toList) :
    ∃ h1 y, Made s.heap h1 y (topRec type c n) (firstItems type n a) ∧
      h1.next ≤ s.heap.next + 3 ∧
      ∀ {β : Type} (f : Ref → ParseM β), (do
        let x ← onHeap (new n)
        noteRoot n x
        addAsis x a
        let y ← wrapClaim type c n x
        f y : ParseM β) s = f y { s with heap := h1 } := by
  obtain ⟨fr, hl, -, -, m, hasis⟩ := nodeRecord_ok hrec
  have nb : n.cls ≠ .Bibliography := by
    rcases hl with hl | ⟨_, e⟩
    · exact lookup_notBib hl
    · rw [e]; decide
  have nm : n.cls.isSub .Manuscript = false := by
    rcases hl with hl | ⟨_, e⟩
    · exact lookup_manuscript hl ht
    · rw [e]; decide
  have key : ∃ h1, Made s.heap h1 s.heap.next n (a.toList.map fun a => .node a []) ∧
      h1.next ≤ s.heap.next + 2 ∧
      addAsis s.heap.next a { s with heap := born s.heap n } = .ok () { s with heap := h1 } := by
    cases a with
    | none => exact ⟨_, made_new F fr nb, by rw [born_next]; omega, rfl⟩
    | some a =>
      obtain ⟨hty, fa, ca, _⟩ := asisRecord_ok hasis
      have hl' : astTypes.lookup type = some n.cls := by
        rcases hl with hl | ⟨e, _⟩
        · exact hl
        · exact absurd e (asis_not_error hty)
      have hp : a.cls.possibleParents = [] ∧ a.cls ≠ .Bibliography := by
        rcases ca with e | e <;> rw [e] <;> decide
      obtain ⟨h1, e, hnx, M⟩ := made_asis F fr nb (asis_nwc hty hl').1 fa hp.2 hp.1
      refine ⟨h1, M, by omega, ?_⟩
      unfold addAsis
      simp only [bind_apply]
      rw [onHeap_new]
      simp only
      exact onHeap_ok (s := { s with heap := born (born s.heap n) a }) e
  obtain ⟨h1, M, hnx, e1⟩ := key
  by_cases hclaim : type = "mathblock".toList ∧ n.isclaim = true
  · have hap : n.cls.possibleParents = [] := by
      rcases hl with hl | ⟨e, _⟩
      · exact claim_type hl hclaim.1
      · exfalso; rw [hclaim.1] at e; revert e; decide
    obtain ⟨h2, e2, hn2, M2⟩ := made_wrap (c := claimRec c) M ⟨rfl, rfl⟩ (by show Cls.ClaimBlock ≠ _; decide)
      (by show Cls.isSub .ClaimBlock _ = true; decide) hap
    refine ⟨h2, h1.next, ?_, by omega, ?_⟩
    · unfold topRec firstItems
      rw [if_pos hclaim, if_pos hclaim]
      exact M2
    · intro β f
      rw [bind_apply, onHeap_new]
      simp only
      rw [bind_apply, noteRoot_none nm]
      simp only
      rw [bind_apply, e1]
      simp only
      rw [bind_apply]
      unfold wrapClaim
      rw [if_pos hclaim, bind_apply]
      rw [onHeap_new]
      simp only
      rw [bind_apply, onHeap_ok (s := { s with heap := born h1 (claimRec c) }) e2]
      rfl
  · refine ⟨h1, s.heap.next, ?_, by omega, ?_⟩
    · unfold topRec firstItems
      rw [if_neg hclaim, if_neg hclaim]
      exact M
    · intro β f
      rw [bind_apply, onHeap_new]
      simp only
      rw [bind_apply, noteRoot_none nm]
      simp only
      rw [bind_apply, e1]
      simp only
      rw [bind_apply]
      unfold wrapClaim
      rw [if_neg hclaim]
      rfl

/-- Attach the new nodes, then go on with the children. -/
theorem finish {k : Nat} (C : Claim k) {s : PState} {L : List (List NodeRec)} {root p y : Ref} {h1 : Heap}
    {top : NodeRec} {items0 : List Item} (I : Inv s L root) (hp : p < s.heap.next)
    (hpb : isBib s.heap p = false) (M : Made s.heap h1 y top items0) {xs : List Sib}
    (hxs : ∀ x ∈ xs, x.2.1.size ≤ k ∧ NoSource x.2.1) :
    Outcome p root s L (match attach (some p) y { s with heap := h1 } with
      | .ok _ s2 => forEach (run k) (xs.map (entry (some y))) s2
      | .err e s2 => .err e s2) (do
        allowed (s.heap.get p).cls top.cls
        let o ← evs (ev k) top.cls (!L.isEmpty) xs
        .ok ⟨[.node top (items0 ++ kept top.cls o.items)], o.events⟩) := by
  have A := attach_made I hp hpb M
  cases ha : allowed (s.heap.get p).cls top.cls with
  | error e =>
    rw [ha] at A
    obtain ⟨s', e'⟩ := A
    rw [e']
    exact ⟨s', rfl⟩
  | ok u =>
    rw [ha] at A
    obtain ⟨h2, e2, hh2, I2, hy2, cy⟩ := A
    rw [e2]
    have hyb : isBib h2 y = false := isBib_eq_false (n := top) cy M.notBib
    have R := runs C (p := y) xs hxs I2 hy2 hyb
    simp only [cy] at R
    cases he : evs (ev k) top.cls (!L.isEmpty) xs with
    | error e => 
      rw [he] at R
      obtain ⟨s3, e3⟩ := R
      exact ⟨s3, e3⟩
    | ok o =>
      rw [he] at R
      obtain ⟨s3, e3, I3, P3, l3⟩ := R
      exact ⟨s3, e3, I3, Post.node M hp I.forest hpb hh2 P3, l3⟩

theorem sib_small {c : Cst} {cond} {x : Sib} (h : x ∈ sibs c cond) : x.2.1.size < c.size := by
  have := size_le_sizeL (sibs_mem h)
  rw [c.size_eq]; omega

theorem ev_succ (k : Nat) (p : Cls) (b : Bool) (x : Sib) : ev (k + 1) p b x =
    (if x.2.1.type = "comment".toList then .ok {}
    else if x.2.1.type = "specialblock".toList ∧
        x.2.1.children.head?.map Cst.type = some "bibliography".toList then .ok ⟨[], [.bibliography]⟩
    else if x.2.1.type = "bibtex".toList then
      if b then do
        let ns ← bibRecords ((sibs x.2.1 fun x => x.type = "bibitem".toList).map (·.2.1))
        .ok ⟨[], ((x.2.1.namedChildren.filter fun x => x.type = "ERROR".toList).map
          fun x => .warning (.badBibitem x.start)) ++ ns.map .entry⟩
      else .ok ⟨[], [.warning .noBibliography]⟩
    else if x.2.1.type = "bibitem".toList then do
      let n ← bibRecord x.2.1
      if p.isSub .NodeWithChildren then .ok ⟨[.node n []], []⟩ else .error .attributeError
    else if x.2.1.type = "source_file".toList ∨ endsWith x.2.1.type "section".toList then do
      let n ← headingRecord x.2.1
      allowed p n.cls
      let o ← evs (ev k) n.cls b (pushSibs x.2.1 (titleIds x.2.1))
      .ok ⟨[.node n (kept n.cls o.items)], o.events⟩
    else do
      let r ← roleOf x.2.1
      match r with
      | .through => evs (ev k) p b ((sibs x.2.1 fun _ => true).take 1)
      | .as type c skip => do
        let (n, a, ids) ← nodeRecord type c x.1 x.2.2
        allowed p (topRec type c n).cls
        let o ← evs (ev k) (topRec type c n).cls b (pushSibs c (skip ++ ids))
        .ok ⟨[.node (topRec type c n) (firstItems type n a ++ kept (topRec type c n).cls o.items)],
          errorEvents type c ++ o.events⟩) := by
  obtain ⟨prev, c, next⟩ := x
  rw [ev]
  rfl

theorem warnError_apply (type : Str) (c : Cst) (s : PState) :
    warnError type c s = .ok () { s with log := s.log ++ warningsOf (errorEvents type c) } := by
  unfold warnError errorEvents
  split
  · simp [warn, modify_apply, warningsOf]
  · simp [warningsOf, pure_apply]

theorem errorEvents_foldl (type : Str) (c : Cst) (L : List (List NodeRec)) :
    (errorEvents type c).foldl Event.apply L = L := by
  unfold errorEvents
  split <;> rfl

theorem run_node {k : Nat} (C : Claim k) {p root : Ref} {s : PState} {L : List (List NodeRec)}
    {prev next : Option Cst} {e : Entry} {type : Str} {c : Cst} {skip : List Nat} (I : Inv s L root) (hp : p < s.heap.next)
    (hpb : isBib s.heap p = false) (he : e.parent = some p) (hprev : e.prev = prev) (hnext : e.next = next)
    (hk : c.size ≤ k + 1) (Nc : NoSource c) (hty : type ≠ "source_file".toList) :
    Outcome p root s L (match visitNode e type c skip s with
      | .ok new s' => forEach (run k) new s'
      | .err e s' => .err e s') (do
        let (n, a, ids) ← nodeRecord type c prev next
        allowed (s.heap.get p).cls (topRec type c n).cls
        let o ← evs (ev k) (topRec type c n).cls (!L.isEmpty) (pushSibs c (skip ++ ids))
        .ok ⟨[.node (topRec type c n) (firstItems type n a ++ kept (topRec type c n).cls o.items)],
          errorEvents type c ++ o.events⟩) := by
  unfold visitNode
  rw [bind_apply, warnError_apply]
  simp only
  rw [bind_apply, he, hprev, hnext]
  cases hr : nodeRecord type c prev next with
  | error er => exact ⟨_, rfl⟩
  | ok t =>
    obtain ⟨n, a, ids⟩ := t
    rw [lift_of_ok rfl]
    simp only
    have I' : Inv { s with log := s.log ++ warningsOf (errorEvents type c) } L root := I.log _
    obtain ⟨h1, y, M, -, eq⟩ := create I'.forest hr hty
    rw [eq (fun y => do attach (some p) y; pure (pushed y c (skip ++ ids)))]
    have R := finish C I' hp hpb M (xs := pushSibs c (skip ++ ids)) (fun z hz => by
      have := sib_small hz
      exact ⟨by omega, Nc.child (sibs_mem hz)⟩)
    have R2 := Outcome.append (s := s) (L := L) (o := ⟨[], errorEvents type c⟩)
      (s1 := { s with log := s.log ++ warningsOf (errorEvents type c) }) hp (Post.refl _ _) rfl
      (by rw [errorEvents_foldl]; exact R)
    simp only [bind_apply, pushed_eq] at R2 ⊢
    have hev : (do
        allowed (s.heap.get p).cls (topRec type c n).cls
        let o ← evs (ev k) (topRec type c n).cls (!L.isEmpty) (pushSibs c (skip ++ ids))
        .ok ⟨[.node (topRec type c n) (firstItems type n a ++ kept (topRec type c n).cls o.items)],
          errorEvents type c ++ o.events⟩ : Except PyErr Out) = (do
        let o' ← (do
          allowed (s.heap.get p).cls (topRec type c n).cls
          let o ← evs (ev k) (topRec type c n).cls (!L.isEmpty) (pushSibs c (skip ++ ids))
          .ok ⟨[.node (topRec type c n) (firstItems type n a ++ kept (topRec type c n).cls o.items)], o.events⟩
            : Except PyErr Out)
        .ok ⟨[] ++ o'.items, errorEvents type c ++ o'.events⟩) := by
      cases allowed (s.heap.get p).cls (topRec type c n).cls with
      | error e => rfl
      | ok u => cases evs (ev k) (topRec type c n).cls (!L.isEmpty) (pushSibs c (skip ++ ids)) <;> rfl
    rw [← hev] at R2
    cases ha : attach (some p) y { s with heap := h1, log := s.log ++ warningsOf (errorEvents type c) } with
    | ok u s2 => rw [ha] at R2; exact R2
    | err e s2 => rw [ha] at R2; exact R2

theorem claim_all : ∀ k, Claim k
  | 0 => by
    intro x p root s L hk
    have := Cst.size_eq x.2.1; omega
  | k + 1 => by
    have C := claim_all k
    intro x p root s L hk I hp hpb N
    rw [run_succ, ev_succ]
    have hcst : (entry (some p) x).cst = x.2.1 := rfl
    unfold visit
    rw [hcst]
    by_cases c0 : x.2.1.type = "comment".toList
    · simp only [if_pos c0]
      exact ⟨s, rfl, I, Post.refl _ _, by simp [warningsOf]⟩
    simp only [if_neg c0]
    by_cases c1 : x.2.1.type = "specialblock".toList ∧
        x.2.1.children.head?.map Cst.type = some "bibliography".toList
    · simp only [if_pos c1]
      obtain ⟨s', e, I', P', l'⟩ := visit_bibliography (p := p) I
      rw [e]
      exact ⟨s', rfl, I', P', by rw [l']; simp [warningsOf]⟩
    simp only [if_neg c1]
    by_cases c2 : x.2.1.type = "bibtex".toList
    · simp only [if_pos c2]
      exact run_bibtex x.2.1 I hp hk
    simp only [if_neg c2]
    by_cases c3 : x.2.1.type = "bibitem".toList
    · simp only [if_pos c3]
      -- an entry outside of a bibliography
      unfold visitBibitem
      rw [bind_apply, hcst]
      cases hn : bibRecord x.2.1 with
      | error e => exact ⟨s, rfl⟩
      | ok n =>
        obtain ⟨fr, hcls⟩ := bibRecord_ok hn
        rw [lift_of_ok rfl]
        simp only [bind_apply]
        rw [onHeap_new]
        simp only [entry, appendTo]
        have M := made_new I.forest fr (by rw [hcls]; decide)
        have A := attach_made I hp hpb M
        have al : allowed (s.heap.get p).cls n.cls = .ok () := by
          unfold allowed
          rw [if_pos (.inr (.inl (by rw [hcls]; rfl)))]
        rw [al] at A
        obtain ⟨h2, e2, hh2, I2, hy2, cy⟩ := A
        by_cases hw : s.heap.isInst p .NodeWithChildren = true
        · have hw' : (s.heap.get p).cls.isSub .NodeWithChildren = true := hw
          have : attach (some p) s.heap.next { s with heap := born s.heap n } =
              onHeap (append p s.heap.next) { s with heap := born s.heap n } := by
            unfold attach
            simp only [bind_apply, get_apply]
            rw [if_pos (by unfold isInst; rw [born_get_old _ _ hp]; exact hw)]
          rw [← this, e2]
          simp only [pure_apply, forEach_nil, bind, Except.bind, hw', if_true]
          refine ⟨{ s with heap := h2 }, rfl, I2, ?_, by simp [warningsOf]⟩
          have := Post.node M hp I.forest hpb hh2 (Post.refl s.heap.next h2)
          simpa using this
        · have hw' : (s.heap.get p).cls.isSub .NodeWithChildren = false := by
            rw [← Bool.not_eq_true]; exact hw
          have : append p s.heap.next (born s.heap n) = .err .attributeError (born s.heap n) := by
            rw [append_apply, if_pos (by unfold isInst; rw [born_get_old _ _ hp]; exact hw')]
          rw [onHeap_err (s := { s with heap := born s.heap n }) this]
          simp only [bind, Except.bind, hw', Bool.false_eq_true, if_false]
          exact ⟨_, rfl⟩
    simp only [if_neg c3]
    by_cases c4 : x.2.1.type = "source_file".toList ∨ endsWith x.2.1.type "section".toList
    · simp only [if_pos c4]
      -- a section
      unfold visitHeading
      rw [bind_apply, hcst]
      cases hn : headingRecord x.2.1 with
      | error e => exact ⟨s, rfl⟩
      | ok n =>
        obtain ⟨fr, hl⟩ := headingRecord_ok hn
        rw [lift_of_ok rfl]
        simp only [bind_apply]
        rw [onHeap_new]
        simp only
        rw [noteRoot_none (lookup_manuscript hl N.self)]
        simp only [entry]
        have M := made_new I.forest fr (lookup_notBib hl)
        have R := finish C I hp hpb M (xs := pushSibs x.2.1 (titleIds x.2.1)) (fun z hz => by
          have := sib_small hz
          exact ⟨by omega, N.child (sibs_mem hz)⟩)
        simp only [pushed_eq, List.nil_append] at R ⊢
        cases ha : attach (some p) s.heap.next { s with heap := born s.heap n } with
        | ok u s2 => rw [ha] at R; exact R
        | err e s2 => rw [ha] at R; exact R
    · simp only [if_neg c4]
      -- anything else
      rw [bind_apply]
      cases hr : roleOf x.2.1 with
      | error e => exact ⟨s, rfl⟩
      | ok r =>
        rw [lift_of_ok rfl]
        cases r with
        | through =>
          have R := runs C (p := p) ((sibs x.2.1 fun _ => true).take 1) (fun z hz => by
            have hz := List.mem_of_mem_take hz
            have := sib_small hz
            exact ⟨by omega, N.child (sibs_mem hz)⟩) I hp hpb
          rw [List.map_take] at R
          exact R
        | «as» type c skip =>
          obtain ⟨hty, Nc⟩ := roleOf_noSource N hr
          have hc : c.size ≤ x.2.1.size := by
            rcases roleOf_ok hr with rfl | hm
            · exact Nat.le_refl _
            · exact Nat.le_of_lt (size_lt_of_named hm)
          exact run_node C I hp hpb rfl rfl rfl (by omega) Nc hty

end Parser
end RSM
