import Verif.Lemmas.Numbering
import Verif.Props.NodeApi
import Verif.Props.Reading

/-! Helper lemmas for `resolve_pending_references`. -/

namespace RSM
open PyM Tree Transformer

/-- The attributes of a node apart from its place in the tree. -/
def NodeRec.core (n : NodeRec) : NodeRec := { n with parent := none, kids := [] }

/-- `h'` has all objects of `h`, unchanged, and maybe more. -/
structure Ext (h h' : Heap) : Prop where
  next : h.next ≤ h'.next
  get : ∀ z < h.next, h'.get z = h.get z

theorem Ext.refl (h : Heap) : Ext h h := ⟨Nat.le_refl _, fun _ _ => rfl⟩

theorem Ext.trans {a b c : Heap} (h1 : Ext a b) (h2 : Ext b c) : Ext a c :=
  ⟨Nat.le_trans h1.next h2.next, fun z hz => by
    rw [h2.get z (Nat.lt_of_lt_of_le hz h1.next), h1.get z hz]⟩

theorem Ext.alloc (h : Heap) (n : NodeRec) : Ext h (h.alloc n).2 :=
  ⟨Nat.le_succ _, fun z hz => by simp [Heap.alloc, Nat.ne_of_lt hz]⟩

theorem Ext.children {h h' : Heap} (E : Ext h h') {z} (hz : z < h.next) :
    h'.children z = h.children z := children_of_get (by rw [E.get z hz]) (by rw [E.get z hz])

theorem Ext.parent {h h' : Heap} (E : Ext h h') {z} (hz : z < h.next) :
    h'.parent z = h.parent z := by unfold Heap.parent; rw [E.get z hz]

/-- From `h` to `h'` the child `x` of `p` was replaced by the new leaf `y`, and the back-links `bl`
were added. -/
structure Swap (h h' : Heap) (x p y : Ref) (bl : Ref → List Str) : Prop where
  next : h.next ≤ h'.next
  fresh : h.next ≤ y ∧ y < h'.next
  kids : ∀ pre post, h.children p = pre ++ x :: post → x ∉ pre →
    h'.children p = pre ++ y :: post
  other : ∀ z < h.next, z ≠ p → h'.children z = h.children z
  leaf : h'.children y = []
  parentNew : h'.parent y = some p
  parentOld : ∀ z < h.next, z ≠ x → h'.parent z = h.parent z
  gone : h'.parent x = none
  attrs : ∀ z < h.next, h'.get z = { h.get z with
    parent := (h'.get z).parent, kids := (h'.get z).kids,
    backlinks := (h.get z).backlinks ++ bl z }

theorem SameAttributes.get {h h' : Heap} (S : SameAttributes h h') (z : Ref) :
    h'.get z = { h.get z with parent := (h'.get z).parent, kids := (h'.get z).kids } := by
  have := S.2 z
  generalize h'.get z = a at *
  generalize h.get z = b at *
  cases a; cases b
  simp only [NodeRec.mk.injEq] at this ⊢
  simp_all

theorem alloc_swap (h : Heap) {x p : Ref} (n : NodeRec) (hx : x < h.next) (hp : p < h.next)
    (hpar : h.parent x = some p) (hmem : x ∈ h.children p)
    (hposs : n.cls.possibleParents = []) (hleaf : n.cls.isSub .NodeWithChildren = false) :
    ∃ h', Nodes.replaceSelf x [h.next] (h.alloc n).2 = .ok () h' ∧
      Swap h h' x p h.next (fun _ => []) ∧ (h'.get h.next).core = n.core ∧
      h'.next = h.next + 1 := by
  have E := Ext.alloc h n
  obtain ⟨pre, post, hpos, hnb⟩ := List.eq_append_cons_of_mem hmem
  obtain ⟨h', e1, e2, e3, e4, e5, e6, e7⟩ := C03_replace_self (h.alloc n).2 x p [h.next] pre post
    (by rw [E.parent hx, hpar]) (by rw [E.children hp, hpos]) hnb
    (by
      intro c hc
      simp only [List.mem_singleton] at hc
      subst hc
      left
      simpa [Heap.alloc] using hposs)
  have hy : ∀ z, z < h.next → z ≠ h.next := fun z hz => Nat.ne_of_lt hz
  have hget : (h.alloc n).2.get h.next = n := by simp [Heap.alloc]
  have hyc : h'.get h.next = { n with
      parent := (h'.get h.next).parent, kids := (h'.get h.next).kids } := by
    have := e7.get h.next
    rw [hget] at this
    exact this
  refine ⟨h', e1, ⟨?_, ?_, ?_, ?_, ?_, ?_, ?_, ?_, ?_⟩, ?_, ?_⟩
  · rw [e7.1]; exact E.next
  · rw [e7.1]; exact ⟨Nat.le_refl _, Nat.lt_succ_self _⟩
  · intro pre' post' h1 h2
    rw [hpos] at h1
    have h3 := (Nodes.idxOf?_split (l := pre ++ x :: post)).mpr ⟨pre, post, rfl, hnb, rfl⟩
    rw [Nodes.idxOf?_split.mpr ⟨pre', post', h1, h2, rfl⟩] at h3
    have h4 := List.append_inj h1 (Option.some.inj h3).symm
    have h5 : post = post' := by simpa using h4.2
    rw [e2, h4.1, h5]; simp
  · intro z hz hzp
    rw [e3 z hzp, E.children hz]
  · unfold Heap.children Heap.isInst
    rw [if_neg]
    rw [hyc]; simpa using hleaf
  · exact e4 _ (by simp)
  · intro z hz hzx
    rw [e6 z hzx (by simp [hy z hz]), E.parent hz]
  · exact e5 (by simp [hy x hx])
  · intro z hz
    have := e7.get z
    rw [E.get z hz] at this
    simpa using this
  · rw [hyc]; rfl
  · exact e7.1

/-! ### The pieces of the loop body -/

/-- The back-links that a citation with label `c` adds. -/
def addBacklinks (c : Str) (ts : List Ref) (h : Heap) : Heap :=
  ts.foldl (fun h b => h.update b fun n => { n with backlinks := n.backlinks ++ [c] }) h

theorem addBacklinks_next (c : Str) (ts : List Ref) (h : Heap) :
    (addBacklinks c ts h).next = h.next := by
  induction ts generalizing h with
  | nil => rfl
  | cons b ts ih => simp only [addBacklinks, List.foldl_cons] at *; rw [ih]; rfl

theorem addBacklinks_get (c : Str) (ts : List Ref) (h : Heap) (z : Ref) :
    (addBacklinks c ts h).get z = { h.get z with
      backlinks := (h.get z).backlinks ++ List.replicate (ts.count z) c } := by
  induction ts generalizing h with
  | nil => simp [addBacklinks]
  | cons b ts ih =>
    have := ih (h.update b fun n => { n with backlinks := n.backlinks ++ [c] })
    simp only [addBacklinks, List.foldl_cons] at this ⊢
    rw [this, Heap.get_update]
    by_cases hz : z = b
    · subst hz
      simp only [if_true, List.count_cons_self, List.append_assoc]
      rw [List.replicate_succ, List.singleton_append]
    · simp only [hz, if_false]
      rw [List.count_cons_of_ne (Ne.symm hz)]

theorem addBacklinks_children (c : Str) (ts : List Ref) (h : Heap) (z : Ref) :
    (addBacklinks c ts h).children z = h.children z :=
  children_of_get (by rw [addBacklinks_get]) (by rw [addBacklinks_get])

theorem addBacklinks_parent (c : Str) (ts : List Ref) (h : Heap) (z : Ref) :
    (addBacklinks c ts h).parent z = h.parent z := by
  unfold Heap.parent; rw [addBacklinks_get]

theorem forEach_appendBacklink (c : Str) (ts : List Ref) (s : TState) :
    (forEach (appendBacklink c) ts s).Sat
      (fun _ s' => (∀ b ∈ ts, s.heap.isInst b .Bibitem = true) ∧
        s' = { s with heap := addBacklinks c ts s.heap })
      (fun e _ => e = .attributeError ∧ ∃ b ∈ ts, s.heap.isInst b .Bibitem = false) := by
  induction ts generalizing s with
  | nil => exact ⟨by simp, rfl⟩
  | cons b ts ih =>
    rw [forEach_cons]
    unfold appendBacklink
    simp only [bind_apply, get_apply]
    by_cases hb : s.heap.isInst b .Bibitem = true
    · simp only [hb, if_true, assign, modify_apply]
      have hi : ∀ z, (s.heap.update b fun n =>
          { n with backlinks := n.backlinks ++ [c] }).isInst z .Bibitem = s.heap.isInst z .Bibitem := by
        intro z; unfold Heap.isInst; rw [Heap.get_update]; split <;> rfl
      refine Res.Sat.mono (ih _) ?_ ?_
      · rintro _ s' ⟨h1, h2⟩
        refine ⟨?_, h2⟩
        intro z hz
        simp only [List.mem_cons] at hz
        rcases hz with rfl | hz
        · exact hb
        · rw [← hi]; exact h1 z hz
      · rintro e s' ⟨h1, z, hz, h2⟩
        exact ⟨h1, z, by simp [hz], by rw [← hi]; exact h2⟩
    · simp only [hb]
      exact ⟨rfl, b, by simp, by simpa using hb⟩

/-- What a target label of a citation stands for: the node known to the index, or a new unknown
bibliography item. -/
def CiteTarget (L : List (Str × Ref)) (lo : Nat) (h : Heap) (l : Str) (b : Ref) : Prop :=
  match L.lookup l with
  | some r => b = r
  | none => lo ≤ b ∧ b < h.next ∧
      h.get b = { NodeRec.new .UnknownBibitem with number := .str (unknownLabelText l) }

theorem mapM'_cons {σ α β : Type} (f : α → PyM σ β) (x : α) (xs : List α) (s : σ) :
    mapM' f (x :: xs) s = (match f x s with
      | .ok y s' => match mapM' f xs s' with
        | .ok ys s'' => .ok (y :: ys) s''
        | .err e s'' => .err e s''
      | .err e s' => .err e s') := by
  rw [mapM', bind_apply]
  cases f x s with
  | err e s' => rfl
  | ok y s' =>
    simp only [bind_apply]
    cases mapM' f xs s' <;> rfl

theorem mapM'_labelToBibitem (ls : List Str) (s : TState) (hL : ∀ l r, s.labels.lookup l = some r →
    r < s.heap.next) :
    ∃ ts s', mapM' labelToBibitem ls s = .ok ts s' ∧ Ext s.heap s'.heap ∧ s'.labels = s.labels ∧
      s'.log = s.log ++ (ls.filter fun l => (s.labels.lookup l).isNone).map .unknownLabel ∧
      List.Forall₂ (CiteTarget s.labels s.heap.next s'.heap) ls ts ∧
      (∀ b, b < s.heap.next → ts.count b = (ls.filter fun l => s.labels.lookup l = some b).length) ∧
      (∀ b, s.heap.next ≤ b → b < s'.heap.next → ts.count b = 1) ∧
      (∀ b ∈ ts, b < s'.heap.next) := by
  induction ls generalizing s with
  | nil =>
    refine ⟨[], s, rfl, Ext.refl _, rfl, by simp, .nil, by simp, ?_, by simp⟩
    intro b h1 h2; omega
  | cons l ls ih =>
    rw [mapM'_cons]
    cases hl : s.labels.lookup l with
    | some r =>
      have hr := hL l r hl
      have hb : labelToBibitem l s = .ok r s := by
        simp only [labelToBibitem, bind_apply, get_apply, hl]; rfl
      obtain ⟨ts, s', h1, h2, h3, h4, h5, h6, h7, h8⟩ := ih s hL
      rw [hb]; simp only [h1]
      refine ⟨r :: ts, s', rfl, h2, h3, ?_, .cons ?_ h5, ?_, ?_, ?_⟩
      · rw [h4]; simp [hl]
      · simp only [CiteTarget, hl]
      · intro b hb'
        rw [List.filter_cons]
        by_cases hbr : b = r
        · subst hbr; simp [hl, h6 b hb']
        · simp [hl, Ne.symm hbr, h6 b hb', List.count_cons_of_ne (Ne.symm hbr)]
      · intro b h9 h10
        rw [List.count_cons_of_ne (by omega)]
        exact h7 b h9 h10
      · intro b hb'
        simp only [List.mem_cons] at hb'
        rcases hb' with rfl | hb'
        · exact Nat.lt_of_lt_of_le hr h2.next
        · exact h8 b hb'
    | none =>
      let n : NodeRec := { NodeRec.new .UnknownBibitem with number := .str (unknownLabelText l) }
      let s1 : TState := { s with
        log := s.log ++ [.unknownLabel l], heap := (s.heap.alloc n).2 }
      have hb : labelToBibitem l s = .ok s.heap.next s1 := by
        simp only [labelToBibitem, bind_apply, get_apply, hl]; rfl
      have E : Ext s.heap s1.heap := Ext.alloc _ _
      have hn1 : s1.heap.next = s.heap.next + 1 := rfl
      obtain ⟨ts, s', h1, h2, h3, h4, h5, h6, h7, h8⟩ := ih s1 (fun l' r hr =>
        Nat.lt_of_lt_of_le (hL l' r hr) E.next)
      rw [hb]; simp only [h1]
      have hcount : ts.count s.heap.next = 0 := by
        rw [h6 _ (by rw [hn1]; omega), List.length_eq_zero_iff, List.filter_eq_nil_iff]
        intro l' _
        simp only [decide_eq_true_eq]
        intro hh
        exact absurd (hL l' _ hh) (Nat.lt_irrefl _)
      refine ⟨s.heap.next :: ts, s', rfl, E.trans h2, h3, ?_, .cons ?_ ?_, ?_, ?_, ?_⟩
      · rw [h4]; simp [hl, s1]
      · simp only [CiteTarget, hl]
        refine ⟨Nat.le_refl _, Nat.lt_of_lt_of_le (by rw [hn1]; omega) h2.next, ?_⟩
        rw [h2.get _ (by rw [hn1]; omega)]
        simp [s1, Heap.alloc, n]
      · refine h5.imp ?_
        intro l' b hb'
        unfold CiteTarget at hb' ⊢
        simp only [show s1.labels = s.labels from rfl] at hb'
        split at hb'
        · exact hb'
        · exact ⟨by rw [hn1] at hb'; omega, hb'.2⟩
      · intro b hb'
        rw [List.count_cons_of_ne (by omega), h6 b (by rw [hn1]; omega), List.filter_cons]
        simp [hl, s1]
      · intro b h9 h10
        by_cases hbn : b = s.heap.next
        · subst hbn; simp [hcount]
        · rw [List.count_cons_of_ne (Ne.symm hbn)]
          exact h7 b (by rw [hn1]; omega) h10
      · intro b hb'
        simp only [List.mem_cons] at hb'
        rcases hb' with rfl | hb'
        · exact Nat.lt_of_lt_of_le (by rw [hn1]; omega) h2.next
        · exact h8 b hb'

/-- The label a pending reference names. -/
def wantedLabel (n : NodeRec) : Str :=
  match n.target with
  | .str l => l
  | _ => "None".toList

/-- The node that a `:prev:` refers to. -/
def prevResult (h : Heap) (fuel : Nat) (x : Ref) : Except PyErr Ref :=
  match h.firstAncestorOfType [.Step] fuel x with
  | none => .error .outOfFuel
  | some none => .error .rsmTransformerError
  | some (some step) =>
    match prevCount (h.get x) with
    | none => .error .valueError
    | some n => prevSteps h n.toNat step

/-- The exception that resolving `x` raises, if any. -/
def fateErr (h : Heap) (L : List (Str × Ref)) (fuel : Nat) (x : Ref) : Option PyErr :=
  match (h.get x).cls with
  | .PendingReference =>
    match (h.get x).target with
    | .node _ => some .typeError
    | _ => none
  | .PendingCite =>
    if ∀ l ∈ (h.get x).targetlabels, ∀ r, L.lookup l = some r → h.isInst r .Bibitem = true
    then none else some .attributeError
  | .PendingPrev =>
    match prevResult h fuel x with
    | .error e => some e
    | .ok _ => none
  | _ => none


/-- The back-links that resolving `x` adds to the bibliography item `b`, when `k` citations came
before. -/
def newBacklinks (h : Heap) (L : List (Str × Ref)) (k : Nat) (x b : Ref) : List Str :=
  if (h.get x).cls = .PendingCite then
    List.replicate ((h.get x).targetlabels.filter fun l => L.lookup l = some b).length (citeLabel k)
  else []

/-- The warnings logged when `x` is resolved. -/
def newWarnings (h : Heap) (L : List (Str × Ref)) (fuel : Nat) (x : Ref) : List TWarning :=
  match (h.get x).cls with
  | .PendingReference =>
    if (L.lookup (wantedLabel (h.get x))).isNone then [.unknownLabel (wantedLabel (h.get x))] else []
  | .PendingCite =>
    ((h.get x).targetlabels.filter fun l => (L.lookup l).isNone).map .unknownLabel
  | .PendingPrev =>
    match prevResult h fuel x with
    | .ok q => if (strip (h.get q).label).isEmpty then [.unlabeledPrev] else []
    | .error _ => []
  | _ => []

/-- A target of a resolved citation with label `c`. -/
def CitedNode (L : List (Str × Ref)) (lo : Nat) (h : Heap) (c : Str) (l : Str) (b : Ref) : Prop :=
  match L.lookup l with
  | some r => b = r
  | none => lo ≤ b ∧ b < h.next ∧ h.parent b = none ∧ (h.get b).core =
      { NodeRec.new .UnknownBibitem with number := .str (unknownLabelText l), backlinks := [c] }

/-- `y` in `h'` is what `x` in `h` is replaced by, when `k` citations came before and the objects
from `lo` on are new. -/
def ReplacementOf (h : Heap) (L : List (Str × Ref)) (fuel lo k : Nat) (x : Ref) (h' : Heap)
    (y : Ref) : Prop :=
  match (h.get x).cls with
  | .PendingReference =>
    match L.lookup (wantedLabel (h.get x)) with
    | some r => (h'.get y).core = { NodeRec.new .Reference with
        target := .node r, overwriteReftext := (h.get x).overwriteReftext }
    | none => (h'.get y).core = { NodeRec.new .Error with
        text := unknownLabelText (wantedLabel (h.get x)) }
  | .PendingCite => ∃ ts, (h'.get y).core = { NodeRec.new .Cite with
        targets := ts, label := citeLabel k } ∧
      List.Forall₂ (CitedNode L lo h' (citeLabel k)) (h.get x).targetlabels ts
  | .PendingPrev => ∃ q, prevResult h fuel x = .ok q ∧
      (h'.get y).core = { NodeRec.new .Reference with
        target := .node q, overwriteReftext := (h.get x).overwriteReftext }
  | _ => True

theorem resolveReference_spec {s : TState} {x p : Ref} (fuel k : Nat) (hx : x < s.heap.next)
    (hp : p < s.heap.next) (hpar : s.heap.parent x = some p) (hmem : x ∈ s.heap.children p)
    (hcls : (s.heap.get x).cls = .PendingReference)
    (hL : ∀ l r, s.labels.lookup l = some r → r < s.heap.next ∧ s.heap.isInst r .Error = false) :
    (resolveReference x s).Sat
      (fun _ s' => ∃ y, Swap s.heap s'.heap x p y (fun _ => []) ∧ s'.labels = s.labels ∧
        s'.log = s.log ++ newWarnings s.heap s.labels fuel x ∧
        ReplacementOf s.heap s.labels fuel s.heap.next k x s'.heap y ∧
        fateErr s.heap s.labels fuel x = none)
      (fun e _ => fateErr s.heap s.labels fuel x = some e) := by
  have main : ∀ l, wantedLabel (s.heap.get x) = l → fateErr s.heap s.labels fuel x = none →
      ((do
        let target ← labelToNode l
        let s ← get
        if s.heap.isInst target .Error then onHeap (Nodes.replaceSelf x [target])
        else do
          let ref ← onHeap (Nodes.new { NodeRec.new .Reference with
            target := .node target, overwriteReftext := (s.heap.get x).overwriteReftext })
          onHeap (Nodes.replaceSelf x [ref]) : TM Unit) s).Sat
      (fun _ s' => ∃ y, Swap s.heap s'.heap x p y (fun _ => []) ∧ s'.labels = s.labels ∧
        s'.log = s.log ++ newWarnings s.heap s.labels fuel x ∧
        ReplacementOf s.heap s.labels fuel s.heap.next k x s'.heap y ∧
        fateErr s.heap s.labels fuel x = none)
      (fun e _ => fateErr s.heap s.labels fuel x = some e) := by
    intro l hl hfate
    simp only [newWarnings, ReplacementOf, hcls, hl]
    cases hlk : s.labels.lookup l with
    | some r =>
      have hb : labelToNode l s = .ok r s := by
        simp only [labelToNode, bind_apply, get_apply, hlk]; rfl
      rw [bind_apply, hb]
      simp only [bind_apply, get_apply, (hL l r hlk).2, Bool.false_eq_true, if_false]
      obtain ⟨h', e1, e2, e3, e4⟩ := alloc_swap s.heap { NodeRec.new .Reference with
        target := .node r, overwriteReftext := (s.heap.get x).overwriteReftext } hx hp hpar hmem
        rfl (by simp only [NodeRec.new]; decide)
      simp only [onHeap, zoom, Nodes.new, modifyGet_apply, Heap.alloc] at *
      rw [e1]
      exact ⟨_, e2, rfl, by simp, e3, hfate⟩
    | none =>
      rw [bind_apply]
      have hb : labelToNode l s = .ok s.heap.next { s with
          log := s.log ++ [.unknownLabel l]
          heap := (s.heap.alloc { NodeRec.new .Error with text := unknownLabelText l }).2 } := by
        simp only [labelToNode, bind_apply, get_apply, hlk]; rfl
      rw [hb]
      obtain ⟨h', e1, e2, e3, e4⟩ := alloc_swap s.heap { NodeRec.new .Error with
        text := unknownLabelText l } hx hp hpar hmem rfl (by simp only [NodeRec.new]; decide)
      have hE : (s.heap.alloc { NodeRec.new .Error with text := unknownLabelText l }).2.isInst
          s.heap.next .Error = true := by
        simp only [Heap.isInst, Heap.alloc, if_true, NodeRec.new]; decide
      simp only [bind_apply, get_apply, hE, if_true]
      simp only [onHeap, zoom, e1]
      exact ⟨_, e2, rfl, by simp, e3, hfate⟩
  unfold resolveReference
  rw [bind_apply, get_apply]
  simp only
  cases ht : (s.heap.get x).target with
  | str l => exact main l (by simp [wantedLabel, ht]) (by simp [fateErr, hcls, ht])
  | none => exact main _ (by simp [wantedLabel, ht]) (by simp [fateErr, hcls, ht])
  | node r => simp [Res.Sat, fateErr, hcls, ht]

theorem resolvePrev_spec {s : TState} {x p : Ref} (fuel k : Nat) (hx : x < s.heap.next)
    (hp : p < s.heap.next) (hpar : s.heap.parent x = some p) (hmem : x ∈ s.heap.children p)
    (hcls : (s.heap.get x).cls = .PendingPrev) :
    (resolvePrev fuel x s).Sat
      (fun _ s' => ∃ y, Swap s.heap s'.heap x p y (fun _ => []) ∧ s'.labels = s.labels ∧
        s'.log = s.log ++ newWarnings s.heap s.labels fuel x ∧
        ReplacementOf s.heap s.labels fuel s.heap.next k x s'.heap y ∧
        fateErr s.heap s.labels fuel x = none)
      (fun e _ => fateErr s.heap s.labels fuel x = some e) := by
  have hrun : resolvePrev fuel x s = (match prevResult s.heap fuel x with
      | .error e => .err e s
      | .ok target => (do
        if (strip (s.heap.get target).label).isEmpty then warn .unlabeledPrev else pure ()
        let ref ← onHeap (Nodes.new { NodeRec.new .Reference with
          target := .node target, overwriteReftext := (s.heap.get x).overwriteReftext })
        onHeap (Nodes.replaceSelf x [ref]) : TM Unit) s) := by
    unfold resolvePrev prevResult
    rw [bind_apply, get_apply]
    simp only
    cases s.heap.firstAncestorOfType [.Step] fuel x with
    | none => rfl
    | some o =>
      cases o with
      | none => rfl
      | some step =>
        simp only
        cases prevCount (s.heap.get x) with
        | none => rfl
        | some n =>
          simp only
          cases prevSteps s.heap n.toNat step <;> rfl
  rw [hrun]
  simp only [newWarnings, ReplacementOf, fateErr, hcls]
  cases hres : prevResult s.heap fuel x with
  | error e => simp [Res.Sat]
  | ok q =>
    simp only
    obtain ⟨h', e1, e2, e3, e4⟩ := alloc_swap s.heap { NodeRec.new .Reference with
      target := .node q, overwriteReftext := (s.heap.get x).overwriteReftext } hx hp hpar hmem
      rfl (by simp only [NodeRec.new]; decide)
    simp only [Heap.alloc] at e1
    by_cases hl : (strip (s.heap.get q).label).isEmpty = true
    · simp only [hl, if_true, bind_apply, warn, modify_apply, onHeap, zoom, Nodes.new,
        modifyGet_apply, Heap.alloc, e1]
      exact ⟨_, e2, rfl, rfl, ⟨q, rfl, e3⟩, trivial⟩
    · simp only [hl, Bool.false_eq_true, if_false, bind_apply, onHeap, zoom, Nodes.new,
        modifyGet_apply, Heap.alloc, e1]
      exact ⟨_, e2, rfl, by simp, ⟨q, rfl, e3⟩, trivial⟩

theorem Swap.of_ext {h h1 h2 : Heap} {x p y bl} (E : Ext h h1) (S : Swap h1 h2 x p y bl)
    (hp : p < h.next) : Swap h h2 x p y bl where
  next := Nat.le_trans E.next S.next
  fresh := ⟨Nat.le_trans E.next S.fresh.1, S.fresh.2⟩
  kids := by intro pre post h1 h2; exact S.kids pre post (by rw [E.children hp, h1]) h2
  other := by
    intro z hz hzp
    rw [S.other z (Nat.lt_of_lt_of_le hz E.next) hzp, E.children hz]
  leaf := S.leaf
  parentNew := S.parentNew
  parentOld := by
    intro z hz hzp
    rw [S.parentOld z (Nat.lt_of_lt_of_le hz E.next) hzp, E.parent hz]
  gone := S.gone
  attrs := by
    intro z hz
    have := S.attrs z (Nat.lt_of_lt_of_le hz E.next)
    rw [E.get z hz] at this
    exact this

theorem Swap.backlinks {h h1 : Heap} {x p y} (S : Swap h h1 x p y fun _ => []) (c : Str)
    (ts : List Ref) : Swap h (addBacklinks c ts h1) x p y fun b => List.replicate (ts.count b) c where
  next := by rw [addBacklinks_next]; exact S.next
  fresh := by rw [addBacklinks_next]; exact S.fresh
  kids := by intro pre post h1 h2; rw [addBacklinks_children]; exact S.kids pre post h1 h2
  other := by intro z h1 h2; rw [addBacklinks_children]; exact S.other z h1 h2
  leaf := by rw [addBacklinks_children]; exact S.leaf
  parentNew := by rw [addBacklinks_parent]; exact S.parentNew
  parentOld := by intro z h1 h2; rw [addBacklinks_parent]; exact S.parentOld z h1 h2
  gone := by rw [addBacklinks_parent]; exact S.gone
  attrs := by
    intro z hz
    rw [addBacklinks_get]
    have := S.attrs z hz
    simp only [List.append_nil] at this
    rw [this]

theorem resolveCite_spec {s : TState} {x p : Ref} (fuel k : Nat) (hx : x < s.heap.next)
    (hp : p < s.heap.next) (hpar : s.heap.parent x = some p) (hmem : x ∈ s.heap.children p)
    (hcls : (s.heap.get x).cls = .PendingCite)
    (hL : ∀ l r, s.labels.lookup l = some r → r < s.heap.next) :
    (resolveCite k x s).Sat
      (fun _ s' => ∃ y, Swap s.heap s'.heap x p y (newBacklinks s.heap s.labels k x) ∧
        s'.labels = s.labels ∧
        s'.log = s.log ++ newWarnings s.heap s.labels fuel x ∧
        ReplacementOf s.heap s.labels fuel s.heap.next k x s'.heap y ∧
        fateErr s.heap s.labels fuel x = none)
      (fun e _ => fateErr s.heap s.labels fuel x = some e) := by
  obtain ⟨ts, s1, h1, h2, h3, h4, h5, h6, h7, h8⟩ :=
    mapM'_labelToBibitem (s.heap.get x).targetlabels s hL
  have hx1 := Nat.lt_of_lt_of_le hx h2.next
  have hp1 := Nat.lt_of_lt_of_le hp h2.next
  obtain ⟨h', e1, e2, e3, e4⟩ := alloc_swap s1.heap { NodeRec.new .Cite with
      targets := ts, label := citeLabel k } hx1 hp1 (by rw [h2.parent hx, hpar])
      (by rw [h2.children hp]; exact hmem) rfl (by simp only [NodeRec.new]; decide)
  have S2 : Swap s.heap h' x p s1.heap.next (fun _ => []) := Swap.of_ext h2 e2 hp
  unfold resolveCite
  rw [bind_apply, get_apply]
  simp only
  rw [bind_apply, h1]
  simp only [bind_apply]
  simp only [onHeap, zoom, Nodes.new, modifyGet_apply]
  rw [show (s1.heap.alloc { NodeRec.new .Cite with targets := ts, label := citeLabel k }).1 =
    s1.heap.next from rfl, e1]
  simp only
  have hbib : (∀ b ∈ ts, h'.isInst b .Bibitem = true) ↔
      ∀ l ∈ (s.heap.get x).targetlabels, ∀ r, s.labels.lookup l = some r →
        s.heap.isInst r .Bibitem = true := by
    have hold : ∀ r, r < s.heap.next → h'.isInst r .Bibitem = s.heap.isInst r .Bibitem := by
      intro r hr
      unfold Heap.isInst
      rw [S2.attrs r hr]
    have hnew : ∀ l b, CiteTarget s.labels s.heap.next s1.heap l b → s.labels.lookup l = none →
        h'.isInst b .Bibitem = true := by
      intro l b hb hn
      simp only [CiteTarget, hn] at hb
      unfold Heap.isInst
      rw [e2.attrs b hb.2.1, hb.2.2]
      simp only [NodeRec.new]; decide
    clear h1 h4 h6 h7 h8 e1 e2 e3
    revert h5
    generalize (s.heap.get x).targetlabels = ls
    intro h5
    induction h5 with
    | nil => simp
    | @cons l b ls ts hlb _ ih =>
      simp only [List.mem_cons, forall_eq_or_imp]
      refine and_congr ?_ ih
      cases hlk : s.labels.lookup l with
      | none => simp [hnew l b hlb hlk]
      | some r =>
        simp only [CiteTarget, hlk] at hlb
        subst hlb
        simp only [Option.some.injEq, forall_eq']
        rw [hold b (hL l b hlk)]
  refine Res.Sat.mono (forEach_appendBacklink (citeLabel k) ts { s1 with heap := h' }) ?_ ?_
  · rintro _ s' ⟨g1, rfl⟩
    refine ⟨s1.heap.next, ?_, h3, ?_, ?_, ?_⟩
    · have := S2.backlinks (citeLabel k) ts
      refine { this with attrs := ?_ }
      intro z hz
      have := this.attrs z hz
      simp only [newBacklinks, hcls, if_true]
      rw [← h6 z hz]
      exact this
    · simp only [newWarnings, hcls]; exact h4
    · simp only [ReplacementOf, hcls]
      refine ⟨ts, ?_, ?_⟩
      · rw [addBacklinks_get]
        have hc : ts.count s1.heap.next = 0 := by
          rw [List.count_eq_zero]
          intro hm
          exact absurd (h8 _ hm) (Nat.lt_irrefl _)
        rw [hc]
        simp only [NodeRec.core, List.replicate_zero, List.append_nil] at e3 ⊢
        exact e3
      · refine h5.imp ?_
        intro l b hb
        unfold CiteTarget at hb
        unfold CitedNode
        split at hb
        · exact hb
        · refine ⟨hb.1, by rw [addBacklinks_next, e4]; omega, ?_, ?_⟩
          · rw [addBacklinks_parent, e2.parentOld b hb.2.1 (by omega), Heap.parent, hb.2.2]
            rfl
          · rw [addBacklinks_get, h7 b hb.1 hb.2.1, e2.attrs b hb.2.1, hb.2.2]
            rfl
    · simp only [fateErr, hcls]
      rw [if_pos (hbib.mp g1)]
  · rintro e s' ⟨rfl, b, hb, hf⟩
    simp only [fateErr, hcls]
    rw [if_neg]
    intro H
    have := hbib.mpr H b hb
    simp only at hf
    rw [this] at hf
    cases hf


theorem isPending_iff (h : Heap) (r : Ref) : isPending h r = true ↔ Pending h r := by
  unfold isPending Pending
  cases (h.get r).cls <;> decide

theorem pending_leaf {h : Heap} {r : Ref} (hr : Pending h r) : h.children r = [] := by
  unfold Heap.children Heap.isInst
  rcases hr with hr | hr | hr <;> rw [if_neg] <;> rw [hr] <;> decide

theorem resolveBody_spec {s : ResolveState} {x p : Ref} (fuel : Nat) (hx : x < s.t.heap.next)
    (hp : p < s.t.heap.next) (hpar : s.t.heap.parent x = some p) (hmem : x ∈ s.t.heap.children p)
    (hpend : Pending s.t.heap x)
    (hL : ∀ l r, s.t.labels.lookup l = some r →
      r < s.t.heap.next ∧ s.t.heap.isInst r .Error = false) :
    (resolveBody fuel x s).Sat
      (fun _ s' => ∃ y, Swap s.t.heap s'.t.heap x p y (newBacklinks s.t.heap s.t.labels s.counter x) ∧
        s'.t.labels = s.t.labels ∧
        s'.t.log = s.t.log ++ newWarnings s.t.heap s.t.labels fuel x ∧
        s'.counter = s.counter + (citations s.t.heap [x]).length ∧
        ReplacementOf s.t.heap s.t.labels fuel s.t.heap.next s.counter x s'.t.heap y ∧
        fateErr s.t.heap s.t.labels fuel x = none)
      (fun e _ => fateErr s.t.heap s.t.labels fuel x = some e) := by
  unfold resolveBody
  rw [bind_apply, get_apply]
  dsimp only
  rcases hpend with hc | hc | hc
  · have h1 : s.t.heap.isInst x .PendingReference = true := by
      unfold Heap.isInst; rw [hc]; decide
    rw [if_pos h1]
    have := resolveReference_spec fuel s.counter hx hp hpar hmem hc hL
    have hbl : newBacklinks s.t.heap s.t.labels s.counter x = fun _ => [] := by
      funext b; simp [newBacklinks, hc]
    simp only [onT, zoom]
    cases hrun : resolveReference x s.t with
    | err e t' => rw [hrun] at this; exact this
    | ok u t' =>
      rw [hrun] at this
      obtain ⟨y, g1, g2, g3, g4, g5⟩ := this
      exact ⟨y, by rw [hbl]; exact g1, g2, g3, by simp [citations, hc], g4, g5⟩
  · have h1 : s.t.heap.isInst x .PendingReference = false := by
      unfold Heap.isInst; rw [hc]; decide
    have h2 : s.t.heap.isInst x .PendingCite = true := by
      unfold Heap.isInst; rw [hc]; decide
    rw [if_neg (by simp [h1]), if_pos h2, bind_apply, modify_apply]
    dsimp only
    have := resolveCite_spec fuel s.counter hx hp hpar hmem hc (fun l r hr => (hL l r hr).1)
    simp only [onT, zoom]
    cases hrun : resolveCite s.counter x s.t with
    | err e t' => rw [hrun] at this; exact this
    | ok u t' =>
      rw [hrun] at this
      obtain ⟨y, g1, g2, g3, g4, g5⟩ := this
      exact ⟨y, g1, g2, g3, by simp [citations, hc], g4, g5⟩
  · have h1 : s.t.heap.isInst x .PendingReference = false := by
      unfold Heap.isInst; rw [hc]; decide
    have h2 : s.t.heap.isInst x .PendingCite = false := by
      unfold Heap.isInst; rw [hc]; decide
    have h3 : s.t.heap.isInst x .PendingPrev = true := by
      unfold Heap.isInst; rw [hc]; decide
    rw [if_neg (by simp [h1]), if_neg (by simp [h2]), if_pos h3]
    have := resolvePrev_spec fuel s.counter hx hp hpar hmem hc
    have hbl : newBacklinks s.t.heap s.t.labels s.counter x = fun _ => [] := by
      funext b; simp [newBacklinks, hc]
    simp only [onT, zoom]
    cases hrun : resolvePrev fuel x s.t with
    | err e t' => rw [hrun] at this; exact this
    | ok u t' =>
      rw [hrun] at this
      obtain ⟨y, g1, g2, g3, g4, g5⟩ := this
      exact ⟨y, by rw [hbl]; exact g1, g2, g3, by simp [citations, hc], g4, g5⟩

/-! ### The invariant of the loop -/

/-- All back-links that the citations in `done` add to `b`. -/
def allBacklinks (h : Heap) (L : List (Str × Ref)) (done : List Ref) (b : Ref) : List Str :=
  (citations h done).zipIdx.flatMap fun xk => newBacklinks h L xk.2 xk.1 b

theorem citations_append (h : Heap) (a b : List Ref) :
    citations h (a ++ b) = citations h a ++ citations h b := by
  simp [citations]

theorem allBacklinks_concat (h : Heap) (L) (done : List Ref) (r b : Ref) :
    allBacklinks h L (done ++ [r]) b =
      allBacklinks h L done b ++ newBacklinks h L (citations h done).length r b := by
  unfold allBacklinks
  rw [citations_append, List.zipIdx_append, List.flatMap_append]
  congr 1
  by_cases hr : (h.get r).cls = .PendingCite
  · simp [citations, hr]
  · simp [citations, hr, newBacklinks]

structure ResInv (h : Heap) (L : List (Str × Ref)) (log0 : List TWarning) (fuel : Nat) (t : Tree)
    (done : List Ref) (σ : Ref → Ref) (s : ResolveState) : Prop where
  next : h.next ≤ s.t.heap.next
  labels : s.t.labels = L
  log : s.t.log = log0 ++ (done.filter fun x => Pending h x).flatMap (newWarnings h L fuel)
  counter : s.counter = (citations h done).length
  old : ∀ x < h.next, s.t.heap.get x = { h.get x with
    parent := (s.t.heap.get x).parent, kids := (s.t.heap.get x).kids,
    backlinks := (h.get x).backlinks ++ allBacklinks h L done x }
  kids : ∀ x ∈ t.pre, s.t.heap.children x = (h.children x).map σ
  kidsOut : ∀ x < h.next, x ∉ t.pre → s.t.heap.children x = h.children x
  parent : ∀ x < h.next, ¬ (x ∈ done ∧ Pending h x) → s.t.heap.parent x = h.parent x
  fix : ∀ x, ¬ (x ∈ done ∧ Pending h x) → σ x = x
  fresh : ∀ x ∈ done, Pending h x → h.next ≤ σ x ∧ σ x < s.t.heap.next ∧
    s.t.heap.parent (σ x) = h.parent x ∧ s.t.heap.children (σ x) = []
  inj : ∀ x ∈ done, ∀ y ∈ done, Pending h x → Pending h y → σ x = σ y → x = y
  desc : ∀ pre x post, done = pre ++ x :: post → Pending h x →
    ReplacementOf h L fuel h.next (citations h pre).length x s.t.heap (σ x)
  fine : ∀ x ∈ done, Pending h x → fateErr h L fuel x = none
  gone : ∀ x ∈ done, Pending h x → s.t.heap.parent x = none

theorem core_cls {a b : NodeRec} (h : a.core = b) : a.cls = b.cls := by
  rw [← h]; rfl

theorem ReplacementOf.cls {h L fuel lo k x h' y} (hr : ReplacementOf h L fuel lo k x h' y)
    (hp : Pending h x) :
    (h'.get y).cls = .Reference ∨ (h'.get y).cls = .Error ∨ (h'.get y).cls = .Cite := by
  unfold ReplacementOf at hr
  rcases hp with hp | hp | hp
  · simp only [hp] at hr
    split at hr
    · exact .inl (core_cls hr)
    · exact .inr (.inl (core_cls hr))
  · simp only [hp] at hr
    obtain ⟨ts, h1, _⟩ := hr
    exact .inr (.inr (core_cls h1))
  · simp only [hp] at hr
    obtain ⟨ts, _, h1⟩ := hr
    exact .inl (core_cls h1)

namespace ResInv
variable {h : Heap} {L : List (Str × Ref)} {log0 : List TWarning} {fuel : Nat} {root : Ref}
  {t : Tree} {done : List Ref} {σ : Ref → Ref} {s : ResolveState}

theorem cls_old (I : ResInv h L log0 fuel t done σ s) {x} (hx : x < h.next) :
    (s.t.heap.get x).cls = (h.get x).cls := by rw [I.old x hx]

theorem cls_new (I : ResInv h L log0 fuel t done σ s) {x} (hx : x ∈ done) (hp : Pending h x) :
    (s.t.heap.get (σ x)).cls = .Reference ∨ (s.t.heap.get (σ x)).cls = .Error ∨
      (s.t.heap.get (σ x)).cls = .Cite := by
  obtain ⟨pre, post, hd⟩ := List.append_of_mem hx
  exact (I.desc pre x post hd hp).cls hp

end ResInv

/-- The parent of a node of a document other than its root is in the document. -/
theorem Doc.parent_mem {h : Heap} {root t} (D : Doc h root t) {x} (hx : x ∈ t.pre) (hr : x ≠ root) :
    ∃ p ∈ t.pre, h.parent x = some p ∧ x ∈ h.children p := by
  have key : ∀ (t : Tree) (q : Option Ref), IsTree h q t → x ∈ t.pre → x ≠ t.root →
      ∃ p ∈ t.pre, h.parent x = some p ∧ x ∈ h.children p := by
    intro t
    induction t using Tree.induct with
    | _ i ks ih =>
      intro q ht hx hne
      simp only [pre_node, List.mem_cons, mem_preL, root_node] at hx hne
      rcases hx with rfl | ⟨k, hk, hxk⟩
      · exact absurd rfl hne
      · have hk' := (isTree_node.mp ht).2.2 k hk
        by_cases hxr : x = k.root
        · refine ⟨i, by simp, ?_, ?_⟩
          · rw [hxr]; exact hk'.parent_root
          · rw [(isTree_node.mp ht).2.1, hxr]; exact List.mem_map_of_mem hk
        · obtain ⟨p, hp, h1, h2⟩ := ih k hk _ hk' hxk hxr
          exact ⟨p, by simp only [pre_node, List.mem_cons, mem_preL]; exact .inr ⟨k, hk, hp⟩, h1, h2⟩
  exact key t none D.tree hx (by rw [D.root_eq]; exact hr)

theorem Doc.children_nodup {h : Heap} {root t} (D : Doc h root t) {p} (hp : p ∈ t.pre) :
    (h.children p).Nodup := by
  obtain ⟨v, hv, rfl⟩ := exists_subtree hp
  obtain ⟨q, hq⟩ := D.tree.subtree hv
  rw [hq.children_root]
  have := nodup_subtree D.nodup hv
  cases v with
  | node i ks => exact roots_nodup ks (List.nodup_cons.mp this).2

theorem Doc.children_mem {h : Heap} {root t} (D : Doc h root t) {p} (hp : p ∈ t.pre) {x}
    (hx : x ∈ h.children p) : x ∈ t.pre ∧ h.parent x = some p := by
  obtain ⟨v, hv, rfl⟩ := exists_subtree hp
  obtain ⟨q, hq⟩ := D.tree.subtree hv
  rw [hq.children_root] at hx
  obtain ⟨k, hk, rfl⟩ := List.mem_map.mp hx
  cases v with
  | node i ks =>
    refine ⟨mem_pre_of_subtree hv ?_, ((isTree_node.mp hq).2.2 k hk).parent_root⟩
    simp only [pre_node, List.mem_cons, mem_preL]
    exact .inr ⟨k, hk, root_mem_pre k⟩

theorem Doc.parent_root_none {h : Heap} {root t} (D : Doc h root t) : h.parent root = none := by
  have := D.tree.parent_root
  rwa [D.root_eq] at this


theorem find?_congr_mem {α : Type} {l : List α} {P Q : α → Bool} (h : ∀ x ∈ l, P x = Q x) :
    l.find? P = l.find? Q := by
  induction l with
  | nil => rfl
  | cons x l ih =>
    rw [List.find?_cons, List.find?_cons, h x (by simp), ih fun y hy => h y (by simp [hy])]

namespace ResInv
variable {h : Heap} {L : List (Str × Ref)} {log0 : List TWarning} {fuel : Nat} {root : Ref}
  {t : Tree} {done : List Ref} {σ : Ref → Ref} {s : ResolveState}

theorem firstAncestor (I : ResInv h L log0 fuel t done σ s) (D : Doc h root t) (cs : List Cls)
    (n : Nat) {x : Ref} (hx : x ∈ t.pre) (hnd : ¬ (x ∈ done ∧ Pending h x)) :
    s.t.heap.firstAncestorOfType cs n x = h.firstAncestorOfType cs n x := by
  induction n generalizing x with
  | zero => rfl
  | succ n ih =>
    rw [Heap.firstAncestorOfType, Heap.firstAncestorOfType, I.parent x (D.bound x hx) hnd]
    cases hp : h.parent x with
    | none => rfl
    | some p =>
      have hxr : x ≠ root := by rintro rfl; rw [D.parent_root_none] at hp; cases hp
      obtain ⟨p', hp1, hp2, hp3⟩ := D.parent_mem hx hxr
      rw [hp] at hp2
      obtain rfl := Option.some.inj hp2
      have hnp : ¬ Pending h p := by
        intro H; rw [pending_leaf H] at hp3; cases hp3
      simp only
      rw [I.cls_old (D.bound p hp1), ih hp1 (fun H => hnp H.2)]

theorem prevSibling (I : ResInv h L log0 fuel t done σ s) (D : Doc h root t)
    {x : Ref} (hx : x ∈ t.pre) (hc : (h.get x).cls = .Step) :
    s.t.heap.prevSibling x (.cls .Step) = h.prevSibling x (.cls .Step) ∧
    (∀ q, h.prevSibling x (.cls .Step) = .ok (some q) → q ∈ t.pre ∧ (h.get q).cls = .Step) := by
  have hnp : ∀ z, (h.get z).cls = .Step → ¬ Pending h z := by
    intro z hz H; unfold Pending at H; rw [hz] at H; revert H; decide
  unfold Heap.prevSibling
  rw [I.parent x (D.bound x hx) (fun H => hnp x hc H.2)]
  cases hp : h.parent x with
  | none => exact ⟨rfl, by simp⟩
  | some p =>
    have hxr : x ≠ root := by rintro rfl; rw [D.parent_root_none] at hp; cases hp
    obtain ⟨p', hp1, hp2, hp3⟩ := D.parent_mem hx hxr
    rw [hp] at hp2
    obtain rfl := Option.some.inj hp2
    obtain ⟨pre, post, hpos, hnb⟩ := List.eq_append_cons_of_mem hp3
    have hσx : σ x = x := I.fix x (fun H => hnp x hc H.2)
    have hkids := I.kids p hp1
    rw [hpos] at hkids
    simp only [List.map_append, List.map_cons, hσx] at hkids
    have hnb' : x ∉ pre.map σ := by
      intro hm
      obtain ⟨z, hz, hzx⟩ := List.mem_map.mp hm
      by_cases hzd : z ∈ done ∧ Pending h z
      · have := (I.fresh z hzd.1 hzd.2).1
        rw [hzx] at this
        exact absurd (D.bound x hx) (by omega)
      · rw [I.fix z hzd] at hzx
        exact hnb (hzx ▸ hz)
    simp only
    rw [hkids, hpos, Nodes.idxOf?_split.mpr ⟨pre, post, rfl, hnb, rfl⟩,
      Nodes.idxOf?_split.mpr ⟨pre.map σ, post.map σ, rfl, hnb', rfl⟩]
    simp only [List.length_map, List.take_left]
    have htake : (pre.map σ ++ x :: post.map σ).take pre.length = pre.map σ := by
      rw [← List.length_map (f := σ), List.take_left]
    rw [htake]
    have htest : ∀ z ∈ pre, s.t.heap.sibTest x (.cls .Step) (σ z) = h.sibTest x (.cls .Step) z := by
      intro z hz
      have hzt := (D.children_mem hp1 (by rw [hpos]; simp [hz] : z ∈ h.children p)).1
      show (s.t.heap.get (σ z)).cls.isSub .Step = (h.get z).cls.isSub .Step
      by_cases hzd : z ∈ done ∧ Pending h z
      · have h1 : (h.get z).cls.isSub .Step = false := by
          rcases hzd.2 with e | e | e <;> rw [e] <;> decide
        have h2 : (s.t.heap.get (σ z)).cls.isSub .Step = false := by
          rcases I.cls_new hzd.1 hzd.2 with e | e | e <;> rw [e] <;> decide
        rw [h1, h2]
      · rw [I.fix z hzd, I.cls_old (D.bound z hzt)]
    have hfind : (pre.map σ).reverse.find? (s.t.heap.sibTest x (.cls .Step)) =
        pre.reverse.find? (h.sibTest x (.cls .Step)) := by
      rw [← List.map_reverse, List.find?_map]
      have : pre.reverse.find? (s.t.heap.sibTest x (.cls .Step) ∘ σ) =
          pre.reverse.find? (h.sibTest x (.cls .Step)) := by
        apply find?_congr_mem
        intro z hz
        exact htest z (List.mem_reverse.mp hz)
      rw [this]
      cases hf : pre.reverse.find? (h.sibTest x (.cls .Step)) with
      | none => rfl
      | some z =>
        have := List.find?_some hf
        unfold Heap.sibTest Heap.isInst at this
        have hzc := (Cls.isSub_step _).mp this
        simp only [Option.map_some, Option.some.injEq]
        exact I.fix z (fun H => hnp z hzc H.2)
    refine ⟨by rw [hfind], ?_⟩
    intro q hq
    simp only [Except.ok.injEq] at hq
    have h1 := List.find?_some hq
    unfold Heap.sibTest Heap.isInst at h1
    have h2 := List.mem_of_find?_eq_some hq
    refine ⟨(D.children_mem hp1 ?_).1, (Cls.isSub_step _).mp h1⟩
    rw [hpos]; simp [List.mem_reverse.mp h2]

theorem prevSteps_eq (I : ResInv h L log0 fuel t done σ s) (D : Doc h root t) (n : Nat)
    {x : Ref} (hx : x ∈ t.pre) (hc : (h.get x).cls = .Step) :
    prevSteps s.t.heap n x = prevSteps h n x ∧
    (∀ q, prevSteps h n x = .ok q → q ∈ t.pre ∧ (h.get q).cls = .Step) := by
  induction n generalizing x with
  | zero =>
    refine ⟨rfl, ?_⟩
    intro q hq
    simp only [prevSteps, Except.ok.injEq] at hq
    subst hq
    exact ⟨hx, hc⟩
  | succ n ih =>
    have hs := I.prevSibling D hx hc
    rw [prevSteps, prevSteps, hs.1]
    cases hq : h.prevSibling x (.cls .Step) with
    | error e => exact ⟨rfl, by simp⟩
    | ok o =>
      cases o with
      | none => exact ⟨rfl, by simp⟩
      | some z =>
        obtain ⟨h1, h2⟩ := hs.2 z hq
        exact ih h1 h2

theorem step_ancestor (D : Doc h root t) {n : Nat} {x z : Ref} (hx : x ∈ t.pre)
    (hz : h.firstAncestorOfType [.Step] n x = some (some z)) : z ∈ t.pre ∧ (h.get z).cls = .Step := by
  induction n generalizing x with
  | zero => cases hz
  | succ n ih =>
    rw [Heap.firstAncestorOfType] at hz
    cases hp : h.parent x with
    | none => rw [hp] at hz; simp at hz
    | some p =>
      rw [hp] at hz
      have hxr : x ≠ root := by rintro rfl; rw [D.parent_root_none] at hp; cases hp
      obtain ⟨p', hp1, hp2, hp3⟩ := D.parent_mem hx hxr
      rw [hp] at hp2
      obtain rfl := Option.some.inj hp2
      simp only at hz
      by_cases hc : [Cls.Step].contains (h.get p).cls = true
      · rw [if_pos hc] at hz
        simp only [Option.some.injEq] at hz
        subst hz
        exact ⟨hp1, by simpa using hc⟩
      · rw [if_neg hc] at hz
        exact ih hp1 hz

theorem prevResult_eq (I : ResInv h L log0 fuel t done σ s) (D : Doc h root t)
    {x : Ref} (hx : x ∈ t.pre) (hnd : x ∉ done) :
    prevResult s.t.heap fuel x = prevResult h fuel x ∧
    (∀ q, prevResult h fuel x = .ok q → q ∈ t.pre) := by
  unfold prevResult
  rw [I.firstAncestor D _ _ hx (fun H => hnd H.1)]
  have htgt : prevCount (s.t.heap.get x) = prevCount (h.get x) := by
    unfold prevCount; rw [I.old x (D.bound x hx)]
  rw [htgt]
  cases ha : h.firstAncestorOfType [.Step] fuel x with
  | none => exact ⟨rfl, by simp⟩
  | some o =>
    cases o with
    | none => exact ⟨rfl, by simp⟩
    | some step =>
      obtain ⟨h1, h2⟩ := step_ancestor D hx ha
      simp only
      cases prevCount (h.get x) with
      | none => exact ⟨rfl, by simp⟩
      | some n =>
        have := I.prevSteps_eq D n.toNat h1 h2
        exact ⟨this.1, fun q hq => (this.2 q hq).1⟩

/-- What resolving `x` does is determined by the document at the start. -/
theorem transfer (I : ResInv h L log0 fuel t done σ s) (D : Doc h root t)
    (hL : ∀ l r, L.lookup l = some r → r < h.next) {x : Ref} (hx : x ∈ t.pre) (hnd : x ∉ done) :
    (∀ k, newBacklinks s.t.heap L k x = newBacklinks h L k x) ∧
    newWarnings s.t.heap L fuel x = newWarnings h L fuel x ∧
    fateErr s.t.heap L fuel x = fateErr h L fuel x ∧
    (∀ lo k h' y, ReplacementOf s.t.heap L fuel lo k x h' y ↔ ReplacementOf h L fuel lo k x h' y) ∧
    (Pending s.t.heap x ↔ Pending h x) ∧ citations s.t.heap [x] = citations h [x] := by
  have hxn := D.bound x hx
  have hold := I.old x hxn
  have hcls : (s.t.heap.get x).cls = (h.get x).cls := by rw [hold]
  have htl : (s.t.heap.get x).targetlabels = (h.get x).targetlabels := by rw [hold]
  have htg : (s.t.heap.get x).target = (h.get x).target := by rw [hold]
  have hov : (s.t.heap.get x).overwriteReftext = (h.get x).overwriteReftext := by rw [hold]
  have hwl : wantedLabel (s.t.heap.get x) = wantedLabel (h.get x) := by
    unfold wantedLabel; rw [htg]
  obtain ⟨hprev, hprevmem⟩ := I.prevResult_eq D hx hnd
  refine ⟨?_, ?_, ?_, ?_, ?_, ?_⟩
  · intro k; funext b; unfold newBacklinks; rw [hcls, htl]
  · unfold newWarnings
    rw [hcls, htl, hwl, hprev]
    cases hr : prevResult h fuel x with
    | error e => rfl
    | ok q =>
      have : (s.t.heap.get q).label = (h.get q).label := by rw [I.old q (D.bound q (hprevmem q hr))]
      simp only [this]
  · unfold fateErr
    rw [hcls, htl, htg, hprev]
    have : (∀ l ∈ (h.get x).targetlabels, ∀ r, L.lookup l = some r →
          s.t.heap.isInst r .Bibitem = true) ↔
        (∀ l ∈ (h.get x).targetlabels, ∀ r, L.lookup l = some r → h.isInst r .Bibitem = true) := by
      refine forall₂_congr fun l _ => forall₂_congr fun r hr => ?_
      unfold Heap.isInst; rw [I.cls_old (hL l r hr)]
    simp only [this]
  · intro lo k h' y
    unfold ReplacementOf
    rw [hcls, htl, hwl, hprev, hov]
  · unfold Pending; rw [hcls]
  · unfold citations; simp only [List.filter_cons, hcls, List.filter_nil]

end ResInv


theorem core_of_attrs {h h' : Heap} {z : Ref} {b : List Str} (hb : b = [])
    (e : h'.get z = { h.get z with
      parent := (h'.get z).parent, kids := (h'.get z).kids,
      backlinks := (h.get z).backlinks ++ b }) : (h'.get z).core = (h.get z).core := by
  rw [e, hb]; simp [NodeRec.core]

theorem ReplacementOf.stable {h h1 h2 : Heap} {L fuel lo k x y} (hy : lo ≤ y) (hyn : y < h1.next)
    (hn : h1.next ≤ h2.next)
    (hcore : ∀ z, lo ≤ z → z < h1.next →
      (h2.get z).core = (h1.get z).core ∧ h2.parent z = h1.parent z)
    (hr : ReplacementOf h L fuel lo k x h1 y) : ReplacementOf h L fuel lo k x h2 y := by
  have hc := (hcore y hy hyn).1
  unfold ReplacementOf at *
  split
  · next h0 =>
    rw [h0] at hr
    dsimp only at hr
    rw [hc]; exact hr
  · next h0 =>
    rw [h0] at hr
    obtain ⟨ts, e1, e2⟩ := hr
    refine ⟨ts, by rw [hc, e1], e2.imp ?_⟩
    intro l b hb
    unfold CitedNode at *
    split
    · next r hl => rw [hl] at hb; exact hb
    · next hl =>
      rw [hl] at hb
      obtain ⟨b1, b2, b3, b4⟩ := hb
      exact ⟨b1, Nat.lt_of_lt_of_le b2 hn, by rw [(hcore b b1 b2).2, b3], by rw [(hcore b b1 b2).1, b4]⟩
  · next h0 =>
    rw [h0] at hr
    obtain ⟨q, e1, e2⟩ := hr
    exact ⟨q, e1, by rw [hc, e2]⟩
  · trivial

namespace ResInv
variable {h : Heap} {L : List (Str × Ref)} {log0 : List TWarning} {fuel : Nat} {root : Ref}
  {t : Tree} {done : List Ref} {σ : Ref → Ref} {s : ResolveState}

theorem skip (I : ResInv h L log0 fuel t done σ s) {r : Ref} (hr : ¬ Pending h r) :
    ResInv h L log0 fuel t (done ++ [r]) σ s := by
  have hmem : ∀ x, (x ∈ done ++ [r] ∧ Pending h x) ↔ (x ∈ done ∧ Pending h x) := by
    intro x
    simp only [List.mem_append, List.mem_singleton]
    constructor
    · rintro ⟨h1 | rfl, h2⟩
      · exact ⟨h1, h2⟩
      · exact absurd h2 hr
    · rintro ⟨h1, h2⟩; exact ⟨.inl h1, h2⟩
  have hcite : citations h [r] = [] := by
    simp only [citations, List.filter_cons, List.filter_nil]
    rw [if_neg]
    intro H
    exact hr (.inr (.inl (by simpa using H)))
  refine ⟨I.next, I.labels, ?_, ?_, ?_, I.kids, I.kidsOut, ?_, ?_, ?_, ?_, ?_, ?_, ?_⟩
  · rw [I.log]; simp [List.filter_append, hr]
  · rw [I.counter, citations_append, hcite]; simp
  · intro x hx
    rw [allBacklinks_concat]
    have : newBacklinks h L (citations h done).length r x = [] := by
      unfold newBacklinks; rw [if_neg]
      exact fun H => hr (.inr (.inl H))
    rw [this, List.append_nil]; exact I.old x hx
  · intro x hx hn; exact I.parent x hx (fun H => hn ((hmem x).mpr H))
  · intro x hn; exact I.fix x (fun H => hn ((hmem x).mpr H))
  · intro x hx hp; exact I.fresh x ((hmem x).mp ⟨hx, hp⟩).1 hp
  · intro x hx y hy hpx hpy
    exact I.inj x ((hmem x).mp ⟨hx, hpx⟩).1 y ((hmem y).mp ⟨hy, hpy⟩).1 hpx hpy
  · intro pre x post hd hp
    rcases split_concat hd with ⟨_, rfl, _⟩ | ⟨post', _, hd'⟩
    · exact absurd hp hr
    · exact I.desc pre x post' hd' hp
  · intro x hx hp; exact I.fine x ((hmem x).mp ⟨hx, hp⟩).1 hp
  · intro x hx hp; exact I.gone x ((hmem x).mp ⟨hx, hp⟩).1 hp

theorem step (I : ResInv h L log0 fuel t done σ s) (D : Doc h root t)
    (hL : ∀ l r, L.lookup l = some r → r < h.next ∧ (h.get r).cls ≠ .Error)
    {r : Ref} {todo : List Ref} (hall : t.pre = done ++ r :: todo) (hr : Pending h r)
    (hroot : r ≠ root) :
    (resolveBody fuel r s).Sat
      (fun _ s' => (∃ σ', ResInv h L log0 fuel t (done ++ [r]) σ' s') ∧
        s'.t.heap.children r = h.children r)
      (fun e _ => fateErr h L fuel r = some e) := by
  have hnd : r ∉ done := by
    have := D.nodup
    rw [hall] at this
    exact fun hm => (List.disjoint_of_nodup_append this) hm (by simp)
  have hmem : r ∈ t.pre := by rw [hall]; simp
  have hrn := D.bound r hmem
  have hrn' := Nat.lt_of_lt_of_le hrn I.next
  obtain ⟨p, hp1, hp2, hp3⟩ := D.parent_mem hmem hroot
  have hpn := D.bound p hp1
  have hpp : ¬ Pending h p := by intro H; rw [pending_leaf H] at hp3; cases hp3
  have hrp : r ≠ p := by rintro rfl; exact hpp hr
  obtain ⟨T1, T2, T3, T4, T5, T6⟩ := I.transfer D (fun l r hr => (hL l r hr).1) hmem hnd
  have hσr : σ r = r := I.fix r (fun H => hnd H.1)
  have hkp : r ∈ s.t.heap.children p := by
    rw [I.kids p hp1]
    exact List.mem_map.mpr ⟨r, hp3, hσr⟩
  have hErr : ∀ z, (h.get z).cls ≠ .Error → (h.get z).cls.isSub .Error = false := by
    intro z hz
    cases hc : (h.get z).cls <;> first | (exact absurd hc hz) | rfl
  have key := resolveBody_spec (s := s) (x := r) (p := p) fuel hrn'
    (Nat.lt_of_lt_of_le hpn I.next)
    (by rw [I.parent r hrn (fun H => hnd H.1)]; exact hp2) hkp (T5.mpr hr)
    (by
      rw [I.labels]
      intro l x hx
      obtain ⟨g1, g2⟩ := hL l x hx
      refine ⟨Nat.lt_of_lt_of_le g1 I.next, ?_⟩
      unfold Heap.isInst
      rw [I.cls_old g1]
      exact hErr x g2)
  rw [I.labels, T1, T2, T3, T6] at key
  refine Res.Sat.mono key ?_ ?_
  · rintro _ s' ⟨y, S, e1, e2, e3, e4, e5⟩
    rw [T4] at e4
    obtain ⟨hy1, hy2⟩ := S.fresh
    have hyn : h.next ≤ y := Nat.le_trans I.next hy1
    have hbl : ∀ k z, h.next ≤ z → newBacklinks h L k r z = [] := by
      intro k z hz
      unfold newBacklinks
      split
      · have : ((h.get r).targetlabels.filter fun l => L.lookup l = some z) = [] := by
          rw [List.filter_eq_nil_iff]
          intro l _
          simp only [decide_eq_true_eq]
          intro H
          exact absurd (hL l z H).1 (by omega)
        rw [this]; rfl
      · rfl
    have hstab : ∀ z, h.next ≤ z → z < s.t.heap.next →
        (s'.t.heap.get z).core = (s.t.heap.get z).core ∧
        s'.t.heap.parent z = s.t.heap.parent z := by
      intro z hz1 hz2
      exact ⟨core_of_attrs (hbl _ z hz1) (S.attrs z hz2), S.parentOld z hz2 (by omega)⟩
    refine ⟨⟨fun z => if z = r then y else σ z, ?_⟩, ?_⟩
    · refine ⟨Nat.le_trans I.next S.next, by rw [e1], ?_, ?_, ?_, ?_, ?_, ?_, ?_, ?_, ?_, ?_, ?_, ?_⟩
      · rw [e2, I.log]; simp [List.filter_append, hr]
      · rw [e3, I.counter, citations_append, List.length_append]
      · intro x hx
        have a1 := S.attrs x (Nat.lt_of_lt_of_le hx I.next)
        have a2 := I.old x hx
        rw [a2] at a1
        rw [allBacklinks_concat, ← I.counter]
        simp only [List.append_assoc] at a1
        exact a1
      · intro x hx
        by_cases hxp : x = p
        · subst hxp
          obtain ⟨pre, post, hpos, hnb⟩ := List.eq_append_cons_of_mem hp3
          have hnpost : r ∉ post := by
            have := D.children_nodup hp1
            rw [hpos] at this
            exact (List.nodup_cons.mp (List.nodup_append.mp this).2.1).1
          have hk := I.kids x hp1
          rw [hpos, List.map_append, List.map_cons, hσr] at hk
          rw [S.kids (pre.map σ) (post.map σ) hk (by
            intro hm
            obtain ⟨z, hz, hzx⟩ := List.mem_map.mp hm
            by_cases hzd : z ∈ done ∧ Pending h z
            · have := (I.fresh z hzd.1 hzd.2).1
              omega
            · rw [I.fix z hzd] at hzx
              exact hnb (hzx ▸ hz))]
          rw [hpos, List.map_append, List.map_cons]
          simp only [if_true]
          congr 1
          · apply List.map_congr_left
            intro z hz
            rw [if_neg (by rintro rfl; exact hnb hz)]
          · congr 1
            apply List.map_congr_left
            intro z hz
            rw [if_neg (by rintro rfl; exact hnpost hz)]
        · rw [S.other x (Nat.lt_of_lt_of_le (D.bound x hx) I.next) hxp, I.kids x hx]
          apply List.map_congr_left
          intro z hz
          rw [if_neg]
          rintro rfl
          have := (D.children_mem hx hz).2
          rw [hp2] at this
          exact hxp (Option.some.inj this).symm
      · intro x hx hxt
        rw [S.other x (Nat.lt_of_lt_of_le hx I.next) (by rintro rfl; exact hxt hp1)]
        exact I.kidsOut x hx hxt
      · intro x hx hn
        have hxr : x ≠ r := by rintro rfl; exact hn ⟨by simp, hr⟩
        rw [S.parentOld x (Nat.lt_of_lt_of_le hx I.next) hxr]
        exact I.parent x hx (fun H => hn ⟨by simp [H.1], H.2⟩)
      · intro x hn
        have hxr : x ≠ r := by rintro rfl; exact hn ⟨by simp, hr⟩
        simp only [hxr, if_false]
        exact I.fix x (fun H => hn ⟨by simp [H.1], H.2⟩)
      · intro x hx hpx
        by_cases hxr : x = r
        · subst hxr
          simp only [if_true]
          exact ⟨hyn, hy2, by rw [S.parentNew, hp2], S.leaf⟩
        · simp only [hxr, if_false]
          have hxd : x ∈ done := by
            simp only [List.mem_append, List.mem_singleton, hxr, or_false] at hx; exact hx
          obtain ⟨f1, f2, f3, f4⟩ := I.fresh x hxd hpx
          refine ⟨f1, Nat.lt_of_lt_of_le f2 S.next, ?_, ?_⟩
          · rw [S.parentOld _ f2 (by omega), f3]
          · rw [S.other _ f2 (by omega), f4]
      · intro x hx z hz hpx hpz hxz
        by_cases hxr : x = r
        · by_cases hzr : z = r
          · rw [hxr, hzr]
          · exfalso
            have hzd : z ∈ done := by
              simp only [List.mem_append, List.mem_singleton, hzr, or_false] at hz; exact hz
            have := (I.fresh z hzd hpz).2.1
            simp only [hxr, if_true, hzr, if_false] at hxz
            omega
        · have hxd : x ∈ done := by
            simp only [List.mem_append, List.mem_singleton, hxr, or_false] at hx; exact hx
          by_cases hzr : z = r
          · exfalso
            have := (I.fresh x hxd hpx).2.1
            simp only [hxr, if_false, hzr, if_true] at hxz
            omega
          · have hzd : z ∈ done := by
              simp only [List.mem_append, List.mem_singleton, hzr, or_false] at hz; exact hz
            simp only [hxr, if_false, hzr] at hxz
            exact I.inj x hxd z hzd hpx hpz hxz
      · intro pre x post hd hpx
        rcases split_concat hd with ⟨_, rfl, rfl⟩ | ⟨post', _, hd'⟩
        · simp only [if_true]
          rw [← I.counter]
          -- new objects are new with respect to the start
          unfold ReplacementOf at e4 ⊢
          split
          · next hc => rw [hc] at e4; exact e4
          · next hc =>
            rw [hc] at e4
            obtain ⟨ts, g1, g2⟩ := e4
            refine ⟨ts, g1, g2.imp ?_⟩
            intro l b hb
            unfold CitedNode at *
            split
            · next q hl => rw [hl] at hb; exact hb
            · next hl =>
              rw [hl] at hb
              exact ⟨Nat.le_trans I.next hb.1, hb.2⟩
          · next hc => rw [hc] at e4; exact e4
          · trivial
        · have hxd : x ∈ done := by rw [hd']; simp
          have hxr : x ≠ r := fun e => hnd (e ▸ hxd)
          simp only [hxr, if_false]
          obtain ⟨f1, f2, f3, f4⟩ := I.fresh x hxd hpx
          exact (I.desc pre x post' hd' hpx).stable f1 f2 S.next hstab
      · intro x hx hpx
        by_cases hxr : x = r
        · rw [hxr]; exact e5
        · have hxd : x ∈ done := by
            simp only [List.mem_append, List.mem_singleton, hxr, or_false] at hx; exact hx
          exact I.fine x hxd hpx
      · intro x hx hpx
        by_cases hxr : x = r
        · rw [hxr]; exact S.gone
        · have hxd : x ∈ done := by
            simp only [List.mem_append, List.mem_singleton, hxr, or_false] at hx; exact hx
          have hxm : x ∈ t.pre := by rw [hall]; simp [hxd]
          rw [S.parentOld x (Nat.lt_of_lt_of_le (D.bound x hxm) I.next) hxr]
          exact I.gone x hxd hpx
    · rw [pending_leaf hr]
      have : Pending s'.t.heap r := by
        unfold Pending at hr ⊢
        rw [S.attrs r hrn', I.old r hrn]
        exact hr
      exact pending_leaf this
  · intro e s' he; exact he

end ResInv


/-! ### Trees with renamed nodes -/

namespace Tree

theorem mapL_eq (σ : Ref → Ref) (ts : List Tree) : map.mapL σ ts = ts.map (map σ) := by
  induction ts with
  | nil => rfl
  | cons t ts ih => simp [map.mapL, ih]

@[simp] theorem map_node (σ : Ref → Ref) (i : Ref) (ks : List Tree) :
    (node i ks).map σ = node (σ i) (ks.map (map σ)) := by
  simp [map, mapL_eq]

theorem root_map (σ : Ref → Ref) (t : Tree) : (t.map σ).root = σ t.root := by
  cases t; simp [root]

theorem pre_map (σ : Ref → Ref) (t : Tree) : (t.map σ).pre = t.pre.map σ := by
  induction t using Tree.induct with
  | _ i ks ih =>
    simp only [map_node, pre_node, List.map_cons, List.cons.injEq, true_and]
    rw [preL_eq, preL_eq, List.flatMap_map, List.map_flatMap]
    simp only [List.flatMap_def]
    congr 1
    exact List.map_congr_left ih

theorem size_map (σ : Ref → Ref) (t : Tree) : (t.map σ).size = t.size := by
  rw [← length_pre, ← length_pre, pre_map, List.length_map]

end Tree

open Tree

namespace ResInv
variable {h : Heap} {L : List (Str × Ref)} {log0 : List TWarning} {fuel : Nat} {root : Ref}
  {t : Tree} {σ : Ref → Ref} {s : ResolveState}

theorem isTree (I : ResInv h L log0 fuel t t.pre σ s) (D : Doc h root t) (u : Tree)
    (hu : u ∈ t.subtrees) : IsTree s.t.heap (h.parent u.root) (u.map σ) := by
  induction u using Tree.induct with
  | _ i ks ih =>
    have hi : i ∈ t.pre := mem_pre_of_subtree hu (by simp)
    have hch : h.children i = ks.map Tree.root := D.tree.kids_of_subtree hu
    rw [map_node, isTree_node]
    refine ⟨?_, ?_, ?_⟩
    · by_cases hp : Pending h i
      · exact (I.fresh i hi hp).2.2.1
      · rw [I.fix i (fun H => hp H.2)]
        exact I.parent i (D.bound i hi) (fun H => hp H.2)
    · by_cases hp : Pending h i
      · rw [(I.fresh i hi hp).2.2.2]
        rw [pending_leaf hp] at hch
        have : ks = [] := by simpa using hch.symm
        simp [this]
      · rw [I.fix i (fun H => hp H.2), I.kids i hi, hch, List.map_map, List.map_map]
        apply List.map_congr_left
        intro k _
        simp [root_map]
    · intro k' hk'
      obtain ⟨k, hk, rfl⟩ := List.mem_map.mp hk'
      have hks : k ∈ t.subtrees := by
        refine subtrees_trans hu ?_
        exact mem_subtrees_node.mpr (.inr ⟨k, hk, self_mem_subtrees k⟩)
      have hp : ¬ Pending h i := by
        intro hp
        rw [pending_leaf hp] at hch
        have : ks = [] := by simpa using hch.symm
        rw [this] at hk; cases hk
      have := ih k hk hks
      rw [I.fix i (fun H => hp H.2)]
      have hc : k.root ∈ h.children i := by rw [hch]; exact List.mem_map_of_mem hk
      rw [(D.children_mem hi hc).2] at this
      exact this

theorem doc (I : ResInv h L log0 fuel t t.pre σ s) (D : Doc h root t) (hroot : ¬ Pending h root) :
    Doc s.t.heap root (t.map σ) := by
  have hσr : σ root = root := I.fix root (fun H => hroot H.2)
  refine ⟨by rw [root_map, D.root_eq, hσr], ?_, ?_, ?_⟩
  · have := I.isTree D t (self_mem_subtrees t)
    rw [D.tree.parent_root] at this
    exact this
  · rw [pre_map]
    refine List.Nodup.map_on ?_ D.nodup
    intro x hx y hy hxy
    by_cases hpx : Pending h x
    · by_cases hpy : Pending h y
      · exact I.inj x hx y hy hpx hpy hxy
      · have h1 := (I.fresh x hx hpx).1
        rw [hxy, I.fix y (fun H => hpy H.2)] at h1
        exact absurd (D.bound y hy) (by omega)
    · by_cases hpy : Pending h y
      · have h1 := (I.fresh y hy hpy).1
        rw [← hxy, I.fix x (fun H => hpx H.2)] at h1
        exact absurd (D.bound x hx) (by omega)
      · rw [I.fix x (fun H => hpx H.2), I.fix y (fun H => hpy H.2)] at hxy
        exact hxy
  · rw [pre_map]
    intro y hy
    obtain ⟨x, hx, rfl⟩ := List.mem_map.mp hy
    by_cases hpx : Pending h x
    · exact (I.fresh x hx hpx).2.1
    · rw [I.fix x (fun H => hpx H.2)]
      exact Nat.lt_of_lt_of_le (D.bound x hx) I.next

theorem no_pending (I : ResInv h L log0 fuel t t.pre σ s) (D : Doc h root t) :
    ∀ y ∈ (t.map σ).pre, ¬ Pending s.t.heap y := by
  rw [pre_map]
  intro y hy
  obtain ⟨x, hx, rfl⟩ := List.mem_map.mp hy
  by_cases hpx : Pending h x
  · have := (I.cls_new hx hpx)
    unfold Pending
    rcases this with h1 | h1 | h1 <;> rw [h1] <;> decide
  · rw [I.fix x (fun H => hpx H.2)]
    unfold Pending at hpx ⊢
    rw [I.cls_old (D.bound x hx)]
    exact hpx

end ResInv

theorem resolve_spec {s : TState} {root t} (D : Doc s.heap root t) {fuel : Nat}
    (hfuel : t.size < fuel) (hroot : ¬ Pending s.heap root)
    (hL : ∀ l r, s.labels.lookup l = some r → r < s.heap.next ∧ (s.heap.get r).cls ≠ .Error) :
    (resolvePendingReferences fuel root s).Sat
      (fun _ s' => ∃ σ k, ResInv s.heap s.labels s.log fuel t t.pre σ ⟨s', k⟩ ∧
        Doc s'.heap root (t.map σ))
      (fun e _ => ∃ pre x post, t.pre = pre ++ x :: post ∧ Pending s.heap x ∧
        fateErr s.heap s.labels fuel x = some e ∧
        ∀ z ∈ pre, Pending s.heap z → fateErr s.heap s.labels fuel z = none) := by
  have h0 : ResInv s.heap s.labels s.log fuel t [] id ⟨s, 0⟩ := by
    refine ⟨Nat.le_refl _, rfl, by simp, by simp [citations], ?_, by simp, by simp, by simp,
      by simp, by simp, by simp, by simp, by simp, by simp⟩
    intro x hx
    simp [allBacklinks, citations]
  have loop := travLoop_inv (·.t.heap) isPending (resolveBody fuel) t.pre
    (fun done s' => ∃ σ, ResInv s.heap s.labels s.log fuel t done σ s')
    (fun e _ => ∃ pre x post, t.pre = pre ++ x :: post ∧ Pending s.heap x ∧
        fateErr s.heap s.labels fuel x = some e ∧
        ∀ z ∈ pre, Pending s.heap z → fateErr s.heap s.labels fuel z = none)
    s.heap.children
    (by
      rintro done r todo s' hall ⟨σ, I⟩ hc
      have hmem : r ∈ t.pre := by rw [hall]; simp
      have hr : Pending s.heap r := by
        have := (isPending_iff _ _).mp hc
        unfold Pending at this ⊢
        rw [I.cls_old (D.bound r hmem)] at this
        exact this
      refine (I.step D hL hall hr (by rintro rfl; exact hroot hr)).mono (fun _ _ h => h) ?_
      intro e _ he
      exact ⟨done, r, todo, hall, hr, he, I.fine⟩)
    (by
      rintro done r todo s' hall ⟨σ, I⟩ hc
      have hmem : r ∈ t.pre := by rw [hall]; simp
      have hr : ¬ Pending s.heap r := by
        intro H
        have : isPending s'.t.heap r = true := by
          rw [isPending_iff]
          unfold Pending at H ⊢
          rw [I.cls_old (D.bound r hmem)]
          exact H
        rw [hc] at this; cases this
      refine ⟨⟨σ, I.skip hr⟩, ?_⟩
      rw [I.kids r hmem]
      obtain ⟨u, hu, hur⟩ := Tree.exists_subtree hmem
      obtain ⟨i, ks⟩ := u
      simp only [Tree.root] at hur
      subst hur
      rw [D.tree.kids_of_subtree hu]
      conv_rhs => rw [← List.map_id (ks.map Tree.root)]
      apply List.map_congr_left
      intro c hc
      exact I.fix c (fun H => Tree.kid_after D.nodup hu hall hc H.1))
    [t] (by
      intro u hu i ks hi
      rw [List.mem_singleton] at hu
      subst hu
      exact D.tree.kids_of_subtree hi) [] (by simp [preL_cons])
    ⟨s, 0⟩ ⟨id, h0⟩ fuel (by simpa [sizeL] using hfuel)
  unfold resolvePendingReferences
  simp only [List.map_cons, List.map_nil, D.root_eq] at loop
  refine PyM.bind_sat (Q := fun _ s' => ∃ σ k, ResInv s.heap s.labels s.log fuel t t.pre σ ⟨s', k⟩ ∧
        Doc s'.heap root (t.map σ)) ?_ ?_
  · unfold runResolve
    revert loop
    cases travLoop (·.t.heap) isPending (resolveBody fuel) fuel [root] (⟨s, 0⟩ : ResolveState) with
    | ok a s' =>
      rintro ⟨σ, I⟩
      exact ⟨σ, s'.counter, I, I.doc D hroot⟩
    | err e s' => exact fun h => h
  · rintro _ s' ⟨σ, k, I, D'⟩
    have := travLoop_inv (σ := TState) (·.heap) isPending (fun _ => throw .rsmTransformerError)
      (t.map σ).pre (fun _ s'' => s'' = s') (fun _ _ => False) s'.heap.children
      (by
        rintro done r todo s'' hall rfl hc
        exact absurd ((isPending_iff _ _).mp hc) (I.no_pending D r (by rw [hall]; simp)))
      (by rintro done r todo s'' hall rfl hc; exact ⟨rfl, rfl⟩)
      [t.map σ] (by
        intro u hu i ks hi
        rw [List.mem_singleton] at hu
        subst hu
        exact D'.tree.kids_of_subtree hi) [] (by simp [preL_cons]) s' rfl fuel
      (by simpa [sizeL, size_map] using hfuel)
    simp only [List.map_cons, List.map_nil, D'.root_eq] at this
    refine this.mono ?_ (fun _ _ h => h.elim)
    rintro _ s'' rfl
    exact ⟨σ, k, I, D'⟩

end RSM
