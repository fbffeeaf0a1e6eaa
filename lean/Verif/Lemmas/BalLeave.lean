import Verif.Lemmas.BalMath

/-! # Lemmas: what leaving a node writes and notes -/

namespace RSM
namespace Tr
open PyM Html

variable {h0 : Heap}

/-- The texts of the command turn one stack into the other. -/
def Turns (c : Cmd) (p q : List Str) : Prop := Chain (c.allItems.map Item.makeText) p q

theorem Turns.nets {c : Cmd} {p q} (h : Turns c p q) : Nets c.text p q := by
  have := Chain.nets h
  rwa [c.text_eq, List.flatMap_def]

/-- The node has a next sibling. -/
def hasNext (h : Heap) (r : Ref) : Bool :=
  match h.nextSibling r .any with
  | .ok (some _) => true
  | _ => false

/-- The element that is open after a node: a display formula opens a paragraph if something
follows. -/
def after (h0 : Heap) (r : Ref) : List Str :=
  if (h0.get r).cls = .MathBlock ∧ hasNext h0 r = true then ["p".toList] else []

/-- The element that leaving a paragraph closes in addition. -/
def extra (nd : NodeRec) : List Str := if nd.mustCloseP then ["p".toList] else []

theorem items_eq {c : Cmd} {l} (h : c.items? = some l) : l = c.allItems := by
  cases c <;> simp [Cmd.items?] at h <;> exact h.symm

theorem withItems_items (c : Cmd) (l) : (c.withItems l).allItems = l := by cases c <;> rfl

theorem itemsOf_gives {I : TrState → Prop} (c : Cmd) :
    Gives I (fun l => l = c.allItems) (itemsOf c) := by
  unfold itemsOf
  split
  · rename_i h; exact Gives.pure (items_eq h)
  · exact Gives.throw _

/-- The heap is the one of `s`. -/
def At (s s' : TrState) : Prop := s'.heap = s.heap

theorem at_of {α : Type} {P : α → Prop} {m : TrM α} (hr : Reads m) (hg : Gives (Good h0) P m)
    {s : TrState} (hs : Good h0 s) : Gives (At s) P m := by
  constructor
  intro s1 h1
  have hs1 : Good h0 s1 := by unfold Good; rw [h1]; exact hs
  have := hg.gives s1 hs1
  have h2 := hr.reads s1
  cases e : m s1 with
  | ok a s2 => rw [e] at this h2; exact ⟨h2.trans h1, this.2⟩
  | err x s2 => trivial

theorem at_node {s : TrState} (r) : Gives (At s) (fun nd => nd = s.heap.get r) (node r) :=
  (Gives.node r).mono fun nd ⟨s', h, e⟩ => by rw [e, h]

theorem chain_insert {l : List Item} {p q} (h : Chain (l.map Item.makeText) p q) {x : Item} (hx : Still x)
    (n : Nat) : Chain ((insertAt n x l).map Item.makeText) p q := by
  rw [insertAt_map]; exact h.insert hx.2 n

theorem chain_stills {l : List Item} (h : ∀ i ∈ l, Still i) (p : List Str) :
    Chain (l.map Item.makeText) p p := by
  induction l with
  | nil => rfl
  | cons i l ih => exact ⟨p, (h i (by simp)).2.any p, ih fun j hj => h j (by simp [hj])⟩

theorem noAngle_join {sep : Str} (hsep : NoAngle sep) : ∀ {l : List Str}, (∀ x ∈ l, NoAngle x) →
    NoAngle (join sep l)
  | [], _ => NoAngle.nil
  | [x], h => by simpa [join] using h x (by simp)
  | x :: y :: xs, h => by
    simp only [join]
    exact noAngle_append.mpr ⟨noAngle_append.mpr ⟨h x (by simp), hsep⟩,
      noAngle_join hsep fun z hz => h z (by simp at hz ⊢; tauto)⟩

theorem abstractParagraphs_still {nd : NodeRec} (hn : Clean nd) : ∀ i ∈ abstractParagraphs nd, Still i := by
  unfold abstractParagraphs
  intro i hi
  simp only [List.mem_append] at hi
  rcases hi with hi | hi <;> split at hi <;> simp only [List.mem_singleton, List.not_mem_nil] at hi <;>
    subst hi
  · exact still_paragraphTag (NoAngle.inert (noAngle_append.mpr
      ⟨by decide, noAngle_join (by decide) hn.keywords⟩)) (by decide)
  · exact still_paragraphTag (NoAngle.inert (noAngle_append.mpr
      ⟨by decide, noAngle_join (by decide) hn.msc⟩)) (by decide)

/-- What leaving a node guarantees, for the stack `M` on which it was opened. -/
structure Left (h0 : Heap) (r : Ref) (s : TrState) (M : List Str) (c : Cmd) (s' : TrState) : Prop where
  good : Good h0 s'
  closes : Nets c.text (extra (s.heap.get r) ++ M) (after h0 r)
  followedByDot : ∀ x, (s'.heap.get x).followedByDot = (s.heap.get x).followedByDot
  mustCloseP : ∀ x, (s'.heap.get x).mustCloseP = ((s.heap.get x).mustCloseP ||
    decide ((h0.get r).cls = .MathBlock ∧ hasNext h0 r = true ∧ h0.parent r = some x))

theorem mathBlockRest_good (r) {c0 : Cmd} {s : TrState} (hs : Good h0 s) {M}
    (hM : Turns c0 M []) (hcls : (h0.get r).cls = .MathBlock)
    (hp : ∃ p, h0.parent r = some p ∧ (h0.get p).cls = .Paragraph) :
    match mathBlockRest r c0 s with
    | .ok c s' => Good h0 s' ∧ Turns c M (after h0 r) ∧
        (∀ x, (s'.heap.get x).followedByDot = (s.heap.get x).followedByDot) ∧
        ∀ x, (s'.heap.get x).mustCloseP = ((s.heap.get x).mustCloseP ||
          decide ((h0.get r).cls = .MathBlock ∧ hasNext h0 r = true ∧ h0.parent r = some x))
    | .err _ _ => True := by
  obtain ⟨p, hp, hpc⟩ := hp
  unfold mathBlockRest
  simp only [bind_apply, get_apply, hs.1.parent, hp, hs.1.isInst]
  rw [if_pos (by unfold Heap.isInst; rw [hpc]; decide)]
  simp only [bind_apply, hs.1.nextSibling]
  cases hsib : h0.nextSibling r .any with
  | error e => trivial
  | ok o =>
    simp only [lift, pure_apply]
    cases o with
    | none =>
      have hn : hasNext h0 r = false := by unfold hasNext; rw [hsib]
      refine ⟨hs, ?_, fun _ => rfl, fun x => by simp [hn]⟩
      unfold after; simp only [hn]; simpa using hM
    | some y =>
      have hn : hasNext h0 r = true := by unfold hasNext; rw [hsib]
      have a1 := (assign_good (h0 := h0) (r := p) (f := fun nd => { nd with mustCloseP := true })
        (fun _ => rfl) (fun _ h => { h with })).gives s hs
      have hmarks : ∀ x, ((s.heap.update p fun nd => { nd with mustCloseP := true }).get x).followedByDot =
          (s.heap.get x).followedByDot ∧
          ((s.heap.update p fun nd => { nd with mustCloseP := true }).get x).mustCloseP =
            ((s.heap.get x).mustCloseP ||
          decide ((h0.get r).cls = .MathBlock ∧ hasNext h0 r = true ∧ some p = some x)) := by
        intro x
        rw [Heap.get_update]
        by_cases h : x = p
        · subst h; simp [hcls, hn]
        · rw [if_neg h]; simp [Ne.symm h]
      dsimp only
      simp only [bind_apply, assign, modify_apply] at a1 ⊢
      unfold itemsOf
      cases hi : c0.items? with
      | none => trivial
      | some l =>
        simp only [pure_apply]
        refine ⟨a1.1, ?_, fun x => (hmarks x).1, fun x => (hmarks x).2⟩
        unfold after; simp only [hn, hcls, and_self, if_true]
        unfold Turns at hM ⊢
        rw [← items_eq hi] at hM
        simp only [Cmd.allItems, List.map_append, List.map_cons, List.map_nil]
        exact hM.append (Chain.single nets_openP)

theorem leave_good {k : Conf} (r) {s : TrState} (hs : Good h0 s) {c0 ds} (hd : s.deferred = c0 :: ds)
    {M} (hM : Turns c0 M (dotOf (s.heap.get r)))
    (hdot : (s.heap.get r).followedByDot = true → k.handrails = true ∧ (h0.get r).cls = .Math)
    (hpar : (s.heap.get r).mustCloseP = true → (h0.get r).cls = .Paragraph)
    (hmb : (h0.get r).cls = .MathBlock → ∃ p, h0.parent r = some p ∧ (h0.get p).cls = .Paragraph) :
    match leave k r s with
    | .ok c s' => Left h0 r s M c s'
    | .err _ _ => True := by
  obtain ⟨d, hm⟩ := methodClass_leave k.handrails (s.heap.get r).cls
  have e : leave k r s = leaveWith k d r s := by
    simp only [leave, bind_apply, node, gets_apply, hm, lift, pure_apply]
  have hcls : (s.heap.get r).cls = (h0.get r).cls := hs.1.cls r
  rw [hcls] at hm
  rw [e]
  -- display formulas
  by_cases hmath : d = .MathBlock
  · subst hmath
    have hc := (leave_mathBlock _ _ hm).mp rfl
    have hM' : Turns c0 M [] := by
      have : (s.heap.get r).followedByDot = false := by
        cases h : (s.heap.get r).followedByDot with
        | false => rfl
        | true => have := (hdot h).2; rw [hc] at this; cases this
      unfold dotOf at hM; rw [this] at hM; exact hM
    have hext : extra (s.heap.get r) = [] := by
      cases h : (s.heap.get r).mustCloseP with
      | false => unfold extra; rw [h]; rfl
      | true => have := hpar h; rw [hc] at this; cases this
    have hs1 : Good h0 { s with deferred := ds } := hs
    have h1 := mathBlockRest_good r hs1 hM' hc (hmb hc)
    cases hh : k.handrails with
    | false =>
      have e2 : leaveWith k .MathBlock r s = mathBlockRest r c0 { s with deferred := ds } := by
        simp only [leaveWith, hh]
        exact leaveNode_bind hd
      rw [e2]
      cases hv : mathBlockRest r c0 { s with deferred := ds } with
      | err x s' => trivial
      | ok c s' =>
        rw [hv] at h1
        exact ⟨h1.1, by rw [hext]; exact h1.2.1.nets, h1.2.2.1, h1.2.2.2⟩
    | true =>
      have e2 : leaveWith k .MathBlock r s = (mathBlockRest r c0 >>= fun c => fullNumber k r >>= fun fn =>
          itemsOf c >>= fun l => pure (c.withItems (insertAt 2 (hrInfoZoneNumber fn false) l)))
          { s with deferred := ds } := by
        simp only [leaveWith, hh, if_true]
        exact (bind_assoc leaveNode (mathBlockRest r) _ s).trans (leaveNode_bind hd)
      rw [e2, bind_apply]
      cases hv : mathBlockRest r c0 { s with deferred := ds } with
      | err x s' => trivial
      | ok c s2 =>
        rw [hv] at h1
        have hg : Gives (At s2) (fun c => Turns c M (after h0 r)) (fullNumber k r >>= fun fn =>
            itemsOf c >>= fun l => pure (c.withItems (insertAt 2 (hrInfoZoneNumber fn false) l))) := by
          refine Gives.bind (at_of (fullNumber_reads k r) (fullNumber_good (h0 := h0) k r) h1.1) fun fn hfn =>
            Gives.bind (itemsOf_gives c) fun l hl => Gives.pure ?_
          unfold Turns; rw [withItems_items, hl]
          exact chain_insert h1.2.1 (still_infoNumber hfn false) 2
        have hg := hg.gives s2 rfl
        dsimp only
        cases hw : (fullNumber k r >>= fun fn =>
            itemsOf c >>= fun l => pure (c.withItems (insertAt 2 (hrInfoZoneNumber fn false) l))) s2 with
        | err x s' => trivial
        | ok c' s' =>
          rw [hw] at hg
          have hh : s'.heap = s2.heap := hg.1
          refine ⟨by unfold Good; rw [hh]; exact h1.1, by rw [hext]; exact hg.2.nets, ?_, ?_⟩
          · rw [hh]; exact h1.2.2.1
          · rw [hh]; exact h1.2.2.2
  -- all other nodes: the heap stays the same
  have hc : (h0.get r).cls ≠ .MathBlock := fun h => hmath ((leave_mathBlock _ _ hm).mpr h)
  have haft : after h0 r = [] := by unfold after; simp [hc]
  have key : ∀ (f : Cmd → TrM Cmd), Gives (At s) (fun c => Turns c (extra (s.heap.get r) ++ M) []) (f c0) →
      leaveWith k d r s = (leaveNode >>= f) s → match leaveWith k d r s with
      | .ok c s' => Left h0 r s M c s'
      | .err _ _ => True := by
    intro f hg he
    rw [he, leaveNode_bind hd]
    have hg := hg.gives { s with deferred := ds } rfl
    cases hv : f c0 { s with deferred := ds } with
    | err x s' => trivial
    | ok c s' =>
      rw [hv] at hg
      have hh : s'.heap = s.heap := hg.1
      refine ⟨by unfold Good; rw [hh]; exact hs, by rw [haft]; exact hg.2.nets, fun x => by rw [hh],
        fun x => ?_⟩
      rw [hh]; simp [hc]
  by_cases hp : d = .Paragraph
  · subst hp
    have h1 : dotOf (s.heap.get r) = [] := by
      cases h : (s.heap.get r).followedByDot with
      | false => unfold dotOf; rw [h]; rfl
      | true => exact absurd ((leave_math _ _ hm).mpr (hdot h)) (by decide)
    rw [h1] at hM
    have hrest : Gives (At s) (fun c => Turns c (extra (s.heap.get r) ++ M) []) (paragraphRest r c0) := by
      unfold paragraphRest
      refine Gives.bind (at_node r) fun nd hn => ?_
      subst hn
      unfold extra
      split
      · refine Gives.bind (itemsOf_gives c0) fun l hl => Gives.pure ?_
        unfold Turns at hM ⊢; rw [withItems_items, hl]
        exact ⟨M, nets_closeP.frame M, hM⟩
      · exact Gives.pure hM
    cases hh : k.handrails with
    | false =>
      refine key (fun c => paragraphRest r c >>= fun c => pure c) (Gives.bind hrest fun c hc => Gives.pure hc) ?_
      simp only [leaveWith, hh]
      exact bind_assoc leaveNode (paragraphRest r) _ s
    | true =>
      refine key (fun c => paragraphRest r c >>= fun c => infoBeforeLast c) (Gives.bind hrest fun c hc => ?_) ?_
      · refine Gives.bind (itemsOf_gives c) fun l hl => Gives.pure ?_
        unfold Turns; rw [withItems_items, hl]
        exact chain_insert hc still_infoNone _
      · simp only [leaveWith, hh, if_true]
        exact bind_assoc leaveNode (paragraphRest r) _ s
  have hext : extra (s.heap.get r) = [] := by
    cases h : (s.heap.get r).mustCloseP with
    | false => unfold extra; rw [h]; rfl
    | true => exact absurd (leave_paragraph _ _ hm (hpar h)) hp
  rw [hext] at key
  by_cases hma : d = .Math
  · subst hma
    refine key (fun c => node r >>= fun nd => if nd.followedByDot then (do
      let l ← itemsOf c
      pure (c.withItems (l ++ [.text "<span>.</span>", .text "</span>"]))) else pure c) ?_ rfl
    refine Gives.bind (at_node r) fun nd hn => ?_
    subst hn
    unfold dotOf at hM
    split
    · rename_i h
      rw [if_pos h] at hM
      refine Gives.bind (itemsOf_gives c0) fun l hl => Gives.pure ?_
      unfold Turns at hM ⊢; rw [withItems_items, hl, List.map_append]
      exact hM.append ⟨_, (nets_decide (by decide +kernel) : Nets _ ["span".toList] ["span".toList]),
        Chain.single (nets_closeTag (tag := "span".toList) (by decide))⟩
    · rename_i h
      rw [if_neg h] at hM
      exact Gives.pure hM
  have h1 : dotOf (s.heap.get r) = [] := by
    cases h : (s.heap.get r).followedByDot with
    | false => unfold dotOf; rw [h]; rfl
    | true => exact absurd ((leave_math _ _ hm).mpr (hdot h)) hma
  rw [h1] at hM
  have hinfo : ∀ info : Item, Still info → leaveWith k d r = leaveInfo info →
      match leaveWith k d r s with
      | .ok c s' => Left h0 r s M c s'
      | .err _ _ => True := by
    intro info hi he
    refine key (fun c => do let l ← itemsOf c; pure (.batch (insertAt 1 info l))) ?_ (by rw [he]; rfl)
    refine Gives.bind (itemsOf_gives c0) fun l hl => Gives.pure ?_
    rw [hl]
    exact chain_insert hM hi 1
  cases d
  case MathBlock => exact absurd rfl hmath
  case Paragraph => exact absurd rfl hp
  case Math => exact absurd rfl hma
  case Abstract =>
    refine key (fun c => pure (.batch (abstractParagraphs (s.heap.get r) ++ (match c with
      | .item i => [i]
      | .batch l => l
      | .batchDefer l => l)))) (Gives.pure ?_) rfl
    have : (match (generalizing := false) c0 with
      | .item i => [i]
      | .batch l => l
      | .batchDefer l => l) = c0.allItems := by cases c0 <;> rfl
    rw [this]
    show Chain ((abstractParagraphs (s.heap.get r) ++ c0.allItems).map Item.makeText) ([] ++ M) []
    rw [List.map_append]
    exact (chain_stills (abstractParagraphs_still (hs.2 r)) _).append hM
  case Proof =>
    cases hh : k.handrails with
    | true => exact hinfo _ still_infoNone (by simp only [leaveWith, hh, if_true])
    | false =>
      refine key (fun c => itemsOf c >>= fun l => pure (.batch (insertBeforeLast halmos l))) ?_
        (by simp only [leaveWith, hh]; rfl)
      refine Gives.bind (itemsOf_gives c0) fun l hl => Gives.pure ?_
      rw [hl]
      exact chain_insert hM still_halmos _
  case Author =>
    refine key infoBeforeLast ?_ rfl
    refine Gives.bind (itemsOf_gives c0) fun l hl => Gives.pure ?_
    unfold Turns; rw [withItems_items, hl]
    exact chain_insert hM still_infoNone _
  case Step =>
    refine key (fun c => itemsOf c >>= fun l => fullNumber k r >>= fun fn =>
      pure (.batch (insertAt 1 (hrInfoZoneNumber fn true) l))) ?_ rfl
    refine Gives.bind (itemsOf_gives c0) fun l hl => Gives.bind
      (at_of (fullNumber_reads k r) (fullNumber_good (h0 := h0) k r) hs) fun fn hfn => Gives.pure ?_
    rw [hl]
    exact chain_insert hM (still_infoNumber hfn true) 1
  case Theorem => exact hinfo _ still_infoNone rfl
  case Sketch => exact hinfo _ still_infoNone rfl
  case Subproof => exact hinfo _ still_infoNone rfl
  all_goals exact key (fun c => pure c) (Gives.pure hM) (by rw [bind_apply]; show leaveNode s = _; cases leaveNode s <;> rfl)

end Tr
end RSM
