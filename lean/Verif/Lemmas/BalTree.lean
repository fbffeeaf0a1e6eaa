import Verif.Lemmas.BalLeave
import Verif.Lemmas.NormLoop
import Verif.Lemmas.TocFind

/-! # Lemmas: the translation of a subtree is well nested -/

namespace RSM
namespace Tr
open PyM Html

variable {h0 : Heap}

/-- What the nodes of a document must satisfy. -/
structure Placed (k : Conf) (h0 : Heap) (x : Ref) : Prop where
  link : k.handrails = true → h0.isInst x .Bibitem = true → LinkSafe (h0.get x)
  parent : (h0.get x).cls = .MathBlock → ∃ p, h0.parent x = some p ∧ (h0.get p).cls = .Paragraph
  last : (h0.get x).cls = .Paragraph → ∀ l m, h0.children x = l ++ [m] →
    (h0.get m).cls = .MathBlock → ∀ y ∈ l, (h0.get y).cls ≠ .MathBlock

/-- The node is a display formula. -/
def isMB (h0 : Heap) (r : Ref) : Bool := decide ((h0.get r).cls = .MathBlock)
/-- The node is a display formula and something follows. -/
def isMBN (h0 : Heap) (r : Ref) : Bool := isMB h0 r && hasNext h0 r

theorem before_eq (r) : before h0 r = if isMB h0 r then ["p".toList] else [] := by
  unfold before isMB; simp
theorem after_eq (r) : after h0 r = if isMBN h0 r then ["p".toList] else [] := by
  unfold after isMBN isMB; simp

/-- The element open before the children are visited, and after. -/
def opened (h0 : Heap) (rs : List Ref) : List Str := if rs.any (isMB h0) then ["p".toList] else []
def closed (h0 : Heap) (rs : List Ref) : List Str := if rs.any (isMBN h0) then ["p".toList] else []

/-- Nothing is noted on the nodes yet. -/
def Bare (s : TrState) (l : List Ref) : Prop :=
  ∀ x ∈ l, (s.heap.get x).mustCloseP = false ∧ (s.heap.get x).followedByDot = false

/-- What translating a subtree or a list of subtrees guarantees. -/
structure Turned (h0 : Heap) (ids : List Ref) (p q : List Str) (mark : Ref → Bool) (s s' : TrState) :
    Prop where
  good : Good h0 s'
  out : ∃ out, s'.body = s.body ++ out ∧ Nets out p q
  dot : ∀ x, x ∉ ids → (s'.heap.get x).followedByDot = (s.heap.get x).followedByDot
  mark : ∀ x, x ∉ ids → (s'.heap.get x).mustCloseP = ((s.heap.get x).mustCloseP || mark x)

theorem closers_pushed {c c0 : Cmd} (hv : c.Visit) (h : c.pushed = [c0]) :
    c0.allItems.map Item.makeText = c.closers := by
  cases hv with
  | item i =>
    cases hd : i.deferred with
    | none => simp [Cmd.pushed, hd] at h
    | some d =>
      simp [Cmd.pushed, hd] at h
      subst h
      simp [Cmd.allItems, Item.makeText, Cmd.closers, hd]
  | batchDefer l =>
    simp [Cmd.pushed] at h
    subst h
    simp [Cmd.allItems, Cmd.closers, closersOf, Item.makeText, Function.comp_def]

theorem closers_nil {c : Cmd} (hv : c.Visit) (h : c.defers = false) : c.closers = [] := by
  cases hv with
  | item i =>
    cases hd : i.deferred with
    | none => simp [Cmd.closers, hd]
    | some d => simp [Cmd.defers, hd] at h
  | batchDefer l => simp [Cmd.defers] at h

theorem hasMath_eq (h0 : Heap) (r : Ref) : hasMath h0 r = (h0.children r).any (isMB h0) := by
  unfold hasMath Heap.firstOfType
  rw [Bool.eq_iff_iff, List.find?_isSome, List.any_eq_true]
  have hi : ∀ x, h0.isInstAny x [.MathBlock] = isMB h0 x := by
    intro x
    unfold Heap.isInstAny isMB
    cases (h0.get x).cls <;> decide
  constructor
  · rintro ⟨⟨x, i⟩, hx, h⟩
    exact ⟨x, (List.mem_zipIdx hx).2.2 ▸ List.getElem_mem _, (hi x) ▸ h⟩
  · rintro ⟨x, hx, h⟩
    obtain ⟨i, hi', e⟩ := List.getElem_of_mem hx
    exact ⟨(x, i), List.mem_zipIdx_iff_getElem?.mpr (by simp [e, hi']), by rw [hi]; exact h⟩

/-- Whether a child has a next sibling. -/
theorem hasNext_eq {r q : Ref} {a b : List Ref} (hp : h0.parent r = some q)
    (hc : h0.children q = a ++ r :: b) (hn : (a ++ r :: b).Nodup) : hasNext h0 r = decide (b ≠ []) := by
  have hr : r ∉ a := by
    intro h
    rw [List.nodup_append] at hn
    exact hn.2.2 r h r (by simp) rfl
  unfold hasNext
  rw [Normalize.nextSibling_eq hp hc hr]
  cases b <;> simp

theorem nets_pp {o : Str} {rs : List Ref} (h : Nets o (opened h0 rs) (closed h0 rs))
    (hall : ∀ x ∈ rs, isMB h0 x = true → hasNext h0 x = true) : Nets o ["p".toList] ["p".toList] := by
  unfold opened closed at h
  cases h1 : rs.any (isMB h0) with
  | false =>
    have h2 : rs.any (isMBN h0) = false := by
      rw [List.any_eq_false] at h1 ⊢
      intro x hx; unfold isMBN; have := h1 x hx; simp_all
    rw [h1, h2] at h
    exact Inert.any h _
  | true =>
    have h2 : rs.any (isMBN h0) = true := by
      rw [List.any_eq_true] at h1 ⊢
      obtain ⟨x, hx, hm⟩ := h1
      exact ⟨x, hx, by unfold isMBN; rw [hm, hall x hx hm]; rfl⟩
    rw [h1, h2] at h
    exact h

variable {k : Conf}

mutual
theorem evalTree_good (ho : Outside k) : ∀ (t : Tree) {s : TrState} {p} (_ : IsTree h0 p t) (_ : t.pre.Nodup)
    (_ : ∀ x ∈ t.pre, Placed k h0 x) (_ : Good h0 s) (_ : Bare s t.pre),
    match evalTree k t s with
    | .ok _ s' => Turned h0 t.pre (before h0 t.root) (after h0 t.root)
        (fun x => isMBN h0 t.root && decide (h0.parent t.root = some x)) s s'
    | .err _ _ => True
  | .node r ks, s, p, ht, hn, hfits, hs, hb => by
    obtain ⟨hpar, hkids, hfor⟩ := ht
    rw [Tree.pre_node, List.nodup_cons] at hn
    have hfr := hfits r (by simp)
    rw [evalTree_node, bind_apply, Tree.root_node, Tree.pre_node]
    have hv := visit_good (h0 := h0) ho r hs hfr.link (hb r (by simp)).2
    have hsp := visit_spec k r s
    cases ev : visit k r s with
    | err e s1 => trivial
    | ok c s1 =>
      rw [ev] at hv hsp
      obtain ⟨hkeep, hvis⟩ := hsp
      obtain ⟨M, hM1, hM2⟩ := hv.opens
      simp only [bind_apply, Cmd.execute_eq]
      have hroots : ∀ x ∈ ks.map Tree.root, h0.parent x = some r := by
        intro x hx
        obtain ⟨t, ht, rfl⟩ := List.mem_map.mp hx
        exact (isForest_iff.mp hfor t ht).parent_root
      -- only paragraphs have display formulas as children
      have hnot : (h0.get r).cls ≠ .Paragraph → ∀ x ∈ ks.map Tree.root, isMB h0 x = false := by
        intro hne x hx
        by_contra hmb
        have hmb : (h0.get x).cls = .MathBlock := by simpa [isMB] using hmb
        have hxm : x ∈ Tree.preL ks := by
          obtain ⟨t, ht, rfl⟩ := List.mem_map.mp hx
          exact Tree.mem_preL.mpr ⟨t, ht, t.root_mem_pre⟩
        obtain ⟨q, hq, hqc⟩ := (hfits x (by simp [hxm])).parent hmb
        rw [hroots x hx] at hq
        cases hq
        exact hne hqc
      have hlast : ∀ l m, h0.children r = l ++ [m] → isMB h0 m = true → ∀ y ∈ l, isMB h0 y = false := by
        intro l m e hm y hy
        by_cases hc : (h0.get r).cls = .Paragraph
        · have := hfr.last hc l m e (by simpa [isMB] using hm) y hy
          simpa [isMB] using this
        · have := hnot hc m (by rw [← hkids, e]; simp)
          rw [hm] at this; cases this
      have ih := evalForest_good ho ks (q := r) (l := [])
        (s := { s1 with body := s1.body ++ c.text, deferred := c.pushed ++ s1.deferred }) hfor hn.2 hn.1
        (by simpa using hkids) (by simpa using roots_nodup hn.2) hlast
        (fun x hx => hfits x (by simp [hx])) hv.good (by
          intro x hx
          have hxr : x ≠ r := fun e => hn.1 (e ▸ hx)
          have := hb x (by simp [hx])
          exact ⟨(hv.mustCloseP x).trans this.1, (hv.followedByDot x hxr).trans this.2⟩)
      have hout := evalForest_outcome k ks
        { s1 with body := s1.body ++ c.text, deferred := c.pushed ++ s1.deferred }
      cases ef : evalForest k ks
          { s1 with body := s1.body ++ c.text, deferred := c.pushed ++ s1.deferred } with
      | err e s2 => trivial
      | ok a s2 =>
        rw [ef] at ih hout
        obtain ⟨out, hbody, hnets⟩ := ih.out
        have hdef2 : s2.deferred = c.pushed ++ s.deferred := by
          rw [hout.2.1]; show c.pushed ++ s1.deferred = _; rw [hkeep.deferred]
        have hmcp : (s2.heap.get r).mustCloseP = (ks.map Tree.root).any (isMBN h0) := by
          have := ih.mark r hn.1
          rw [this]
          show ((s1.heap.get r).mustCloseP || _) = _
          rw [hv.mustCloseP, (hb r (by simp)).1]
          simp
        have hextra : extra (s2.heap.get r) = closed h0 (ks.map Tree.root) := by
          unfold extra closed; rw [hmcp]
        have hinside : inside h0 r = opened h0 (ks.map Tree.root) := by
          unfold inside opened
          rw [hasMath_eq, hkids]
          by_cases hc : (h0.get r).cls = .Paragraph
          · simp [hc]
          · have : (ks.map Tree.root).any (isMB h0) = false := by
              rw [List.any_eq_false]; intro x hx; simp [hnot hc x hx]
            simp [hc, this]
        have hmid : Nets (c.text ++ out) (before h0 r) (extra (s2.heap.get r) ++ M) := by
          rw [hextra]
          exact hM1.append (by rw [hinside]; exact hnets.frame M)
        have hbody2 : s2.body = s.body ++ (c.text ++ out) := by
          rw [hbody]; show s1.body ++ c.text ++ out = _; rw [hkeep.body]; simp
        have hdot2 : (s2.heap.get r).followedByDot = (s1.heap.get r).followedByDot := ih.dot r hn.1
        have hmarks2 : ∀ x, x ∉ r :: Tree.preL ks →
            (s2.heap.get x).followedByDot = (s.heap.get x).followedByDot ∧
            (s2.heap.get x).mustCloseP = (s.heap.get x).mustCloseP := by
          intro x hx
          simp only [List.mem_cons, not_or] at hx
          refine ⟨(ih.dot x hx.2).trans (hv.followedByDot x hx.1), ?_⟩
          rw [ih.mark x hx.2]
          show ((s1.heap.get x).mustCloseP || _) = _
          rw [hv.mustCloseP]
          simp [hx.1]
        dsimp only
        unfold finish
        rcases hvis.pushed with ⟨h1, c0, h2, h3⟩ | ⟨h1, h3⟩
        · rw [h1, if_pos rfl, bind_apply]
          have hl := leave_good (h0 := h0) (k := k) r (s := s2) ih.good (c0 := c0) (ds := s.deferred)
            (by rw [hdef2, h3]; rfl) (M := M)
            (by unfold Turns; rw [closers_pushed hvis h3]; unfold dotOf at hM2 ⊢; rw [hdot2]; exact hM2)
            (by rw [hdot2]; exact hv.dot)
            (by
              intro h
              by_contra hc
              rw [hmcp, List.any_eq_true] at h
              obtain ⟨x, hx, hm⟩ := h
              have := hnot hc x hx
              unfold isMBN at hm; rw [this] at hm; cases hm)
            hfr.parent
          have hls := leave_spec k r (s := s2) (c0 := c0) (ds := s.deferred) (by rw [hdef2, h3]; rfl) h2
          cases el : leave k r s2 with
          | err e s3 => trivial
          | ok d s3 =>
            rw [el] at hl hls
            simp only [Cmd.execute_eq]
            refine ⟨hl.good, ⟨c.text ++ out ++ d.text, ?_, hmid.append hl.closes⟩, ?_, ?_⟩
            · show s3.body ++ d.text = _
              rw [hls.1.body, hbody2]; simp
            · intro x hx
              exact (hl.followedByDot x).trans (hmarks2 x hx).1
            · intro x hx
              refine (hl.mustCloseP x).trans ?_
              rw [(hmarks2 x hx).2]
              unfold isMBN isMB
              simp [Bool.and_assoc]
        · rw [h1]
          have hno : ¬ ((s1.heap.get r).followedByDot = true ∨ (h0.get r).cls = .Paragraph ∨
              (h0.get r).cls = .MathBlock) := fun h => by
            have := hv.defers h; rw [h1] at this; cases this
          simp only [not_or] at hno
          have haft : after h0 r = [] := by unfold after; simp [hno.2.2]
          have hM : M = [] := by
            rw [closers_nil hvis h1] at hM2
            have : M = _ := hM2
            rw [this]; unfold dotOf; rw [if_neg hno.1]
          have hex : extra (s2.heap.get r) = [] := by
            rw [hextra]; unfold closed
            have : (ks.map Tree.root).any (isMBN h0) = false := by
              rw [List.any_eq_false]; intro x hx
              unfold isMBN; rw [hnot hno.2.1 x hx]; simp
            rw [this]; rfl
          refine ⟨ih.good, ⟨c.text ++ out, hbody2, ?_⟩, fun x hx => (hmarks2 x hx).1, fun x hx => ?_⟩
          · rw [haft]; rw [hM, hex] at hmid; exact hmid
          · rw [show s2 = s2 from rfl, (hmarks2 x hx).2]
            unfold isMBN isMB
            simp [hno.2.2]
theorem evalForest_good (ho : Outside k) : ∀ (ts : List Tree) {s : TrState} {q : Ref} {l : List Ref}
    (_ : IsForest h0 (some q) ts) (_ : (Tree.preL ts).Nodup) (_ : q ∉ Tree.preL ts)
    (_ : h0.children q = l ++ ts.map Tree.root) (_ : (l ++ ts.map Tree.root).Nodup)
    (_ : ∀ l m, h0.children q = l ++ [m] → isMB h0 m = true → ∀ y ∈ l, isMB h0 y = false)
    (_ : ∀ x ∈ Tree.preL ts, Placed k h0 x) (_ : Good h0 s) (_ : Bare s (Tree.preL ts)),
    match evalForest k ts s with
    | .ok _ s' => Turned h0 (Tree.preL ts) (opened h0 (ts.map Tree.root)) (closed h0 (ts.map Tree.root))
        (fun x => decide (x = q) && (ts.map Tree.root).any (isMBN h0)) s s'
    | .err _ _ => True
  | [], s, q, l, hf, hn, hq, hkids, hnd, hlast, hfits, hs, hb => by
    rw [evalForest_nil]
    exact ⟨hs, ⟨[], by simp, Nets.nil _⟩, fun _ _ => rfl, fun _ _ => by simp⟩
  | t :: ts, s, q, l, hf, hn, hq, hkids, hnd, hlast, hfits, hs, hb => by
    rw [evalForest_cons, bind_apply]
    rw [Tree.preL_cons] at hn hq
    rw [List.nodup_append] at hn
    simp only [List.mem_append, not_or] at hq
    have h1 := evalTree_good ho t (s := s) hf.1 hn.1 (fun x hx => hfits x (by simp [hx])) hs
      (fun x hx => hb x (by simp [hx]))
    have hparent : h0.parent t.root = some q := IsTree.parent_root hf.1
    cases e1 : evalTree k t s with
    | err e s1 => trivial
    | ok a s1 =>
      rw [e1] at h1
      have hkids' : h0.children q = (l ++ [t.root]) ++ ts.map Tree.root := by simpa using hkids
      have h2 := evalForest_good ho ts (s := s1) (q := q) (l := l ++ [t.root]) hf.2 hn.2.1 hq.2 hkids'
        (by simpa using hnd) hlast (fun x hx => hfits x (by simp [hx])) h1.good (by
          intro x hx
          have hxt : x ∉ t.pre := fun h => hn.2.2 x h x hx rfl
          have hxq : q ≠ x := fun e => hq.2 (e ▸ hx)
          have := hb x (by simp [hx])
          rw [h1.dot x hxt, h1.mark x hxt, hparent, this.1, this.2]
          simp [hxq])
      dsimp only
      cases e2 : evalForest k ts s1 with
      | err e s2 => trivial
      | ok b s2 =>
        rw [e2] at h2
        obtain ⟨o1, hb1, hn1⟩ := h1.out
        obtain ⟨o2, hb2, hn2⟩ := h2.out
        have hnext : hasNext h0 t.root = decide (ts.map Tree.root ≠ []) :=
          hasNext_eq hparent (by simpa using hkids) (by simpa using hnd)
        refine ⟨h2.good, ⟨o1 ++ o2, by rw [hb2, hb1]; simp, ?_⟩, ?_, ?_⟩
        · rw [before_eq, after_eq] at hn1
          simp only [List.map_cons]
          cases hmb : isMB h0 t.root with
          | false =>
            have hmbn : isMBN h0 t.root = false := by unfold isMBN; rw [hmb]; rfl
            rw [hmb, hmbn] at hn1
            have : opened h0 (t.root :: ts.map Tree.root) = opened h0 (ts.map Tree.root) := by
              unfold opened; simp [hmb]
            rw [this]
            have : closed h0 (t.root :: ts.map Tree.root) = closed h0 (ts.map Tree.root) := by
              unfold closed; simp [hmbn]
            rw [this]
            exact (Inert.any hn1 _).append hn2
          | true =>
            have hop : opened h0 (t.root :: ts.map Tree.root) = ["p".toList] := by
              unfold opened; simp [hmb]
            rw [hop]
            rw [hmb] at hn1
            by_cases hts : ts.map Tree.root = []
            · have hmbn : isMBN h0 t.root = false := by unfold isMBN; rw [hnext]; simp [hts]
              have hc : closed h0 (t.root :: ts.map Tree.root) = [] := by
                unfold closed; simp [hmbn, hts]
              rw [hc]
              rw [hmbn] at hn1
              rw [hts] at hn2
              exact hn1.append hn2
            · have hmbn : isMBN h0 t.root = true := by unfold isMBN; rw [hnext, hmb]; simp [hts]
              have hc : closed h0 (t.root :: ts.map Tree.root) = ["p".toList] := by
                unfold closed; simp [hmbn]
              rw [hc]
              rw [hmbn] at hn1
              refine Nets.append hn1 (nets_pp hn2 ?_)
              intro x hx hxm
              obtain ⟨a, b, hab⟩ := List.append_of_mem hx
              have hxp : h0.parent x = some q := by
                obtain ⟨t', ht', rfl⟩ := List.mem_map.mp hx
                exact (isForest_iff.mp hf.2 t' ht').parent_root
              have hch : h0.children q = (l ++ t.root :: a) ++ x :: b := by
                rw [hkids', hab]; simp
              rw [hasNext_eq hxp hch (by
                have : (l ++ List.map Tree.root (t :: ts)).Nodup := hnd
                rw [List.map_cons, hab] at this; simpa using this)]
              by_contra hb'
              have hbnil : b = [] := by simpa using hb'
              rw [hbnil] at hch
              have := hlast _ _ hch hxm t.root (by simp)
              rw [hmb] at this; cases this
        · intro x hx
          simp only [Tree.preL_cons, List.mem_append, not_or] at hx
          rw [h2.dot x hx.2, h1.dot x hx.1]
        · intro x hx
          simp only [Tree.preL_cons, List.mem_append, not_or] at hx
          rw [h2.mark x hx.2, h1.mark x hx.1, hparent]
          simp only [List.map_cons, List.any_cons, Option.some.injEq]
          by_cases hxq : x = q
          · simp [hxq, Bool.or_assoc]
          · simp [hxq, Ne.symm hxq]
end

end Tr
end RSM
