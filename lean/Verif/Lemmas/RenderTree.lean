import Verif.Lemmas.RenderLeave
import Verif.Lemmas.BalTree

/-! # Lemmas: what is written for a document -/

namespace RSM
namespace Tr
open PyM

variable {k : Conf} {h0 : Heap} {num : Ref → Option Str} {ref : Ref → Str}

/-- What the document must be, for one of its nodes. -/
structure Apt (k : Conf) (h0 : Heap) (num : Ref → Option Str) (ref : Ref → Str) (r : Ref) : Prop where
  kind : (h0.get r).cls ∉ [.Node, .NodeWithChildren, .Heading, .BaseParagraph, .BaseReference,
    .PendingReference, .PendingPrev, .PendingCite]
  url : (h0.get r).cls = .URL → ∀ y, (h0.get r).target ≠ .node y
  named : ∀ y, (y = r ∨ h0.parent r = some y ∨ LeadsTo h0 r y) → Named k h0 num ref y

theorem visit_seen {r b s s' c} (hk : k.handrails = false) (hf : SameFrame h0 s.heap) (R : Apt k h0 num ref r)
    (hown : r ∉ h0.children r) (hn : s.heap.get r = record h0 r b) (hv : visit k r s = .ok c s') :
    Seen k h0 num ref r c s s' := by
  have hN := R.named r (.inl rfl)
  have hP : ∀ p, h0.parent r = some p → Named k h0 num ref p := fun p hp => R.named p (.inr (.inl hp))
  have hL : ∀ x, LeadsTo h0 r x → Named k h0 num ref x := fun x hx => R.named x (.inr (.inr hx))
  have hkind := R.kind
  have hurl := R.url
  cases hc : (h0.get r).cls <;> first
    | exact visit_simple hk hn (by rw [hc]; decide) hv
    | exact visit_author hk hn hc hv
    | exact visit_para hk hf hn hc hv
    | exact visit_sourcecode hk hn hc hv
    | exact visit_span hk hn (by rw [hc]; decide) hv
    | exact visit_section hk hf hN hn (by rw [hc]; decide) hv
    | exact visit_theorem hk hf hN hn (by rw [hc]; decide) hv
    | exact visit_note hf hN hn hc hv
    | exact (visit_mathblock hk hn hc hv).1
    | exact visit_figure hf hN hn hc hv
    | exact visit_caption hf hP hn hc hv
    | exact visit_reference hf hL hn hc hv
    | exact visit_url (hurl hc) hn hc hv
    | exact visit_cite hf hL hn hc hv
    | exact visit_entry hk hn (by rw [hc]; decide) hv
    | exact visit_proof hk hf hown hn hc hv
    | exact absurd (by rw [hc]; decide) hkind

theorem visit_step_item {r s s' c} (hk : k.handrails = false) (hc : (s.heap.get r).cls = .Step)
    (hv : visit k r s = .ok c s') : ∃ i, c = .item i := by
  rw [visit_eq (by rw [hc]; rfl)] at hv
  simp only [visitWith, hk, Bool.false_eq_true, if_false, node, bind_apply, gets_apply] at hv
  cases hv
  exact ⟨_, rfl⟩

theorem visit_caption_parent {r s s' c} (hc : (s.heap.get r).cls = .Caption)
    (hv : visit k r s = .ok c s') : s.heap.parent r ≠ none := by
  rw [visit_eq (by rw [hc]; rfl)] at hv
  simp only [visitWith, visitCaption, bind_apply, get_apply] at hv
  intro hp
  rw [hp] at hv
  cases hv

theorem visit_math_parent {r s s' c} (hk : k.handrails = false) (hc : (s.heap.get r).cls = .MathBlock)
    (hv : visit k r s = .ok c s') : ∃ p, s.heap.parent r = some p ∧ s.heap.isInst p .Paragraph = true := by
  rw [visit_eq (by rw [hc]; rfl)] at hv
  simp only [visitWith, hk, Bool.false_eq_true, if_false, visitMathBlock, bind_apply, get_apply] at hv
  cases hp : s.heap.parent r with
  | none => rw [hp] at hv; cases hv
  | some p =>
    rw [hp] at hv
    cases hi : s.heap.isInst p .Paragraph with
    | false => simp only [hi] at hv; cases hv
    | true => exact ⟨p, rfl, hi⟩

/-- Nodes without anything to close. -/
theorem closing_none {r} (h : shut h0 r = []) (hcap : (h0.get r).cls = .Caption → h0.parent r ≠ none) :
    Render.closing h0 r = [] := by
  by_cases hc : (h0.get r).cls ∈ [.Abstract, .Paragraph, .MathBlock, .Proof, .Caption]
  · exfalso
    simp only [List.mem_cons, List.not_mem_nil, or_false] at hc
    unfold shut at h
    dsimp only at h
    rcases hc with hc | hc | hc | hc | hc
    · rw [hc] at h; cases h
    · rw [hc] at h; dsimp only at h; simp at h
    · rw [hc] at h; cases h
    · rw [hc] at h; cases h
    · rw [hc] at h; dsimp only at h
      cases hp : h0.parent r with
      | none => exact hcap hc hp
      | some p => rw [hp] at h; cases h
  · rw [closing_flat hc, h]; rfl

/-- The node is a display formula that is followed by something, inside `x`. -/
def marks (h0 : Heap) (r x : Ref) : Bool :=
  decide ((h0.get r).cls = .MathBlock) && (decide (h0.parent r = some x) && Render.followed h0 r)

/-- What translating the nodes `xs` does. -/
structure Paged (h0 : Heap) (xs : List Ref) (out : Str) (mark : Ref → Bool) (s s' : TrState) : Prop where
  live : Live h0 s'
  body : s'.body = s.body ++ out
  types : ∀ x, x ∉ xs → (s'.heap.get x).types = (s.heap.get x).types
  marks : ∀ x, x ∉ xs → (s'.heap.get x).mustCloseP = ((s.heap.get x).mustCloseP || mark x)

/-- The state before the nodes `xs` are translated, of which `rs` are the topmost. -/
structure Fresh (h0 : Heap) (rs xs : List Ref) (s : TrState) : Prop where
  tops : ∀ x ∈ rs, (s.heap.get x).types = Render.types h0 x
  types : ∀ x ∈ xs, x ∉ rs → (s.heap.get x).types = (h0.get x).types
  marks : ∀ x ∈ xs, (h0.get x).cls.isSub .Paragraph = true → (s.heap.get x).mustCloseP = false

theorem live_record {r s} (hl : Live h0 s) (ht : (s.heap.get r).types = Render.types h0 r) :
    s.heap.get r = record h0 r (s.heap.get r).mustCloseP := by
  obtain ⟨ty, b, e⟩ := hl.2 r
  rw [e] at ht ⊢
  unfold record
  rw [← ht]

theorem Retyped.live {r s s'} (hl : Live h0 s) (h : Retyped h0 r s s') : Live h0 s' := by
  refine ⟨h.1.trans hl.1, fun x => ?_⟩
  obtain ⟨ty, e, _⟩ := h.2 x
  obtain ⟨ty0, b, e0⟩ := hl.2 x
  exact ⟨ty, b, by rw [e, e0]⟩

theorem Gone.live {r d s s'} (hl : Live h0 s) (h : Gone h0 r d s s') : Live h0 s' := by
  refine ⟨h.next.trans hl.1, fun x => ?_⟩
  obtain ⟨ty, b, e⟩ := hl.2 x
  exact ⟨ty, _, by rw [h.heap x, e]⟩

theorem any_followed {r : Ref} (hn : (h0.children r).Nodup) (hp : ∀ x ∈ h0.children r, h0.parent x = some r) :
    (h0.children r).any (fun x => marks h0 x r) = Render.interrupted h0 r := by
  unfold Render.interrupted
  rw [Bool.eq_iff_iff, List.any_eq_true, List.any_eq_true]
  have hf : ∀ x ∈ h0.children r, Render.followed h0 x = ((h0.children r).getLast? != some x) := by
    intro x hx; unfold Render.followed; rw [hp x hx]
  have hm : ∀ x ∈ h0.children r, marks h0 x r =
      (decide ((h0.get x).cls = .MathBlock) && ((h0.children r).getLast? != some x)) := by
    intro x hx
    unfold marks
    rw [hf x hx, hp x hx]
    simp
  rcases List.eq_nil_or_concat (h0.children r) with e | ⟨l, a, e⟩
  · simp [e]
  · rw [List.concat_eq_append] at e
    rw [e] at hm hn ⊢
    rw [List.nodup_append] at hn
    constructor
    · rintro ⟨x, hx, h⟩
      rw [hm x hx] at h
      simp only [List.getLast?_append, List.getLast?_singleton, Option.some_or, Bool.and_eq_true, bne_iff_ne, ne_eq,
        Option.some.injEq] at h
      refine ⟨x, ?_, h.1⟩
      rw [List.dropLast_concat]
      rcases List.mem_append.mp hx with h' | h'
      · exact h'
      · exact absurd (List.mem_singleton.mp h').symm h.2
    · rintro ⟨x, hx, h⟩
      rw [List.dropLast_concat] at hx
      refine ⟨x, List.mem_append.mpr (.inl hx), ?_⟩
      rw [hm x (List.mem_append.mpr (.inl hx))]
      simp only [List.getLast?_append, List.getLast?_singleton, Option.some_or, Bool.and_eq_true, bne_iff_ne, ne_eq,
        Option.some.injEq]
      exact ⟨h, fun e => hn.2.2 x hx a (by simp) e.symm⟩

theorem next_followed {r q : Ref} (hp : h0.parent r = some q) (hr : r ∈ h0.children q) (hn : (h0.children q).Nodup) :
    hasNext h0 r = Render.followed h0 r := by
  obtain ⟨a, b, e⟩ := List.append_of_mem hr
  rw [hasNext_eq hp e (e ▸ hn)]
  unfold Render.followed
  rw [hp]
  dsimp only
  rw [e]
  rcases List.eq_nil_or_concat b with h | ⟨l, z, h⟩
  · subst h; simp
  · rw [List.concat_eq_append] at h
    subst h
    rw [e] at hn
    have hz : z ≠ r := by
      intro hz
      subst hz
      rw [List.nodup_append, List.nodup_cons] at hn
      exact hn.2.1.1 (by simp)
    have e2 : (a ++ r :: (l ++ [z])).getLast? = some z := by
      rw [show a ++ r :: (l ++ [z]) = (a ++ r :: l) ++ [z] by simp, List.getLast?_concat]
    rw [e2]
    simp [hz]

mutual
theorem evalTree_paged (hk : k.handrails = false) : ∀ (t : Tree) {s s' : TrState} {p a} (_ : IsTree h0 p t)
    (_ : t.pre.Nodup) (_ : ∀ q, p = some q → t.root ∈ h0.children q ∧ (h0.children q).Nodup)
    (_ : ∀ x ∈ t.pre, Apt k h0 num ref x) (_ : Live h0 s) (_ : Fresh h0 [t.root] t.pre s)
    (_ : evalTree k t s = .ok a s'),
    Paged h0 t.pre (Render.page h0 num ref k.highlight t) (marks h0 t.root) s s'
  | .node r ks, s, s', p, a, ht, hn, hq, hR, hl, hb, hev => by
    obtain ⟨hpar, hkids, hfor⟩ := ht
    rw [Tree.pre_node, List.nodup_cons] at hn
    rw [Tree.root_node] at hq hb
    rw [Tree.pre_node] at hR hb
    rw [evalTree_node] at hev
    rw [Tree.root_node, Tree.pre_node]
    obtain ⟨c, s1, hv, hev1⟩ := bindOk hev
    clear hev
    have hown : r ∉ h0.children r := by
      rw [hkids]
      intro h
      obtain ⟨t, ht, e⟩ := List.mem_map.mp h
      exact hn.1 (Tree.mem_preL.mpr ⟨t, ht, e ▸ t.root_mem_pre⟩)
    have hnr := live_record hl (hb.tops r (by simp))
    have hcs : (s.heap.get r).cls = (h0.get r).cls := hl.frame.cls r
    have hseen := visit_seen hk hl.frame (hR r (by simp)) hown hnr hv
    have hsp := visit_spec k r s
    rw [hv] at hsp
    obtain ⟨hkeep, hvis⟩ := hsp
    simp only [bind_apply, Cmd.execute_eq] at hev1
    have hl1 : Live h0 { s1 with body := s1.body ++ c.text, deferred := c.pushed ++ s1.deferred } :=
      hseen.heap.live hl
    have hroots : ∀ x ∈ ks.map Tree.root, h0.parent x = some r := by
      intro x hx
      obtain ⟨t, ht, rfl⟩ := List.mem_map.mp hx
      exact (isForest_iff.mp hfor t ht).parent_root
    have hnd : (h0.children r).Nodup := by rw [hkids]; exact roots_nodup hn.2
    have hmem : ∀ x ∈ ks.map Tree.root, x ∈ Tree.preL ks := by
      intro x hx
      obtain ⟨t, ht, rfl⟩ := List.mem_map.mp hx
      exact Tree.mem_preL.mpr ⟨t, ht, t.root_mem_pre⟩
    have hty1 : ∀ x, x ≠ r → (s1.heap.get x).types =
        (s.heap.get x).types ++ if lastOf h0 r x then ["last".toList] else [] := by
      intro x hx
      obtain ⟨ty, e, hty⟩ := hseen.heap.2 x
      rw [e]; exact hty hx
    have hmk1 : ∀ x, (s1.heap.get x).mustCloseP = (s.heap.get x).mustCloseP := by
      intro x
      obtain ⟨ty, e, hty⟩ := hseen.heap.2 x
      rw [e]
    have hlast : ∀ x, x ∉ ks.map Tree.root → lastOf h0 r x = false := by
      intro x hx
      unfold lastOf
      cases h : decide ((h0.get r).cls = .Proof) with
      | false => rfl
      | true =>
        rw [Bool.true_and, beq_eq_false_iff_ne]
        intro e
        have := List.mem_of_getLast? e
        rw [hkids] at this
        exact hx (List.mem_filter.mp this).1
    have hb1 : Fresh h0 (ks.map Tree.root) (Tree.preL ks)
        { s1 with body := s1.body ++ c.text, deferred := c.pushed ++ s1.deferred } := by
      constructor
      · intro x hx
        have hxr : x ≠ r := fun e => hn.1 (e ▸ hmem x hx)
        show (s1.heap.get x).types = _
        rw [hty1 x hxr, hb.types x (by simp [hmem x hx]) (by simpa using hxr)]
        unfold Render.types Render.lastStep lastOf
        rw [hroots x hx]
      · intro x hx hxt
        have hxr : x ≠ r := fun e => hn.1 (e ▸ hx)
        show (s1.heap.get x).types = _
        rw [hty1 x hxr, hb.types x (by simp [hx]) (by simpa using hxr), hlast x hxt]
        simp
      · intro x hx
        exact fun hp => (hmk1 x).trans (hb.marks x (by simp [hx]) hp)
    cases ef : evalForest k ks
        { s1 with body := s1.body ++ c.text, deferred := c.pushed ++ s1.deferred } with
    | err e s2 => rw [ef] at hev1; cases hev1
    | ok a2 s2 =>
      rw [ef] at hev1
      have ih := evalForest_paged hk ks (q := r) hfor hn.2 hn.1
        (fun x hx => by rw [hkids]; exact hx) hnd (fun x hx => hR x (by simp [hx])) hl1 hb1 ef
      have hout := evalForest_outcome k ks
        { s1 with body := s1.body ++ c.text, deferred := c.pushed ++ s1.deferred }
      rw [ef] at hout
      have hdef2 : s2.deferred = c.pushed ++ s.deferred := by
        rw [hout.2.1]; show c.pushed ++ s1.deferred = _; rw [hkeep.deferred]
      have hmcp : (h0.get r).cls.isSub .Paragraph = true → (s2.heap.get r).mustCloseP = Render.interrupted h0 r := by
        intro hpara
        rw [ih.marks r hn.1]
        show ((s1.heap.get r).mustCloseP || _) = _
        rw [hmk1, hb.marks r (by simp) hpara, Bool.false_or, ← any_followed hnd (by rw [hkids]; exact hroots), hkids]
      have hbody2 : s2.body = s.body ++ (Render.opening h0 num ref k.highlight r ++
          Render.pages h0 num ref k.highlight ks) := by
        rw [ih.body]; show s1.body ++ c.text ++ _ = _
        rw [hkeep.body, hseen.text]; simp only [List.append_assoc]
      have hty2 : ∀ x, x ∉ r :: Tree.preL ks → (s2.heap.get x).types = (s.heap.get x).types := by
        intro x hx
        simp only [List.mem_cons, not_or] at hx
        rw [ih.types x hx.2]
        show (s1.heap.get x).types = _
        rw [hty1 x hx.1, hlast x (fun h => hx.2 (hmem x h))]
        simp
      have hmk2 : ∀ x, x ∉ r :: Tree.preL ks → (s2.heap.get x).mustCloseP = (s.heap.get x).mustCloseP := by
        intro x hx
        simp only [List.mem_cons, not_or] at hx
        rw [ih.marks x hx.2]
        show ((s1.heap.get x).mustCloseP || _) = _
        rw [hmk1]
        have : (ks.map Tree.root).any (fun y => marks h0 y x) = false := by
          rw [List.any_eq_false]
          intro y hy
          unfold marks
          rw [hroots y hy]
          simp [Ne.symm hx.1]
        rw [this, Bool.or_false]
      have hcap : (h0.get r).cls = .Caption → h0.parent r ≠ none := by
        intro h
        have := visit_caption_parent (hcs.trans h) hv
        rwa [hl.frame.parent] at this
      have hmath : (h0.get r).cls = .MathBlock → hasNext h0 r = Render.followed h0 r ∧
          ∃ p, h0.parent r = some p ∧ h0.isInst p .Paragraph = true := by
        intro h
        obtain ⟨q, hq1, hq2⟩ := visit_math_parent hk (hcs.trans h) hv
        rw [hl.frame.parent] at hq1
        rw [hl.frame.isInst] at hq2
        have hpq : p = some q := hpar.symm.trans hq1
        exact ⟨next_followed hq1 (hq q hpq).1 (hq q hpq).2, q, hq1, hq2⟩
      have hpage : Render.page h0 num ref k.highlight (.node r ks) = Render.opening h0 num ref k.highlight r ++
          Render.pages h0 num ref k.highlight ks ++ Render.closing h0 r := by rw [Render.page]
      rw [hpage]
      dsimp only at hev1
      unfold finish at hev1
      rcases hvis.pushed with ⟨h1, c0, h2, h3⟩ | ⟨h1, h3⟩
      · rw [h1, if_pos rfl] at hev1
        obtain ⟨d, s3, el, hex⟩ := bindOk hev1
        have hds : s2.deferred = c0 :: s.deferred := by rw [hdef2, h3]; rfl
        have hgone := leave_written hk ih.live.frame hds h2
          (by rw [closers_pushed hvis h3, hseen.closers]) hmcp hmath (by
            intro hs
            obtain ⟨i, rfl⟩ := visit_step_item hk (hcs.trans hs) hv
            simp only [Cmd.pushed] at h3
            cases hi : i.deferred with
            | none => rw [hi] at h3; cases h3
            | some d => rw [hi] at h3; exact ⟨d, (List.cons.inj h3).1.symm⟩) el
        have hls := leave_spec k r hds h2
        rw [el] at hls
        rw [Cmd.execute_eq] at hex
        cases hex
        refine ⟨show Live h0 s3 from hgone.live ih.live, ?_, fun x hx => ?_, fun x hx => ?_⟩
        · show s3.body ++ d.text = _
          rw [hls.1.body, hbody2, hgone.text]; simp only [List.append_assoc]
        · show (s3.heap.get x).types = _
          rw [hgone.heap x]; exact hty2 x hx
        · show (s3.heap.get x).mustCloseP = _
          rw [hgone.heap x]
          show ((s2.heap.get x).mustCloseP || _) = _
          rw [hmk2 x hx]; rfl
      · rw [h1] at hev1
        cases hev1
        have hcn : shut h0 r = [] := by rw [← hseen.closers]; exact closers_nil hvis h1
        rw [closing_none hcn hcap, List.append_nil]
        refine ⟨ih.live, hbody2, hty2, fun x hx => ?_⟩
        rw [hmk2 x hx]
        have : (h0.get r).cls ≠ .MathBlock := by
          intro h
          unfold shut at hcn
          dsimp only at hcn
          rw [h] at hcn
          cases hcn
        simp [marks, this]
theorem evalForest_paged (hk : k.handrails = false) : ∀ (ts : List Tree) {s s' : TrState} {q : Ref} {a}
    (_ : IsForest h0 (some q) ts) (_ : (Tree.preL ts).Nodup) (_ : q ∉ Tree.preL ts)
    (_ : ∀ x ∈ ts.map Tree.root, x ∈ h0.children q) (_ : (h0.children q).Nodup)
    (_ : ∀ x ∈ Tree.preL ts, Apt k h0 num ref x) (_ : Live h0 s)
    (_ : Fresh h0 (ts.map Tree.root) (Tree.preL ts) s) (_ : evalForest k ts s = .ok a s'),
    Paged h0 (Tree.preL ts) (Render.pages h0 num ref k.highlight ts)
      (fun x => (ts.map Tree.root).any fun y => marks h0 y x) s s'
  | [], s, s', q, a, hf, hn, hq, hkids, hnd, hR, hl, hb, hev => by
    rw [evalForest_nil] at hev
    cases hev
    exact ⟨hl, by simp [Render.pages], fun _ _ => rfl, fun _ _ => by simp⟩
  | t :: ts, s, s', q, a, hf, hn, hq, hkids, hnd, hR, hl, hb, hev => by
    rw [evalForest_cons] at hev
    rw [Tree.preL_cons] at hn hq hR hb ⊢
    rw [List.nodup_append] at hn
    simp only [List.mem_append, not_or] at hq
    obtain ⟨a1, s1, e1, e2⟩ := bindOk hev
    have hparent : h0.parent t.root = some q := IsTree.parent_root hf.1
    have hroot : ∀ x ∈ ts.map Tree.root, x ∈ Tree.preL ts := by
      intro x hx
      obtain ⟨t, ht, rfl⟩ := List.mem_map.mp hx
      exact Tree.mem_preL.mpr ⟨t, ht, t.root_mem_pre⟩
    have h1 := evalTree_paged hk t hf.1 hn.1
      (fun q' e => by cases e; exact ⟨hkids _ (by simp), hnd⟩) (fun x hx => hR x (by simp [hx])) hl (by
        constructor
        · intro x hx; exact hb.tops x (by simp only [List.mem_singleton] at hx; simp [hx])
        · intro x hx hx2
          refine hb.types x (by simp [hx]) ?_
          simp only [List.map_cons, List.mem_cons, not_or]
          exact ⟨by simpa using hx2, fun h => hn.2.2 x hx x (hroot x h) rfl⟩
        · intro x hx; exact hb.marks x (by simp [hx])) e1
    have hdis : ∀ x ∈ Tree.preL ts, x ∉ t.pre := fun x hx h => hn.2.2 x h x hx rfl
    have h2 := evalForest_paged hk ts hf.2 hn.2.1 hq.2 (fun x hx => hkids x (by simp [hx])) hnd
      (fun x hx => hR x (by simp [hx])) h1.live (by
        constructor
        · intro x hx
          rw [h1.types x (hdis x (hroot x hx))]
          exact hb.tops x (by simp [hx])
        · intro x hx hx2
          rw [h1.types x (hdis x hx)]
          refine hb.types x (by simp [hx]) ?_
          simp only [List.map_cons, List.mem_cons, not_or]
          exact ⟨fun e => hdis x hx (e ▸ t.root_mem_pre), hx2⟩
        · intro x hx hp
          rw [h1.marks x (hdis x hx), hb.marks x (by simp [hx]) hp]
          unfold marks
          rw [hparent]
          have : q ≠ x := fun e => hq.2 (e ▸ hx)
          simp [this]) e2
    refine ⟨h2.live, ?_, fun x hx => ?_, fun x hx => ?_⟩
    · rw [h2.body, h1.body, Render.pages, List.append_assoc]
    · simp only [List.mem_append, not_or] at hx
      rw [h2.types x hx.2, h1.types x hx.1]
    · simp only [List.mem_append, not_or] at hx
      rw [h2.marks x hx.2, h1.marks x hx.1, List.map_cons, List.any_cons, Bool.or_assoc]
end

end Tr
end RSM
