import Verif.Lemmas.RailsLeave

/-! # Lemmas: what is written for a document with handrails -/

namespace RSM
namespace Tr
open PyM

variable {k : Conf} {h : Heap} {num : Ref → Option Str} {ref : Ref → Str} {src : Option Str}

/-- What the document must be, for one of its nodes. -/
structure Fitting (k : Conf) (h : Heap) (num : Ref → Option Str) (ref : Ref → Str) (r : Ref) : Prop where
  apt : Apt k h num ref r
  entry : (h.get r).cls.isSub .Bibitem = true → Rails.EntryPlain (h.get r)
  dot : (h.get r).cls = .Math → (h.get r).followedByDot = false

theorem visit_railed {r b s s' c ks p} (hk : k.handrails = true) (hf : SameFrame h s.heap) (R : Fitting k h num ref r)
    (hown : r ∉ h.children r) (ht : IsTree h p (.node r ks)) (hfuel : (Tree.node r ks).size < k.fuel)
    (hsrc : src = if k.addSource then some (h.get s.tree).src else none)
    (hnext : ∀ y, Rails.next h r = some y → (s.heap.get y).text = (h.get y).text)
    (hn : s.heap.get r = record (Rails.dotless h) r b) (hv : visit k r s = .ok c s') :
    Railed k h num ref src r ks c s s' := by
  have N := R.apt.named r (.inl rfl)
  have hkind := R.apt.kind
  have hent := R.entry
  cases hc : (h.get r).cls <;> first
    | exact visit_shared hf R.apt hown hn (by rw [hc]; decide) hv
    | exact rail_author hk hf N hn hc hv
    | exact rail_abstract hk hf N hn hc hv
    | exact rail_bibliography hk hf N hn hc hv
    | exact rail_section hk hf N hn (by rw [hc]; decide) hv
    | exact rail_sketch hk hf N hn hc hv
    | exact rail_theorem hk hf N hn (by rw [hc]; decide) hv
    | exact rail_proof hk hf N hown hn hc hv
    | exact rail_paragraph hk hf N hn hc hv
    | exact rail_subproof hk hn hc hv
    | exact rail_step hk hf N hn hc hv
    | exact rail_math hk hf hnext hn hc hv
    | exact rail_mathblock hk hf N hn hc hv
    | exact rail_contents hk hf N ht hfuel hn hc hv
    | exact rail_manuscript hk hf ht hfuel hsrc hn hc hv
    | exact rail_entry hk (hent (by rw [hc]; decide)) hn (.inl hc) hv
    | exact rail_entry hk (hent (by rw [hc]; decide)) hn (.inr hc) hv
    | exact absurd hkind (by rw [hc]; decide)

/-! ## The sibling after a node -/

theorem next_at {x q : Ref} {pre post : List Ref} (hp : h.parent x = some q) (hc : h.children q = pre ++ x :: post)
    (hn : (h.children q).Nodup) : Rails.next h x = post.head? := by
  unfold Rails.next
  rw [hp]
  dsimp only
  rw [hc] at hn ⊢
  rw [List.nodup_append] at hn
  rw [List.dropWhile_append_of_pos (fun y hy => by
    have := hn.2.2 y hy x (by simp)
    simpa using this), List.dropWhile_cons_of_neg (by simp)]
  rfl

theorem words_first {x q : Ref} {post : List Ref} (hc : h.children q = x :: post) (hp : ∀ y ∈ h.children q, h.parent y = some q)
    (hn : (h.children q).Nodup) : Rails.words h x = (h.get x).text := by
  have hx : x ∈ h.children q := by rw [hc]; simp
  unfold Rails.words
  rw [hp x hx]
  dsimp only
  rw [if_neg]
  intro ha
  obtain ⟨m, hm, hd⟩ := List.any_eq_true.mp ha
  simp only [Bool.and_eq_true, beq_iff_eq] at hd
  obtain ⟨a, b, e⟩ := List.append_of_mem hm
  have hd2 := hd.2
  rw [next_at (hp m hm) e hn] at hd2
  cases b with
  | nil => cases hd2
  | cons y b =>
    cases hd2
    rw [e] at hn hc
    cases a with
    | nil =>
      have : m = x := (List.cons.inj hc).1
      subst this
      simp at hn
    | cons z a =>
      have : z = x := (List.cons.inj hc).1
      subst this
      simp at hn

theorem words_after {m x q : Ref} {pre post : List Ref} (hc : h.children q = pre ++ m :: x :: post)
    (hp : ∀ y ∈ h.children q, h.parent y = some q) (hn : (h.children q).Nodup) :
    Rails.words h x = if Rails.dotted h m then (h.get x).text.tail else (h.get x).text := by
  have hx : x ∈ h.children q := by rw [hc]; simp
  have hm : m ∈ h.children q := by rw [hc]; simp
  unfold Rails.words
  rw [hp x hx]
  dsimp only
  have hmx : Rails.next h m = some x := by rw [next_at (hp m hm) hc hn]; rfl
  have key : (h.children q).any (fun y => Rails.dotted h y && Rails.next h y == some x) = Rails.dotted h m := by
    rw [Bool.eq_iff_iff, List.any_eq_true]
    constructor
    · rintro ⟨y, hy, hd⟩
      simp only [Bool.and_eq_true, beq_iff_eq] at hd
      obtain ⟨a, b, e⟩ := List.append_of_mem hy
      have hd2 := hd.2
      rw [next_at (hp y hy) e hn] at hd2
      cases b with
      | nil => cases hd2
      | cons z b =>
        cases hd2
        have e1 : (h.children q) = (a ++ [y]) ++ x :: b := by rw [e]; simp
        have e2 : (h.children q) = (pre ++ [m]) ++ x :: post := by rw [hc]; simp
        have h1 : x ∉ a ++ [y] := by
          rw [e1] at hn
          rw [List.nodup_append] at hn
          exact fun hh => hn.2.2 x hh x (by simp) rfl
        have h2 : x ∉ pre ++ [m] := by
          rw [e2] at hn
          rw [List.nodup_append] at hn
          exact fun hh => hn.2.2 x hh x (by simp) rfl
        have e3 := e1.symm.trans e2
        have : a ++ [y] = pre ++ [m] := by
          have t1 := congrArg (List.takeWhile (· ≠ x)) e3
          have h1' : ∀ w ∈ a ++ [y], decide (w ≠ x) = true := fun w hw => decide_eq_true (fun e => h1 (e ▸ hw))
          have h2' : ∀ w ∈ pre ++ [m], decide (w ≠ x) = true := fun w hw => decide_eq_true (fun e => h2 (e ▸ hw))
          rw [List.takeWhile_append_of_pos h1', List.takeWhile_append_of_pos h2',
            List.takeWhile_cons_of_neg (by simp), List.takeWhile_cons_of_neg (by simp), List.append_nil,
            List.append_nil] at t1
          exact t1
        have hym : y = m := by
          have t1 := congrArg List.getLast? this
          simpa using t1
        rw [← hym]; exact hd.1
    · intro hd
      exact ⟨m, hm, by simp [hd, hmx]⟩
  rw [key]

/-! ## Documents -/

theorem frame_record {r : Ref} {s : TrState} (hf : SameFrame h s.heap) (ht : (s.heap.get r).types = Render.types h r)
    (hw : (s.heap.get r).text = Rails.words h r) (hd : (s.heap.get r).followedByDot = (h.get r).followedByDot) :
    s.heap.get r = record (Rails.dotless h) r (s.heap.get r).mustCloseP := by
  have e : ∀ nd : NodeRec, nd = { frame nd with
      types := nd.types, text := nd.text, mustCloseP := nd.mustCloseP, followedByDot := nd.followedByDot } := fun _ => rfl
  rw [e (s.heap.get r), hf.2 r, ht, hw, hd]
  rfl

/-- What translating the nodes `xs` does. -/
structure Traced (h : Heap) (xs : List Ref) (out : Str) (mark dot : Ref → Bool) (s s' : TrState) : Prop where
  frame : SameFrame h s'.heap
  tree : s'.tree = s.tree
  body : s'.body = s.body ++ out
  types : ∀ x, x ∉ xs → (s'.heap.get x).types = (s.heap.get x).types
  marks : ∀ x, x ∉ xs → (s'.heap.get x).mustCloseP = ((s.heap.get x).mustCloseP || mark x)
  text : ∀ x, x ∉ xs → (s'.heap.get x).text = if dot x then (s.heap.get x).text.tail else (s.heap.get x).text
  dots : ∀ x, x ∉ xs → (s'.heap.get x).followedByDot = (s.heap.get x).followedByDot

/-- The state before the nodes `xs` are translated, of which `rs` are the topmost. -/
structure Untrod (h : Heap) (rs xs : List Ref) (s : TrState) : Prop where
  tops : ∀ x ∈ rs, (s.heap.get x).types = Render.types h x
  types : ∀ x ∈ xs, x ∉ rs → (s.heap.get x).types = (h.get x).types
  marks : ∀ x ∈ xs, (h.get x).cls.isSub .Paragraph = true → (s.heap.get x).mustCloseP = false
  first : ∀ x, rs.head? = some x → (s.heap.get x).text = Rails.words h x
  text : ∀ x ∈ xs, rs.head? ≠ some x → (s.heap.get x).text = (h.get x).text
  dots : ∀ x ∈ xs, (s.heap.get x).followedByDot = (h.get x).followedByDot

theorem any_resumed {r : Ref} (hc : (h.get r).cls.isSub .BaseParagraph = true) (hn : (h.children r).Nodup)
    (hp : ∀ x ∈ h.children r, h.parent x = some r) :
    (h.children r).any (fun x => railMarks h x r) = Render.interrupted h r := by
  rw [← any_followed hn hp, Bool.eq_iff_iff, List.any_eq_true, List.any_eq_true]
  have key : ∀ x ∈ h.children r, railMarks h x r = marks h x r := by
    intro x hx
    unfold railMarks marks Rails.resumed
    rw [hp x hx]
    simp [hc]
  constructor
  · rintro ⟨x, hx, h1⟩; exact ⟨x, hx, by rw [← key x hx]; exact h1⟩
  · rintro ⟨x, hx, h1⟩; exact ⟨x, hx, by rw [key x hx]; exact h1⟩

/-- Nodes without anything to close. -/
theorem railClosing_none {r} (e : shutR h r = []) (hcap : (h.get r).cls = .Caption → h.parent r ≠ none) :
    Rails.closing h num r = [] ∧ (h.get r).cls ≠ .MathBlock := by
  by_cases hc : (h.get r).cls ∈ [.Author, .Subproof, .Sketch, .Proof, .Theorem, .Lemma,
      .Corollary, .Example, .Exercise, .Proposition, .Problem, .Porism, .Remark, .Definition, .Step, .Math, .MathBlock,
      .Abstract, .Paragraph, .Caption]
  · exfalso
    by_cases hp : (h.get r).cls = .Caption
    · unfold shutR shut at e
      dsimp only at e
      rw [hp] at e
      dsimp only at e
      cases hq : h.parent r with
      | none => exact hcap hp hq
      | some p => rw [hq] at e; cases e
    by_cases hp2 : (h.get r).cls = .Paragraph
    · unfold shutR at e
      dsimp only at e
      rw [hp2] at e
      dsimp only at e
      have := congrArg List.length e
      simp at this
    · have : ∃ a l, shutR h r = a :: l := by
        unfold shutR shut
        dsimp only
        revert hc hp hp2
        cases (h.get r).cls <;> intro hc hp hp2 <;> first
          | exact ⟨_, _, rfl⟩
          | exact absurd hc (by decide)
          | exact absurd rfl hp
          | exact absurd rfl hp2
      obtain ⟨a, l, e2⟩ := this
      rw [e2] at e
      cases e
  · refine ⟨by rw [closing_rest hc, e]; rfl, fun e2 => hc (by rw [e2]; decide)⟩

mutual
theorem evalTree_railed (hk : k.handrails = true) : ∀ (t : Tree) {s s' : TrState} {p a} (_ : IsTree h p t)
    (_ : t.pre.Nodup) (_ : ∀ q, p = some q → t.root ∈ h.children q ∧ (h.children q).Nodup)
    (_ : t.size < k.fuel) (_ : src = if k.addSource then some (h.get s.tree).src else none)
    (_ : ∀ y, Rails.next h t.root = some y → y ∉ t.pre ∧ (s.heap.get y).text = (h.get y).text)
    (_ : ∀ x ∈ t.pre, Fitting k h num ref x) (_ : SameFrame h s.heap) (_ : Untrod h [t.root] t.pre s)
    (_ : evalTree k t s = .ok a s'),
    Traced h t.pre (Rails.page h num ref k.highlight src t) (railMarks h t.root)
      (fun x => Rails.dotted h t.root && Rails.next h t.root == some x) s s'
  | .node r ks, s, s', p, a, ht, hn, hq, hfuel, hsrc, hnx, hR, hl, hb, hev => by
    have ht0 := ht
    obtain ⟨hpar, hkids, hfor⟩ := ht
    rw [Tree.pre_node, List.nodup_cons] at hn
    rw [Tree.root_node] at hq hb hnx
    rw [Tree.pre_node] at hR hb hnx
    rw [evalTree_node] at hev
    rw [Tree.root_node, Tree.pre_node]
    have hev0 := hev
    obtain ⟨c, s1, hv, hev1⟩ := bindOk hev
    clear hev
    have hown : r ∉ h.children r := by
      rw [hkids]
      intro h
      obtain ⟨t, ht, e⟩ := List.mem_map.mp h
      exact hn.1 (Tree.mem_preL.mpr ⟨t, ht, e ▸ t.root_mem_pre⟩)
    have hnr := frame_record hl (hb.tops r (by simp)) (hb.first r rfl) (hb.dots r (by simp))
    have hcs : (s.heap.get r).cls = (h.get r).cls := hl.cls r
    have hseen := visit_railed (src := src) hk hl (hR r (by simp)) hown ht0 hfuel hsrc (fun y hy => (hnx y hy).2) hnr hv
    have hsp := visit_spec k r s
    rw [hv] at hsp
    obtain ⟨hkeep, hvis⟩ := hsp
    simp only [bind_apply, Cmd.execute_eq] at hev1
    have hl1 : SameFrame h ({ s1 with body := s1.body ++ c.text, deferred := c.pushed ++ s1.deferred } : TrState).heap := hl.trans hkeep.frame
    have hroots : ∀ x ∈ ks.map Tree.root, h.parent x = some r := by
      intro x hx
      obtain ⟨t, ht, rfl⟩ := List.mem_map.mp hx
      exact (isForest_iff.mp hfor t ht).parent_root
    have hnd : (h.children r).Nodup := by rw [hkids]; exact roots_nodup hn.2
    have hmem : ∀ x ∈ ks.map Tree.root, x ∈ Tree.preL ks := by
      intro x hx
      obtain ⟨t, ht, rfl⟩ := List.mem_map.mp hx
      exact Tree.mem_preL.mpr ⟨t, ht, t.root_mem_pre⟩
    have hty1 : ∀ x, x ≠ r → (s1.heap.get x).types =
        (s.heap.get x).types ++ if lastOf h r x then ["last".toList] else [] := by
      intro x hx
      obtain ⟨ty, e, hty⟩ := hseen.heap.2 x
      rw [e]; exact hty hx
    have hmk1 : ∀ x, (s1.heap.get x).mustCloseP = (s.heap.get x).mustCloseP := by
      intro x
      obtain ⟨ty, e, hty⟩ := hseen.heap.2 x
      rw [e]
    have htx1 : ∀ x, (s1.heap.get x).text = if Rails.dotted h r && Rails.next h r == some x then
        (s.heap.get x).text.tail else (s.heap.get x).text := by
      intro x
      obtain ⟨ty, e, hty⟩ := hseen.heap.2 x
      rw [e]
    have hdt1 : ∀ x, (s1.heap.get x).followedByDot =
        ((s.heap.get x).followedByDot || (decide (x = r) && Rails.dotted h r)) := by
      intro x
      obtain ⟨ty, e, hty⟩ := hseen.heap.2 x
      rw [e]
    have htin : ∀ x ∈ Tree.preL ks, (s1.heap.get x).text = (h.get x).text := by
      intro x hx
      have hxr : x ≠ r := fun e => hn.1 (e ▸ hx)
      rw [htx1, if_neg, hb.text x (by simp [hx]) (by simpa using Ne.symm hxr)]
      simp only [Bool.and_eq_true, beq_iff_eq, not_and]
      intro _ e
      exact (hnx x e).1 (by simp [hx])
    have hlast : ∀ x, x ∉ ks.map Tree.root → lastOf h r x = false := by
      intro x hx
      unfold lastOf
      cases hh : decide ((h.get r).cls = .Proof) with
      | false => rfl
      | true =>
        rw [Bool.true_and, beq_eq_false_iff_ne]
        intro e
        have := List.mem_of_getLast? e
        rw [hkids] at this
        exact hx (List.mem_filter.mp this).1
    have hpall : ∀ y ∈ h.children r, h.parent y = some r := by rw [hkids]; exact hroots
    have hb1 : Untrod h (ks.map Tree.root) (Tree.preL ks)
        { s1 with body := s1.body ++ c.text, deferred := c.pushed ++ s1.deferred } := by
      constructor
      · intro x hx
        have hxr : x ≠ r := fun e => hn.1 (e ▸ hmem x hx)
        show (s1.heap.get x).types = _
        rw [hty1 x hxr, hb.types x (by simp [hmem x hx]) (by simpa using hxr)]
        unfold Render.types Render.lastStep lastOf
        rw [hroots x hx]
      · intro x hx hxt
        have hxr : x ≠ r := fun e => hn.1 (e ▸ hx)
        show (s1.heap.get x).types = _
        rw [hty1 x hxr, hb.types x (by simp [hx]) (by simpa using hxr), hlast x hxt]
        simp
      · intro x hx
        exact fun hp => (hmk1 x).trans (hb.marks x (by simp [hx]) hp)
      · intro x hx
        have hxm : x ∈ ks.map Tree.root := List.mem_of_mem_head? hx
        show (s1.heap.get x).text = _
        rw [htin x (hmem x hxm)]
        obtain ⟨post, e⟩ : ∃ post, h.children r = x :: post := by
          rw [hkids]
          cases hm : ks.map Tree.root with
          | nil => rw [hm] at hx; cases hx
          | cons y l => rw [hm] at hx; cases hx; exact ⟨l, rfl⟩
        exact (words_first e hpall hnd).symm
      · intro x hx _
        exact htin x hx
      · intro x hx
        have hxr : x ≠ r := fun e => hn.1 (e ▸ hx)
        show (s1.heap.get x).followedByDot = _
        rw [hdt1, hb.dots x (by simp [hx])]
        simp [hxr]
    cases ef : evalForest k ks
        { s1 with body := s1.body ++ c.text, deferred := c.pushed ++ s1.deferred } with
    | err e s2 => rw [ef] at hev1; cases hev1
    | ok a2 s2 =>
      rw [ef] at hev1
      have ih := evalForest_railed hk ks (q := r) (pre := []) hfor hn.2 hn.1
        (by rw [hkids]; rfl) hpall hnd (by rw [Tree.size_node] at hfuel; omega)
        (by show src = if k.addSource then some (h.get s1.tree).src else none; rw [hkeep.tree]; exact hsrc)
        (fun x hx => hR x (by simp [hx])) hl1 hb1 ef
      have hout := evalForest_outcome k ks
        { s1 with body := s1.body ++ c.text, deferred := c.pushed ++ s1.deferred }
      rw [ef] at hout
      have hdef2 : s2.deferred = c.pushed ++ s.deferred := by
        rw [hout.2.1]; show c.pushed ++ s1.deferred = _; rw [hkeep.deferred]
      have htree2 : s2.tree = s.tree := ih.tree.trans hkeep.tree
      have hmcp : (h.get r).cls = .Paragraph ∨ (h.get r).cls = .Caption →
          (s2.heap.get r).mustCloseP = Render.interrupted h r := by
        intro hpara
        have hsub : (h.get r).cls.isSub .Paragraph = true ∧ (h.get r).cls.isSub .BaseParagraph = true := by
          rcases hpara with e | e <;> rw [e] <;> decide
        rw [ih.marks r hn.1]
        show ((s1.heap.get r).mustCloseP || _) = _
        rw [hmk1, hb.marks r (by simp) hsub.1, Bool.false_or, ← any_resumed hsub.2 hnd hpall, hkids]
      have hbody2 : s2.body = s.body ++ (Rails.opening h num ref k.highlight src r ks ++
          Rails.pages h num ref k.highlight src ks) := by
        rw [ih.body]; show s1.body ++ c.text ++ _ = _
        rw [hkeep.body, hseen.text]; simp only [List.append_assoc]
      have hty2 : ∀ x, x ∉ r :: Tree.preL ks → (s2.heap.get x).types = (s.heap.get x).types := by
        intro x hx
        simp only [List.mem_cons, not_or] at hx
        rw [ih.types x hx.2]
        show (s1.heap.get x).types = _
        rw [hty1 x hx.1, hlast x (fun h => hx.2 (hmem x h))]
        simp
      have hmk2 : ∀ x, x ∉ r :: Tree.preL ks → (s2.heap.get x).mustCloseP = (s.heap.get x).mustCloseP := by
        intro x hx
        simp only [List.mem_cons, not_or] at hx
        rw [ih.marks x hx.2]
        show ((s1.heap.get x).mustCloseP || _) = _
        rw [hmk1]
        have : (ks.map Tree.root).any (fun y => railMarks h y x) = false := by
          rw [List.any_eq_false]
          intro y hy
          unfold railMarks
          rw [hroots y hy]
          simp [Ne.symm hx.1]
        rw [this, Bool.or_false]
      have htx2 : ∀ x, x ∉ r :: Tree.preL ks → (s2.heap.get x).text =
          if Rails.dotted h r && Rails.next h r == some x then (s.heap.get x).text.tail else (s.heap.get x).text := by
        intro x hx
        simp only [List.mem_cons, not_or] at hx
        rw [ih.text x hx.2, if_neg (by simp)]
        exact htx1 x
      have hdt2 : ∀ x, x ∉ r :: Tree.preL ks → (s2.heap.get x).followedByDot = (s.heap.get x).followedByDot := by
        intro x hx
        simp only [List.mem_cons, not_or] at hx
        rw [ih.dots x hx.2]
        show (s1.heap.get x).followedByDot = _
        rw [hdt1]
        simp [hx.1]
      have hcap : (h.get r).cls = .Caption → h.parent r ≠ none := by
        intro hh
        have := visit_caption_parent (hcs.trans hh) hv
        rwa [hl.parent] at this
      have hdot : (h.get r).cls = .Math → (s2.heap.get r).followedByDot = Rails.dotted h r := by
        intro hm
        rw [ih.dots r hn.1]
        show (s1.heap.get r).followedByDot = _
        rw [hdt1, hb.dots r (by simp), (hR r (by simp)).dot hm]
        simp
      have hpage : Rails.page h num ref k.highlight src (.node r ks) = Rails.opening h num ref k.highlight src r ks ++
          Rails.pages h num ref k.highlight src ks ++ Rails.closing h num r := by rw [Rails.page]
      rw [hpage]
      dsimp only at hev1
      unfold finish at hev1
      rcases hvis.pushed with ⟨h1, c0, h2, h3⟩ | ⟨h1, h3⟩
      · rw [h1, if_pos rfl] at hev1
        obtain ⟨d, s3, el, hex⟩ := bindOk hev1
        have hds : s2.deferred = c0 :: s.deferred := by rw [hdef2, h3]; rfl
        have hgone := leave_railed hk ih.frame ((hR r (by simp)).apt.named r (.inl rfl)) hds h2
          (by rw [closers_pushed hvis h3, hseen.closers]) hmcp (fun _ q hq1 => by
            have hpq : p = some q := hpar.symm.trans hq1
            exact next_followed hq1 (hq q hpq).1 (hq q hpq).2) hcap hdot el
        have hls := leave_spec k r hds h2
        rw [el] at hls
        rw [Cmd.execute_eq] at hex
        cases hex
        refine ⟨show SameFrame h s3.heap from ih.frame.trans hls.1.frame, hls.1.tree.trans htree2, ?_, fun x hx => ?_,
          fun x hx => ?_, fun x hx => ?_, fun x hx => ?_⟩
        · show s3.body ++ d.text = _
          rw [hls.1.body, hbody2, hgone.text]; simp only [List.append_assoc]
        · show (s3.heap.get x).types = _
          rw [hgone.heap x]; exact hty2 x hx
        · show (s3.heap.get x).mustCloseP = _
          rw [hgone.heap x]
          show ((s2.heap.get x).mustCloseP || _) = _
          rw [hmk2 x hx]
        · show (s3.heap.get x).text = _
          rw [hgone.heap x]; exact htx2 x hx
        · show (s3.heap.get x).followedByDot = _
          rw [hgone.heap x]; exact hdt2 x hx
      · rw [h1] at hev1
        cases hev1
        have hcn : shutR h r = [] := by rw [← hseen.closers]; exact closers_nil hvis h1
        obtain ⟨e1, e2⟩ := railClosing_none (num := num) hcn hcap
        rw [e1, List.append_nil]
        refine ⟨ih.frame, htree2, hbody2, hty2, fun x hx => ?_, htx2, hdt2⟩
        rw [hmk2 x hx]
        simp [railMarks, e2]
theorem evalForest_railed (hk : k.handrails = true) : ∀ (ts : List Tree) {s s' : TrState} {q : Ref} {pre : List Ref} {a}
    (_ : IsForest h (some q) ts) (_ : (Tree.preL ts).Nodup) (_ : q ∉ Tree.preL ts)
    (_ : h.children q = pre ++ ts.map Tree.root) (_ : ∀ y ∈ h.children q, h.parent y = some q) (_ : (h.children q).Nodup)
    (_ : Tree.sizeL ts < k.fuel) (_ : src = if k.addSource then some (h.get s.tree).src else none)
    (_ : ∀ x ∈ Tree.preL ts, Fitting k h num ref x) (_ : SameFrame h s.heap)
    (_ : Untrod h (ts.map Tree.root) (Tree.preL ts) s) (_ : evalForest k ts s = .ok a s'),
    Traced h (Tree.preL ts) (Rails.pages h num ref k.highlight src ts)
      (fun x => (ts.map Tree.root).any fun y => railMarks h y x) (fun _ => false) s s'
  | [], s, s', q, pre, a, hf, hn, hq, hkids, hpall, hnd, hfuel, hsrc, hR, hl, hb, hev => by
    rw [evalForest_nil] at hev
    cases hev
    exact ⟨hl, rfl, by simp [Rails.pages], fun _ _ => rfl, fun _ _ => by simp, fun _ _ => by simp, fun _ _ => rfl⟩
  | t :: ts, s, s', q, pre, a, hf, hn, hq, hkids, hpall, hnd, hfuel, hsrc, hR, hl, hb, hev => by
    rw [evalForest_cons] at hev
    rw [Tree.preL_cons] at hn hq hR hb ⊢
    rw [List.nodup_append] at hn
    simp only [List.mem_append, not_or] at hq
    rw [Tree.sizeL_cons] at hfuel
    obtain ⟨a1, s1, e1, e2⟩ := bindOk hev
    have hparent : h.parent t.root = some q := IsTree.parent_root hf.1
    have hroot : ∀ x ∈ ts.map Tree.root, x ∈ Tree.preL ts := by
      intro x hx
      obtain ⟨t, ht, rfl⟩ := List.mem_map.mp hx
      exact Tree.mem_preL.mpr ⟨t, ht, t.root_mem_pre⟩
    have hdis : ∀ x ∈ Tree.preL ts, x ∉ t.pre := fun x hx h => hn.2.2 x h x hx rfl
    have hnext : Rails.next h t.root = (ts.map Tree.root).head? := next_at hparent hkids hnd
    have h1 := evalTree_railed hk t hf.1 hn.1
      (fun q' e => by cases e; exact ⟨by rw [hkids]; simp, hnd⟩) (by omega) hsrc
      (fun y hy => by
        rw [hnext] at hy
        have hy1 := hroot y (List.mem_of_mem_head? hy)
        refine ⟨hdis y hy1, hb.text y (by simp [hy1]) ?_⟩
        intro e
        exact hdis y hy1 (by cases e; exact t.root_mem_pre))
      (fun x hx => hR x (by simp [hx])) hl (by
        constructor
        · intro x hx; exact hb.tops x (by simp only [List.mem_singleton] at hx; simp [hx])
        · intro x hx hx2
          refine hb.types x (by simp [hx]) ?_
          simp only [List.map_cons, List.mem_cons, not_or]
          exact ⟨by simpa using hx2, fun h => hn.2.2 x hx x (hroot x h) rfl⟩
        · intro x hx; exact hb.marks x (by simp [hx])
        · intro x hx; exact hb.first x hx
        · intro x hx hx2; exact hb.text x (by simp [hx]) hx2
        · intro x hx; exact hb.dots x (by simp [hx])) e1
    have h2 := evalForest_railed (pre := pre ++ [t.root]) hk ts hf.2 hn.2.1 hq.2
      (by rw [hkids]; simp) hpall hnd (by omega) (by rw [h1.tree]; exact hsrc)
      (fun x hx => hR x (by simp [hx])) h1.frame (by
        constructor
        · intro x hx
          rw [h1.types x (hdis x (hroot x hx))]
          exact hb.tops x (by simp [hx])
        · intro x hx hx2
          rw [h1.types x (hdis x hx)]
          refine hb.types x (by simp [hx]) ?_
          simp only [List.map_cons, List.mem_cons, not_or]
          exact ⟨fun e => hdis x hx (e ▸ t.root_mem_pre), hx2⟩
        · intro x hx hp
          rw [h1.marks x (hdis x hx), hb.marks x (by simp [hx]) hp]
          unfold railMarks
          rw [hparent]
          have : q ≠ x := fun e => hq.2 (e ▸ hx)
          simp [this]
        · intro x hx
          have hx1 := hroot x (List.mem_of_mem_head? hx)
          rw [h1.text x (hdis x hx1), hb.text x (by simp [hx1]) (by
            intro e
            exact hdis x hx1 (by cases e; exact t.root_mem_pre)), hnext, hx]
          obtain ⟨l, e⟩ : ∃ l, ts.map Tree.root = x :: l := by
            cases hm : ts.map Tree.root with
            | nil => rw [hm] at hx; cases hx
            | cons y l => rw [hm] at hx; cases hx; exact ⟨l, rfl⟩
          rw [words_after (m := t.root) (pre := pre) (post := l) (by rw [hkids, List.map_cons, e]) hpall hnd]
          simp
        · intro x hx hx2
          rw [h1.text x (hdis x hx), if_neg]
          · exact hb.text x (by simp [hx]) (fun e => hdis x hx (by cases e; exact t.root_mem_pre))
          · simp only [Bool.and_eq_true, beq_iff_eq, not_and]
            intro _ e
            exact hx2 (hnext ▸ e)
        · intro x hx
          rw [h1.dots x (hdis x hx)]
          exact hb.dots x (by simp [hx])) e2
    refine ⟨h2.frame, h2.tree.trans h1.tree, ?_, fun x hx => ?_, fun x hx => ?_, fun x hx => ?_, fun x hx => ?_⟩
    · rw [h2.body, h1.body, Rails.pages, List.append_assoc]
    · simp only [List.mem_append, not_or] at hx
      rw [h2.types x hx.2, h1.types x hx.1]
    · simp only [List.mem_append, not_or] at hx
      rw [h2.marks x hx.2, h1.marks x hx.1, List.map_cons, List.any_cons, Bool.or_assoc]
    · simp only [List.mem_append, not_or] at hx
      rw [h2.text x hx.2, if_neg (by simp), h1.text x hx.1, if_neg, if_neg (by simp)]
      simp only [Bool.and_eq_true, beq_iff_eq, not_and]
      intro _ e
      rw [hnext] at e
      exact hx.2 (hroot x (List.mem_of_mem_head? e))
    · simp only [List.mem_append, not_or] at hx
      rw [h2.dots x hx.2, h1.dots x hx.1]
end

end Tr
end RSM
