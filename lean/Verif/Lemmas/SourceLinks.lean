import Verif.Spec.SourceLinks
import Verif.Lemmas.ParserInput
import Verif.Props.Parser
import Verif.Lemmas.ResolveSpec

/-! The labels of a source and those of the manuscript (helper lemmas for C88). -/

namespace RSM
namespace Parser
open PyM Nodes Heap Tree

/-- The nodes that outlines leave out. -/
def LeftOut (h : Heap) (x : Ref) : Prop := h.isInst x .Text = true ∨ (h.get x).cls = .Keyword ∨ (h.get x).cls = .Bibliography

instance (h : Heap) (x : Ref) : Decidable (LeftOut h x) := inferInstanceAs (Decidable (_ ∨ _ ∨ _))

mutual
/-- The nodes that an outline shows. -/
def seen (h : Heap) : Tree → List Ref
  | .node x ts => if LeftOut h x then [] else x :: seenL h ts
def seenL (h : Heap) : List Tree → List Ref
  | [] => []
  | t :: ts => seen h t ++ seenL h ts
end

theorem looksL_append (a b : List Outline) : looksL (a ++ b) = looksL a ++ looksL b := by
  induction a with
  | nil => rfl
  | cons o a ih => rw [List.cons_append, looksL, looksL, ih, List.append_assoc]

mutual
theorem looks_seen (h : Heap) : ∀ t : Tree, looksL (outlineOf h t) = (seen h t).map (look h)
  | .node x ts => by
    rw [outlineOf, seen]
    by_cases e : LeftOut h x
    · rw [if_pos (show _ ∨ _ ∨ _ from e), if_pos e]; rfl
    · rw [if_neg (show ¬(_ ∨ _ ∨ _) from e), if_neg e, looksL, looksL, List.append_nil, Outline.looks, looks_seenL h ts]; rfl
theorem looks_seenL (h : Heap) : ∀ ts : List Tree, looksL (outlinesOf h ts) = (seenL h ts).map (look h)
  | [] => by rw [outlinesOf, looksL, seenL]; rfl
  | t :: ts => by rw [outlinesOf, looksL_append, seenL, List.map_append, looks_seen h t, looks_seenL h ts]
end

mutual
theorem all_below {H : Ref → Prop} : ∀ t : Tree, (∀ u ∈ t.subtrees, H u.root → ∀ k ∈ u.kids, H k.root) → H t.root →
    ∀ x ∈ t.pre, H x
  | .node i ks, hc, h0, x, hx => by
    rw [Tree.pre, List.mem_cons] at hx
    rw [Tree.subtrees] at hc
    rcases hx with rfl | hx
    · exact h0
    · exact all_belowL ks (fun u hu => hc u (List.mem_cons_of_mem _ hu)) (hc _ List.mem_cons_self h0) x hx
theorem all_belowL {H : Ref → Prop} : ∀ ts : List Tree, (∀ u ∈ subtreesL ts, H u.root → ∀ k ∈ u.kids, H k.root) →
    (∀ t ∈ ts, H t.root) → ∀ x ∈ preL ts, H x
  | [], _, _, x, hx => by rw [Tree.preL] at hx; cases hx
  | t :: ts, hc, h0, x, hx => by
    rw [Tree.preL, List.mem_append] at hx
    rw [Tree.subtreesL] at hc
    rcases hx with hx | hx
    · exact all_below t (fun u hu => hc u (List.mem_append_left _ hu)) (h0 _ List.mem_cons_self) x hx
    · exact all_belowL ts (fun u hu => hc u (List.mem_append_right _ hu)) (fun k hk => h0 k (List.mem_cons_of_mem _ hk)) x hx
end

theorem filter_none {p : Ref → Bool} {l : List Ref} (h : ∀ x ∈ l, p x = false) : l.filter p = [] :=
  List.filter_eq_nil_iff.mpr fun x hx => by rw [h x hx]; simp

mutual
theorem filter_seen {h : Heap} {H : Ref → Prop} {p : Ref → Bool} (h1 : ∀ x, LeftOut h x → H x) (h2 : ∀ x, H x → p x = false) :
    ∀ t : Tree, (∀ u ∈ t.subtrees, H u.root → ∀ k ∈ u.kids, H k.root) → t.pre.filter p = (seen h t).filter p
  | .node i ks, hc => by
    by_cases e : LeftOut h i
    · rw [seen, if_pos e, filter_none fun x hx => h2 x (all_below _ hc (h1 i e) x hx)]; rfl
    · rw [seen, if_neg e, Tree.pre, List.filter_cons, List.filter_cons,
        filter_seenL h1 h2 ks fun u hu => hc u (by rw [Tree.subtrees]; exact List.mem_cons_of_mem _ hu)]
theorem filter_seenL {h : Heap} {H : Ref → Prop} {p : Ref → Bool} (h1 : ∀ x, LeftOut h x → H x) (h2 : ∀ x, H x → p x = false) :
    ∀ ts : List Tree, (∀ u ∈ subtreesL ts, H u.root → ∀ k ∈ u.kids, H k.root) → (preL ts).filter p = (seenL h ts).filter p
  | [], _ => by rw [Tree.preL, seenL]
  | t :: ts, hc => by
    rw [Tree.subtreesL] at hc
    rw [Tree.preL, seenL, List.filter_append, List.filter_append,
      filter_seen h1 h2 t fun u hu => hc u (List.mem_append_left _ hu),
      filter_seenL h1 h2 ts fun u hu => hc u (List.mem_append_right _ hu)]
end

theorem forall₂_right {α β : Type} {R : α → β → Prop} {l : List α} {m : List β} (h : List.Forall₂ R l m) :
    ∀ b ∈ m, ∃ a ∈ l, R a b := by
  induction h with
  | nil => exact fun b hb => nomatch hb
  | @cons a b l m h1 _ ih =>
    intro b' hb
    rcases List.mem_cons.mp hb with rfl | hb
    · exact ⟨a, List.mem_cons_self, h1⟩
    · obtain ⟨a', h2, h3⟩ := ih b' hb
      exact ⟨a', List.mem_cons_of_mem _ h2, h3⟩

/-- A node that outlines leave out, or an entry of a bibliography. -/
def Off (c : Cst) (h : Heap) (x : Ref) : Prop :=
  LeftOut h x ∨ (h.get x).cls = .Bibitem ∧ (h.get x).label ∈ entryLabels c

theorem classOf_not_keyword (kind : Str) : classOf kind ≠ .Keyword := by
  intro g2
  unfold classOf at g2
  split at g2
  · cases g2
  split at g2
  · cases g2
  cases hl : classTable.lookup kind with
  | none => rw [hl] at g2; cases g2
  | some c =>
    rw [hl] at g2
    have : ∀ q ∈ classTable, q.2 ≠ .Keyword := by decide +kernel
    exact this _ (mem_of_lookup hl) g2

theorem entry_label {c : Cst} {d : Cst} {a n : NodeRec} (h1 : HasEntry (walks (sourceParts c)) d) (h2 : bibRecord d = .ok n)
    (h3 : core a = core n) : a.cls = .Bibitem ∧ a.label ∈ entryLabels c := by
  refine ⟨(core_cls h3).trans (bibRecord_ok h2).2, ?_⟩
  obtain ⟨l, hl, hd⟩ := h1
  refine List.mem_map.mpr ⟨d, List.mem_flatten.mpr ⟨l, hl, hd⟩, ?_⟩
  have e1 := congrArg EntryLook.label (bibRecord_entry h2)
  have e2 : a.label = n.label := core_label h3
  rw [e2, ← e1]
  rfl

variable {c : Cst} {fuel : Nat} {s s' : ParserState} {r : Ref} {t : Tree}

theorem off_closed (S : Source c) (F : Forest s.heap) (hf : 12 * c.size < fuel) (h : parse fuel c s = .ok r s')
    (D : Doc s'.heap r t) : ∀ u ∈ t.subtrees, Off c s'.heap u.root → ∀ k ∈ u.kids, Off c s'.heap k.root := by
  obtain ⟨G, -, -, -⟩ := parse_given S F hf h D
  rintro ⟨i, ks⟩ hu hi k hk
  have g := given_kid D G hu hk
  have hn : (s'.heap.get i).cls.isSub .NodeWithChildren = true := by
    refine children_nwc ?_
    obtain ⟨p, hp⟩ := D.tree.subtree hu
    rw [(isTree_node.mp hp).2.1]
    intro e
    rw [List.map_eq_nil_iff] at e
    exact List.ne_nil_of_mem hk e
  have hi : (s'.heap.get i).cls = .Keyword ∨ (s'.heap.get i).cls = .Bibliography := by
    rcases hi with (hi | hi | hi) | ⟨hi, -⟩
    · exfalso
      revert hi hn
      unfold Heap.isInst
      rw [Tree.root]
      generalize (s'.heap.get i).cls = cl
      cases cl <;> decide
    · exact .inl hi
    · exact .inr hi
    · rw [Tree.root] at hi
      rw [hi] at hn
      exact absurd hn (by decide)
  cases g with
  | added h1 =>
    rcases h1 with h1 | h1
    · exact .inl (.inl (by unfold Heap.isInst; rw [h1]; decide))
    · exact .inl (.inr (.inl h1))
  | bibliography _ h2 => rw [h2] at hi; rcases hi with hi | hi <;> cases hi
  | entry _ h1 h2 h3 => exact .inr (entry_label h1 h2 h3)
  | made h1 h2 => rcases hi with hi | hi; exacts [absurd hi h2, absurd hi h1]

/-- What is not in the outline has no label, but for entries of bibliographies. -/
theorem off_label (S : Source c) (F : Forest s.heap) (hf : 12 * c.size < fuel) (h : parse fuel c s = .ok r s')
    (D : Doc s'.heap r t) (hU : TextsUnlabelled c) {x : Ref} (hx : x ∈ t.pre) (ho : Off c s'.heap x) :
    (s'.heap.get x).label = [] ∨ (s'.heap.get x).cls = .Bibitem ∧ (s'.heap.get x).label ∈ entryLabels c := by
  obtain ⟨G, -, -, hM⟩ := parse_given S F hf h D
  rcases ho with ho | ho
  swap
  · exact .inr ho
  by_cases hr : x = r
  · subst hr
    exfalso
    unfold LeftOut Heap.isInst at ho
    rw [hM] at ho
    revert ho
    decide
  obtain ⟨q, _, hq, _⟩ := D.parent_mem hx hr
  have g := G x hx q hq
  generalize (s'.heap.get q).cls = pc at g
  cases g with
  | added _ h2 =>
    left
    have := core_label h2
    rw [this]
    generalize (s'.heap.get x).cls = cl
    cases cl <;> rfl
  | bibliography h1 _ => exact .inl (core_label h1)
  | entry _ h1 h2 h3 => exact .inr (entry_label h1 h2 h3)
  | @made n ks _ _ h3 h4 h5 =>
    have hc := core_cls h5
    have hl := core_label h5
    unfold LeftOut Heap.isInst at ho
    rw [hc] at ho
    left
    rw [hl]
    cases h3 with
    | @part kind d ps _ _ g1 g2 g3 g4 _ =>
      have e1 : n.label = (lookOf kind d).label := by rw [← g3]; rfl
      rw [e1, lookOf_label g4.2.1]
      rcases ho with ho | ho | ho
      · rw [g2] at ho
        rw [hU kind d ps g1 ho]
        rfl
      · exact absurd (g2.symm.trans ho) (classOf_not_keyword kind)
      · exact absurd ho h4.2
    | claim => rfl
    | asis _ h => exact h
    | code _ _ _ h => exact h.2
    | entry _ h2 => rw [(bibRecord_ok h2).2] at ho; exact absurd ho (by decide)

/-- The labels of a parsed manuscript are those of the source. -/
theorem parse_labels (S : Source c) (F : Forest s.heap) (hf : 12 * c.size < fuel) (h : parse fuel c s = .ok r s')
    (D : Doc s'.heap r t) (hU : TextsUnlabelled c) :
    (∀ x ∈ t.pre, look s'.heap x ∈ sourceLooks c ∨ (s'.heap.get x).label = [] ∨
      (s'.heap.get x).cls = .Bibitem ∧ (s'.heap.get x).label ∈ entryLabels c) ∧
    (∀ a ∈ sourceLooks c, ∃ x ∈ t.pre, look s'.heap x = a) ∧
    (∀ l ∈ entryLabels c, ∃ x ∈ t.pre, (s'.heap.get x).label = l) ∧
    (citations s'.heap t.pre).map (look s'.heap) = (sourceLooks c).filter fun a => decide (a.cls = .PendingCite) := by
  obtain ⟨_, _, _, _, _, t1, d⟩ := parse_ok S F hf h
  have e := D.unique d.doc
  subst e
  have hlooks : sourceLooks c = (seen s'.heap t).map (look s'.heap) := by
    rw [← looks_seen, d.outl, looksL, looksL, List.append_nil]
    rfl
  have hcl := off_closed S F hf h D
  have hfil := fun p h2 => filter_seen (h := s'.heap) (H := Off c s'.heap) (p := p) (fun x hx => .inl hx) h2 t hcl
  have hsub : ∀ x ∈ seen s'.heap t, x ∈ t.pre := by
    have : ∀ (t : Tree), ∀ x ∈ seen s'.heap t, x ∈ t.pre := by
      intro t
      induction t using Tree.rec (motive_2 := fun ts => ∀ x ∈ seenL s'.heap ts, x ∈ preL ts) with
      | node i ks ih =>
        intro x hx
        rw [seen] at hx
        rw [Tree.pre]
        split at hx
        · cases hx
        · rcases List.mem_cons.mp hx with rfl | hx
          · exact List.mem_cons_self
          · exact List.mem_cons_of_mem _ (ih x hx)
      | nil => rename_i x hx; rw [seenL] at hx; cases hx
      | cons t ts ih1 ih2 =>
        rename_i x hx
        rw [seenL, List.mem_append] at hx
        rw [Tree.preL, List.mem_append]
        exact hx.imp (ih1 x) (ih2 x)
    exact this t
  refine ⟨fun x hx => ?_, fun a ha => ?_, fun l hl => ?_, ?_⟩
  · by_cases ho : Off c s'.heap x
    · exact .inr (off_label S F hf h D hU hx ho)
    · left
      classical
      have := hfil (fun y => decide (¬ Off c s'.heap y)) (fun y hy => by simp [hy])
      have hm : x ∈ t.pre.filter fun y => decide (¬ Off c s'.heap y) := List.mem_filter.mpr ⟨hx, by simpa using ho⟩
      rw [this] at hm
      rw [hlooks]
      exact List.mem_map_of_mem (List.mem_filter.mp hm).1
  · rw [hlooks] at ha
    obtain ⟨x, hx, e⟩ := List.mem_map.mp ha
    exact ⟨x, hsub x hx, e⟩
  · obtain ⟨e, he, rfl⟩ := List.mem_map.mp hl
    obtain ⟨L, hL, heL⟩ := List.mem_flatten.mp he
    obtain ⟨M, hm2, B1⟩ := forall₂_right d.bibs L hL
    obtain ⟨x, hm, B2⟩ := forall₂_right B1 e heL
    unfold bibliographiesOf at hm2
    obtain ⟨b, hb, hbe⟩ := List.mem_map.mp hm2
    rw [← hbe] at hm
    have hxb := (List.mem_filter.mp hm).1
    have hbr := (List.mem_filter.mp hb).1
    have kid : ∀ {y z : Ref}, y ∈ t.pre → z ∈ s'.heap.children y → z ∈ t.pre := fun hy hz => (D.children_mem hy hz).1
    refine ⟨x, kid (kid (D.root_eq ▸ t.root_mem_pre) hbr) hxb, ?_⟩
    exact congrArg EntryLook.label B2
  · have := hfil (fun x => decide ((s'.heap.get x).cls = .PendingCite)) (fun x hx => by
      apply decide_eq_false
      intro hc
      rcases hx with hx | hx
      · unfold LeftOut Heap.isInst at hx
        rw [hc] at hx
        revert hx
        decide
      · rw [hc] at hx; cases hx.1)
    have e2 : citations s'.heap t.pre = t.pre.filter fun x => decide ((s'.heap.get x).cls = .PendingCite) := rfl
    rw [e2, this, hlooks, List.filter_map]
    rfl

end Parser
end RSM
