import Verif.Lemmas.NormState

/-! Helper lemmas for text normalisation: new nodes. -/

namespace RSM
namespace Normalize
open PyM Nodes Heap LTree

theorem SameNode.alloc (h : Heap) (n : NodeRec) {x} (hx : x < h.next) : SameNode h (h.alloc n).2 x := by
  apply SameNode.of_get
  have : x ≠ h.next := by omega
  simp [Heap.alloc, this]

theorem Good.mono {h h' : Heap} {p done ts} (G : Good h p done ts) (hn : h.next ≤ h'.next)
    (hs : ∀ x ∈ refsL ts, SameNode h h' x) (hp : ∀ q, p = some q → h'.children q = h.children q) :
    Good h' p done ts where
  holds t ht := (G.holds t ht).congr fun x hx => hs x (mem_refsL.mpr ⟨t, ht, hx⟩)
  nodup := G.nodup
  bound x hx := Nat.lt_of_lt_of_le (G.bound x hx) hn
  top := G.top
  kids q hq := by rw [hp q hq]; exact G.kids q hq
  sep := G.sep
  old q hq := Nat.lt_of_lt_of_le (G.old q hq) hn
  dsep := G.dsep
  dnodup := G.dnodup
  psep := G.psep

theorem Good.alloc {h : Heap} {p done ts} (G : Good h p done ts) (n : NodeRec) :
    Good (h.alloc n).2 p done ts :=
  G.mono (by simp [Heap.alloc]) (fun x hx => .alloc h n (G.bound x hx))
    fun q hq => (SameNode.alloc h n (G.old q hq)).children

theorem Frame.alloc (h : Heap) (n : NodeRec) (p D) (hp : ∀ q, p = some q → q < h.next) :
    Frame h (h.alloc n).2 p D where
  same x hx _ _ := .alloc h n hx
  par q hq _ := ⟨(SameNode.alloc h n (hp q hq)).attrs, (SameNode.alloc h n (hp q hq)).parent⟩
  next := by simp [Heap.alloc]

theorem new_apply (n : NodeRec) (h : Heap) : Nodes.new n h = .ok h.next (h.alloc n).2 := rfl

/-- Prepending a detached tree. -/
theorem prepend_tree {h : Heap} {i : Ref} {ks : List LTree} {u : LTree}
    (G : Good h (some i) [] ks) (hi : h.isInst i .NodeWithChildren = true) (Hu : Holds h none u)
    (hnd : u.refs.Nodup) (hb : ∀ x ∈ u.refs, x < h.next) (hdis : ∀ x ∈ u.refs, x ∉ refsL ks)
    (hiu : i ∉ u.refs) (hpp : u.attrs.cls.possibleParents = []) :
    ∃ h', prepend i u.root h = .ok () h' ∧ Good h' (some i) [] (u :: ks) ∧
      Frame h h' (some i) u.refs ∧ h'.next = h.next := by
  have hri : u.root ≠ i := fun e => hiu (e ▸ root_mem_refs u)
  have hop : prepend i u.root h = .ok () ((h.withKids i (u.root :: ·)).withParent u.root (some i)) := by
    have hal : h.Allowed u.root i := .inl (by rw [Hu.cls]; exact hpp)
    rw [prepend_apply]
    simp only [hi, Bool.true_eq_false, if_false]
    rw [Hu.parent]
    simp [hal]
  generalize hh : (h.withKids i (u.root :: ·)).withParent u.root (some i) = h' at hop
  have hgs : ∀ x, x ≠ i → x ≠ u.root → SameNode h h' x := by
    intro x h1 h2
    subst hh
    apply SameNode.of_get
    simp only [withParent, withKids, get_update, h1, h2, if_false]
  have hnext : h'.next = h.next := by subst hh; rfl
  have hchi : h'.children i = (u :: ks).map root := by
    subst hh
    rw [children_withParent, children_withKids _ _ _ _ hi]
    simp [G.kids i rfl]
  have hi1 : bare (h'.get i) = bare (h.get i) := by
    subst hh
    simp only [withParent, withKids, get_update, Ne.symm hri, if_false, if_true, bare]
  have hi2 : h'.parent i = h.parent i := by
    subst hh
    rw [parent_withParent, parent_withKids]; simp [Ne.symm hri]
  have hu1 : bare (h'.get u.root) = bare (h.get u.root) := by
    subst hh
    simp only [withParent, withKids, get_update, hri, if_false, if_true, bare]
  have hu2 : h'.parent u.root = some i := by
    subst hh
    rw [parent_withParent]; simp
  have hu3 : h'.children u.root = h.children u.root := by
    subst hh
    rw [children_withParent, children_withKids _ _ _ _ hi]; simp [hri]
  refine ⟨h', hop, ⟨?_, ?_, ?_, by simp, ?_, ?_, ?_, by simp, by simp, by simp⟩, ⟨?_, ?_, by rw [hnext]⟩,
    hnext⟩
  · intro t ht
    rcases List.mem_cons.mp ht with rfl | ht
    · cases t with
      | node c a cs =>
        refine ⟨hu2, hu3.trans Hu.children, hu1.trans Hu.attrs, ?_⟩
        rw [holdsL_iff]
        intro k hk
        refine (Hu.kids k hk).congr fun x hx => hgs x ?_ ?_
        · rintro rfl
          exact hiu (by simp [mem_refsL]; exact .inr ⟨k, hk, hx⟩)
        · rintro rfl
          simp only [refs_node, List.nodup_cons] at hnd hx
          exact hnd.1 (mem_refsL.mpr ⟨k, hk, hx⟩)
    · refine (G.holds t ht).congr fun x hx => hgs x ?_ ?_
      · rintro rfl
        exact G.sep x rfl (mem_refsL.mpr ⟨t, ht, hx⟩)
      · rintro rfl
        exact hdis _ (root_mem_refs u) (mem_refsL.mpr ⟨t, ht, hx⟩)
  · rw [refsL_cons, List.nodup_append]
    exact ⟨hnd, G.nodup, fun a ha b hb e => hdis a ha (e ▸ hb)⟩
  · intro x hx
    rw [hnext]
    rcases List.mem_append.mp hx with h1 | h1
    · exact hb x h1
    · exact G.bound x h1
  · intro q hq; cases hq; simpa using hchi
  · intro q hq; cases hq
    rw [refsL_cons, List.mem_append]
    rintro (h1 | h1)
    · exact hiu h1
    · exact G.sep i rfl h1
  · intro q hq; rw [hnext]; exact G.old q hq
  · intro x hx hn hne
    refine hgs x (fun e => hne (by rw [e])) ?_
    rintro rfl
    exact hn (root_mem_refs u)
  · intro q hq hn
    cases hq
    exact ⟨hi1, hi2⟩

/-- The attributes of a new text node. -/
def textAttrs (s : Str) : NodeRec := { NodeRec.new .Text with text := s }

theorem textAttrs_bare (s : Str) : bare (textAttrs s) = textAttrs s := by
  unfold textAttrs bare NodeRec.new; rfl

theorem children_new_text (h : Heap) (s : Str) :
    (h.alloc (textAttrs s)).2.children h.next = [] := by
  have : Cls.isSub .Text .NodeWithChildren = false := by decide
  simp [Heap.alloc, Heap.children, Heap.isInst, textAttrs, NodeRec.new, this]

theorem holds_new_text (h : Heap) (s : Str) :
    Holds (h.alloc (textAttrs s)).2 none (.node h.next (textAttrs s) []) := by
  refine ⟨?_, children_new_text h s, ?_, trivial⟩
  · simp [Heap.alloc, Heap.parent, textAttrs, NodeRec.new]
  · simp only [Heap.alloc, if_true]; exact textAttrs_bare s

theorem Good.not_next {h : Heap} {p done ts} (G : Good h p done ts) {x} (hx : h.next ≤ x) :
    x ∉ refsL ts := fun hm => by have := G.bound x hm; omega

theorem prependBlank_steps {h : Heap} {i : Ref} {ks : List LTree} (G : Good h (some i) [] ks)
    (hi : h.isInst i .NodeWithChildren = true) :
    ∃ h', prependBlank i h = .ok () h' ∧
      Steps h i ks h' (.node h.next (textAttrs [' ']) [] :: ks) := by
  have hin := G.old i rfl
  have hnw : (h.alloc (textAttrs [' '])).2.isInst i .NodeWithChildren = true := by
    unfold Heap.isInst; rw [(SameNode.alloc h _ hin).cls]; exact hi
  obtain ⟨h', e, G', F, hn⟩ := prepend_tree (G.alloc (textAttrs [' '])) hnw (holds_new_text h [' '])
    (by simp) (by simp [Heap.alloc]) (by simpa using G.not_next (le_refl _)) (by simp; omega)
    (by simp [textAttrs, NodeRec.new]; decide)
  refine ⟨h', ?_, G', (Frame.alloc h _ _ _ G.old).trans F (by simp) G.old, ?_⟩
  · unfold prependBlank newText
    rw [bind_apply, new_apply]
    exact e
  · intro x hx
    simp only [refsL_cons, refs_node, refsL_nil, List.mem_append, List.mem_singleton] at hx
    rcases hx with rfl | hx
    · exact .inr (le_refl _)
    · exact .inl hx

/-- The keyword object in front of a construct. -/
def kwTree (n : Nat) (w : Str) : LTree :=
  .node n (NodeRec.new .Keyword) [.node (n + 1) (textAttrs w) []]

theorem keyword_bare : bare (NodeRec.new .Keyword) = NodeRec.new .Keyword := by
  unfold bare NodeRec.new; rfl

theorem prependKeyword_fails {h : Heap} {i : Ref} (hi : i < h.next)
    (hk : keywordOf (h.get i).kind = none) : ∃ h', prependKeyword i h = .err .keyError h' := by
  refine ⟨(h.alloc (NodeRec.new .Keyword)).2, ?_⟩
  unfold prependKeyword
  rw [bind_apply, new_apply]
  simp only [bind_apply, get_apply]
  have : ((h.alloc (NodeRec.new .Keyword)).2.get i).kind = (h.get i).kind := by
    have : i ≠ h.next := by omega
    simp [Heap.alloc, this]
  rw [this, hk]
  rfl

theorem prependKeyword_steps {h : Heap} {i : Ref} {ks : List LTree} (G : Good h (some i) [] ks)
    (hi : h.isInst i .NodeWithChildren = true) {w : Str} (hk : keywordOf (h.get i).kind = some w) :
    ∃ h', prependKeyword i h = .ok () h' ∧ Steps h i ks h' (kwTree h.next w :: ks) := by
  have hin := G.old i rfl
  let h1 := (h.alloc (NodeRec.new .Keyword)).2
  have hn1 : h1.next = h.next + 1 := rfl
  let h2 := (h1.alloc (textAttrs w)).2
  have hn2 : h2.next = h.next + 2 := rfl
  have G2 : Good h2 (some i) [] ks := (G.alloc _).alloc _
  have hkind : (h1.get i).kind = (h.get i).kind := by
    have : i ≠ h.next := by omega
    simp [h1, Heap.alloc, this]
  have hgk : h2.get h.next = NodeRec.new .Keyword := by
    simp [h2, h1, Heap.alloc]
  have hgt : h2.get (h.next + 1) = textAttrs w := by
    simp [h2, h1, Heap.alloc]
  have hnwk : h2.isInst h.next .NodeWithChildren = true := by
    unfold Heap.isInst; rw [hgk]; decide
  have happ : append h.next (h.next + 1) h2 = .ok ()
      ((h2.withKids h.next (· ++ [h.next + 1])).withParent (h.next + 1) (some h.next)) := by
    rw [append_apply]
    simp only [hnwk, Bool.true_eq_false, if_false]
    have hp : h2.parent (h.next + 1) = none := by
      unfold Heap.parent; rw [hgt]; rfl
    have hal : h2.Allowed (h.next + 1) h.next := .inl (by rw [hgt]; rfl)
    simp [hp, hal]
  generalize hh : (h2.withKids h.next (· ++ [h.next + 1])).withParent (h.next + 1) (some h.next) = h3
    at happ
  have hs3 : ∀ x, x < h.next → SameNode h2 h3 x := by
    intro x hx
    subst hh
    apply SameNode.of_get
    have a : x ≠ h.next := by omega
    have b : x ≠ h.next + 1 := by omega
    simp only [withParent, withKids, get_update, a, b, if_false]
  have hn3 : h3.next = h.next + 2 := by subst hh; rfl
  have G3 : Good h3 (some i) [] ks :=
    G2.mono (by rw [hn3, hn2]) (fun x hx => hs3 x (G.bound x hx)) fun q hq => (hs3 q (G.old q hq)).children
  have s03 : ∀ x, x < h.next → SameNode h h3 x := fun x hx =>
    ((SameNode.alloc h _ hx).trans (SameNode.alloc h1 _ (by omega))).trans (hs3 x hx)
  have hnw3 : h3.isInst i .NodeWithChildren = true := by
    unfold Heap.isInst; rw [(s03 i hin).cls]; exact hi
  have hne : h.next ≠ h.next + 1 := by omega
  have Hu : Holds h3 none (kwTree h.next w) := by
    subst hh
    refine ⟨?_, ?_, ?_, ⟨?_, ?_, ?_, trivial⟩, trivial⟩
    · rw [parent_withParent, parent_withKids, if_neg hne]
      unfold Heap.parent; rw [hgk]; rfl
    · rw [children_withParent, children_withKids _ _ _ _ hnwk, children_eq_kids _ _ hnwk, hgk,
        if_pos rfl]
      rfl
    · simp only [withParent, withKids, get_update, if_neg hne, if_true, hgk]
      exact keyword_bare
    · rw [parent_withParent]; simp
    · rw [children_withParent, children_withKids _ _ _ _ hnwk]
      have : ¬ h.next + 1 = h.next := by omega
      rw [if_neg this]
      exact children_new_text h1 w
    · have : ¬ h.next + 1 = h.next := by omega
      simp only [withParent, withKids, get_update, if_neg this, if_true, hgt]
      exact textAttrs_bare w
  have hrefs : (kwTree h.next w).refs = [h.next, h.next + 1] := rfl
  obtain ⟨h', e, G', F, hn⟩ := prepend_tree G3 hnw3 Hu (by simp [hrefs]) (by simp [hrefs, hn3])
    (by
      intro x hx
      rw [hrefs] at hx
      exact G.not_next (by simp at hx; omega))
    (by rw [hrefs]; simp; omega) rfl
  refine ⟨h', ?_, G', Frame.trans (h1 := h3) ⟨fun x hx _ _ => s03 x hx, fun q hq _ =>
      ⟨(s03 q (G.old q hq)).attrs, (s03 q (G.old q hq)).parent⟩, by rw [hn3]; omega⟩ F ?_ G.old, ?_⟩
  · unfold prependKeyword newText
    rw [bind_apply, new_apply]
    simp only [bind_apply, get_apply]
    rw [show ((h.alloc (NodeRec.new .Keyword)).2.get i).kind = (h.get i).kind from hkind, hk]
    simp only [bind_apply, new_apply]
    have : append h.next h1.next (h1.alloc (textAttrs w)).2 = .ok () h3 := happ
    rw [show (append h.next (h.alloc (NodeRec.new .Keyword)).2.next
      ((h.alloc (NodeRec.new .Keyword)).2.alloc { NodeRec.new .Text with text := w }).2) = .ok () h3
      from this]
    exact e
  · intro x hx; rw [hrefs] at hx; simp at hx; omega
  · intro x hx
    rw [refsL_cons, List.mem_append, hrefs] at hx
    rcases hx with hx | hx
    · simp at hx; omega
    · exact .inl hx

end Normalize
end RSM
