import Verif.Lemmas.TrLoop
import Verif.Lemmas.TrTags
import Verif.Lemmas.TrNodup
import Verif.Lemmas.TrSim

/-! # Lemmas: what is written for a node is in the output; ids and links -/

namespace RSM
namespace Tr
open PyM Html

/-! ## Every node is visited once and what is written for it stays -/

/-- The node was visited in a state that agrees with `s` up to what the translators change, and the
text of the command is in what was written. -/
def Wrote (k : Conf) (s : TrState) (out : Str) (x : Ref) : Prop :=
  ∃ s1 c s2, SameFrame s.heap s1.heap ∧ visit k x s1 = .ok c s2 ∧ c.text <:+: out

theorem Wrote.mono {k s s' out out' x} (h : Wrote k s out x) (hs : SameFrame s'.heap s.heap)
    (ho : out <:+: out') : Wrote k s' out' x := by
  obtain ⟨s1, c, s2, h1, h2, h3⟩ := h
  exact ⟨s1, c, s2, hs.trans h1, h2, h3.trans ho⟩

mutual
theorem evalTree_wrote (k) : ∀ (t : Tree) (s s' : TrState), evalTree k t s = .ok () s' →
    ∃ out, s'.body = s.body ++ out ∧ ∀ x ∈ t.pre, Wrote k s out x
  | .node r ks, s, s', h => by
    rw [evalTree_node, bind_apply] at h
    have hv := visit_spec k r s
    cases ev : visit k r s with
    | err e s1 => rw [ev] at h; cases h
    | ok c s1 =>
      rw [ev] at h hv
      obtain ⟨hk, hc⟩ := hv
      simp only [bind_apply, Cmd.execute_eq] at h
      have ho := evalForest_outcome k ks
        { s1 with body := s1.body ++ c.text, deferred := c.pushed ++ s1.deferred }
      cases ef : evalForest k ks
          { s1 with body := s1.body ++ c.text, deferred := c.pushed ++ s1.deferred } with
      | err e s2 => rw [ef] at h; cases h
      | ok a s2 =>
        obtain ⟨out, e1, ih⟩ := evalForest_wrote k ks _ _ ef
        rw [ef] at h ho
        obtain ⟨-, h2, -, -⟩ := ho
        have hf := finish_outcome (k := k) (r := r) hc (s := s2) (ds := s.deferred)
          (by rw [h2]; show c.pushed ++ s1.deferred = _; rw [hk.deferred])
        dsimp only at h
        rw [h] at hf
        obtain ⟨-, -, -, out', e2⟩ := hf
        refine ⟨c.text ++ (out ++ out'), ?_, ?_⟩
        · rw [e2, e1]; show s1.body ++ c.text ++ out ++ out' = _; rw [hk.body]; simp
        · intro x hx
          rw [Tree.pre_node, List.mem_cons] at hx
          rcases hx with rfl | hx
          · exact ⟨s, c, s1, SameFrame.refl _, ev, List.prefix_append _ _ |>.isInfix⟩
          · exact (ih x hx).mono hk.frame ⟨c.text, out', by simp⟩
theorem evalForest_wrote (k) : ∀ (ts : List Tree) (s s' : TrState), evalForest k ts s = .ok () s' →
    ∃ out, s'.body = s.body ++ out ∧ ∀ x ∈ Tree.preL ts, Wrote k s out x
  | [], s, s', h => by
    rw [evalForest_nil] at h
    cases h
    exact ⟨[], by simp, by simp⟩
  | t :: ts, s, s', h => by
    rw [evalForest_cons, bind_apply] at h
    have ho := evalTree_outcome k t s
    cases e : evalTree k t s with
    | err x s1 => rw [e] at h; cases h
    | ok a s1 =>
      obtain ⟨out, e1, ih⟩ := evalTree_wrote k t s s1 e
      rw [e] at h ho
      obtain ⟨out', e2, ih'⟩ := evalForest_wrote k ts s1 s' h
      refine ⟨out ++ out', by rw [e2, e1]; simp, ?_⟩
      intro x hx
      rw [Tree.preL_cons, List.mem_append] at hx
      rcases hx with hx | hx
      · exact (ih x hx).mono (SameFrame.refl _) (List.prefix_append _ _).isInfix
      · exact (ih' x hx).mono ho.1 (List.suffix_append _ _).isInfix
end

theorem translate_wrote {k : Conf} {root : Ref} {t : Tree} {s s' : TrState} {out : Str}
    (hd : Doc s.heap root t) (hfuel : 2 * t.size ≤ k.fuel) (hok : translate k root s = .ok out s') :
    ∀ x ∈ t.pre, Wrote k s out x := by
  rw [translate_eq k hd hfuel] at hok
  split at hok
  · cases hok
  · cases e : evalTree k t (started root s) with
    | err x s1 => rw [e] at hok; cases hok
    | ok a s1 =>
      rw [e] at hok
      cases hok
      obtain ⟨o, e1, h⟩ := evalTree_wrote k t _ _ e
      rw [show s'.body = o by rw [e1]; rfl]
      exact h

/-! ## Ids -/

/-- The name of an element. -/
def NameOk (n : Str) : Prop := n ≠ [] ∧ ∀ c ∈ n, c.isAlphanum = true

instance (n : Str) : Decidable (NameOk n) := by unfold NameOk; infer_instance

/-- Among the items is one that opens an element with the id `l`. -/
def Opens (l : Str) (items : List Item) : Prop :=
  ∃ a : TagArgs, a.id = l ∧ NameOk a.tag ∧ Item.openTag a ∈ items

theorem Opens.here {l : Str} {a : TagArgs} {items : List Item} (h : a.id = l) (hn : NameOk a.tag) :
    Opens l (.openTag a :: items) := ⟨a, h, hn, .head _⟩
theorem Opens.sub {l : Str} {p q : List Item} (h : Opens l p) (hs : p ⊆ q) : Opens l q := by
  obtain ⟨a, h1, h2, h3⟩ := h
  exact ⟨a, h1, h2, hs h3⟩
theorem Opens.there {l : Str} {i : Item} {items : List Item} (h : Opens l items) :
    Opens l (i :: items) := h.sub (List.subset_cons_self _ _)
theorem Opens.left {l : Str} {p q : List Item} (h : Opens l p) : Opens l (p ++ q) :=
  h.sub (List.subset_append_left _ _)
theorem Opens.right {l : Str} {p q : List Item} (h : Opens l q) : Opens l (p ++ q) :=
  h.sub (List.subset_append_right _ _)

theorem subset_wrapItem (n items c m o b i) : items ⊆ wrapItem n items c m o b i := by
  intro x hx
  have : x ∈ items.take n ∨ x ∈ items[n]?.toList ∨ x ∈ items.drop (n + 1) := by
    obtain ⟨j, hj, rfl⟩ := List.getElem_of_mem hx
    rcases Nat.lt_trichotomy j n with h | h | h
    · left; exact List.mem_take_iff_getElem.mpr ⟨j, by omega, rfl⟩
    · subst h; right; left; simp [hj]
    · right; right
      exact List.mem_drop_iff_getElem.mpr ⟨j - (n + 1), by omega, by congr 1; omega⟩
  unfold wrapItem
  simp only [List.mem_append]
  tauto

theorem makeTag_hasId {tag l : Str} {cl se no kw} (hn : NameOk tag) (hl : l ≠ []) :
    HasId (makeTag tag l cl se no kw) l := by
  refine ⟨tag, hn.1, hn.2, ?_⟩
  unfold makeTag
  simp only [ne_eq, hl, not_false_eq_true, if_true]
  refine List.IsPrefix.isInfix ?_
  simp only [List.append_assoc, List.cons_append, List.nil_append,
    show "<".toList = ['<'] from rfl, List.cons_prefix_cons, true_and, List.prefix_append_right_inj]
  exact List.prefix_append _ _

theorem hasId_mono {s out l : Str} (h : HasId s l) (ho : s <:+: out) : HasId out l := by
  obtain ⟨n, h1, h2, h3⟩ := h
  exact ⟨n, h1, h2, h3.trans ho⟩

theorem item_infix {i : Item} {items : List Item} (h : i ∈ items) :
    i.makeText <:+: items.flatMap Item.makeText := by
  obtain ⟨a, b, rfl⟩ := List.append_of_mem h
  exact ⟨a.flatMap Item.makeText, b.flatMap Item.makeText, by simp⟩

theorem Opens.hasId {l : Str} {items : List Item} (h : Opens l items) (hl : l ≠ []) :
    HasId (items.flatMap Item.makeText) l := by
  obtain ⟨a, rfl, h2, h3⟩ := h
  refine hasId_mono
    (makeTag_hasId (cl := a.classes) (se := a.selectable) (no := a.nodeid) (kw := []) h2 hl) (List.IsInfix.trans ?_ (item_infix h3))
  exact ⟨nl a.newlineOuter, nl a.newlineInner, rfl⟩

end Tr
end RSM
