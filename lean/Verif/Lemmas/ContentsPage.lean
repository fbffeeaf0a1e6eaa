import Verif.Lemmas.SourceNumbers
import Verif.Lemmas.TrLinks
import Verif.Lemmas.TrAnchors
import Verif.Spec.SourceContents

/-! What is written for the nodes of a document is written in the order of the document (helper lemmas). -/

namespace RSM
namespace Html

theorem InOrder.left : ∀ {ps : List Str} {a : Str} (b : Str), InOrder ps a → InOrder ps (b ++ a)
  | [], _, _, _ => trivial
  | _ :: _, _, b, ⟨u, v, e, h⟩ => ⟨b ++ u, v, by rw [e]; simp, h⟩

theorem InOrder.append : ∀ {ps qs : List Str} {a b : Str}, InOrder ps a → InOrder qs b → InOrder (ps ++ qs) (a ++ b)
  | [], _, a, _, _, h => h.left a
  | _ :: _, _, _, b, ⟨u, v, e, h⟩, h' => ⟨u, v ++ b, by rw [e]; simp, h.append h'⟩

theorem InOrder.right {ps : List Str} {a : Str} (b : Str) (h : InOrder ps a) : InOrder ps (a ++ b) := by
  have := h.append (qs := []) (b := b) trivial
  rwa [List.append_nil] at this

theorem InOrder.infix {ps : List Str} {a b : Str} (h : InOrder ps a) (hb : a <:+: b) : InOrder ps b := by
  obtain ⟨u, v, rfl⟩ := hb
  exact (h.left u).right v

theorem InOrder.sublist {ps qs : List Str} (hs : ps.Sublist qs) : ∀ {a : Str}, InOrder qs a → InOrder ps a := by
  induction hs with
  | slnil => exact fun h => h
  | cons p _ ih =>
    rintro a ⟨u, v, rfl, h⟩
    exact (ih h).left _
  | cons_cons p _ ih =>
    rintro a ⟨u, v, rfl, h⟩
    exact ⟨u, v, rfl, ih h⟩

theorem InOrder.parts {ps qs : List Str} (hs : List.Forall₂ (· <:+: ·) ps qs) : ∀ {a : Str}, InOrder qs a → InOrder ps a := by
  induction hs with
  | nil => exact fun h => h
  | cons h1 _ ih =>
    rintro a ⟨u, v, rfl, h⟩
    obtain ⟨x, y, rfl⟩ := h1
    exact ⟨u ++ x, y ++ v, by simp, (ih h).left y⟩

/-- The part of the text from the first to the last piece. -/
theorem InOrder.span : ∀ {ps : List Str} {p a : Str}, InOrder (p :: ps) a →
    ∃ x, x <:+: a ∧ InOrder (p :: ps) x ∧ p <+: x ∧ (p :: ps).getLast (by simp) <:+ x
  | [], p, a, ⟨u, v, e, _⟩ => ⟨p, ⟨u, v, e.symm⟩, ⟨[], [], by simp, trivial⟩, List.prefix_rfl, List.suffix_rfl⟩
  | q :: qs, p, a, ⟨u, v, e, h⟩ => by
    obtain ⟨y, ⟨u', v', e'⟩, h2, _, h4⟩ := InOrder.span h
    refine ⟨p ++ u' ++ y, ⟨u, v', by rw [e, ← e']; simp⟩, ⟨[], u' ++ y, by simp, h2.left u'⟩, ⟨u' ++ y, by simp⟩, ?_⟩
    rw [List.getLast_cons (by simp)]
    exact h4.trans (List.suffix_append _ _)

theorem HasLink.link {out l text : Str} {classes : List Str} (h : HasLink out [] classes l text) :
    Html.link classes l text <:+: out := by
  unfold HasLink at h
  rw [if_neg (by simp), List.append_nil] at h
  exact h

theorem exists_sublist {α β : Type} {R : α → β → Prop} {as bs : List α} (hs : as.Sublist bs) :
    ∀ {cs : List β}, List.Forall₂ R bs cs → ∃ ds, ds.Sublist cs ∧ List.Forall₂ R as ds := by
  induction hs with
  | slnil => exact fun h => ⟨_, .refl _, h⟩
  | cons p _ ih =>
    rintro _ (_ | ⟨_, h⟩)
    obtain ⟨ds, h1, h2⟩ := ih h
    exact ⟨ds, h1.cons _, h2⟩
  | cons_cons p _ ih =>
    rintro _ (_ | ⟨h0, h⟩)
    obtain ⟨ds, h1, h2⟩ := ih h
    exact ⟨_ :: ds, h1.cons_cons _, .cons h0 h2⟩

theorem rel_comp {α β γ : Type} {R : α → β → Prop} {S : β → γ → Prop} {as : List α} {bs : List β} (h : List.Forall₂ R as bs) :
    ∀ {cs : List γ}, List.Forall₂ S bs cs → List.Forall₂ (fun a c => ∃ b, R a b ∧ S b c) as cs := by
  induction h with
  | nil => rintro _ ⟨⟩; exact .nil
  | cons h1 _ ih => rintro _ (_ | ⟨h2, h⟩); exact .cons ⟨_, h1, h2⟩ (ih h)

theorem rel_choose {α β γ : Type} {R : α → β → Prop} {S : β → γ → Prop} {as : List α} {cs : List γ}
    (h : List.Forall₂ (fun a c => ∃ b, R a b ∧ S b c) as cs) : ∃ bs, List.Forall₂ R as bs ∧ List.Forall₂ S bs cs := by
  induction h with
  | nil => exact ⟨[], .nil, .nil⟩
  | cons h1 _ ih =>
    obtain ⟨b, g1, g2⟩ := h1
    obtain ⟨bs, g3, g4⟩ := ih
    exact ⟨b :: bs, .cons g1 g3, .cons g2 g4⟩

end Html

namespace Tr
open PyM Html

/-- What is written when the node is visited. -/
def VisitText (k : Conf) (s : TrState) (x : Ref) (text : Str) : Prop :=
  ∃ s1 c s2, SameFrame s.heap s1.heap ∧ visit k x s1 = .ok c s2 ∧ c.text = text

theorem VisitText.mono {k s s' x text} (hs : SameFrame s'.heap s.heap) (h : VisitText k s x text) : VisitText k s' x text := by
  obtain ⟨s1, c, s2, h1, h2, h3⟩ := h
  exact ⟨s1, c, s2, hs.trans h1, h2, h3⟩

mutual
theorem evalTree_ordered (k) : ∀ (t : Tree) (s s' : TrState), evalTree k t s = .ok () s' →
    ∃ out texts, s'.body = s.body ++ out ∧ List.Forall₂ (VisitText k s) t.pre texts ∧ InOrder texts out
  | .node r ks, s, s', h => by
    rw [evalTree_node, bind_apply] at h
    have hv := visit_spec k r s
    cases ev : visit k r s with
    | err e s1 => rw [ev] at h; cases h
    | ok c s1 =>
      rw [ev] at h hv
      obtain ⟨hk, hc⟩ := hv
      simp only [bind_apply, Cmd.execute_eq] at h
      have ho := evalForest_outcome k ks
        { s1 with body := s1.body ++ c.text, deferred := c.pushed ++ s1.deferred }
      cases ef : evalForest k ks
          { s1 with body := s1.body ++ c.text, deferred := c.pushed ++ s1.deferred } with
      | err e s2 => rw [ef] at h; cases h
      | ok a s2 =>
        obtain ⟨out, texts, e1, ih, ord⟩ := evalForest_ordered k ks _ _ ef
        rw [ef] at h ho
        obtain ⟨-, h2, -, -⟩ := ho
        have hf := finish_outcome (k := k) (r := r) hc (s := s2) (ds := s.deferred)
          (by rw [h2]; show c.pushed ++ s1.deferred = _; rw [hk.deferred])
        dsimp only at h
        rw [h] at hf
        obtain ⟨-, -, -, out', e2⟩ := hf
        refine ⟨c.text ++ (out ++ out'), c.text :: texts, ?_, ?_, ?_⟩
        · rw [e2, e1]; show s1.body ++ c.text ++ out ++ out' = _; rw [hk.body]; simp
        · rw [Tree.pre_node]
          exact .cons ⟨s, c, s1, SameFrame.refl _, ev, rfl⟩ (ih.imp fun _ _ h => h.mono hk.frame)
        · exact ⟨[], out ++ out', by simp, ord.right out'⟩
theorem evalForest_ordered (k) : ∀ (ts : List Tree) (s s' : TrState), evalForest k ts s = .ok () s' →
    ∃ out texts, s'.body = s.body ++ out ∧ List.Forall₂ (VisitText k s) (Tree.preL ts) texts ∧ InOrder texts out
  | [], s, s', h => by
    rw [evalForest_nil] at h
    cases h
    exact ⟨[], [], by simp, .nil, trivial⟩
  | t :: ts, s, s', h => by
    rw [evalForest_cons, bind_apply] at h
    have ho := evalTree_outcome k t s
    cases e : evalTree k t s with
    | err x s1 => rw [e] at h; cases h
    | ok a s1 =>
      obtain ⟨out, texts, e1, ih, ord⟩ := evalTree_ordered k t s s1 e
      rw [e] at h ho
      obtain ⟨out', texts', e2, ih', ord'⟩ := evalForest_ordered k ts s1 s' h
      refine ⟨out ++ out', texts ++ texts', by rw [e2, e1]; simp, ?_, ord.append ord'⟩
      rw [Tree.preL_cons]
      exact List.rel_append ih (ih'.imp fun _ _ h => h.mono ho.1)
end

theorem translate_ordered {k : Conf} {root : Ref} {t : Tree} {s s' : TrState} {out : Str}
    (hd : Doc s.heap root t) (hfuel : 2 * t.size ≤ k.fuel) (hok : translate k root s = .ok out s') :
    ∃ texts, List.Forall₂ (VisitText k s) t.pre texts ∧ InOrder texts out := by
  rw [translate_eq k hd hfuel] at hok
  split at hok
  · cases hok
  · cases e : evalTree k t (started root s) with
    | err x s1 => rw [e] at hok; cases hok
    | ok a s1 =>
      rw [e] at hok
      cases hok
      obtain ⟨o, texts, e1, h, ord⟩ := evalTree_ordered k t _ _ e
      refine ⟨texts, h, ?_⟩
      rw [show s'.body = o by rw [e1]; rfl]
      exact ord

end Tr

namespace Parser

mutual
theorem places_before (around : List (Look × List Look)) (before : List Look) : ∀ o : Outline,
    (o.places around before).map (fun p => p.before.length) = List.range' before.length o.looks.length
  | .node a os => by
    rw [Outline.places, Outline.looks, List.map_cons, placesL_before _ _ os, List.length_cons, List.range'_succ,
      List.length_append]
    rfl
theorem placesL_before (around : List (Look × List Look)) (before : List Look) : ∀ os : List Outline,
    (placesL around before os).map (fun p => p.before.length) = List.range' before.length (looksL os).length
  | [] => by rw [placesL, looksL]; rfl
  | o :: os => by
    rw [placesL, looksL, List.map_append, places_before _ _ o, placesL_before _ _ os, List.length_append,
      List.length_append, List.range'_append_1]
end

end Parser
end RSM
