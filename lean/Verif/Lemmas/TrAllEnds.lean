import Verif.Lemmas.TrRunEnds
import Verif.Lemmas.Resolve
import Verif.Lemmas.AttrPasses

/-! # Lemmas: how a translation ends, for a whole document -/

namespace RSM
namespace Tr
open PyM Tree

theorem SameFrame.symm {a b : Heap} (h : SameFrame a b) : SameFrame b a := ⟨h.1.symm, fun x => (h.2 x).symm⟩

theorem Obstacle.of_frame {b : Bool} {h h' : Heap} (hf : SameFrame h h') {t x e} (o : Obstacle b h t x e) :
    Obstacle b h' t x e := by
  rw [obstacle_iff] at o ⊢
  have hc := hf.cls
  have hp := hf.parent
  have hk := hf.children
  have hi := hf.isInst
  have ht := hf.target
  have hts := hf.targets
  have h1 : ∀ x, (h'.get x).overwriteReftext = (h.get x).overwriteReftext := hf.field (·.overwriteReftext) fun _ => rfl
  have h2 := template_frame hf
  have h3 : ∀ x, (h'.get x).year = (h.get x).year := hf.field (·.year) fun _ => rfl
  have h4 : ∀ x, (h'.get x).name = (h.get x).name := hf.field (·.name) fun _ => rfl
  have h5 : ∀ x, (h'.get x).affiliation = (h.get x).affiliation := hf.field (·.affiliation) fun _ => rfl
  have h6 : ∀ x, (h'.get x).email = (h.get x).email := hf.field (·.email) fun _ => rfl
  have h7 : ∀ x, (h'.get x).nonum = (h.get x).nonum := hf.field (·.nonum) fun _ => rfl
  simp only [IsSection, hc, hp, hk, hi, ht, hts, h1, h2, h3, h4, h5, h6, h7] at o ⊢
  exact o

theorem obstacle_frame {b : Bool} {h h' : Heap} (hf : SameFrame h h') {t x e} :
    Obstacle b h' t x e ↔ Obstacle b h t x e := ⟨.of_frame (SameFrame.symm hf), .of_frame hf⟩

theorem Fit.frame {k : Conf} {h h' : Heap} (hf : SameFrame h h') {t r} (F : Fit k h t r) : Fit k h' t r where
  num := F.num.frame hf
  par p hp := (F.par p (by rwa [hf.parent] at hp)).frame hf
  tgt y hy := (F.tgt y (by unfold LeadsTo at hy ⊢; rwa [hf.cls, hf.target, hf.targets] at hy)).frame hf
  trav u hu := by
    have : (fun r => h'.isInst r .Reference) = fun r => h.isInst r .Reference := funext fun r => hf.isInst r _
    rw [this, hf.traverse]; exact F.trav u hu
  uniq := F.uniq
  self := F.self
  kids c hc := F.kids c (by rwa [hf.children] at hc)
  sib := by rw [hf.nextSibling]; exact F.sib

theorem Fit.of_doc {k : Conf} {h : Heap} {root t} (D : Doc h root t) (hfuel : 2 * t.size ≤ k.fuel)
    (hp : TargetsPlaced h t) {r} (hr : r ∈ t.pre) : Fit k h t r := by
  have pos := t.size_pos
  have num : ∀ x ∈ t.pre, Num k h x := by
    intro x hx
    obtain ⟨l, h1, h2, _⟩ := D.ancestors hx
    obtain ⟨o, ho, _⟩ := fullNumber_spec h1 (fuel := k.fuel) (by omega)
    unfold Num; rw [ho]; rfl
  have par : ∀ p, h.parent r = some p → p ∈ t.pre ∧ r ∈ h.children p := by
    intro p hpr
    by_cases h0 : r = root
    · rw [h0, D.parent_root_none] at hpr; cases hpr
    · obtain ⟨q, hq, h1, h2⟩ := D.parent_mem hr h0
      rw [hpr] at h1; cases h1; exact ⟨hq, h2⟩
  refine ⟨num r hr, fun p hp => num p (par p hp).1, fun y hy => ?_, fun u hu => ?_,
    fun u hu v hv => Transformer.subtree_unique D.nodup hu hv, exists_subtree hr, fun c hc => ?_, ?_⟩
  · rcases hp r hr y hy with h1 | h1
    · exact num y h1
    · obtain ⟨o, ho, _⟩ := fullNumber_spec (show Ancestors h y [] from h1) (fuel := k.fuel) (by simp; omega)
      unfold Num; rw [ho]; rfl
  · obtain ⟨q, hq⟩ := D.tree.subtree hu
    have := Transformer.size_subtree hu
    exact traverse_tree _ hq (by omega)
  · exact exists_subtree (D.children_mem hr hc).1
  · unfold Heap.nextSibling
    cases hpr : h.parent r with
    | none => exact ⟨_, rfl⟩
    | some p =>
      dsimp only
      cases hi : (h.children p).idxOf? r with
      | none => exact absurd (par p hpr).2 (List.idxOf?_eq_none_iff.mp hi)
      | some i => dsimp only; split <;> exact ⟨_, rfl⟩

section
variable {k : Conf} {h0 : Heap} {t0 : Tree}

/-- Leaving a node that was visited raises no exception. -/
theorem finish_ok {r : Ref} {c : Cmd} {s s1 s2 : TrState} {ds : List Cmd} (hv : visit k r s = .ok c s1) (hc : c.Visit)
    (h1 : SameFrame h0 s.heap) (h2 : SameFrame h0 s2.heap) (hs : s2.deferred = c.pushed ++ ds) (hr : r ∈ t0.pre)
    (F : Fit k h0 t0 r) (hu : Unnoted k h0 t0 s2.heap)
    (hw : (h0.get r).cls = .MathBlock → ∀ p, h0.parent r = some p → (h0.get p).cls ≠ .Step) :
    ∃ s', finish k r c s2 = .ok () s' ∧ Unnoted k h0 t0 s'.heap := by
  unfold finish
  rcases hc.pushed with ⟨e1, c0, _, e3⟩ | ⟨e1, _⟩
  · have hs' : s2.deferred = c0 :: ds := by rw [hs, e3]; rfl
    have ecl : (s2.heap.get r).cls = (s.heap.get r).cls := (h2.cls r).trans (h1.cls r).symm
    obtain ⟨d, s3, hl⟩ := leave_ok (F.num.frame h2) (by rw [h2.nextSibling]; exact F.sib) hs' (by
      intro o ho hn
      rw [ecl] at ho
      rcases visit_batch hv ho hn with ⟨l, rfl⟩ | ⟨a1, a2, a3⟩
      · simp only [Cmd.pushed, List.cons.injEq, and_true] at e3
        exact .inl ⟨_, e3.symm⟩
      · exact .inr ⟨a1, a2, hu a2 r hr ((h1.cls r).symm.trans a3)⟩)
    have hn := leave_unnoted h2 hs' hw hu
    rw [hl] at hn
    rw [if_pos e1, bind_apply, hl]
    exact ⟨_, Cmd.execute_eq _ _, hn⟩
  · rw [if_neg (by simp [e1])]
    exact ⟨_, rfl, hu⟩

/-- The nodes `l` are translated: none has an obstacle, or the first that has one ends it. -/
def Through (k : Conf) (h0 : Heap) (t0 : Tree) (l : List Ref) : Res TrState Unit → Prop
  | .ok _ s' => (∀ x ∈ l, ∀ e, ¬ Obstacle k.handrails h0 t0 x e) ∧ Unnoted k h0 t0 s'.heap
  | .err e _ => ∃ a x b, l = a ++ x :: b ∧ Obstacle k.handrails h0 t0 x e ∧
      ∀ y ∈ a, ∀ e, ¬ Obstacle k.handrails h0 t0 y e

mutual
theorem evalTree_through (hF : ∀ x ∈ t0.pre, Fit k h0 t0 x) (hw : StepsWrapped h0 t0) : ∀ (u : Tree) (s : TrState),
    SameFrame h0 s.heap → Unnoted k h0 t0 s.heap → (∀ x ∈ u.pre, x ∈ t0.pre) → Through k h0 t0 u.pre (evalTree k u s)
  | .node r ks, s, hf, hu, hsub => by
    have hr : r ∈ t0.pre := hsub r (by simp)
    have F := hF r hr
    have he := (visit_ends (F.frame hf)).ends
    have hsp := visit_spec k r s
    have hun := visit_unnoted (r := r) hu
    rw [evalTree_node, bind_apply]
    cases ev : visit k r s with
    | err e s1 =>
      rw [ev] at he
      exact ⟨[], r, preL ks, by simp, (obstacle_frame hf).mp he, by simp⟩
    | ok c s1 =>
      rw [ev] at he hsp hun
      obtain ⟨hk, hc⟩ := hsp
      have hno : ∀ e, ¬ Obstacle k.handrails h0 t0 r e := fun e o => he e ((obstacle_frame hf).mpr o)
      simp only [bind_apply, Cmd.execute_eq]
      have f1 : SameFrame h0 s1.heap := hf.trans hk.frame
      have ih := evalForest_through hF hw ks { s1 with body := s1.body ++ c.text, deferred := c.pushed ++ s1.deferred }
        f1 hun (fun x hx => hsub x (by simp [hx]))
      have oc := evalForest_outcome k ks { s1 with body := s1.body ++ c.text, deferred := c.pushed ++ s1.deferred }
      cases ef : evalForest k ks { s1 with body := s1.body ++ c.text, deferred := c.pushed ++ s1.deferred } with
      | err e s2 =>
        rw [ef] at ih
        obtain ⟨a, x, b, h1, h2, h3⟩ := ih
        refine ⟨r :: a, x, b, by simp [h1], h2, ?_⟩
        intro y hy
        rcases List.mem_cons.mp hy with rfl | hy
        · exact hno
        · exact h3 y hy
      | ok _ s2 =>
        rw [ef] at ih oc
        obtain ⟨hs, hu2⟩ := ih
        obtain ⟨o1, o2, _⟩ := oc
        obtain ⟨s3, e3, hu3⟩ := finish_ok ev hc hf (f1.trans o1) o2 hr F hu2 (hw.2 r hr)
        dsimp only
        rw [e3]
        refine ⟨?_, hu3⟩
        intro y hy
        rw [pre_node] at hy
        rcases List.mem_cons.mp hy with rfl | hy
        · exact hno
        · exact hs y hy
theorem evalForest_through (hF : ∀ x ∈ t0.pre, Fit k h0 t0 x) (hw : StepsWrapped h0 t0) : ∀ (us : List Tree) (s : TrState),
    SameFrame h0 s.heap → Unnoted k h0 t0 s.heap → (∀ x ∈ preL us, x ∈ t0.pre) → Through k h0 t0 (preL us) (evalForest k us s)
  | [], s, _, hu, _ => by
    rw [evalForest_nil]
    exact ⟨by simp, hu⟩
  | u :: us, s, hf, hu, hsub => by
    rw [evalForest_cons, bind_apply]
    have h1 := evalTree_through hF hw u s hf hu (fun x hx => hsub x (by simp [hx]))
    have o1 := evalTree_outcome k u s
    cases e1 : evalTree k u s with
    | err e s1 =>
      rw [e1] at h1
      obtain ⟨a, x, b, g1, g2, g3⟩ := h1
      exact ⟨a, x, b ++ preL us, by simp [g1], g2, g3⟩
    | ok _ s1 =>
      rw [e1] at h1 o1
      have h2 := evalForest_through hF hw us s1 (hf.trans o1.1) h1.2 (fun x hx => hsub x (by simp [hx]))
      dsimp only
      cases e2 : evalForest k us s1 with
      | err e s2 =>
        rw [e2] at h2
        obtain ⟨a, x, b, g1, g2, g3⟩ := h2
        refine ⟨u.pre ++ a, x, b, by simp [g1], g2, fun y hy => ?_⟩
        rcases List.mem_append.mp hy with hy | hy
        · exact h1.1 y hy
        · exact g3 y hy
      | ok _ s2 =>
        rw [e2] at h2
        refine ⟨fun y hy => ?_, h2.2⟩
        rw [preL_cons] at hy
        rcases List.mem_append.mp hy with hy | hy
        · exact h1.1 y hy
        · exact h2.1 y hy
end

end

end Tr
end RSM
