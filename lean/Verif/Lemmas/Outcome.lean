import Verif.Lemmas.WholeRun

/-! # Lemmas: how a run of `transform` ends -/

namespace RSM
open Transformer Tree PyM

/-- The nodes that matter to the counters. -/
def Counts (h : Heap) (r : Ref) : Prop := Numbered h r ∨ IsAppendix h r

instance (h : Heap) (r : Ref) : Decidable (Counts h r) := by unfold Counts; infer_instance

theorem sinceLast_filter {P q : Ref → Prop} [DecidablePred P] [DecidablePred q]
    (hpq : ∀ x, P x → q x) (l : List Ref) :
    sinceLast P (l.filter (q ·)) = (sinceLast P l).filter (q ·) := by
  induction l with
  | nil => rfl
  | cons x l ih =>
    have hex : (∃ y ∈ l.filter (q ·), P y) ↔ ∃ y ∈ l, P y :=
      ⟨fun ⟨y, hy, h⟩ => ⟨y, (List.mem_filter.mp hy).1, h⟩,
       fun ⟨y, hy, h⟩ => ⟨y, List.mem_filter.mpr ⟨hy, by simpa using hpq y h⟩, h⟩⟩
    by_cases hx : (∃ y ∈ l, P y) ∨ P x
    · rw [sinceLast, if_pos hx]
      by_cases hq : q x
      · rw [List.filter_cons_of_pos (by simpa using hq), sinceLast,
          if_pos (by rw [hex]; exact hx), ih]
      · rw [List.filter_cons_of_neg (by simpa using hq), ih]
    · rw [sinceLast, if_neg hx]
      by_cases hq : q x
      · rw [List.filter_cons_of_pos (by simpa using hq), sinceLast,
          if_neg (by rw [hex]; exact hx)]
      · rw [List.filter_cons_of_neg (by simpa using hq)]
        rw [ih]
        have : ∀ l : List Ref, (¬ ∃ y ∈ l, P y) → sinceLast P l = l := by
          intro l hl
          cases l with
          | nil => rfl
          | cons y l =>
            rw [sinceLast, if_neg]
            rintro (⟨z, hz, h⟩ | h)
            · exact hl ⟨z, by simp [hz], h⟩
            · exact hl ⟨y, by simp, h⟩
        rw [this l (fun H => hx (.inl H))]

theorem earlierInScope_counts (h : Heap) (w : Cls) (l : List Ref) (r : Ref) :
    earlierInScope h w (l.filter (Counts h ·)) r = earlierInScope h w l r := by
  unfold earlierInScope
  rw [sinceLast_filter (q := Counts h) (fun x hx => by
    rcases hx with hx | hx
    · exact .inl hx.1
    · exact .inr hx.1), List.filter_filter]
  congr 1
  refine List.filter_congr ?_
  intro x _
  by_cases hn : Numbered h x
  · have : Counts h x := .inl hn
    simp [hn, this]
  · simp [hn]

theorem lettersRunOut_counts (h : Heap) (l : List Ref) :
    LettersRunOut h (l.filter (Counts h ·)) ↔ LettersRunOut h l := by
  constructor
  · rintro ⟨b, r, a, e, h1, h2, h3, h4⟩
    obtain ⟨l1, l2, rfl, e1, e2⟩ := List.filter_eq_append_iff.mp e
    obtain ⟨l3, l4, rfl, h5, -, -⟩ := List.filter_eq_cons_iff.mp e2
    refine ⟨l1 ++ l3, r, l4, by simp, h1, h2, ?_, ?_⟩
    · obtain ⟨x, hx, hx2⟩ := h3
      rw [← e1] at hx
      exact ⟨x, by simp [(List.mem_filter.mp hx).1], hx2⟩
    · rw [← earlierInScope_counts, List.filter_append, e1]
      rwa [List.filter_eq_nil_iff.mpr, List.append_nil]
      exact h5
  · rintro ⟨b, r, a, rfl, h1, h2, ⟨x, hx, hx2⟩, h4⟩
    refine ⟨b.filter (Counts h ·), r, a.filter (Counts h ·), ?_, h1, h2, ?_, ?_⟩
    · rw [List.filter_append, List.filter_cons_of_pos (by exact decide_eq_true (show Counts h r from .inl h1))]
    · exact ⟨x, List.mem_filter.mpr ⟨hx, decide_eq_true (show Counts h x from .inr hx2)⟩, hx2⟩
    · rwa [earlierInScope_counts]

theorem earlierInScope_congr {h h' : Heap} {w : Cls} {l : List Ref} {r : Ref}
    (hl : ∀ x ∈ l, (h'.get x).cls = (h.get x).cls ∧ (h'.get x).nonum = (h.get x).nonum)
    (hr : (h'.get r).cls = (h.get r).cls) :
    earlierInScope h' w l r = earlierInScope h w l r := by
  have hs : sinceLast (StartsScope h' w) l = sinceLast (StartsScope h w) l := by
    clear hr
    induction l with
    | nil => rfl
    | cons x l ih =>
      have ih := ih (fun y hy => hl y (by simp [hy]))
      have key : ∀ y ∈ x :: l, (StartsScope h' w y ↔ StartsScope h w y) := by
        intro y hy
        unfold StartsScope Numbered IsAppendix
        rw [(hl y hy).1, (hl y hy).2]
      have hex : (∃ y ∈ l, StartsScope h' w y) ↔ ∃ y ∈ l, StartsScope h w y :=
        ⟨fun ⟨y, hy, H⟩ => ⟨y, hy, (key y (by simp [hy])).mp H⟩,
          fun ⟨y, hy, H⟩ => ⟨y, hy, (key y (by simp [hy])).mpr H⟩⟩
      rw [sinceLast, sinceLast, ih]
      simp only [hex, key x (by simp)]
  have hsub : ∀ x ∈ sinceLast (StartsScope h w) l, x ∈ l := by
    clear hs hl
    induction l with
    | nil => exact fun x hx => hx
    | cons y l ih =>
      intro x hx
      rw [sinceLast] at hx
      split at hx
      · exact List.mem_cons_of_mem _ (ih x hx)
      · exact hx
  unfold earlierInScope
  rw [hs]
  congr 1
  refine List.filter_congr ?_
  intro x hx
  rw [decide_eq_decide]
  unfold Numbered SameFamily
  rw [(hl x (hsub x hx)).1, (hl x (hsub x hx)).2, hr]

theorem lettersRunOut_congr {h h' : Heap} {l : List Ref}
    (hl : ∀ x ∈ l, (h'.get x).cls = (h.get x).cls ∧ (h'.get x).nonum = (h.get x).nonum) :
    LettersRunOut h' l ↔ LettersRunOut h l := by
  unfold LettersRunOut
  refine exists_congr fun b => exists_congr fun r => exists_congr fun a => ?_
  constructor
  · rintro ⟨rfl, h1, h2, ⟨x, hx, h3⟩, h4⟩
    have hr := hl r (by simp)
    unfold Numbered at h1 ⊢
    unfold IsAppendix at h3 ⊢
    rw [hr.1, hr.2] at h1
    rw [hr.1] at h2
    rw [earlierInScope_congr (fun y hy => hl y (by simp [hy])) hr.1] at h4
    exact ⟨rfl, h1, h2, ⟨x, hx, by rw [← (hl x (by simp [hx])).1]; exact h3⟩, h4⟩
  · rintro ⟨rfl, h1, h2, ⟨x, hx, h3⟩, h4⟩
    have hr := hl r (by simp)
    unfold Numbered at h1 ⊢
    unfold IsAppendix at h3 ⊢
    rw [← hr.1, ← hr.2] at h1
    rw [← hr.1] at h2
    rw [← earlierInScope_congr (fun y hy => hl y (by simp [hy])) hr.1] at h4
    exact ⟨rfl, h1, h2, ⟨x, hx, by rw [(hl x (by simp [hx])).1]; exact h3⟩, h4⟩

/-- Two documents with the same counted nodes run out of letters alike. -/
theorem lettersRunOut_same {h h' : Heap} {l l' : List Ref}
    (he : l'.filter (Counts h' ·) = l.filter (Counts h ·))
    (hl : ∀ x ∈ l, Counts h x → (h'.get x).cls = (h.get x).cls ∧ (h'.get x).nonum = (h.get x).nonum) :
    LettersRunOut h' l' ↔ LettersRunOut h l := by
  rw [← lettersRunOut_counts h', ← lettersRunOut_counts h, he]
  refine lettersRunOut_congr ?_
  intro x hx
  exact hl x (List.mem_filter.mp hx).1 (by simpa using (List.mem_filter.mp hx).2)

theorem nonum_of_authored {a b : NodeRec} (h : a.authored = b.authored) : a.nonum = b.nonum :=
  show a.authored.nonum = b.authored.nonum by rw [h]

theorem kind_of_authored {a b : NodeRec} (h : a.authored = b.authored) : a.kind = b.kind :=
  show a.authored.kind = b.authored.kind by rw [h]

theorem not_counts_created {h : Heap} {z : Ref} (hc : (h.get z).cls ∈ createdClasses) : ¬ Counts h z := by
  have : ∀ c ∈ createdClasses, c.autonumber = false ∧ c ≠ .Appendix := by decide
  rintro (h1 | h1)
  · have := (this _ hc).1; rw [h1.1] at this; cases this
  · exact (this _ hc).2 h1

theorem not_counts_pending {h : Heap} {z : Ref} (hp : Pending h z) : ¬ Counts h z := by
  have hc : (h.get z).cls ∈ [.PendingReference, .PendingCite, .PendingPrev] := by
    unfold Pending at hp; simpa using hp
  have : ∀ c ∈ [Cls.PendingReference, .PendingCite, .PendingPrev],
    c.autonumber = false ∧ c ≠ .Appendix := by decide
  rintro (h1 | h1)
  · have := (this _ hc).1; rw [h1.1] at this; cases this
  · exact (this _ hc).2 h1

theorem counts_congr {h h' : Heap} {z : Ref} (hz : (h'.get z).authored = (h.get z).authored) :
    Counts h' z ↔ Counts h z := by
  unfold Counts Numbered IsAppendix
  rw [cls_of_authored hz, nonum_of_authored hz]

theorem not_construct_created {h : Heap} {z : Ref} (hc : (h.get z).cls ∈ createdClasses) :
    .Construct ∉ (h.get z).cls.mro := by
  have : ∀ c ∈ createdClasses, .Construct ∉ c.mro := by decide
  exact this _ hc

theorem not_construct_pending {h : Heap} {z : Ref} (hp : Pending h z) :
    .Construct ∉ (h.get z).cls.mro := by
  have hc : (h.get z).cls ∈ [.PendingReference, .PendingCite, .PendingPrev] := by
    unfold Pending at hp; simpa using hp
  have : ∀ c ∈ [Cls.PendingReference, .PendingCite, .PendingPrev], .Construct ∉ c.mro := by decide
  exact this _ hc

theorem MapCls.opens {h h' : Heap} {t : Tree} {σ : Ref → Ref} (M : MapCls h h' t σ) {k : Tree}
    (hk : k.root ∈ t.pre) : RSM.Opens h' (k.map σ) ↔ RSM.Opens h k := by
  unfold RSM.Opens
  rw [root_map]
  constructor
  · rintro (h1 | h1)
    · exact .inl (M.back hk h1 (by decide) (by decide) (by decide))
    · exact .inr (M.back hk h1 (by decide) (by decide) (by decide))
  · rintro (h1 | h1)
    · exact .inl (M.forth hk h1 (by decide) (by decide) (by decide))
    · exact .inr (M.forth hk h1 (by decide) (by decide) (by decide))

theorem SubproofsLast.map_iff {h h' : Heap} {t : Tree} {σ : Ref → Ref} (M : MapCls h h' t σ) :
    SubproofsLast h' (t.map σ) ↔ SubproofsLast h t := by
  constructor
  · intro H i ks hm hc a k b e ha hk
    have hkm : ∀ j ∈ ks, j.root ∈ t.pre := fun j hj => kid_mem_pre hm hj
    have := H (σ i) (ks.map (map σ)) (mem_subtrees_map.mpr ⟨_, hm, (map_node ..).symm⟩)
      (M.forth (node_mem_pre hm) hc (by decide) (by decide) (by decide))
      (a.map (map σ)) (k.map σ) (b.map (map σ)) (by rw [e]; simp)
      (by
        intro j hj
        obtain ⟨j0, hj0, rfl⟩ := List.mem_map.mp hj
        rw [M.opens (hkm j0 (by rw [e]; simp [hj0]))]
        exact ha j0 hj0)
      (by
        rw [root_map]
        exact M.forth (hkm k (by rw [e]; simp)) hk (by decide) (by decide) (by decide))
    simpa using this
  · intro H i ks hm hc a k b e ha hk
    obtain ⟨j, js, hj, rfl, rfl⟩ := node_mem_subtrees_map hm
    have hkm : ∀ k ∈ js, k.root ∈ t.pre := fun k hk => kid_mem_pre hj hk
    obtain ⟨a0, l0, rfl, rfl, e2⟩ := List.map_eq_append_iff.mp e
    obtain ⟨k0, b0, rfl, rfl, rfl⟩ := List.map_eq_cons_iff.mp e2
    rw [H j _ hj (M.back (node_mem_pre hj) hc (by decide) (by decide) (by decide)) a0 k0 b0 rfl
      (by
        intro j0 hj0
        rw [← M.opens (hkm j0 (by simp [hj0]))]
        exact ha _ (List.mem_map_of_mem hj0))
      (by
        rw [root_map] at hk
        exact M.back (hkm k0 (by simp)) hk (by decide) (by decide) (by decide))]
    rfl

theorem toc_succeeds {s : TState} {root t fuel} (D : Doc s.heap root t) (hi : TocInput s.heap t)
    (hf : 4 * t.size < fuel) : ∃ s', makeToc fuel root s = .ok () s' := by
  cases hc : t.pre.filter (fun r => (s.heap.get r).cls = .Contents) with
  | nil =>
    refine ⟨s, makeToc_none D hf ?_⟩
    intro r hr h1
    have : r ∈ t.pre.filter (fun r => (s.heap.get r).cls = .Contents) :=
      List.mem_filter.mpr ⟨hr, by simpa using h1⟩
    rw [hc] at this
    cases this
  | cons toc rest =>
    have htoc : toc ∈ t.pre.filter (fun r => (s.heap.get r).cls = .Contents) := by rw [hc]; simp
    obtain ⟨ht1, ht2⟩ := List.mem_filter.mp htoc
    obtain ⟨W, E⟩ := hi ⟨toc, ht1, by simpa using ht2⟩
    obtain ⟨s2, items, e, -⟩ := makeToc_spec D W E hf hc
    exact ⟨s2, e⟩

/-- How the passes after the resolution of references end. -/
theorem after_ends {s : TState} {root t fuel} (D : Doc s.heap root t)
    (ha : StepKidsAllowed s.heap t) (hi : TocInput s.heap t) (hf : 12 * t.size < fuel) :
    ((afterResolve fuel root s).raised = some .assertionError ∧ ¬ SubproofsLast s.heap t) ∨
    ((afterResolve fuel root s).raised = some .stopIteration ∧ SubproofsLast s.heap t ∧
      LettersRunOut s.heap t.pre) ∨
    ((afterResolve fuel root s).raised = some .assertionError ∧ SubproofsLast s.heap t ∧
      ¬ LettersRunOut s.heap t.pre ∧ ¬ KindsGiven s.heap t) ∨
    ((afterResolve fuel root s).raised = none ∧ SubproofsLast s.heap t ∧
      ¬ LettersRunOut s.heap t.pre ∧ KindsGiven s.heap t) := by
  have hpos := size_pos t
  unfold afterResolve
  by_cases hl : SubproofsLast s.heap t
  swap
  · obtain ⟨s2, e⟩ := (subproofs_spec D ha (fuel := fuel) (by omega)).2 hl
    rw [bind_apply, e]
    exact .inl ⟨rfl, hl⟩
  right
  obtain ⟨s1, _, e1, -⟩ := (subproofs_spec D ha (fuel := fuel) (by omega)).1 hl
  obtain ⟨t1, D1, W1, z1, K1, l1⟩ := subproofs_ok D ha (by omega) e1
  rw [bind_apply, e1]
  simp only
  have hcls : ∀ z ∈ t.pre, (s1.heap.get z).cls = (s.heap.get z).cls := fun z hz => K1.cls (D.bound z hz)
  have hnewc : ∀ z ∈ t1.pre, z ∈ t.pre ∨ SubNew s.heap s1.heap z := W1.pre.2
  have hpre : t1.pre.filter (· < s.heap.next) = t.pre := by
    rw [W1.pre.1, List.filter_eq_self]
    intro z hz
    exact decide_eq_true (D.bound z hz)
  have hsubc : ∀ z, SubNew s.heap s1.heap z → (s1.heap.get z).cls ∈ createdClasses := by
    intro z hz
    rcases hz.cls with h3 | h3 <;> rw [h3] <;> decide
  have hL : LettersRunOut s1.heap t1.pre ↔ LettersRunOut s.heap t.pre := by
    refine lettersRunOut_same ?_ ?_
    · rw [← hpre, List.filter_filter]
      refine List.filter_congr ?_
      intro z hz
      rcases hnewc z hz with h1 | h1
      · have h2 := D.bound z h1
        have h3 := counts_congr (K1.authored z h2)
        simp [h2, h3]
      · have := h1.next_le
        have h3 : ¬ z < s.heap.next := by omega
        have h4 := not_counts_created (hsubc z h1)
        simp [h3, h4]
    · intro x hx _
      exact ⟨hcls x hx, nonum_of_authored (K1.authored x (D.bound x hx))⟩
  obtain ⟨hst, hraise⟩ := C23_stop_iteration s1 D1 (fuel := fuel) (by omega)
  have hst : (autonumberNodes fuel root s1).raised = some .stopIteration ↔ LettersRunOut s.heap t.pre :=
    hst.trans hL
  rw [bind_apply]
  cases e2 : autonumberNodes fuel root s1 with
  | err e s2 =>
    rw [e2] at hst hraise
    rcases hraise with h1 | h1
    · cases h1
    · exact .inl ⟨h1, hl, hst.mp h1⟩
  | ok u s2 =>
    right
    rw [e2] at hst
    have hnl : ¬ LettersRunOut s.heap t.pre := fun H => by cases hst.mpr H
    simp only
    obtain ⟨D2, K2, n2, l2⟩ := autonumber_ok D1 (by omega) e2
    have hcls2 : ∀ z ∈ t1.pre, (s2.heap.get z).cls = (s1.heap.get z).cls :=
      fun z hz => K2.cls (D1.bound z hz)
    have hi2 : TocInput s2.heap t1 := hi.wrapped D W1 hcls hcls2
    have hcont := wrapped_contents (h2 := s2.heap) D W1 hcls hcls2
    obtain ⟨s3, e3⟩ := toc_succeeds D2 hi2 (fuel := fuel) (by omega)
    obtain ⟨t3, D3, z3, f3, m3, K3, l3⟩ := toc_ok D2 hi2 (by omega) e3
    rw [bind_apply, e3]
    simp only
    have K13 := (K1.trans K2).trans K3
    have hK : KindsGiven s3.heap t3 ↔ KindsGiven s.heap t := by
      constructor
      · intro H x hx hc
        have hb := D.bound x hx
        have h1 : x ∈ t1.pre := by
          rw [← hpre] at hx; exact (List.mem_filter.mp hx).1
        have h2 : x ∈ t3.pre := by
          have h3 : x ∈ t1.pre.filter (· ∉ laterContents s2.heap t1) := by
            refine List.mem_filter.mpr ⟨h1, ?_⟩
            simp only [decide_eq_true_eq]
            intro h4
            have h5 := List.mem_of_mem_tail h4
            rw [hcont] at h5
            have h6 : (s.heap.get x).cls = .Contents := by simpa using (List.mem_filter.mp h5).2
            rw [h6] at hc
            revert hc
            decide
          rw [← f3] at h3
          exact (List.mem_filter.mp h3).1
        rw [← kind_of_authored (K13.authored x hb)]
        exact H x h2 (by rw [K13.cls hb]; exact hc)
      · intro H x hx hc
        rcases m3 x hx with h1 | ⟨h1, h2⟩
        · rcases hnewc x h1 with h3 | h3
          · have hb := D.bound x h3
            rw [kind_of_authored (K13.authored x hb)]
            rw [K13.cls hb] at hc
            exact H x h3 hc
          · refine absurd hc (not_construct_created ?_)
            have hz1 := D1.bound x h1
            rw [K3.cls (by rw [n2]; exact hz1), K2.cls hz1]
            exact hsubc x h3
        · exact absurd hc (not_construct_created h2.1)
    by_cases hk : KindsGiven s3.heap t3
    · right
      obtain ⟨s4, e4, -⟩ := C27_constructs s3 D3 (fuel := fuel) (by omega) hk
      obtain ⟨D4, K4, n4, l4⟩ := keywords_ok D3 (by omega) e4
      obtain ⟨s5, e5, -⟩ := handrail_spec D4 (fuel := fuel) (by omega)
      obtain ⟨D5, K5, n5, l5⟩ := handrail_ok D4 (by omega) e5
      obtain ⟨s6, e6, -⟩ := C29_node_ids s5 D5 (fuel := fuel) (by omega)
      rw [bind_apply, e4]
      simp only
      rw [bind_apply, e5]
      simp only
      rw [e6]
      exact ⟨rfl, hl, hnl, hK.mp hk⟩
    · left
      have : (addKeywordsToConstructs fuel root s3).raised = some .assertionError := by
        refine C27_no_kind s3 D3 (by omega) ?_
        unfold KindsGiven at hk
        push Not at hk
        exact hk
      rw [bind_apply]
      cases e4 : addKeywordsToConstructs fuel root s3 with
      | ok u s4 => rw [e4] at this; cases this
      | err e s4 => rw [e4] at this; exact ⟨this, hl, hnl, fun H => hk (hK.mpr H)⟩

theorem transform_eq (fuel : Nat) (root : Ref) (s : TState) :
    transform fuel root s = (collectAndResolve fuel root >>= fun _ => afterResolve fuel root) s := by
  unfold transform collectAndResolve afterResolve
  simp only [bind_apply]
  cases collectLabels fuel root s with
  | err e s' => rfl
  | ok u s' => rfl

theorem transform_ends {h : Heap} {root : Ref} {t : Tree} {fuel : Nat} {log : List TWarning}
    (R : ResolveInput h root t) (ha : StepKidsAllowed h t) (hi : TocInput h t)
    (hf : 12 * t.size < fuel) :
    TransformEnds h t (transform fuel root { heap := h, log := log }).raised := by
  have hc := C16_outcome (log := log) R (fuel := fuel) (by omega)
  rw [transform_eq, bind_apply]
  cases e1 : collectAndResolve fuel root { heap := h, log := log } with
  | err e s1 =>
    rw [e1] at hc
    obtain ⟨before, x, after, h1, h2, h3⟩ := hc
    exact .reference h1 h2 h3
  | ok u s1 =>
    rw [e1] at hc
    have hfine : ReferencesFine h t := hc
    simp only
    obtain ⟨σ, D, M, n1, a1, f1, c1, -, g1⟩ := resolve_ok R (by omega) e1
    have hi1 : TocInput s1.heap (t.map σ) := by
      rintro ⟨r, hr, hc⟩
      have : r ∈ (t.map σ).pre.filter (fun r => (s1.heap.get r).cls = .Contents) :=
        List.mem_filter.mpr ⟨hr, by simpa using hc⟩
      rw [g1] at this
      obtain ⟨h1, h2⟩ := List.mem_filter.mp this
      obtain ⟨W, E⟩ := hi ⟨r, h1, by simpa using h2⟩
      exact ⟨W.map M, E.map M⟩
    have hS : SubproofsLast s1.heap (t.map σ) ↔ SubproofsLast h t := SubproofsLast.map_iff M
    have hL : LettersRunOut s1.heap (t.map σ).pre ↔ LettersRunOut h t.pre := by
      refine lettersRunOut_same ?_ ?_
      · have : t.pre.filter (Counts h ·) = (t.pre.filter (fun x => ¬ Pending h x)).filter (Counts h ·) := by
          rw [List.filter_filter]
          refine List.filter_congr ?_
          intro x _
          by_cases hp : Pending h x
          · have := not_counts_pending hp
            simp [this]
          · simp [hp]
        rw [this, ← f1, List.filter_filter]
        refine List.filter_congr ?_
        intro z hz
        rcases c1 z hz with h1 | ⟨h1, h2⟩
        · have hb := R.doc.bound z h1
          have := counts_congr (a1 z hb)
          simp [hb, this]
        · have h3 : ¬ z < h.next := by omega
          have h4 := not_counts_created h2
          simp [h3, h4]
      · intro x hx _
        have hb := R.doc.bound x hx
        exact ⟨cls_of_authored (a1 x hb), nonum_of_authored (a1 x hb)⟩
    have hK : KindsGiven s1.heap (t.map σ) ↔ KindsGiven h t := by
      constructor
      · intro H x hx hc
        have hb := R.doc.bound x hx
        have h1 : x ∈ (t.map σ).pre := by
          have : x ∈ t.pre.filter (fun x => ¬ Pending h x) :=
            List.mem_filter.mpr ⟨hx, by simpa using fun hp => not_construct_pending hp hc⟩
          rw [← f1] at this
          exact (List.mem_filter.mp this).1
        rw [← kind_of_authored (a1 x hb)]
        exact H x h1 (by rw [cls_of_authored (a1 x hb)]; exact hc)
      · intro H x hx hc
        rcases c1 x hx with h1 | ⟨h1, h2⟩
        · have hb := R.doc.bound x h1
          rw [kind_of_authored (a1 x hb)]
          rw [cls_of_authored (a1 x hb)] at hc
          exact H x h1 hc
        · exact absurd hc (not_construct_created h2)
    have := after_ends D (ha.map M) hi1 (fuel := fuel) (by rw [size_map]; exact hf)
    rw [hS, hL, hK] at this
    rcases this with ⟨h1, h2⟩ | ⟨h1, h2, h3⟩ | ⟨h1, h2, h3, h4⟩ | ⟨h1, h2, h3, h4⟩
    · rw [h1]; exact .subproof hfine h2
    · rw [h1]; exact .letters hfine h2 h3
    · rw [h1]; exact .kind hfine h2 h3 h4
    · rw [h1]; exact .fine hfine h2 h3 h4

end RSM
