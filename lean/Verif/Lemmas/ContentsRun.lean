import Verif.Lemmas.NumberRun
import Verif.Props.Toc

/-! The entries of the table of contents after the whole of transform (helper lemmas). -/

namespace RSM
open PyM Nodes Heap Tree Transformer

/-- Full numbers depend on nothing but the classes and numbers of the nodes around. -/
theorem FullNumber.keep {h h' : Heap} {S : Ref → Prop} (up : ∀ y, S y → ∀ p, h.parent y = some p → S p)
    (hp : ∀ y, S y → h'.parent y = h.parent y)
    (hs : ∀ y, S y → (h'.get y).cls = (h.get y).cls ∧ (h'.get y).nonum = (h.get y).nonum ∧ (h'.get y).number = (h.get y).number)
    {x : Ref} {n : Option Str} (F : FullNumber h x n) : S x → FullNumber h' x n := by
  have anc : ∀ (l : List Ref) (y : Ref), S y → Ancestors h y l → Ancestors h' y l ∧ ∀ a ∈ l, S a := by
    intro l
    induction l with
    | nil =>
      intro y hy ha
      exact ⟨by unfold Ancestors at ha ⊢; rw [hp y hy]; exact ha, nofun⟩
    | cons a l ih =>
      intro y hy ha
      obtain ⟨h1, h2⟩ := ha
      have hSa := up y hy a h1
      obtain ⟨g1, g2⟩ := ih a hSa h2
      refine ⟨⟨by rw [hp y hy]; exact h1, g1⟩, ?_⟩
      intro b hb
      rcases List.mem_cons.mp hb with rfl | hb
      · exact hSa
      · exact g2 b hb
  have first : ∀ {l : List Ref} {P : Cls → Prop} {a : Ref}, (∀ b ∈ l, S b) → IsFirstWith (fun b => P (h.get b).cls) l (some a) →
      IsFirstWith (fun b => P (h'.get b).cls) l (some a) ∧ S a := by
    rintro l P a hl ⟨h1, b, c, rfl, h2⟩
    have hSa := hl a (by simp)
    refine ⟨⟨?_, b, c, rfl, fun y hy => ?_⟩, hSa⟩
    · show P (h'.get a).cls
      rw [(hs a hSa).1]; exact h1
    · show ¬ P (h'.get y).cls
      rw [(hs y (hl y (by simp [hy]))).1]
      exact h2 y hy
  have scope : ∀ {r : Ref} {l : List Ref} {a : Ref}, S r → (∀ b ∈ l, S b) →
      (IsFirstWith (fun a => (h.get a).cls ∈ (h.get r).cls.numberWithin) l (some a) ∨
        (∀ a ∈ l, (h.get a).cls ∉ (h.get r).cls.numberWithin) ∧
          IsFirstWith (fun a => (h.get a).cls = .Manuscript) l (some a)) →
      (IsFirstWith (fun a => (h'.get a).cls ∈ (h'.get r).cls.numberWithin) l (some a) ∨
        (∀ a ∈ l, (h'.get a).cls ∉ (h'.get r).cls.numberWithin) ∧
          IsFirstWith (fun a => (h'.get a).cls = .Manuscript) l (some a)) ∧ S a := by
    intro r l a hr hl H
    rw [(hs r hr).1]
    rcases H with H | ⟨H1, H2⟩
    · obtain ⟨g1, g2⟩ := first (P := fun c => c ∈ (h.get r).cls.numberWithin) hl H
      exact ⟨.inl g1, g2⟩
    · obtain ⟨g1, g2⟩ := first (P := fun c => c = .Manuscript) hl H2
      exact ⟨.inr ⟨fun b hb => by rw [(hs b (hl b hb)).1]; exact H1 b hb, g1⟩, g2⟩
  induction F with
  | manuscript h1 => exact fun hx => .manuscript (by rw [(hs _ hx).1]; exact h1)
  | nonum h1 h2 => exact fun hx => .nonum (by rw [(hs _ hx).1]; exact h1) (by rw [(hs _ hx).2.1]; exact h2)
  | inScope h1 h2 h3 h4 _ h6 ih =>
    intro hx
    obtain ⟨k1, k2, k3⟩ := hs _ hx
    obtain ⟨g1, g2⟩ := anc _ _ hx h3
    obtain ⟨g3, g4⟩ := scope hx g2 h4
    rw [← k3]
    exact .inScope (by rw [k1]; exact h1) (by rw [k2]; exact h2) g1 g3 (ih g4) h6
  | unnumberedScope h1 h2 h3 h4 _ h6 ih =>
    intro hx
    obtain ⟨k1, k2, k3⟩ := hs _ hx
    obtain ⟨g1, g2⟩ := anc _ _ hx h3
    obtain ⟨g3, g4⟩ := scope hx g2 h4
    rw [← k3]
    exact .unnumberedScope (by rw [k1]; exact h1) (by rw [k2]; exact h2) g1 g3 (ih g4) h6
  | noScope h1 h2 h3 h4 =>
    intro hx
    obtain ⟨k1, k2, k3⟩ := hs _ hx
    obtain ⟨g1, g2⟩ := anc _ _ hx h3
    rw [← k3]
    refine .noScope (by rw [k1]; exact h1) (by rw [k2]; exact h2) g1 fun a ha => ?_
    rw [(hs a (g2 a ha)).1, k1]
    exact h4 a ha

/-- The entry of a section in the table of contents: a reference to it with its full number and title. -/
def TocEntry (h : Heap) (x z : Ref) : Prop :=
  (h.get z).cls = .Reference ∧ (h.get z).target = .node x ∧ TocText h x (h.get z).overwriteReftext

theorem contents_after {s s' : TState} {root t fuel} (D : Doc s.heap root t)
    (ha : StepKidsAllowed s.heap t) (hi : TocInput s.heap t) (hf : 12 * t.size < fuel)
    (hok : afterResolve fuel root s = .ok () s') {toc : Ref} (htoc : toc ∈ t.pre) (htc : (s.heap.get toc).cls = .Contents) :
    ∃ t' c zs, Doc s'.heap root t' ∧ (c :: zs).Sublist t'.pre ∧ (s'.heap.get c).cls = .Contents ∧
      List.Forall₂ (TocEntry s'.heap) (t.pre.filter (IsSec s.heap ·)) zs := by
  have hpos := size_pos t
  unfold afterResolve at hok
  obtain ⟨⟨⟩, s1, e1, hok⟩ := bind_ok hok
  obtain ⟨⟨⟩, s2, e2, hok⟩ := bind_ok hok
  obtain ⟨⟨⟩, s3, e3, hok⟩ := bind_ok hok
  obtain ⟨⟨⟩, s4, e4, hok⟩ := bind_ok hok
  obtain ⟨⟨⟩, s5, e5, e6⟩ := bind_ok hok
  obtain ⟨t1, D1, W1, z1, K1, l1⟩ := subproofs_ok D ha (by omega) e1
  obtain ⟨D2, K2, n2, l2⟩ := autonumber_ok D1 (by omega) e2
  have K12 := K1.trans K2
  have hcls : ∀ z ∈ t.pre, (s1.heap.get z).cls = (s.heap.get z).cls := fun z hz => K1.cls (D.bound z hz)
  have hcls2 : ∀ z ∈ t1.pre, (s2.heap.get z).cls = (s1.heap.get z).cls :=
    fun z hz => K2.cls (D1.bound z hz)
  have hcont := wrapped_contents (h2 := s2.heap) D W1 hcls hcls2
  have hi2 : TocInput s2.heap t1 := hi.wrapped D W1 hcls hcls2
  obtain ⟨t3, D3, z3, f3, m3, K3, l3⟩ := toc_ok D2 hi2 (by omega) e3
  obtain ⟨b3, q3, c3, g3, p3⟩ := toc_ready D2 hi2 (by omega) e3 D3
  obtain ⟨D4, K4, n4, l4⟩ := keywords_ok D3 (by omega) e4
  have r4 := keywords_ready D3 (by omega) e4
  have v4 := keywords_number D3 (by omega) e4
  obtain ⟨D5, K5, n5, l5⟩ := handrail_ok D4 (by omega) e5
  have r5 := handrail_ready D4 (by omega) e5
  have v5 := handrail_number D4 (by omega) e5
  obtain ⟨D6, K6, n6, l6⟩ := ids_ok D5 (by omega) e6
  have r6 := ids_ready D5 (by omega) e6
  have v6 := ids_number D5 (by omega) e6
  have K46 := (K4.trans K5).trans K6
  have K36 := K3.trans K46
  have hp46 : ∀ x, s'.heap.parent x = s3.heap.parent x := fun x => by
    rw [(r6 x).1, (r5 x).1, (r4 x).1]
  have hpre : t1.pre.filter (· < s.heap.next) = t.pre := by
    rw [W1.pre.1, List.filter_eq_self]
    intro z hz
    exact decide_eq_true (D.bound z hz)
  have hsub : ∀ z ∈ t.pre, z ∈ t1.pre := fun z hz => by
    rw [← hpre] at hz
    exact (List.mem_filter.mp hz).1
  have htoc2 : (s2.heap.get toc).cls = .Contents := by rw [hcls2 _ (hsub _ htoc), hcls _ htoc]; exact htc
  obtain ⟨W, E⟩ := hi2 ⟨toc, hsub _ htoc, htoc2⟩
  have hsecs : t1.pre.filter (IsSec s2.heap ·) = t.pre.filter (IsSec s.heap ·) := by
    rw [← hpre, List.filter_filter]
    refine List.filter_congr ?_
    intro z hz
    have hnew : z ∈ t.pre ∨ SubNew s.heap s1.heap z := W1.pre.2 z hz
    rcases hnew with h2 | h2
    · have e : (s2.heap.get z).cls = (s.heap.get z).cls := (hcls2 z hz).trans (hcls z h2)
      rw [Bool.eq_iff_iff]
      have hb := D.bound z h2
      simp only [hb, Bool.and_eq_true, decide_eq_true_eq, and_true]
      unfold IsSec
      rw [e]
    · have := h2.next_le
      have h3 : ¬ z < s.heap.next := by omega
      rcases h2.cls with h4 | h4 <;> simp [IsSec, hcls2 z hz, h4, h3]
  rw [← hsecs]
  cases hc : t1.pre.filter (fun r => (s2.heap.get r).cls = .Contents) with
  | nil =>
    have : toc ∈ t1.pre.filter (fun r => (s2.heap.get r).cls = .Contents) :=
      List.mem_filter.mpr ⟨hsub _ htoc, by simpa using htoc2⟩
    rw [hc] at this
    cases this
  | cons first rest =>
    obtain ⟨s2', items, e, D2', hitems, -⟩ := makeToc_spec (fuel := fuel) D2 W E (by omega) hc
    rw [e3] at e
    injection e with _ e
    subst e
    have hmemc : ∀ r ∈ first :: rest, r ∈ t1.pre ∧ (s2.heap.get r).cls = .Contents := by
      intro r hr
      rw [← hc] at hr
      exact ⟨(List.mem_filter.mp hr).1, by simpa using (List.mem_filter.mp hr).2⟩
    have hrest : ∀ r ∈ rest, (s2.heap.get r).cls = .Contents := fun r hr => (hmemc r (by simp [hr])).2
    -- the references
    have hzs : List.Forall₂ (fun x z => (s3.heap.get z).target = .node x) (t1.pre.filter (IsSec s2.heap ·))
        ((preL items).filter fun z => (s3.heap.get z).cls = .Reference) := by
      have W1' := W.without (h1 := s2.heap) rest (fun _ => rfl)
      obtain ⟨a, b⟩ := outerSections_spec s2.heap (t1.without rest)
      have hta := TocItems.targets W1' (fun k hk => ⟨mem_outerSections hk, a k hk⟩) hitems
      rw [b, filter_without (fun r hr h => by
        unfold IsSec at h
        rw [hrest r hr] at h
        revert h; decide) (fun i ks hi hr => E i ks hi (hrest i hr))] at hta
      unfold refTargets at hta
      have := (List.forall₂_eq_eq_eq (α := Target)) ▸ hta
      exact List.forall₂_map_left_iff.mp (List.forall₂_map_right_iff.mp this) |>.flip
    -- they are in the document
    have hzt : (first :: preL items).Sublist t3.pre := by
      have hnd : (first :: rest).Nodup := by rw [← hc]; exact D2.nodup.filter _
      have hr : t1.root ∉ rest := by
        intro hr
        have h1 := (hmemc first (by simp)).1
        obtain ⟨i, ks⟩ := t1
        have := E i ks (self_mem_subtrees _) (hrest i hr)
        subst this
        have : first = i := by simpa using h1
        subst this
        exact (List.nodup_cons.mp hnd).1 hr
      have hpw : (t1.without rest).pre = t1.pre.filter (· ∉ rest) :=
        pre_without hr (fun i ks hi h1 => E i ks hi (hrest i h1))
      have hm : first ∈ (t1.without rest).pre := by
        rw [hpw]
        exact List.mem_filter.mpr ⟨(hmemc first (by simp)).1, by simpa using (List.nodup_cons.mp hnd).1⟩
      obtain ⟨u, hu, hur⟩ : ∃ u ∈ (t1.without rest).subtrees, u.root = first := by
        rw [pre_eq_subtrees_map] at hm
        exact List.mem_map.mp hm
      obtain ⟨i, ks⟩ := u
      rw [root_node] at hur
      subst hur
      have hg := mem_subtrees_graft (c := i) (xs := items) hu
      rw [← D3.unique D2'] at hg
      have := pre_subtree_sublist hg
      rw [graft_node, if_pos rfl, pre_node, preL_append] at this
      exact ((List.sublist_append_right _ _).cons_cons _).trans this
    refine ⟨t3, first, (preL items).filter fun z => (s3.heap.get z).cls = .Reference, D6,
      (List.filter_sublist.cons_cons _).trans hzt, ?_, ?_⟩
    · have hb := D2.bound first (hmemc first (by simp)).1
      rw [K36.cls hb]
      exact (hmemc first (by simp)).2
    have h1 := (List.forall₂_and_left (p := fun x => x ∈ t1.pre ∧ IsSec s2.heap x) _ _).mpr ⟨fun x hx => by
      obtain ⟨g1, g2⟩ := List.mem_filter.mp hx
      exact ⟨g1, by simpa using g2⟩, hzs⟩
    have h2 := (List.forall₂_and_left (p := fun z => z ∈ preL items ∧ (s3.heap.get z).cls = .Reference) _ _).mpr ⟨fun x hx => by
      obtain ⟨g1, g2⟩ := List.mem_filter.mp hx
      exact ⟨g1, by simpa using g2⟩, h1.flip⟩
    refine h2.flip.imp ?_
    rintro x z ⟨⟨hz1, hz2⟩, ⟨hx1, hs2⟩, hzt⟩
    have hzr : TocRef s2.heap s3.heap x z := by
      rcases hitems.new z hz1 with h1 | h1 | ⟨i, h1⟩
      · rw [(newNode_attrs h1).1] at hz2; cases hz2
      · rw [(newNode_attrs h1).1] at hz2; cases hz2
      · have := h1
        obtain ⟨-, -, text, -, e⟩ := h1
        have e : (s3.heap.get z).target = .node i := (congrArg NodeRec.target e :)
        rw [hzt] at e
        injection e with e
        rw [e]
        exact this
    obtain ⟨-, hzn, text, htext, e⟩ := hzr
    have hau := K46.authored z hzn
    have hx2 : x < s2.heap.next := D2.bound x hx1
    have hxa := K36.authored x hx2
    refine ⟨?_, ?_, ?_⟩
    · rw [K46.cls hzn]
      exact (congrArg NodeRec.cls e :)
    · rw [show (s'.heap.get z).target = _ from (congrArg NodeRec.target hau :)]
      exact (congrArg NodeRec.target e :)
    · rw [show (s'.heap.get z).overwriteReftext = _ from (congrArg NodeRec.overwriteReftext hau :)]
      have e4 : (s3.heap.get z).overwriteReftext = text := (congrArg NodeRec.overwriteReftext e :)
      show TocText s'.heap x (s3.heap.get z).overwriteReftext
      rw [e4]
      unfold TocText at htext ⊢
      rw [nonum_of_authored hxa, show (s'.heap.get x).title = _ from (congrArg NodeRec.title hxa :)]
      split
      · rename_i hn
        rw [if_pos hn] at htext
        exact htext
      · rename_i hn
        rw [if_neg hn] at htext
        obtain ⟨full, h1, h2⟩ := htext
        refine ⟨full, h1.keep (S := fun y => y ∈ t1.pre ∧ y ∉ laterContents s2.heap t1) ?_ ?_ ?_ ⟨hx1, ?_⟩, h2⟩
        · rintro y ⟨hy, -⟩ p hyp
          have hyr : y ≠ root := by
            rintro rfl
            rw [D2.parent_root_none] at hyp
            cases hyp
          obtain ⟨q, hq, k1, k2⟩ := D2.parent_mem hy hyr
          rw [hyp] at k1
          injection k1 with k1
          subst k1
          refine ⟨hq, fun H => ?_⟩
          have hqc := (List.mem_filter.mp (List.mem_of_mem_tail H)).2
          rw [decide_eq_true_eq] at hqc
          obtain ⟨u, hu, rfl⟩ : ∃ u ∈ t1.subtrees, u.root = p := by
            rw [pre_eq_subtrees_map] at hq
            exact List.mem_map.mp hq
          obtain ⟨i, ks⟩ := u
          rw [root_node] at *
          rw [D2.tree.kids_of_subtree hu, E i ks hu hqc] at k2
          cases k2
        · rintro y ⟨hy, hyl⟩
          rw [hp46, p3 y (D2.bound y hy) hyl]
        · rintro y ⟨hy, -⟩
          have hb := D2.bound y hy
          have := K36.authored y hb
          exact ⟨cls_of_authored this, nonum_of_authored this, by rw [v6, v5, v4, number_of_core (c3 y hb)]⟩
        · intro H
          have := (List.mem_filter.mp (List.mem_of_mem_tail H)).2
          rw [decide_eq_true_eq] at this
          unfold IsSec at hs2
          rw [this] at hs2
          revert hs2; decide

theorem contents_run {h : Heap} {root : Ref} {t : Tree} {fuel : Nat} {log : List TWarning} {s' : TState}
    (hr : ResolveInput h root t) (ha : StepKidsAllowed h t) (hi : TocInput h t) (hf : 12 * t.size < fuel)
    (hok : transform fuel root { heap := h, log := log } = .ok () s') {toc : Ref} (htoc : toc ∈ t.pre)
    (htc : (h.get toc).cls = .Contents) :
    ∃ t' c zs, Doc s'.heap root t' ∧ (c :: zs).Sublist t'.pre ∧ (s'.heap.get c).cls = .Contents ∧
      List.Forall₂ (TocEntry s'.heap) (t.pre.filter (IsSec h ·)) zs := by
  obtain ⟨s1, e1, e2⟩ := transform_ok hok
  obtain ⟨σ, D, M, n1, a1, f1, c1, -, g1⟩ := resolve_ok hr (by omega) e1
  have hi1 : TocInput s1.heap (t.map σ) := by
    rintro ⟨r, hr, hc⟩
    have : r ∈ (t.map σ).pre.filter (fun r => (s1.heap.get r).cls = .Contents) :=
      List.mem_filter.mpr ⟨hr, by simpa using hc⟩
    rw [g1] at this
    obtain ⟨h1, h2⟩ := List.mem_filter.mp this
    obtain ⟨W, E⟩ := hi ⟨r, h1, by simpa using h2⟩
    exact ⟨W.map M, E.map M⟩
  have hf1 : 12 * (t.map σ).size < fuel := by rw [size_map]; exact hf
  obtain ⟨s, τ, k, C, I, Dτ⟩ := resolved hr (by omega) e1
  have hfix : ∀ x ∈ t.pre, ¬ Pending h x → σ x = x := fun x hx hp => by
    rw [Tree.map_inj (D.unique Dτ) x hx]
    exact I.fix x fun H => hp ((C.relabel.pending x).mp H.2)
  have htm : toc ∈ (t.map σ).pre ∧ (s1.heap.get toc).cls = .Contents := by
    have : toc ∈ t.pre.filter (fun r => (h.get r).cls = .Contents) := List.mem_filter.mpr ⟨htoc, by simpa using htc⟩
    rw [← g1] at this
    obtain ⟨h1, h2⟩ := List.mem_filter.mp this
    exact ⟨h1, by simpa using h2⟩
  have := contents_after D (ha.map M) hi1 hf1 e2 htm.1 htm.2
  rw [pre_map, filter_map_fix (q := fun x => IsSec h x) ?_ ?_] at this
  · exact this
  · intro x hx hs
    refine hfix x hx ?_
    have hs : IsSec h x := by simpa using hs
    rintro (e | e | e) <;> unfold IsSec at hs <;> rw [e] at hs <;> revert hs <;> decide
  · intro x hx
    by_cases hp : Pending h x
    · have h1 : ¬ IsSec h x := by
        intro hs
        rcases hp with e | e | e <;> unfold IsSec at hs <;> rw [e] at hs <;> revert hs <;> decide
      have h2 : ¬ IsSec s1.heap (σ x) := by
        have := M.2 x hx hp
        intro hs
        unfold IsSec at hs
        revert this
        rcases hs with hs | hs | hs <;> rw [hs] <;> decide
      simp [h1, h2]
    · rw [hfix x hx hp]
      have := cls_of_authored (a1 x (hr.doc.bound x hx))
      simp only [IsSec, this]

end RSM
