import Verif.Lemmas.ReadyRun
import Verif.Props.Subproofs
import Verif.Spec.Warnings

/-!
# What is logged by a run of the transformer
-/

namespace RSM
open Transformer Tree PyM

variable {h : Heap} {root : Ref} {t : Tree} {fuel : Nat} {log : List TWarning} {s s' : TState}

theorem AsksFor.unique {x : Ref} {l l' : Str} (h1 : AsksFor h x l) (h2 : AsksFor h x l') : l = l' := by
  cases h1 with
  | target e =>
    cases h2 with
    | target e' => rw [e] at e'; cases e'; rfl
    | none e' => rw [e] at e'; cases e'
  | none e =>
    cases h2 with
    | target e' => rw [e] at e'; cases e'
    | none e' => rfl

/-- What is said of a pending reference is determined by the document. -/
theorem Remarks.unique {x : Ref} {l l' : List TWarning} (h1 : Remarks h t x l) (h2 : Remarks h t x l') : l = l' := by
  cases h1 with
  | known c e k =>
    cases h2 with
    | known => rfl
    | unknown c' e' k' => cases e.unique e'; exact absurd k k'
    | cite c' => rw [c] at c'; cases c'
    | prev c' => rfl
    | unlabelled c' => rw [c] at c'; cases c'
  | unknown c e k =>
    cases h2 with
    | known c' e' k' => cases e.unique e'; exact absurd k' k
    | unknown c' e' k' => cases e.unique e'; rfl
    | cite c' => rw [c] at c'; cases c'
    | prev c' => rw [c] at c'; cases c'
    | unlabelled c' => rw [c] at c'; cases c'
  | cite c =>
    cases h2 with
    | known c' => rw [c] at c'; cases c'
    | unknown c' => rw [c] at c'; cases c'
    | cite c' => rfl
    | prev c' => rw [c] at c'; cases c'
    | unlabelled c' => rw [c] at c'; cases c'
  | prev c i n b e k =>
    cases h2 with
    | known c' => rfl
    | unknown c' => rw [c] at c'; cases c'
    | cite c' => rw [c] at c'; cases c'
    | prev c' => rfl
    | unlabelled c' i' n' b' e' k' =>
      cases i.unique i'; rw [n] at n'; cases n'; cases stepsBefore_unique b b'; rw [e] at e'; cases e'
      exact absurd k k'
  | unlabelled c i n b e k =>
    cases h2 with
    | known c' => rw [c] at c'; cases c'
    | unknown c' => rw [c] at c'; cases c'
    | cite c' => rw [c] at c'; cases c'
    | prev c' i' n' b' e' k' =>
      cases i.unique i'; rw [n] at n'; cases n'; cases stepsBefore_unique b b'; rw [e] at e'; cases e'
      exact absurd k' k
    | unlabelled c' => rfl

/-- What the transformer says while it resolves references. -/
theorem resolve_remarks (R : ResolveInput h root t) (hf : t.size < fuel)
    (hrun : collectAndResolve fuel root { heap := h, log := log } = .ok () s') :
    ∃ rem : Ref → List TWarning, (∀ x ∈ t.pre, Pending h x → Remarks h t x (rem x)) ∧
      s'.log = log ++ (((laterCarriers h [] t.pre).map fun x => .duplicateLabel (h.get x).label) ++
        ((t.pre.filter fun x => Pending h x).flatMap rem)) := by
  obtain ⟨s, σ, k, C, I, D⟩ := resolved R hf hrun
  refine ⟨newWarnings s.heap s.labels fuel, fun x hx hp => ?_, ?_⟩
  · have hcls := C.relabel.cls x
    have hget : s.heap.get x = { h.get x with label := (s.heap.get x).label } := C.relabel.2 x
    have hlk : ∀ l, (s.labels.lookup l).isNone = true ↔ ¬ Carried h t l := by
      intro l
      rw [carried_iff, Option.isNone_iff_eq_none, Option.eq_none_iff_forall_ne_some]
      simp only [ne_eq, C.lookup, not_exists]
    unfold newWarnings
    rcases hp with hc | hc | hc
    · have hfine := I.fine x hx (C.relabel.pending x |>.mpr (.inl hc))
      unfold fateErr at hfine
      rw [hcls, hc] at hfine
      dsimp only at hfine
      obtain ⟨l, hl, hw⟩ : ∃ l, AsksFor h x l ∧ wantedLabel (s.heap.get x) = l := by
        have htg : (s.heap.get x).target = (h.get x).target := by rw [hget]
        unfold wantedLabel
        rw [htg] at hfine ⊢
        cases ht : (h.get x).target with
        | none => exact ⟨_, .none ht, rfl⟩
        | str l => exact ⟨l, .target ht, rfl⟩
        | node y => rw [ht] at hfine; cases hfine
      rw [hcls, hc]
      dsimp only
      rw [hw]
      by_cases hk : Carried h t l
      · rw [if_neg (by rw [hlk]; exact fun H => H hk)]
        exact .known hc hl hk
      · rw [if_pos ((hlk l).2 hk)]
        exact .unknown hc hl hk
    · rw [hcls, hc]
      dsimp only
      have : (s.heap.get x).targetlabels = (h.get x).targetlabels := by rw [hget]
      rw [this]
      have he : ((h.get x).targetlabels.filter fun l => (s.labels.lookup l).isNone) =
          (h.get x).targetlabels.filter fun l => ¬ Carried h t l := by
        refine List.filter_congr fun l _ => ?_
        rw [Bool.eq_iff_iff, hlk l]
        simp
      rw [he]
      exact .cite hc
    · rw [hcls, hc]
      dsimp only
      have hfine := I.fine x hx (C.relabel.pending x |>.mpr (.inr (.inr hc)))
      unfold fateErr at hfine
      rw [hcls, hc] at hfine
      dsimp only at hfine
      rcases prevResult_spec C.doc hf hx with ⟨anc, h1, h2, h3⟩ | ⟨a, l, h1, h2, h3⟩
      · rw [h3] at hfine; cases hfine
      · rw [h3] at hfine ⊢
        cases hn : prevCount (s.heap.get x) with
        | none => rw [hn] at hfine; cases hfine
        | some n =>
          rw [hn] at hfine
          cases hq : (a :: l.reverse)[n.toNat]? with
          | none => simp only [hq] at hfine; cases hfine
          | some q =>
            simp only [hq]
            have hi := C.relabel.innermost.mp h1
            have hb := C.relabel.stepsBefore.mp h2
            have hn' : prevCount (h.get x) = some n := by rw [← C.relabel.count]; exact hn
            have hqm : q ∈ t.pre :=
              ((ResInv.start s fuel t).prevResult_eq C.doc hx (by simp)).2 q (by rw [h3, hn]; simp only [hq])
            have hst : (strip (s.heap.get q).label).isEmpty = true ↔ ¬ StaysLabelled h t q := by
              rw [List.isEmpty_iff]
              unfold StaysLabelled
              by_cases hfc : FirstCarrier h t q
              · rw [C.keep q (.inr hfc)]
                simp [hfc]
              · rw [C.drop q hqm hfc]
                simp only [hfc, and_false, not_false_iff, iff_true]
                rfl
            by_cases hk : StaysLabelled h t q
            · rw [if_neg (by rw [hst]; exact fun H => H hk)]
              exact .prev hc hi hn' hb hq hk
            · rw [if_pos (hst.2 hk)]
              exact .unlabelled hc hi hn' hb hq hk
  · have := I.log
    dsimp only at this
    rw [this, C.log, List.append_assoc]
    congr 2
    congr 1
    refine List.filter_congr fun x _ => ?_
    rw [decide_eq_decide]
    exact C.relabel.pending x

/-- What the later passes say: that a table of contents is not the first. -/
theorem after_log (D : Doc s.heap root t) (ha : StepKidsAllowed s.heap t) (hi : TocInput s.heap t)
    (hf : 12 * t.size < fuel) (hok : afterResolve fuel root s = .ok () s') :
    s'.log = s.log ++ ((t.pre.filter fun x => (s.heap.get x).cls = .Contents).drop 1).map fun _ => .multipleToc := by
  have hpos := size_pos t
  unfold afterResolve at hok
  obtain ⟨⟨⟩, s1, e1, hok⟩ := bind_ok hok
  obtain ⟨⟨⟩, s2, e2, hok⟩ := bind_ok hok
  obtain ⟨⟨⟩, s3, e3, hok⟩ := bind_ok hok
  obtain ⟨⟨⟩, s4, e4, hok⟩ := bind_ok hok
  obtain ⟨⟨⟩, s5, e5, e6⟩ := bind_ok hok
  obtain ⟨t1, D1, W1, z1, K1, l1⟩ := subproofs_ok D ha (by omega) e1
  obtain ⟨D2, K2, n2, l2⟩ := autonumber_ok D1 (by omega) e2
  have hcls : ∀ z ∈ t.pre, (s1.heap.get z).cls = (s.heap.get z).cls := fun z hz => K1.cls (D.bound z hz)
  have hcls2 : ∀ z ∈ t1.pre, (s2.heap.get z).cls = (s1.heap.get z).cls :=
    fun z hz => K2.cls (D1.bound z hz)
  have hcont := wrapped_contents (h2 := s2.heap) D W1 hcls hcls2
  have hi2 : TocInput s2.heap t1 := hi.wrapped D W1 hcls hcls2
  obtain ⟨t3, D3, z3, f3, m3, K3, l3⟩ := toc_ok D2 hi2 (by omega) e3
  obtain ⟨D4, K4, n4, l4⟩ := keywords_ok D3 (by omega) e4
  obtain ⟨D5, K5, n5, l5⟩ := handrail_ok D4 (by omega) e5
  have g1 : s1.log = s.log := by
    obtain ⟨-, -, -, g⟩ := C21_attributes s s1 root t fuel D ha (by omega) e1
    exact g
  have g2 : s2.log = s1.log := by
    have := autonumber_spec D1 (fuel := fuel) (by omega)
    rw [e2] at this
    obtain ⟨st, I, rfl⟩ := this
    exact I.log
  have g3 : s3.log = s2.log ++
      ((t1.pre.filter fun x => (s2.heap.get x).cls = .Contents).drop 1).map fun _ => .multipleToc := by
    cases hc : t1.pre.filter (fun r => (s2.heap.get r).cls = .Contents) with
    | nil =>
      have hn : ∀ r ∈ t1.pre, (s2.heap.get r).cls ≠ .Contents := by
        intro r hr h1
        have : r ∈ t1.pre.filter (fun r => (s2.heap.get r).cls = .Contents) :=
          List.mem_filter.mpr ⟨hr, by simpa using h1⟩
        rw [hc] at this
        cases this
      rw [makeToc_none D2 (by omega) hn] at e3
      injection e3 with _ e
      subst e
      simp
    | cons toc rest =>
      have htoc : toc ∈ t1.pre.filter (fun r => (s2.heap.get r).cls = .Contents) := by rw [hc]; simp
      obtain ⟨ht1, ht2⟩ := List.mem_filter.mp htoc
      obtain ⟨W, E⟩ := hi2 ⟨toc, ht1, by simpa using ht2⟩
      obtain ⟨s2', items, e, -, -, -, -, -, hlog, -⟩ := makeToc_spec D2 W E (fuel := fuel) (by omega) hc
      rw [e3] at e
      injection e with _ e
      subst e
      rw [hlog]
      simp
  have g4 : s4.log = s3.log := by
    have hkind : ∀ x ∈ t3.pre, .Construct ∈ (s3.heap.get x).cls.mro → (s3.heap.get x).kind ≠ [] := by
      intro x hx h1 h2
      have := C27_no_kind s3 D3 (fuel := fuel) (by omega) ⟨x, hx, h1, h2⟩
      rw [e4] at this
      cases this
    obtain ⟨s4', e, -, -, -, -, g⟩ := C27_constructs s3 D3 (fuel := fuel) (by omega) hkind
    rw [e4] at e
    injection e with _ e
    subst e
    exact g
  have g5 : s5.log = s4.log := by
    obtain ⟨s5', e, B⟩ := handrail_spec D4 (fuel := fuel) (by omega)
    rw [e5] at e
    injection e with _ e
    subst e
    exact B.log
  have g6 : s'.log = s5.log := by
    obtain ⟨s6', e, -, -, -, -, g, -⟩ := C29_node_ids s5 D5 (fuel := fuel) (by omega)
    rw [e6] at e
    injection e with _ e
    subst e
    exact g
  rw [g6, g5, g4, g3, g2, g1, hcont]

/-- All that a run of the transformer says. -/
theorem transform_log (R : ResolveInput h root t) (ha : StepKidsAllowed h t) (hi : TocInput h t)
    (hf : 12 * t.size < fuel) (hok : transform fuel root { heap := h, log := log } = .ok () s') :
    ∃ rem : Ref → List TWarning, (∀ x ∈ t.pre, Pending h x → Remarks h t x (rem x)) ∧
      s'.log = log ++ transformWarnings h t rem := by
  obtain ⟨s1, e1, e2⟩ := transform_ok hok
  obtain ⟨rem, h1, h2⟩ := resolve_remarks R (by omega) e1
  obtain ⟨σ, D, M, n1, a1, f1, c1, -, g1⟩ := resolve_ok R (by omega) e1
  have hi1 : TocInput s1.heap (t.map σ) := by
    rintro ⟨r, hr, hc⟩
    have : r ∈ (t.map σ).pre.filter (fun r => (s1.heap.get r).cls = .Contents) :=
      List.mem_filter.mpr ⟨hr, by simpa using hc⟩
    rw [g1] at this
    obtain ⟨h1, h2⟩ := List.mem_filter.mp this
    obtain ⟨W, E⟩ := hi ⟨r, h1, by simpa using h2⟩
    exact ⟨W.map M, E.map M⟩
  have := after_log D (ha.map M) hi1 (by rw [size_map]; exact hf) e2
  refine ⟨rem, h1, ?_⟩
  rw [this, h2, g1]
  unfold transformWarnings
  simp only [List.append_assoc]

end RSM
