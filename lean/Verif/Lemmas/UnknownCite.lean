import Verif.Lemmas.NumberPage
import Verif.Lemmas.NumberRun
import Verif.Props.Links

/-! What becomes of a citation of an unknown label (helper lemmas). -/

namespace RSM
open PyM Transformer Tree

/-- What the passes after the resolution do with an entry that is not in the document: nothing that shows. -/
theorem stray_after {s s' : TState} {root t fuel} (D : Doc s.heap root t)
    (ha : StepKidsAllowed s.heap t) (hi : TocInput s.heap t) (hf : 12 * t.size < fuel)
    (hok : afterResolve fuel root s = .ok () s') {z : Ref} (hz : z < s.heap.next) (hzt : z ∉ t.pre) :
    (s'.heap.get z).number = (s.heap.get z).number ∧ (s'.heap.get z).reftextTemplate = (s.heap.get z).reftextTemplate := by
  have hpos := size_pos t
  unfold afterResolve at hok
  obtain ⟨⟨⟩, s1, e1, hok⟩ := bind_ok hok
  obtain ⟨⟨⟩, s2, e2, hok⟩ := bind_ok hok
  obtain ⟨⟨⟩, s3, e3, hok⟩ := bind_ok hok
  obtain ⟨⟨⟩, s4, e4, hok⟩ := bind_ok hok
  obtain ⟨⟨⟩, s5, e5, e6⟩ := bind_ok hok
  obtain ⟨t1, D1, W1, z1, K1, l1⟩ := subproofs_ok D ha (by omega) e1
  obtain ⟨c1, -⟩ := C21_attributes s s1 root t fuel D ha (by omega) e1
  obtain ⟨D2, K2, n2, l2⟩ := autonumber_ok D1 (by omega) e2
  have N := autonumber_spec D1 (fuel := fuel) (by omega)
  rw [e2] at N
  obtain ⟨st, N, rfl⟩ := N
  have K12 := K1.trans K2
  have hcls : ∀ z ∈ t.pre, (s1.heap.get z).cls = (s.heap.get z).cls := fun z hz => K1.cls (D.bound z hz)
  have hcls2 : ∀ z ∈ t1.pre, (st.t.heap.get z).cls = (s1.heap.get z).cls :=
    fun z hz => K2.cls (D1.bound z hz)
  have hi2 : TocInput st.t.heap t1 := hi.wrapped D W1 hcls hcls2
  obtain ⟨t3, D3, z3, f3, m3, K3, l3⟩ := toc_ok D2 hi2 (by omega) e3
  obtain ⟨b3, q3, c3, g3, p3⟩ := toc_ready D2 hi2 (by omega) e3 D3
  obtain ⟨D4, K4, n4, l4⟩ := keywords_ok D3 (by omega) e4
  have r4 := keywords_ready D3 (by omega) e4
  have v4 := keywords_number D3 (by omega) e4
  obtain ⟨D5, K5, n5, l5⟩ := handrail_ok D4 (by omega) e5
  have r5 := handrail_ready D4 (by omega) e5
  have v5 := handrail_number D4 (by omega) e5
  have r6 := ids_ready D5 (by omega) e6
  have v6 := ids_number D5 (by omega) e6
  have hz1 : z ∉ t1.pre := by
    intro hm
    rcases W1.pre.2 z hm with h | h
    · exact hzt h
    · have : SubNew s.heap s1.heap z := h
      have := this.next_le
      omega
  have h2 : z < st.t.heap.next := lt_of_lt_of_le hz K12.next
  have c0 : (s1.heap.get z).core = (s.heap.get z).core := c1 z hz
  constructor
  · rw [v6, v5, v4, number_of_core (c3 z h2), N.same z (fun h => hz1 h.1) ?_, number_of_core c0]
    rintro ⟨p, hp, -, hm⟩
    exact hz1 (D1.children_mem hp (List.mem_filter.mp hm).1).1
  · rw [(r6 z).2, (r5 z).2, (r4 z).2, template_of_core (c3 z h2), N.templateSame z ?_, template_of_core c0]
    rintro ⟨-, -, pre, post, e, -⟩
    exact hz1 (by rw [e]; simp)

/-- A citation of an unknown label, after the resolution. -/
theorem cites_unknown {h : Heap} {root : Ref} {t : Tree} {fuel : Nat} {log : List TWarning} {s' : TState}
    (R : ResolveInput h root t) (hfuel : t.size < fuel)
    (hrun : collectAndResolve fuel root { heap := h, log := log } = .ok () s')
    {σ : Ref → Ref} (Dσ : Doc s'.heap root (t.map σ)) {x : Ref} (hx : x ∈ t.pre) (hc : (h.get x).cls = .PendingCite)
    {l : Str} (hl : l ∈ (h.get x).targetlabels) (hn : ¬ Carried h t l) :
    ∃ b ∈ (s'.heap.get (σ x)).targets, h.next ≤ b ∧ b < s'.heap.next ∧ s'.heap.parent b = none ∧ ∃ c,
      (s'.heap.get b).core = { NodeRec.new .UnknownBibitem with number := .str (unknownLabelText l), backlinks := [c] } := by
  obtain ⟨before, after, hab⟩ := List.append_of_mem hx
  obtain ⟨s, k', τ, C, I, P⟩ := replacement R hfuel hrun Dσ hab (.inr (.inl hc))
  unfold ReplacementOf at P
  rw [C.relabel.cls, hc] at P
  obtain ⟨ts, e1, e2⟩ := P
  have hts : (s'.heap.get (σ x)).targets = ts := congrArg NodeRec.targets e1
  rw [hts]
  rw [C.relabel.targetlabels x] at e2
  obtain ⟨b, hb, hcb⟩ := Parser.forall₂_right e2.flip l hl
  refine ⟨b, hb, ?_⟩
  split at hcb
  · next r hr => exact absurd (carried_iff.mpr ⟨r, (C.lookup l r).mp hr⟩) hn
  · obtain ⟨g1, g2, g3, g4⟩ := hcb
    exact ⟨g1, g2, g3, _, g4⟩

/-- A citation of an unknown label, after the run. -/
theorem unknown_run {h : Heap} {root : Ref} {t : Tree} {fuel : Nat} {log : List TWarning} {s' : TState}
    (hr : ResolveInput h root t) (ha : StepKidsAllowed h t) (hi : TocInput h t) (hf : 12 * t.size < fuel)
    (hok : transform fuel root { heap := h, log := log } = .ok () s') {x : Ref} (hx : x ∈ t.pre)
    (hc : (h.get x).cls = .PendingCite) {l : Str} (hl : l ∈ (h.get x).targetlabels) (hn : ¬ Carried h t l) :
    ∃ t' z b, Doc s'.heap root t' ∧ z ∈ t'.pre ∧ (s'.heap.get z).cls = .Cite ∧ b ∈ (s'.heap.get z).targets ∧
      s'.heap.parent b = none ∧ (s'.heap.get b).cls = .UnknownBibitem ∧ (s'.heap.get b).nonum = false ∧
      (s'.heap.get b).label = [] ∧ (s'.heap.get b).number = .str (unknownLabelText l) ∧
      (s'.heap.get b).reftextTemplate = "{number}".toList := by
  obtain ⟨s1, e1, e2⟩ := transform_ok hok
  obtain ⟨σ, D, M, n1, a1, f1, c1, -, g1⟩ := resolve_ok hr (by omega) e1
  have hi1 : TocInput s1.heap (t.map σ) := by
    rintro ⟨r, hr, hc⟩
    have : r ∈ (t.map σ).pre.filter (fun r => (s1.heap.get r).cls = .Contents) :=
      List.mem_filter.mpr ⟨hr, by simpa using hc⟩
    rw [g1] at this
    obtain ⟨h1, h2⟩ := List.mem_filter.mp this
    obtain ⟨W, E⟩ := hi ⟨r, h1, by simpa using h2⟩
    exact ⟨W.map M, E.map M⟩
  have hf1 : 12 * (t.map σ).size < fuel := by rw [size_map]; exact hf
  obtain ⟨t', D', -, -, K, -⟩ := after_ok D (ha.map M) hi1 hf1 e2
  have A := after_ready D (ha.map M) hi1 hf1 e2 D'
  obtain ⟨b, hb, hbn, hb1, hpar, c, core⟩ := cites_unknown hr (by omega) e1 D hx hc hl hn
  have hbc : (s1.heap.get b).cls = .UnknownBibitem := core_cls core
  have hbt : b ∉ (t.map σ).pre := by
    intro hm
    rcases c1 b hm with h1 | ⟨-, h1⟩
    · have := hr.doc.bound b h1
      omega
    · rw [hbc] at h1
      revert h1; decide
  obtain ⟨s2, τ, t2, R⟩ := passed hr ha hi hf hok
  have e := R.run
  rw [e1] at e
  injection e with _ e
  subst e
  obtain rfl := R.doc.unique D'
  have hσ := Tree.map_inj (D.unique R.doc1) x hx
  obtain ⟨k1, k2⟩ := R.new x hx (.inr (.inl hc))
  obtain ⟨n, hxn⟩ := List.mem_iff_getElem?.mp (show x ∈ citations h t.pre from List.mem_filter.mpr ⟨hx, by simpa using hc⟩)
  obtain ⟨q1, -, -⟩ := C18_cites hr (by omega) e1 D hxn
  rw [← hσ] at k1 k2
  obtain ⟨m1, m2⟩ := stray_after D (ha.map M) hi1 hf1 e2 hb1 hbt
  refine ⟨t2, σ x, b, R.doc, k1, ?_, ?_, ?_, ?_, ?_, ?_, ?_, ?_⟩
  · rw [K.cls k2]; exact q1
  · rw [show (s'.heap.get (σ x)).targets = _ from (congrArg NodeRec.targets (K.authored _ k2) :)]; exact hb
  · rw [A.frame b hb1 hbt]; exact hpar
  · rw [K.cls hb1]; exact hbc
  · rw [nonum_of_authored (K.authored b hb1)]
    exact congrArg NodeRec.nonum core
  · rw [K.label b hb1]
    exact congrArg NodeRec.label core
  · rw [m1]
    exact congrArg NodeRec.number core
  · rw [m2]
    exact congrArg NodeRec.reftextTemplate core

namespace Tr

theorem format_entry (nc num : Str) : formatGo nc num .lit "{number}".toList = .ok num := by
  simp [formatGo, Except.map]

/-- What is written for an unknown entry. -/
theorem unknown_reftext {k : Conf} {s : TrState} {b : Ref} {l : Str} (hk : 0 < k.fuel) (hp : s.heap.parent b = none)
    (hc : (s.heap.get b).cls = .UnknownBibitem) (hn : (s.heap.get b).nonum = false)
    (hnum : (s.heap.get b).number = .str (unknownLabelText l)) (ht : (s.heap.get b).reftextTemplate = "{number}".toList) :
    reftext k b s = .ok (unknownLabelText l) s := by
  obtain ⟨o, h1, h2⟩ := fullNumber_spec (h := s.heap) (r := b) (l := []) hp (fuel := k.fuel) hk
  have h3 : FullNumber s.heap b (some (if (s.heap.get b).number.truthy then (s.heap.get b).number.fmt else [])) :=
    .noScope (by rw [hc]; decide) hn (l := []) hp nofun
  rw [Parser.full_unique h2 h3] at h1
  have e : (if (s.heap.get b).number.truthy then (s.heap.get b).number.fmt else []) = unknownLabelText l := by
    rw [hnum]
    rfl
  rw [e] at h1
  unfold reftext
  simp only [bind_apply, number_shown h1, get_apply, fmtOpt, ht, format_entry, lift, pure_apply]
  rw [strip_kept]
  · intro c hc
    cases hc
    rfl
  · intro c hc
    unfold unknownLabelText at hc
    rw [List.getLast?_append] at hc
    cases hc
    rfl

end Tr
end RSM
