import Verif.Lemmas.ReadyRun
import Verif.Lemmas.Outcome

/-! # Lemmas: the numbers that `transform` gives, read off the document it was given (for C91) -/

namespace RSM
open Transformer Tree PyM

/-! ### What counts, before and after -/

/-- `x` stands at the same place among what counts in two documents. -/
theorem expected_same {h h' : Heap} {l l' B A : List Ref} {x : Ref}
    (he : l'.filter (Counts h' ·) = l.filter (Counts h ·))
    (hl : ∀ x ∈ l, Counts h x → (h'.get x).cls = (h.get x).cls ∧ (h'.get x).nonum = (h.get x).nonum)
    (nd : l'.Nodup) (e : l = B ++ x :: A) (hx : Numbered h x) :
    ∃ B' A', l' = B' ++ x :: A' ∧ Numbered h' x ∧ expectedNumber h' B' x = expectedNumber h B x ∧
      ((∃ a ∈ B', IsAppendix h' a) ↔ ∃ a ∈ B, IsAppendix h a) := by
  subst e
  have hcx : Counts h x := .inl hx
  have hxl := hl x (by simp) hcx
  have hx' : Numbered h' x := by unfold Numbered at hx ⊢; rw [hxl.1, hxl.2]; exact hx
  rw [List.filter_append, List.filter_cons_of_pos (by exact decide_eq_true hcx)] at he
  obtain ⟨B1, A1, rfl, e1, e2⟩ := List.filter_eq_append_iff.mp he
  obtain ⟨B2, A2, rfl, e3, e4, e5⟩ := List.filter_eq_cons_iff.mp e2
  have hB : (B1 ++ B2).filter (Counts h' ·) = B.filter (Counts h ·) := by
    rw [List.filter_append, e1, List.filter_eq_nil_iff.mpr e3, List.append_nil]
  have hBl : ∀ y ∈ B.filter (Counts h ·), (h'.get y).cls = (h.get y).cls ∧ (h'.get y).nonum = (h.get y).nonum :=
    fun y hy => hl y (by simp [(List.mem_filter.mp hy).1]) (by simpa using (List.mem_filter.mp hy).2)
  have hap : (∃ a ∈ B1 ++ B2, IsAppendix h' a) ↔ ∃ a ∈ B, IsAppendix h a := by
    constructor
    · rintro ⟨a, ha, hc⟩
      have : a ∈ (B1 ++ B2).filter (Counts h' ·) :=
        List.mem_filter.mpr ⟨ha, decide_eq_true (show Counts h' a from .inr hc)⟩
      rw [hB] at this
      refine ⟨a, (List.mem_filter.mp this).1, ?_⟩
      unfold IsAppendix at hc ⊢
      rw [← (hBl a this).1]; exact hc
    · rintro ⟨a, ha, hc⟩
      have : a ∈ B.filter (Counts h ·) := List.mem_filter.mpr ⟨ha, decide_eq_true (show Counts h a from .inr hc)⟩
      refine ⟨a, ?_, ?_⟩
      · rw [← hB] at this; exact (List.mem_filter.mp this).1
      · unfold IsAppendix at hc ⊢
        rw [(hBl a this).1]; exact hc
  refine ⟨B1 ++ B2, A2, by simp, hx', ?_, hap⟩
  have hc : ∀ w, earlierInScope h' w (B1 ++ B2) x = earlierInScope h w B x := by
    intro w
    rw [← earlierInScope_counts h', hB, earlierInScope_congr hBl hxl.1, earlierInScope_counts]
  unfold expectedNumber
  rw [hxl.1]
  split
  · simp only [hap, hc]
  · rfl

/-! ### The scopes around a node -/

/-- A node that numbers may count within. -/
def Scoped (h : Heap) (a : Ref) : Prop := (h.get a).cls ∈ [.Manuscript, .Section, .Subsection]

instance (h : Heap) (a : Ref) : Decidable (Scoped h a) := inferInstanceAs (Decidable (_ ∈ _))

theorem number_of_core {a b : NodeRec} (h : a.core = b.core) : a.number = b.number :=
  show a.core.number = b.core.number by rw [h]

theorem keywords_number {s s' : TState} {root t fuel} (D : Doc s.heap root t) (hf : t.size < fuel)
    (hok : addKeywordsToConstructs fuel root s = .ok () s') (x : Ref) :
    (s'.heap.get x).number = (s.heap.get x).number := by
  have hkind : ∀ x ∈ t.pre, .Construct ∈ (s.heap.get x).cls.mro → (s.heap.get x).kind ≠ [] := by
    intro x hx h1 h2
    have := C27_no_kind s D hf ⟨x, hx, h1, h2⟩
    rw [hok] at this
    cases this
  obtain ⟨s2, e, h1, h2, h3, h4, -⟩ := C27_constructs s D hf hkind
  rw [hok] at e
  injection e with _ e
  subst e
  by_cases hx : x ∈ t.pre ∧ .Construct ∈ (s.heap.get x).cls.mro
  · simp only [h1 x hx.1 hx.2]
  · simp only [h2 x (by tauto)]

theorem handrail_number {s s' : TState} {root t fuel} (D : Doc s.heap root t) (hf : t.size < fuel)
    (hok : addHandrailDepth fuel root s = .ok () s') (x : Ref) :
    (s'.heap.get x).number = (s.heap.get x).number := by
  obtain ⟨s2, e, B⟩ := handrail_spec D hf
  rw [hok] at e
  injection e with _ e
  subst e
  simp only [B.get x]

theorem ids_number {s s' : TState} {root t fuel} (D : Doc s.heap root t) (hf : t.size < fuel)
    (hok : assignNodeIds fuel root s = .ok () s') (x : Ref) :
    (s'.heap.get x).number = (s.heap.get x).number := by
  obtain ⟨s2, e, h1, h2, h3, h4, -, -⟩ := C29_node_ids s D hf
  rw [hok] at e
  injection e with _ e
  subst e
  by_cases hx : x ∈ t.pre
  · obtain ⟨k, hk, rfl⟩ := List.mem_iff_getElem.mp hx
    simp only [h1 k hk]
  · simp only [h2 x hx]

/-- What the passes after the resolution of references make of numbers. -/
structure NumbersAfter (s s' : TState) (t : Tree) : Prop where
  number : ∀ B x A, t.pre = B ++ x :: A → Numbered s.heap x →
    some (s'.heap.get x).number = expectedNumber s.heap B x
  template : ∀ B x A, t.pre = B ++ x :: A → Numbered s.heap x →
    (s'.heap.get x).reftextTemplate = if .Section ∈ (s.heap.get x).cls.mro ∧ ∃ a ∈ B, IsAppendix s.heap a
      then appendixTemplate (s.heap.get x).reftextTemplate else (s.heap.get x).reftextTemplate
  templateSame : ∀ x ∈ t.pre, ¬ Numbered s.heap x → (s'.heap.get x).reftextTemplate = (s.heap.get x).reftextTemplate
  up : ∀ x ∈ t.pre, x ∉ laterContents s.heap t → ∀ p, s.heap.parent x = some p →
    s'.heap.parent x = some p ∨ (s.heap.get p).cls = .Step ∧
      ∃ m, s'.heap.parent x = some m ∧ s'.heap.parent m = some p ∧ (s'.heap.get m).cls ∈ [.Statement, .Subproof]
  steps : ∀ p ∈ t.pre, (s.heap.get p).cls ∈ [.Proof, .Subproof, .Step] → ∀ i (hi : i < (stepChildren s.heap p).length),
    (s'.heap.get (stepChildren s.heap p)[i]).number = .int (i + 1 : Nat)
  proofs : ∀ p ∈ t.pre, (s.heap.get p).cls = .Proof → (s'.heap.get p).number = (s.heap.get p).number

theorem nodup_split {B B' A A' : List Ref} {x : Ref} (nd : (B ++ x :: A).Nodup)
    (e : B ++ x :: A = B' ++ x :: A') : B = B' := by
  induction B generalizing B' with
  | nil =>
    cases B' with
    | nil => rfl
    | cons y B' =>
      injection e with e1 e2
      subst e1
      rw [e2] at nd
      exact absurd nd (by simp)
  | cons y B ih =>
    cases B' with
    | nil =>
      injection e with e1 e2
      subst e1
      exact absurd nd (by simp)
    | cons z B' =>
      injection e with e1 e2
      subst e1
      rw [ih (List.nodup_cons.mp nd).2 e2]

theorem after_numbers {s s' : TState} {root t fuel} (D : Doc s.heap root t)
    (ha : StepKidsAllowed s.heap t) (hi : TocInput s.heap t) (hf : 12 * t.size < fuel)
    (hok : afterResolve fuel root s = .ok () s') : NumbersAfter s s' t := by
  have hpos := size_pos t
  unfold afterResolve at hok
  obtain ⟨⟨⟩, s1, e1, hok⟩ := bind_ok hok
  obtain ⟨⟨⟩, s2, e2, hok⟩ := bind_ok hok
  obtain ⟨⟨⟩, s3, e3, hok⟩ := bind_ok hok
  obtain ⟨⟨⟩, s4, e4, hok⟩ := bind_ok hok
  obtain ⟨⟨⟩, s5, e5, e6⟩ := bind_ok hok
  obtain ⟨t1, D1, W1, z1, K1, l1⟩ := subproofs_ok D ha (by omega) e1
  obtain ⟨c1, f1, -, -⟩ := C21_attributes s s1 root t fuel D ha (by omega) e1
  obtain ⟨D2, K2, n2, l2⟩ := autonumber_ok D1 (by omega) e2
  obtain ⟨p2, m2⟩ := autonumber_ready D1 (by omega) e2
  have K12 := K1.trans K2
  have hcls : ∀ z ∈ t.pre, (s1.heap.get z).cls = (s.heap.get z).cls := fun z hz => K1.cls (D.bound z hz)
  have hcls2 : ∀ z ∈ t1.pre, (s2.heap.get z).cls = (s1.heap.get z).cls :=
    fun z hz => K2.cls (D1.bound z hz)
  have hnewc : ∀ z ∈ t1.pre, z ∈ t.pre ∨ SubNew s.heap s1.heap z := W1.pre.2
  have hcont := wrapped_contents (h2 := s2.heap) D W1 hcls hcls2
  have hlater := laterContents_congr hcont
  have hi2 : TocInput s2.heap t1 := hi.wrapped D W1 hcls hcls2
  obtain ⟨t3, D3, z3, f3, m3, K3, l3⟩ := toc_ok D2 hi2 (by omega) e3
  obtain ⟨b3, q3, c3, g3, p3⟩ := toc_ready D2 hi2 (by omega) e3 D3
  obtain ⟨D4, K4, n4, l4⟩ := keywords_ok D3 (by omega) e4
  have r4 := keywords_ready D3 (by omega) e4
  have v4 := keywords_number D3 (by omega) e4
  obtain ⟨D5, K5, n5, l5⟩ := handrail_ok D4 (by omega) e5
  have r5 := handrail_ready D4 (by omega) e5
  have v5 := handrail_number D4 (by omega) e5
  obtain ⟨D6, K6, n6, l6⟩ := ids_ok D5 (by omega) e6
  have r6 := ids_ready D5 (by omega) e6
  have v6 := ids_number D5 (by omega) e6
  have K46 := (K4.trans K5).trans K6
  have hp46 : ∀ x, s'.heap.parent x = s3.heap.parent x := fun x => by
    rw [(r6 x).1, (r5 x).1, (r4 x).1]
  have hpre : t1.pre.filter (· < s.heap.next) = t.pre := by
    rw [W1.pre.1, List.filter_eq_self]
    intro z hz
    exact decide_eq_true (D.bound z hz)
  have hsubc : ∀ z, SubNew s.heap s1.heap z → (s1.heap.get z).cls ∈ createdClasses := by
    intro z hz
    rcases hz.cls with h3 | h3 <;> rw [h3] <;> decide
  have same : ∀ B x A, t.pre = B ++ x :: A → Numbered s.heap x → ∃ B' A', t1.pre = B' ++ x :: A' ∧
      Numbered s1.heap x ∧ expectedNumber s1.heap B' x = expectedNumber s.heap B x ∧
      ((∃ a ∈ B', IsAppendix s1.heap a) ↔ ∃ a ∈ B, IsAppendix s.heap a) := by
    intro B x A e hx
    refine expected_same ?_ ?_ D1.nodup e hx
    · rw [← hpre, List.filter_filter]
      refine List.filter_congr ?_
      intro z hz
      rcases hnewc z hz with h1 | h1
      · have h2 := D.bound z h1
        have h3 := counts_congr (K1.authored z h2)
        simp [h2, h3]
      · have := h1.next_le
        have h3 : ¬ z < s.heap.next := by omega
        have h4 := not_counts_created (hsubc z h1)
        simp [h3, h4]
    · intro x hx _
      exact ⟨hcls x hx, nonum_of_authored (K1.authored x (D.bound x hx))⟩
  have hnum := autonumber_spec D1 (fuel := fuel) (by omega)
  rw [e2] at hnum
  obtain ⟨st, I, rfl⟩ := hnum
  have hlast : ∀ x ∈ t.pre, (s'.heap.get x).number = (st.t.heap.get x).number ∧
      (s'.heap.get x).reftextTemplate = (st.t.heap.get x).reftextTemplate := by
    intro x hx
    have h2 : x < st.t.heap.next := lt_of_lt_of_le (D.bound x hx) K12.next
    rw [v6, v5, v4, number_of_core (c3 x h2), (r6 x).2, (r5 x).2, (r4 x).2, template_of_core (c3 x h2)]
    exact ⟨rfl, rfl⟩
  refine ⟨?_, ?_, ?_, ?_, ?_, ?_⟩
  · intro B x A e hx
    obtain ⟨B', A', e', hx', hn, -⟩ := same B x A e hx
    rw [(hlast x (by rw [e]; simp)).1, I.number B' x A' e' hx', hn]
  · intro B x A e hx
    obtain ⟨B', A', e', hx', -, hap⟩ := same B x A e hx
    have hxt : x ∈ t.pre := by rw [e]; simp
    have ht0 : (s1.heap.get x).reftextTemplate = (s.heap.get x).reftextTemplate :=
      template_of_core (c1 x (D.bound x hxt))
    rw [(hlast x hxt).2]
    split
    · rename_i hc
      rw [I.template B' x A' e' hx' (by rw [hcls x hxt]; exact hc.1) (hap.mpr hc.2), ht0]
    · rename_i hc
      rw [I.templateSame x ?_, ht0]
      rintro ⟨-, h1, pre, post, h2, h3⟩
      refine hc ⟨by rw [← hcls x hxt]; exact h1, hap.mp ?_⟩
      rw [nodup_split (by rw [← e']; exact D1.nodup) (e'.symm.trans h2)]
      exact h3
  · intro x hx hn
    rw [(hlast x hx).2, I.templateSame x ?_, template_of_core (c1 x (D.bound x hx))]
    rintro ⟨h1, -⟩
    have hb := K1.authored x (D.bound x hx)
    unfold Numbered at h1
    rw [hcls x hx, nonum_of_authored hb] at h1
    exact hn h1
  · intro z hz hzl p hp
    have hzr : z ≠ root := by
      rintro rfl
      rw [D.parent_root_none] at hp
      cases hp
    obtain ⟨q, hq, h1, h2⟩ := D.parent_mem hz hzr
    rw [hp] at h1
    injection h1 with h1
    subst h1
    obtain ⟨u, hu, rfl⟩ : ∃ u ∈ t.subtrees, u.root = p := by
      rw [pre_eq_subtrees_map] at hq
      exact List.mem_map.mp hq
    obtain ⟨i, ks⟩ := u
    rw [root_node] at *
    obtain ⟨us, ks', h3, h4, h5⟩ := W1.arranged hu
    have hc : s.heap.children i = ks.map Tree.root := D.tree.kids_of_subtree hu
    have hc' : s1.heap.children i = ks'.map Tree.root := D1.tree.kids_of_subtree h3
    have hr := wrappedL_roots h4
    have hzu : z ∈ us.map Tree.root := by rw [hr, ← hc]; exact h2
    have hz0 := D.bound z hz
    have hlift : ∀ y q, y < s1.heap.next → y ∉ laterContents s.heap t → s1.heap.parent y = some q →
        s'.heap.parent y = some q := by
      intro y q hy hyl hyq
      rw [hp46, p3 y (lt_of_lt_of_le hy K2.next) (by rw [hlater]; exact hyl), p2, hyq]
    have hzs := lt_of_lt_of_le hz0 K1.next
    have hdirect : z ∈ ks'.map Tree.root → s'.heap.parent z = some i := fun hk =>
      hlift z i hzs hzl (D1.children_mem (node_mem_pre h3) (by rw [hc']; exact hk)).2
    have hmid : ∀ (m : Ref) (c : List Tree), z ∈ c.map Tree.root → Tree.node m c ∈ ks' → SubNew s.heap s1.heap m →
        ∃ m, s'.heap.parent z = some m ∧ s'.heap.parent m = some i ∧ (s'.heap.get m).cls ∈ [.Statement, .Subproof] := by
      intro m c hzc hm hnew
      have hms : Tree.node m c ∈ t1.subtrees := subtrees_trans h3 (mem_subtrees_node.mpr (.inr ⟨_, hm, self_mem_subtrees _⟩))
      have hmp := node_mem_pre hms
      have hmb := D1.bound m hmp
      have hmn : m ∉ laterContents s.heap t := fun H => by
        have := D.bound m (List.mem_filter.mp (List.mem_of_mem_tail H)).1
        have := hnew.next_le
        omega
      refine ⟨m, hlift z m hzs hzl (D1.children_mem hmp ?_).2, hlift m i hmb hmn
        (D1.children_mem (node_mem_pre h3) ?_).2, ?_⟩
      · rw [D1.tree.kids_of_subtree hms]; exact hzc
      · rw [hc']; exact List.mem_map.mpr ⟨_, hm, rfl⟩
      · rw [((K2.trans K3).trans K46).cls hmb]
        rcases hnew.cls with h | h <;> rw [h] <;> decide
    unfold Arranged at h5
    split at h5
    · rename_i hst
      obtain ⟨n, a, b, N, rfl, -, h6⟩ := h5
      rw [List.map_append, List.mem_append] at hzu
      rcases h6 with ⟨rfl, rfl⟩ | ⟨k, b', r, hb, -, N2, rfl⟩ | ⟨k, rfl, -, rfl⟩
      · rcases hzu with hzu | hzu
        · exact .inr ⟨hst.1, hmid n a hzu (by simp) (.inl N)⟩
        · cases hzu
      · rcases hzu with hzu | hzu
        · exact .inr ⟨hst.1, hmid n a hzu (by simp) (.inl N)⟩
        · exact .inr ⟨hst.1, hmid r b hzu (by simp) (.inr N2)⟩
      · rcases hzu with hzu | hzu
        · exact .inr ⟨hst.1, hmid n a hzu (by simp) (.inl N)⟩
        · refine .inl (hdirect ?_)
          simp only [List.map_cons, List.map_nil, List.mem_singleton] at hzu
          simp [hzu]
    · subst h5
      exact .inl (hdirect hzu)
  · intro p hp hpc
    -- the proof, subproof or new subproof that holds the steps
    have key : stepChildren s.heap p = [] ∨ ∃ q ∈ t1.pre, ((s1.heap.get q).cls = .Proof ∨ (s1.heap.get q).cls = .Subproof) ∧
        stepChildren s1.heap q = stepChildren s.heap p := by
      obtain ⟨u, hu, rfl⟩ : ∃ u ∈ t.subtrees, u.root = p := by
        rw [pre_eq_subtrees_map] at hp
        exact List.mem_map.mp hp
      obtain ⟨i, ks⟩ := u
      rw [root_node] at *
      obtain ⟨us, ks', h3, h4, h5⟩ := W1.arranged hu
      have hc : s.heap.children i = ks.map Tree.root := D.tree.kids_of_subtree hu
      have hc' : s1.heap.children i = ks'.map Tree.root := D1.tree.kids_of_subtree h3
      have hr := wrappedL_roots h4
      have hkid : ∀ z ∈ us.map Tree.root, (s1.heap.get z).cls = (s.heap.get z).cls := fun z hz => by
        rw [hr, ← hc] at hz
        exact hcls z (D.children_mem hp hz).1
      have hfil : ∀ l : List Tree, (∀ k ∈ l, k ∈ us) → (l.map Tree.root).filter (fun z => (s1.heap.get z).cls = .Step) =
          (l.map Tree.root).filter (fun z => (s.heap.get z).cls = .Step) := fun l hl => by
        refine List.filter_congr fun z hz => ?_
        obtain ⟨k, hk, rfl⟩ := List.mem_map.mp hz
        rw [hkid _ (List.mem_map.mpr ⟨k, hl k hk, rfl⟩)]
      unfold stepChildren
      rw [hc, ← hr]
      unfold Arranged at h5
      split at h5
      · rename_i hst
        obtain ⟨n, a, b, N, rfl, h6, h7⟩ := h5
        have ha0 : (a.map Tree.root).filter (fun z => (s.heap.get z).cls = .Step) = [] := by
          rw [List.filter_eq_nil_iff]
          intro z hz
          obtain ⟨k, hk, rfl⟩ := List.mem_map.mp hz
          have := h6 k hk
          unfold Opens at this
          simp only [not_or] at this
          simpa using this.1
        rw [List.map_append, List.filter_append, ha0, List.nil_append]
        rcases h7 with ⟨rfl, rfl⟩ | ⟨k, b', r, hb, -, N2, rfl⟩ | ⟨k, rfl, hk, rfl⟩
        · exact .inl rfl
        · have hms : Tree.node r b ∈ t1.subtrees := subtrees_trans h3 (mem_subtrees_node.mpr (.inr ⟨Tree.node r b, by simp, self_mem_subtrees _⟩))
          refine .inr ⟨r, node_mem_pre hms, .inr ?_, ?_⟩
          · exact congrArg NodeRec.cls N2.2.2
          · rw [D1.tree.kids_of_subtree hms]
            exact hfil b fun k hk => List.mem_append_right _ hk
        · left
          simp [hk]
      · rename_i hst
        subst h5
        by_cases hS : (s.heap.get i).cls = .Step
        · left
          have : ks' = [] := by
            by_contra hne
            exact hst ⟨hS, hne⟩
          rw [this]; rfl
        · refine .inr ⟨i, node_mem_pre h3, ?_, ?_⟩
          · rw [hcls i hp]
            simp only [List.mem_cons, List.not_mem_nil, or_false] at hpc
            tauto
          · rw [hc']
            exact hfil ks' fun _ h => h
    intro i hi
    have hmem : (stepChildren s.heap p)[i] ∈ t.pre :=
      (D.children_mem hp (List.mem_of_mem_filter (List.getElem_mem hi))).1
    rcases key with h0 | ⟨q, hq, hqc, e⟩
    · rw [h0] at hi; cases hi
    · rw [(hlast _ hmem).1]
      have := I.steps q hq hqc i (by rw [e]; exact hi)
      rw [← this]
      simp only [e]
  · intro p hp hpc
    rw [(hlast p hp).1, I.same p ?_ ?_, number_of_core (c1 p (D.bound p hp))]
    · rintro ⟨-, h1, -⟩
      rw [hcls p hp, hpc] at h1
      exact absurd h1 (by decide)
    · rintro ⟨q, -, -, h1⟩
      have := (List.mem_filter.mp h1).2
      rw [decide_eq_true_eq, hcls p hp, hpc] at this
      cases this

/-! ### The whole run -/

/-- A node that is not made to hold the children of a step. -/
def Outer (h : Heap) (a : Ref) : Prop := (h.get a).cls ∉ [.Statement, .Subproof]

instance (h : Heap) (a : Ref) : Decidable (Outer h a) := inferInstanceAs (Decidable (¬ _ ∈ _))

theorem pending_childless {h : Heap} {x : Ref} (hp : Pending h x) : h.children x = [] := by
  unfold Heap.children
  rw [if_neg]
  unfold Heap.isInst
  rcases hp with e | e | e <;> rw [e] <;> decide

/-- The numbers that `transform` gives, the templates of the texts of references, and the scopes around nodes. -/
structure NumbersRun (h : Heap) (t : Tree) (s' : TState) : Prop where
  number : ∀ B x A, t.pre = B ++ x :: A → Numbered h x → some (s'.heap.get x).number = expectedNumber h B x
  template : ∀ B x A, t.pre = B ++ x :: A → Numbered h x →
    (s'.heap.get x).reftextTemplate = if .Section ∈ (h.get x).cls.mro ∧ ∃ a ∈ B, IsAppendix h a
      then appendixTemplate (h.get x).reftextTemplate else (h.get x).reftextTemplate
  templateSame : ∀ x ∈ t.pre, ¬ Pending h x → ¬ Numbered h x → (s'.heap.get x).reftextTemplate = (h.get x).reftextTemplate
  up : ∀ x ∈ t.pre, ¬ Pending h x → x ∉ laterContents h t → ∀ p, h.parent x = some p → (h.get p).cls ≠ .Step →
    s'.heap.parent x = some p
  around : ∀ x ∈ t.pre, ¬ Pending h x → x ∉ laterContents h t → ∀ anc, Ancestors h x anc →
    ∃ anc', Ancestors s'.heap x anc' ∧ anc'.filter (Outer s'.heap ·) = anc.filter (Outer h ·) ∧ ∀ a ∈ anc, a < h.next
  same : ∀ x < h.next, (s'.heap.get x).cls = (h.get x).cls ∧ (s'.heap.get x).nonum = (h.get x).nonum ∧
    (s'.heap.get x).title = (h.get x).title
  authored : ∀ x < h.next, (s'.heap.get x).authored = (h.get x).authored
  steps : ∀ p ∈ t.pre, (h.get p).cls ∈ [.Proof, .Subproof, .Step] → ∀ i (hi : i < (stepChildren h p).length),
    (s'.heap.get (stepChildren h p)[i]).number = .int (i + 1 : Nat)
  proofs : ∀ p ∈ t.pre, (h.get p).cls = .Proof → (s'.heap.get p).number = (h.get p).number

/-- The nodes around one that are of some classes stay. -/
theorem NumbersRun.classes {h : Heap} {t : Tree} {s' : TState} (N : NumbersRun h t s') (cs : List Cls)
    (h1 : .Statement ∉ cs) (h2 : .Subproof ∉ cs) :
    ∀ x ∈ t.pre, ¬ Pending h x → x ∉ laterContents h t → ∀ anc, Ancestors h x anc → ∃ anc', Ancestors s'.heap x anc' ∧
      anc'.filter (fun a => decide ((s'.heap.get a).cls ∈ cs)) = anc.filter (fun a => decide ((h.get a).cls ∈ cs)) := by
  intro x hx hp hl anc ha
  obtain ⟨anc', ha', hfil, hb⟩ := N.around x hx hp hl anc ha
  have key : ∀ (g : Heap) (l : List Ref), l.filter (fun a => decide ((g.get a).cls ∈ cs)) =
      (l.filter (Outer g ·)).filter (fun a => decide ((g.get a).cls ∈ cs)) := by
    intro g l
    rw [List.filter_filter]
    refine List.filter_congr fun a _ => ?_
    by_cases hc : (g.get a).cls ∈ cs
    · have : Outer g a := by
        unfold Outer
        intro H
        simp only [List.mem_cons, List.not_mem_nil, or_false] at H
        rcases H with e | e <;> rw [e] at hc
        · exact h1 hc
        · exact h2 hc
      simp [hc, this]
    · simp [hc]
  refine ⟨anc', ha', ?_⟩
  rw [key s'.heap, hfil, key h anc]
  refine List.filter_congr fun a h => ?_
  rw [(N.same a (hb a (List.mem_filter.mp h).1)).1]

/-- The nodes around one that numbers may count within stay. -/
theorem NumbersRun.within {h : Heap} {t : Tree} {s' : TState} (N : NumbersRun h t s') :
    ∀ x ∈ t.pre, ¬ Pending h x → x ∉ laterContents h t → ∀ anc, Ancestors h x anc →
    ∃ anc', Ancestors s'.heap x anc' ∧ anc'.filter (Scoped s'.heap ·) = anc.filter (Scoped h ·) :=
  N.classes _ (by decide) (by decide)

theorem numbers_run {h : Heap} {root : Ref} {t : Tree} {fuel : Nat} {log : List TWarning} {s' : TState}
    (hr : ResolveInput h root t) (ha : StepKidsAllowed h t) (hi : TocInput h t) (hf : 12 * t.size < fuel)
    (hok : transform fuel root { heap := h, log := log } = .ok () s') : NumbersRun h t s' := by
  obtain ⟨s1, e1, e2⟩ := transform_ok hok
  obtain ⟨σ, D, M, n1, a1, f1, c1, -, g1⟩ := resolve_ok hr (by omega) e1
  have hi1 : TocInput s1.heap (t.map σ) := by
    rintro ⟨r, hr, hc⟩
    have : r ∈ (t.map σ).pre.filter (fun r => (s1.heap.get r).cls = .Contents) :=
      List.mem_filter.mpr ⟨hr, by simpa using hc⟩
    rw [g1] at this
    obtain ⟨h1, h2⟩ := List.mem_filter.mp this
    obtain ⟨W, E⟩ := hi ⟨r, h1, by simpa using h2⟩
    exact ⟨W.map M, E.map M⟩
  have hf1 : 12 * (t.map σ).size < fuel := by rw [size_map]; exact hf
  obtain ⟨t', D', -, -, K, -⟩ := after_ok D (ha.map M) hi1 hf1 e2
  have N := after_numbers D (ha.map M) hi1 hf1 e2
  obtain ⟨s, τ, k, C, I, Dτ⟩ := resolved hr (by omega) e1
  have hfix : ∀ x ∈ t.pre, ¬ Pending h x → σ x = x := fun x hx hp => by
    rw [Tree.map_inj (D.unique Dτ) x hx]
    exact I.fix x fun H => hp ((C.relabel.pending x).mp H.2)
  have htem : ∀ x < h.next, (s1.heap.get x).reftextTemplate = (h.get x).reftextTemplate := fun x hx => by
    have h1 := congrArg NodeRec.reftextTemplate (I.old x (by rw [C.relabel.1]; exact hx))
    have h2 := congrArg NodeRec.reftextTemplate (C.relabel.2 x)
    simp only at h1 h2
    rw [h1, h2]
  have same : ∀ B x A, t.pre = B ++ x :: A → Numbered h x → ∃ B' A', (t.map σ).pre = B' ++ x :: A' ∧
      Numbered s1.heap x ∧ expectedNumber s1.heap B' x = expectedNumber h B x ∧
      ((∃ a ∈ B', IsAppendix s1.heap a) ↔ ∃ a ∈ B, IsAppendix h a) := by
    intro B x A e hx
    refine expected_same ?_ ?_ D.nodup e hx
    · have : t.pre.filter (Counts h ·) = (t.pre.filter (fun x => ¬ Pending h x)).filter (Counts h ·) := by
        rw [List.filter_filter]
        refine List.filter_congr ?_
        intro x _
        by_cases hp : Pending h x
        · have := not_counts_pending hp
          simp [this]
        · simp [hp]
      rw [this, ← f1, List.filter_filter]
      refine List.filter_congr ?_
      intro z hz
      rcases c1 z hz with h1 | ⟨h1, h2⟩
      · have hb := hr.doc.bound z h1
        have := counts_congr (a1 z hb)
        simp [hb, this]
      · have h3 : ¬ z < h.next := by omega
        have h4 := not_counts_created h2
        simp [h3, h4]
    · intro x hx _
      have hb := hr.doc.bound x hx
      exact ⟨cls_of_authored (a1 x hb), nonum_of_authored (a1 x hb)⟩
  have hall : ∀ x < h.next, (s'.heap.get x).authored = (h.get x).authored := fun x hx =>
    (K.authored x (Nat.lt_of_lt_of_le hx n1)).trans (a1 x hx)
  have hup1 : ∀ x ∈ t.pre, ¬ Pending h x → ∀ p, h.parent x = some p → s1.heap.parent x = some p := by
    intro x hx hp p hpar
    have hxr : x ≠ root := by
      rintro rfl
      rw [hr.doc.parent_root_none] at hpar
      cases hpar
    obtain ⟨q, hq, h1, h2⟩ := hr.doc.parent_mem hx hxr
    rw [hpar] at h1
    injection h1 with h1
    subst h1
    have hpp : ¬ Pending h p := fun H => by rw [pending_childless H] at h2; cases h2
    obtain ⟨u, hu, hup⟩ : ∃ u ∈ t.subtrees, u.root = p := by
      rw [pre_eq_subtrees_map] at hq
      exact List.mem_map.mp hq
    obtain ⟨i, ks⟩ := u
    rw [root_node] at hup
    subst hup
    have hm : Tree.node (σ i) (ks.map (map σ)) ∈ (t.map σ).subtrees :=
      mem_subtrees_map.mpr ⟨_, hu, (map_node ..).symm⟩
    have h3 := D.tree.kids_of_subtree hm
    rw [hr.doc.tree.kids_of_subtree hu] at h2
    obtain ⟨k, hk, rfl⟩ := List.mem_map.mp h2
    have h4 := (D.children_mem (node_mem_pre hm) (x := σ k.root) (by
      rw [h3, List.map_map]
      exact List.mem_map.mpr ⟨k, hk, by rw [Function.comp, root_map]⟩)).2
    rwa [hfix _ hx hp, hfix _ hq hpp] at h4
  have hxm : ∀ x ∈ t.pre, ¬ Pending h x → x ∈ (t.map σ).pre := fun x hx hp => by
    rw [pre_map]
    exact List.mem_map.mpr ⟨x, hx, hfix x hx hp⟩
  refine ⟨?_, ?_, ?_, ?_, ?_, fun x hx => ⟨cls_of_authored (hall x hx), nonum_of_authored (hall x hx),
    congrArg NodeRec.title (a₁ := NodeRec.authored _) (a₂ := NodeRec.authored _) (hall x hx)⟩, hall, ?_, ?_⟩
  · intro B x A e hx
    obtain ⟨B', A', e', hx', hn, -⟩ := same B x A e hx
    rw [N.number B' x A' e' hx', hn]
  · intro B x A e hx
    obtain ⟨B', A', e', hx', -, hap⟩ := same B x A e hx
    have hb := hr.doc.bound x (by rw [e]; simp)
    rw [N.template B' x A' e' hx', htem x hb, cls_of_authored (a1 x hb)]
    simp only [hap]
  · intro x hx hp hn
    have hb := hr.doc.bound x hx
    rw [N.templateSame x (hxm x hx hp) ?_, htem x hb]
    unfold Numbered
    rw [cls_of_authored (a1 x hb), nonum_of_authored (a1 x hb)]
    exact hn
  · intro x hx hp hl p hpar hst
    rcases N.up x (hxm x hx hp) (by rw [laterContents_congr g1]; exact hl) p (hup1 x hx hp p hpar) with h5 | ⟨h5, -⟩
    · exact h5
    · have hpn : p < h.next := by
        obtain ⟨q, hq, h1, -⟩ := hr.doc.parent_mem hx (by
          rintro rfl
          rw [hr.doc.parent_root_none] at hpar
          cases hpar)
        rw [hpar] at h1
        cases h1
        exact hr.doc.bound p hq
      rw [cls_of_authored (a1 p hpn)] at h5
      exact absurd h5 hst
  · intro x hx hp hl anc hanc
    induction anc generalizing x with
    | nil =>
      have hxr : x = root := by
        by_contra hne
        obtain ⟨q, -, h1, -⟩ := hr.doc.parent_mem hx hne
        rw [show h.parent x = none from hanc] at h1
        cases h1
      subst hxr
      exact ⟨[], D'.parent_root_none, rfl, fun _ h => nomatch h⟩
    | cons p l ih =>
      obtain ⟨hpar, hanc⟩ := hanc
      have hxr : x ≠ root := by
        rintro rfl
        rw [hr.doc.parent_root_none] at hpar
        cases hpar
      obtain ⟨q, hq, h1, h2⟩ := hr.doc.parent_mem hx hxr
      rw [hpar] at h1
      injection h1 with h1
      subst h1
      have hpp : ¬ Pending h p := fun H => by rw [pending_childless H] at h2; cases h2
      have hpl : p ∉ laterContents h t := by
        intro H
        obtain ⟨g2, g3⟩ := List.mem_filter.mp (List.mem_of_mem_tail H)
        obtain ⟨-, E⟩ := hi ⟨p, g2, by simpa using g3⟩
        obtain ⟨u, hu, hup⟩ : ∃ u ∈ t.subtrees, u.root = p := by
          rw [pre_eq_subtrees_map] at g2
          exact List.mem_map.mp g2
        obtain ⟨i, ks⟩ := u
        rw [root_node] at hup
        subst hup
        have := E i ks hu (by simpa using g3)
        subst this
        rw [hr.doc.tree.kids_of_subtree hu] at h2
        cases h2
      obtain ⟨anc', g1', g2', g3'⟩ := ih p hq hpp hpl hanc
      have hpar1 := hup1 x hx hp p hpar
      have hbnd : ∀ a ∈ p :: l, a < h.next := fun a h => by
        rcases List.mem_cons.mp h with rfl | h
        · exact hr.doc.bound a hq
        · exact g3' a h
      have hsc : Outer s'.heap p ↔ Outer h p := by
        unfold Outer
        rw [cls_of_authored (hall p (hr.doc.bound p hq))]
      rcases N.up x (hxm x hx hp) (by rw [laterContents_congr g1]; exact hl) p hpar1 with h5 | ⟨-, m, h5, h6, h7⟩
      · refine ⟨p :: anc', ⟨h5, g1'⟩, ?_, hbnd⟩
        rw [List.filter_cons, List.filter_cons, g2']
        simp only [hsc]
      · refine ⟨m :: p :: anc', ⟨h5, h6, g1'⟩, ?_, hbnd⟩
        rw [List.filter_cons_of_neg (by rw [decide_eq_true_eq]; exact fun H => H h7), List.filter_cons, List.filter_cons, g2']
        simp only [hsc]
  · intro p hp hpc
    have hpp : ¬ Pending h p := fun H => by
      rcases H with e | e | e <;> rw [e] at hpc <;> exact absurd hpc (by decide)
    obtain ⟨u, hu, hup⟩ : ∃ u ∈ t.subtrees, u.root = p := by
      rw [pre_eq_subtrees_map] at hp
      exact List.mem_map.mp hp
    obtain ⟨i, ks⟩ := u
    rw [root_node] at hup
    subst hup
    have hm : Tree.node (σ i) (ks.map (map σ)) ∈ (t.map σ).subtrees :=
      mem_subtrees_map.mpr ⟨_, hu, (map_node ..).symm⟩
    have e0 : stepChildren s1.heap i = stepChildren h i := by
      unfold stepChildren
      have h3 := D.tree.kids_of_subtree hm
      rw [hfix i hp hpp] at h3
      rw [h3, hr.doc.tree.kids_of_subtree hu, List.map_map]
      have hks : ∀ k ∈ ks, k.root ∈ t.pre := fun k hk => (hr.doc.children_mem hp (x := k.root) (by
        rw [hr.doc.tree.kids_of_subtree hu]; exact List.mem_map.mpr ⟨k, hk, rfl⟩)).1
      clear hu hm h3
      induction ks with
      | nil => rfl
      | cons k ks ih =>
        have hk := hks k (by simp)
        rw [List.map_cons, List.map_cons, List.filter_cons, List.filter_cons,
          ih fun k h => hks k (List.mem_cons_of_mem _ h), Function.comp, root_map]
        by_cases hpk : Pending h k.root
        · have n1 : (h.get k.root).cls ≠ .Step := by
            rcases hpk with e | e | e <;> rw [e] <;> decide
          have n2 : (s1.heap.get (σ k.root)).cls ≠ .Step := by
            have hz : σ k.root ∈ (t.map σ).pre := by rw [pre_map]; exact List.mem_map.mpr ⟨_, hk, rfl⟩
            rcases c1 _ hz with g | ⟨-, g⟩
            · have h2 : σ k.root < h.next := hr.doc.bound _ g
              have h3 := (I.fresh k.root hk ((C.relabel.pending _).mpr hpk)).1
              rw [← Tree.map_inj (D.unique Dτ) k.root hk, C.relabel.1] at h3
              omega
            · intro e
              rw [e] at g
              exact absurd g (by decide)
          simp [n1, n2]
        · rw [hfix _ hk hpk, cls_of_authored (a1 _ (hr.doc.bound _ hk))]
    have hc : (s1.heap.get i).cls = (h.get i).cls := cls_of_authored (a1 i (hr.doc.bound i hp))
    have := N.steps i (hxm i hp hpp) (by rw [hc]; exact hpc)
    rw [e0] at this
    exact this
  · intro p hp hpc
    have hpp : ¬ Pending h p := fun H => by
      rcases H with e | e | e <;> rw [e] at hpc <;> cases hpc
    have hb := hr.doc.bound p hp
    rw [N.proofs p (hxm p hp hpp) (by rw [cls_of_authored (a1 p hb)]; exact hpc)]
    have h1 := congrArg NodeRec.number (I.old p (by rw [C.relabel.1]; exact hb))
    have h2 := congrArg NodeRec.number (C.relabel.2 p)
    simp only at h1 h2
    rw [h1, h2]

end RSM
