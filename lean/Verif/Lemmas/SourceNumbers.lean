import Verif.Spec.SourceNumbers
import Verif.Lemmas.NumberRun
import Verif.Lemmas.Refused
import Verif.Props.Pipeline

/-! The numbers of a source and those of the manuscript (helper lemmas for C91). -/

namespace RSM
namespace Parser
open PyM Nodes Heap Tree

/-! ### Full numbers -/

/-- The classes that numbers count within. -/
def scopes : List Cls := [.Manuscript, .Section, .Subsection]

/-- A node is as something in the outline. -/
def Match (h : Heap) (a : Ref) (q : Look × List Look) : Prop :=
  (h.get a).cls = q.1.cls ∧ (h.get a).nonum = q.1.nonum ∧
    (counted q.1 = true → (h.get a).number.fmt = ownNumber q.1 q.2 ∧ (h.get a).number.truthy = true ∧
      (h.get a).number.fmt ≠ [])

theorem hasNumber_eq (c : Cls) : hasNumber c = (c.autonumber && c ≠ .Step) := by cases c <;> decide
theorem seriesOf_eq : seriesOf = Cls.numberAs := by funext c; cases c <;> decide
theorem within_eq : within = Cls.numberWithin := by funext c; cases c <;> decide

theorem counted_iff {a : Look} : counted a = true ↔ a.cls.autonumber = true ∧ a.nonum = false ∧ a.cls ≠ .Step := by
  unfold counted
  rw [hasNumber_eq]
  simp [and_assoc, and_comm]

theorem dotted_nil {a : Str} : dotted [] a = a := rfl

theorem full_of {h : Heap} {x : Ref} {q : Look × List Look} {anc : List Ref} {around : List (Look × List Look)}
    (ha : Ancestors h x anc) (hm : Match h x q) (hc : counted q.1 = true)
    (ho : ((∀ a ∈ anc, (h.get a).cls ∉ q.1.cls.numberWithin) ∧ outerNumber q.1.cls.numberWithin around = []) ∨
      ∃ a o, IsFirstWith (fun a => (h.get a).cls ∈ q.1.cls.numberWithin) anc (some a) ∧ FullNumber h a o ∧
        o.getD [] = outerNumber q.1.cls.numberWithin around) :
    FullNumber h x (some (dotted (outerNumber q.1.cls.numberWithin around) (ownNumber q.1 q.2))) := by
  obtain ⟨h1, h2, h3⟩ := hm
  obtain ⟨h4, h5, h6⟩ := h3 hc
  obtain ⟨c1, c2, -⟩ := counted_iff.mp hc
  have hM : (h.get x).cls ≠ .Manuscript := by
    intro e
    rw [← h1, e] at c1
    exact absurd c1 (by decide)
  have hN : (h.get x).nonum = false := h2.trans c2
  have hown : (if (h.get x).number.truthy then (h.get x).number.fmt else []) = ownNumber q.1 q.2 := by
    rw [if_pos h5, h4]
  rcases ho with ⟨g1, g2⟩ | ⟨a, o, g1, g2, g3⟩
  · rw [g2, dotted_nil, ← hown]
    rcases first_with (fun y => (h.get y).cls = .Manuscript) anc with k | ⟨m, k⟩
    · exact .noScope hM hN ha fun a haa => ⟨by rw [h1]; exact g1 a haa, k a haa⟩
    · exact .unnumberedScope hM hN ha (.inr ⟨by rw [h1]; exact g1, k⟩) (.manuscript k.1) (.inr rfl)
  · have hs : IsFirstWith (fun a => (h.get a).cls ∈ (h.get x).cls.numberWithin) anc (some a) := by rw [h1]; exact g1
    rw [← g3]
    cases o with
    | none =>
      show FullNumber h x (some (dotted [] _))
      rw [dotted_nil, ← hown]
      exact .unnumberedScope hM hN ha (.inl hs) g2 (.inl rfl)
    | some f =>
      show FullNumber h x (some (dotted f _))
      by_cases hf : f = []
      · subst hf
        rw [dotted_nil, ← hown]
        exact .unnumberedScope hM hN ha (.inl hs) g2 (.inr rfl)
      · unfold dotted
        rw [if_neg hf, ← h4]
        exact .inScope hM hN ha (.inl hs) g2 hf

theorem scopes_within {w : Cls} (hw : w ∈ scopes) : w.autonumber = true → ∀ v ∈ w.numberWithin, v ∈ scopes := by
  have : ∀ w ∈ scopes, w.autonumber = true → ∀ v ∈ w.numberWithin, v ∈ scopes := by decide
  exact this w hw

theorem outer_spec {h : Heap} : ∀ {anc : List Ref} {around : List (Look × List Look)} {ws : List Cls} {x : Ref},
    Ancestors h x anc → List.Forall₂ (Match h) (anc.filter (Scoped h ·)) around → (∀ w ∈ ws, w ∈ scopes) →
    ((∀ a ∈ anc, (h.get a).cls ∉ ws) ∧ outerNumber ws around = []) ∨
      ∃ a o, IsFirstWith (fun a => (h.get a).cls ∈ ws) anc (some a) ∧ FullNumber h a o ∧ o.getD [] = outerNumber ws around
  | [], around, ws, x, _, hm, hw => by
    cases hm
    exact .inl ⟨nofun, rfl⟩
  | p :: l, around, ws, x, ha, hm, hw => by
    obtain ⟨hpar, ha⟩ := ha
    by_cases hp : (h.get p).cls ∈ ws
    · right
      have hsc : Scoped h p := hw _ hp
      rw [List.filter_cons_of_pos (by simpa using hsc)] at hm
      cases hm with
      | @cons _ q _ rest hq hrest =>
        obtain ⟨b, bf⟩ := q
        have hq1 : (h.get p).cls = b.cls := hq.1
        have hfirst : IsFirstWith (fun a => (h.get a).cls ∈ ws) (p :: l) (some p) := ⟨hp, [], l, rfl, nofun⟩
        rw [outerNumber, within_eq, if_pos (by rw [← hq1]; exact hp)]
        by_cases hc : counted b = true
        · rw [if_pos hc]
          refine ⟨p, _, hfirst, full_of ha hq hc (outer_spec ha hrest ?_), rfl⟩
          have h1 := (counted_iff.mp hc).1
          exact scopes_within (w := b.cls) (by rw [← hq1]; exact hsc) h1
        · rw [if_neg hc]
          by_cases hM : (h.get p).cls = .Manuscript
          · exact ⟨p, _, hfirst, .manuscript hM, rfl⟩
          · refine ⟨p, _, hfirst, .nonum hM ?_, rfl⟩
            have h2 : b.cls.autonumber = true ∧ b.cls ≠ .Step := by
              rw [hq1] at hM
              have : ∀ c ∈ scopes, c ≠ .Manuscript → c.autonumber = true ∧ c ≠ .Step := by decide
              exact this _ (by unfold Scoped at hsc; rw [hq1] at hsc; exact hsc) hM
            rw [counted_iff] at hc
            rw [hq.2.1]
            show b.nonum = true
            cases hb : b.nonum with
            | true => rfl
            | false => exact absurd ⟨h2.1, hb, h2.2⟩ hc
    · have key : ∃ around', List.Forall₂ (Match h) (l.filter (Scoped h ·)) around' ∧
          outerNumber ws around = outerNumber ws around' := by
        by_cases hsc : Scoped h p
        · rw [List.filter_cons_of_pos (by simpa using hsc)] at hm
          cases hm with
          | @cons _ q _ rest hq hrest =>
            obtain ⟨b, bf⟩ := q
            have hq1 : (h.get p).cls = b.cls := hq.1
            exact ⟨rest, hrest, by rw [outerNumber, if_neg (by rw [← hq1]; exact hp)]⟩
        · rw [List.filter_cons_of_neg (by simpa using hsc)] at hm
          exact ⟨around, hm, rfl⟩
      obtain ⟨around', hm', e⟩ := key
      rw [e]
      rcases outer_spec ha hm' hw with ⟨g1, g2⟩ | ⟨a, o, g1, g2, g3⟩
      · refine .inl ⟨fun a haa => ?_, g2⟩
        rcases List.mem_cons.mp haa with rfl | haa
        · exact hp
        · exact g1 a haa
      · exact .inr ⟨a, o, (isFirstWith_skip hp).mpr g1, g2, g3⟩

/-- What is no scope does not matter. -/
theorem outer_filter : ∀ {around : List (Look × List Look)} {ws : List Cls}, (∀ w ∈ ws, w ∈ scopes) →
    outerNumber ws (around.filter fun q => decide (q.1.cls ∈ scopes)) = outerNumber ws around
  | [], _, _ => rfl
  | (a, b) :: around, ws, hw => by
    by_cases hs : a.cls ∈ scopes
    · rw [List.filter_cons_of_pos (by simpa using hs), outerNumber, outerNumber, outer_filter hw]
      split
      · split
        · rename_i hc
          rw [within_eq, outer_filter (scopes_within hs (counted_iff.mp hc).1)]
        · rfl
      · rfl
    · rw [List.filter_cons_of_neg (by simpa using hs), outerNumber, if_neg (fun H => hs (hw _ H)), outer_filter hw]

theorem forall₂_filter {α β : Type} {R : α → β → Prop} {p : α → Bool} {q : β → Bool} {l : List α} {m : List β}
    (h : List.Forall₂ R l m) (hpq : ∀ a b, R a b → p a = q b) : List.Forall₂ R (l.filter p) (m.filter q) := by
  induction h with
  | nil => exact .nil
  | @cons a b l m h1 _ ih =>
    rw [List.filter_cons, List.filter_cons, hpq a b h1]
    split
    · exact .cons h1 ih
    · exact ih

/-! ### Counting -/

theorem takeWhile_all {α : Type} {p : α → Bool} {l : List α} (h : ∀ x ∈ l, p x = true) : l.takeWhile p = l := by
  induction l with
  | nil => rfl
  | cons x l ih =>
    rw [List.takeWhile_cons_of_pos (h x List.mem_cons_self), ih fun y hy => h y (List.mem_cons_of_mem _ hy)]

theorem takeWhile_in {α : Type} {p : α → Bool} {l : List α} {x : α} (h : x ∈ l.takeWhile p) : p x = true := by
  induction l with
  | nil => cases h
  | cons y l ih =>
    rw [List.takeWhile_cons] at h
    split at h
    · rcases List.mem_cons.mp h with rfl | h
      · assumption
      · exact ih h
    · cases h

theorem afterLast_cons (p : Look → Bool) (a : Look) (l : List Look) :
    afterLast p (a :: l) = if (∃ b ∈ l, p b = true) ∨ p a = true then afterLast p l else a :: l := by
  unfold afterLast
  rw [List.reverse_cons, List.takeWhile_append]
  by_cases hl : ∃ b ∈ l, p b = true
  · have hne : ¬ (l.reverse.takeWhile (fun a => !p a)).length = l.reverse.length := by
      intro e
      obtain ⟨b, hb, hp⟩ := hl
      have h1 : l.reverse.takeWhile (fun a => !p a) = l.reverse := (List.takeWhile_prefix _).eq_of_length e
      have h2 := takeWhile_in (p := fun a => !p a) (l := l.reverse) (x := b) (by rw [h1]; simpa using hb)
      rw [hp] at h2
      cases h2
    rw [if_neg hne, if_pos (Or.inl hl)]
  · have h1 : l.reverse.takeWhile (fun a => !p a) = l.reverse := by
      refine takeWhile_all fun b hb => ?_
      have : ¬ p b = true := fun H => hl ⟨b, by simpa using hb, H⟩
      simpa using this
    rw [if_pos (by rw [h1]), h1]
    by_cases ha : p a = true
    · rw [if_pos (Or.inr ha)]
      simp [ha]
    · rw [if_neg (by rintro (h | h) <;> contradiction)]
      simp [ha]

theorem sinceLast_map {P : Ref → Prop} [DecidablePred P] {p : Look → Bool} {f : Ref → Look}
    (hp : ∀ x, P x ↔ p (f x) = true) : ∀ l : List Ref, (sinceLast P l).map f = afterLast p (l.map f)
  | [] => rfl
  | x :: l => by
    rw [sinceLast, List.map_cons, afterLast_cons, ← sinceLast_map hp l]
    have : ((∃ y ∈ l, P y) ∨ P x) ↔ ((∃ b ∈ l.map f, p b = true) ∨ p (f x) = true) := by
      rw [hp x]
      refine or_congr_left ⟨?_, ?_⟩
      · rintro ⟨y, hy, h⟩
        exact ⟨f y, List.mem_map_of_mem hy, (hp y).mp h⟩
      · rintro ⟨b, hb, h⟩
        obtain ⟨y, hy, rfl⟩ := List.mem_map.mp hb
        exact ⟨y, hy, (hp y).mpr h⟩
    by_cases hc : (∃ y ∈ l, P y) ∨ P x
    · rw [if_pos hc, if_pos (this.mp hc)]
    · rw [if_neg hc, if_neg fun H => hc (this.mpr H)]
      rfl

theorem counted_look {h : Heap} {x : Ref} : counted (look h x) = true ↔ Numbered h x := counted_iff

theorem restarts_look {h : Heap} {w : Cls} (x : Ref) : StartsScope h w x ↔ restarts w (look h x) = true := by
  have e : (look h x).cls = (h.get x).cls := rfl
  unfold StartsScope restarts IsAppendix
  rw [← counted_look, ← e]
  simp only [Bool.or_eq_true, Bool.and_eq_true, decide_eq_true_eq]

theorem earlier_look (h : Heap) (w : Cls) (B : List Ref) (x : Ref) :
    earlierInScope h w B x = earlier (look h x) w (B.map (look h)) := by
  unfold earlierInScope earlier
  rw [seriesOf_eq]
  rw [← sinceLast_map restarts_look, List.filter_map, List.length_map]
  congr 1
  refine List.filter_congr fun y _ => ?_
  unfold SameFamily
  have : (look h y).cls = (h.get y).cls := rfl
  have : (look h x).cls = (h.get x).cls := rfl
  rw [Bool.eq_iff_iff]
  simp only [Function.comp, decide_eq_true_eq, Bool.and_eq_true, counted_look, *]

theorem inAppendix_look (h : Heap) (B : List Ref) : inAppendix (B.map (look h)) = true ↔ ∃ a ∈ B, IsAppendix h a := by
  unfold inAppendix
  rw [List.any_map]
  simp only [List.any_eq_true, Function.comp, decide_eq_true_eq]
  rfl

/-- What counts, without entries of bibliographies. -/
def CountsNB (h : Heap) (x : Ref) : Prop := Counts h x ∧ (h.get x).cls.numberAs ≠ .Bibitem

instance (h : Heap) (x : Ref) : Decidable (CountsNB h x) := inferInstanceAs (Decidable (_ ∧ _))

theorem earlier_countsNB {h : Heap} {w : Cls} (hw : w ∈ scopes) (l : List Ref) {x : Ref}
    (hx : (h.get x).cls.numberAs ≠ .Bibitem) :
    earlierInScope h w (l.filter (CountsNB h ·)) x = earlierInScope h w l x := by
  unfold earlierInScope
  rw [sinceLast_filter (q := CountsNB h) (fun y hy => by
    rcases hy with hy | hy
    · refine ⟨.inl hy.1, ?_⟩
      rw [hy.2]
      have : ∀ w ∈ scopes, w.numberAs ≠ .Bibitem := by decide
      exact this w hw
    · refine ⟨.inr hy.1, ?_⟩
      have : (h.get y).cls = .Appendix := hy.1
      rw [this]; decide), List.filter_filter]
  congr 1
  refine List.filter_congr ?_
  intro y _
  by_cases hn : Numbered h y ∧ SameFamily h y x
  · have : CountsNB h y := ⟨.inl hn.1, by rw [show (h.get y).cls.numberAs = _ from hn.2]; exact hx⟩
    simp [hn, this]
  · simp [hn]

/-! ### Places -/

/-- A node is what the outline has here, and comes after the same. -/
def Seat (h : Heap) (S : List Ref) (a : Ref) (q : Look × List Look) : Prop :=
  q.1 = look h a ∧ ∃ B A, S = B ++ a :: A ∧ q.2 = B.map (look h)

mutual
theorem places_tree {h : Heap} {S : List Ref} : ∀ {t : Tree} {p : Option Ref} {anc : List Ref}
    {around : List (Look × List Look)} {B A : List Ref}, IsTree h p t → Ancestors h t.root anc →
    List.Forall₂ (Seat h S) anc around → S = B ++ seen h t ++ A → ∀ o ∈ outlineOf h t,
    ∀ pl ∈ o.places around (B.map (look h)), ∃ x ∈ t.pre, ∃ anc', Ancestors h x anc' ∧
      Seat h S x (pl.look, pl.before) ∧ List.Forall₂ (Seat h S) anc' pl.around
  | .node i ks, p, anc, around, B, A, T, ha, hs, hS, o, ho, pl, hpl => by
    rw [IsTree] at T
    rw [outlineOf] at ho
    by_cases hl : LeftOut h i
    · rw [if_pos (show _ ∨ _ ∨ _ from hl)] at ho; cases ho
    rw [if_neg (show ¬(_ ∨ _ ∨ _) from hl), List.mem_singleton] at ho
    subst ho
    rw [seen, if_neg hl] at hS
    rw [Tree.root] at ha
    have hi : Seat h S i (look h i, B.map (look h)) := ⟨rfl, B, seenL h ks ++ A, by rw [hS]; simp, rfl⟩
    rw [Outline.places, List.mem_cons] at hpl
    rcases hpl with rfl | hpl
    · exact ⟨i, by rw [Tree.pre]; exact List.mem_cons_self, anc, ha, hi, hs⟩
    · have hB : B.map (look h) ++ [look h i] = (B ++ [i]).map (look h) := by simp
      rw [hB] at hpl
      obtain ⟨x, hx, H⟩ := places_forest (B := B ++ [i]) (A := A) T.2.2 (anc := anc) ha (.cons hi hs) (by rw [hS]; simp) pl hpl
      exact ⟨x, by rw [Tree.pre]; exact List.mem_cons_of_mem _ hx, H⟩
theorem places_forest {h : Heap} {S : List Ref} : ∀ {ts : List Tree} {i : Ref} {anc : List Ref}
    {around : List (Look × List Look)} {B A : List Ref}, IsForest h (some i) ts → Ancestors h i anc →
    List.Forall₂ (Seat h S) (i :: anc) around → S = B ++ seenL h ts ++ A →
    ∀ pl ∈ placesL around (B.map (look h)) (outlinesOf h ts), ∃ x ∈ Tree.preL ts, ∃ anc', Ancestors h x anc' ∧
      Seat h S x (pl.look, pl.before) ∧ List.Forall₂ (Seat h S) anc' pl.around
  | [], i, anc, around, B, A, T, ha, hs, hS, pl, hpl => by rw [outlinesOf, placesL] at hpl; cases hpl
  | t :: ts, i, anc, around, B, A, T, ha, hs, hS, pl, hpl => by
    rw [IsForest] at T
    rw [seenL] at hS
    have hpar : h.parent t.root = some i := T.1.parent_root
    have rest : ∀ pl ∈ placesL around ((B ++ seen h t).map (look h)) (outlinesOf h ts), ∃ x ∈ Tree.preL (t :: ts),
        ∃ anc', Ancestors h x anc' ∧ Seat h S x (pl.look, pl.before) ∧ List.Forall₂ (Seat h S) anc' pl.around := by
      intro pl hpl
      obtain ⟨x, hx, H⟩ := places_forest (B := B ++ seen h t) (A := A) T.2 ha hs (by rw [hS]; simp) pl hpl
      exact ⟨x, by rw [Tree.preL]; exact List.mem_append_right _ hx, H⟩
    have hlk := looks_seen h t
    rw [outlinesOf] at hpl
    cases hot : outlineOf h t with
    | nil =>
      rw [hot, looksL] at hlk
      have : seen h t = [] := List.map_eq_nil_iff.mp hlk.symm
      rw [this, List.append_nil] at rest
      rw [hot, List.nil_append] at hpl
      exact rest pl hpl
    | cons o os =>
      have hos : os = [] := by
        obtain ⟨j, js⟩ := t
        rw [outlineOf] at hot
        split at hot
        · cases hot
        · injection hot with _ e
          exact e.symm
      subst hos
      rw [hot, looksL, looksL, List.append_nil] at hlk
      rw [hot, List.singleton_append, placesL, List.mem_append] at hpl
      rcases hpl with hpl | hpl
      · obtain ⟨x, hx, H⟩ := places_tree (B := B) (A := seenL h ts ++ A) T.1 (anc := i :: anc) ⟨hpar, ha⟩ hs
          (by rw [hS]; simp) o (by rw [hot]; exact List.mem_singleton_self _) pl hpl
        exact ⟨x, by rw [Tree.preL]; exact List.mem_append_left _ hx, H⟩
      · rw [hlk, ← List.map_append] at hpl
        exact rest pl hpl
end

mutual
theorem seen_pre {h : Heap} : ∀ t : Tree, ∀ x ∈ seen h t, x ∈ t.pre
  | .node i ks, x, hx => by
    rw [seen] at hx
    rw [Tree.pre]
    split at hx
    · cases hx
    · rcases List.mem_cons.mp hx with rfl | hx
      · exact List.mem_cons_self
      · exact List.mem_cons_of_mem _ (seen_preL ks x hx)
theorem seen_preL {h : Heap} : ∀ ts : List Tree, ∀ x ∈ seenL h ts, x ∈ Tree.preL ts
  | [], x, hx => by rw [seenL] at hx; cases hx
  | t :: ts, x, hx => by
    rw [seenL] at hx
    rw [Tree.preL]
    rcases List.mem_append.mp hx with hx | hx
    · exact List.mem_append_left _ (seen_pre t x hx)
    · exact List.mem_append_right _ (seen_preL ts x hx)
end

theorem within_one {c : Cls} : c.autonumber = true → c ≠ .Step → ∃ w ∈ scopes, c.numberWithin = [w] := by
  cases c <;> decide

theorem natStr_not_space (n : Nat) : ∀ c ∈ natStr n, isSpace c = false := by
  intro c hc
  unfold natStr at hc
  have h1 := Nat.isDigit_of_mem_toDigits (by decide) (by decide) hc
  have h2 : 48 ≤ c.toNat ∧ c.toNat ≤ 57 := by
    unfold Char.isDigit at h1
    simp only [ge_iff_le, Bool.and_eq_true, decide_eq_true_eq] at h1
    exact h1
  unfold isSpace
  obtain ⟨h3, h4⟩ := h2
  generalize c.toNat = n at h3 h4
  simp only [Bool.or_eq_false_iff, Bool.and_eq_false_iff, decide_eq_false_iff_not, beq_eq_false_iff_ne]
  omega

/-- The number that the transformer computes from what is before a node is the one read off the source. -/
theorem expected_own {h : Heap} {t : Tree} {a : Ref} {q : Look × List Look} {B A : List Ref} {n : PyNum}
    (hcl : ∀ u ∈ t.subtrees, OffB h u.root → ∀ k ∈ u.kids, OffB h k.root) (nd : t.pre.Nodup)
    (hs : Seat h (seen h t) a q) (e : t.pre = B ++ a :: A) (hn : Numbered h a) (hb : (h.get a).cls.numberAs ≠ .Bibitem)
    (he : Transformer.expectedNumber h B a = some n) :
    n.fmt = ownNumber q.1 q.2 ∧ n.truthy = true ∧ n.fmt ≠ [] ∧ ((∃ b ∈ B, IsAppendix h b) ↔ inAppendix q.2 = true) := by
  obtain ⟨q1, q2⟩ := q
  obtain ⟨rfl, Bs, As, hS, rfl⟩ := hs
  have hfil := filter_seen (h := h) (H := OffB h) (p := fun x => decide (CountsNB h x)) (fun x hx => .inl hx)
    (fun x hx => by
      rw [decide_eq_false_iff_not]
      rintro ⟨h1, h2⟩
      rcases hx with hx | ⟨hx, -⟩
      · obtain ⟨g1, g2, -⟩ := leftOut_number hx
        rcases h1 with h1 | h1
        · rw [h1.1] at g1; cases g1
        · exact g2 h1
      · rw [hx] at h2
        exact h2 (by decide)) t hcl
  have hca : CountsNB h a := ⟨.inl hn, hb⟩
  have hfn := nd.filter (fun x => decide (CountsNB h x))
  rw [e, hS, List.filter_append, List.filter_append, List.filter_cons_of_pos (by simpa using hca),
    List.filter_cons_of_pos (by simpa using hca)] at hfil
  rw [e, List.filter_append, List.filter_cons_of_pos (by simpa using hca)] at hfn
  have hB := nodup_split hfn hfil
  have hap : (∃ b ∈ B, IsAppendix h b) ↔ inAppendix (Bs.map (look h)) = true := by
    rw [inAppendix_look]
    have key : ∀ l : List Ref, (∃ b ∈ l, IsAppendix h b) ↔ ∃ b ∈ l.filter (CountsNB h ·), IsAppendix h b := by
      intro l
      constructor
      · rintro ⟨b, hb, hc⟩
        refine ⟨b, List.mem_filter.mpr ⟨hb, decide_eq_true ⟨.inr hc, ?_⟩⟩, hc⟩
        rw [show (h.get b).cls = .Appendix from hc]; decide
      · rintro ⟨b, hb, hc⟩
        exact ⟨b, (List.mem_filter.mp hb).1, hc⟩
    rw [key B, key Bs, hB]
  obtain ⟨w, hw, hww⟩ := within_one hn.1 hn.2.2
  have hcount : earlierInScope h w B a = earlier (look h a) w (Bs.map (look h)) := by
    rw [← earlier_countsNB hw B hb, hB, earlier_countsNB hw Bs hb, earlier_look]
  refine ⟨?_, ?_, ?_, hap⟩
  all_goals
    unfold Transformer.expectedNumber at he
    rw [hww] at he
    simp only [hap, hcount] at he
  · unfold ownNumber
    rw [within_eq]
    rw [show (look h a).cls = (h.get a).cls from rfl, hww]
    simp only
    split at he
    · rename_i hc
      rw [if_pos hc]
      obtain ⟨ch, h1, rfl⟩ := Option.map_eq_some_iff.mp he
      show [ch] = [_]
      rw [List.getD_eq_getElem?_getD]
      unfold Transformer.asciiUppercase at h1
      rw [h1]
      rfl
    · rename_i hc
      rw [if_neg hc]
      cases he
      rfl
  · split at he
    · obtain ⟨ch, h1, rfl⟩ := Option.map_eq_some_iff.mp he
      rfl
    · cases he
      unfold PyNum.truthy
      simp only [ne_eq, decide_eq_true_eq, decide_not, Bool.not_eq_true', decide_eq_false_iff_not]
      omega
  · split at he
    · obtain ⟨ch, h1, rfl⟩ := Option.map_eq_some_iff.mp he
      exact List.cons_ne_nil _ _
    · cases he
      show natStr _ ≠ []
      unfold natStr
      exact Nat.toDigits_ne_nil

/-! ### There is only one full number -/

theorem scope_unique {h : Heap} {ws : List Cls} {l : List Ref} {a b : Ref}
    (h1 : IsFirstWith (fun a => (h.get a).cls ∈ ws) l (some a) ∨
      (∀ a ∈ l, (h.get a).cls ∉ ws) ∧ IsFirstWith (fun a => (h.get a).cls = .Manuscript) l (some a))
    (h2 : IsFirstWith (fun a => (h.get a).cls ∈ ws) l (some b) ∨
      (∀ a ∈ l, (h.get a).cls ∉ ws) ∧ IsFirstWith (fun a => (h.get a).cls = .Manuscript) l (some b)) : a = b := by
  have no : ∀ {a : Ref}, IsFirstWith (fun a => (h.get a).cls ∈ ws) l (some a) → ¬ ∀ a ∈ l, (h.get a).cls ∉ ws := by
    rintro a ⟨g, b, c, e, -⟩ H
    exact H a (by rw [e]; simp) g
  rcases h1 with h1 | h1 <;> rcases h2 with h2 | h2
  · exact isFirstWith_unique h1 h2
  · exact absurd h2.1 (no h1)
  · exact absurd h1.1 (no h2)
  · exact isFirstWith_unique h1.2 h2.2

theorem scope_mem {h : Heap} {ws : List Cls} {l : List Ref} {a : Ref}
    (h1 : IsFirstWith (fun a => (h.get a).cls ∈ ws) l (some a) ∨
      (∀ a ∈ l, (h.get a).cls ∉ ws) ∧ IsFirstWith (fun a => (h.get a).cls = .Manuscript) l (some a))
    (h2 : ∀ a ∈ l, (h.get a).cls ∉ ws ∧ (h.get a).cls ≠ .Manuscript) : False := by
  rcases h1 with ⟨h1, b, c, rfl, -⟩ | ⟨-, h1, b, c, rfl, -⟩
  · exact (h2 a (by simp)).1 h1
  · exact (h2 a (by simp)).2 h1

theorem full_unique {h : Heap} {x : Ref} {o o' : Option Str} (h1 : FullNumber h x o) (h2 : FullNumber h x o') : o = o' := by
  induction h1 generalizing o' with
  | manuscript hc => cases h2 <;> first | rfl | contradiction
  | nonum hc hn =>
    cases h2 with
    | nonum => rfl
    | _ => simp_all
  | inScope hc hn ha hs hf hne ih =>
    cases h2 with
    | manuscript => contradiction
    | nonum _ hn' => rw [hn] at hn'; cases hn'
    | inScope _ _ ha' hs' hf' hne' =>
      have e := ha.unique ha'
      subst e
      have e := scope_unique hs hs'
      subst e
      have e := ih hf'
      injection e with e
      rw [e]
    | unnumberedScope _ _ ha' hs' hf' hne' =>
      have e := ha.unique ha'
      subst e
      have e := scope_unique hs hs'
      subst e
      have e := ih hf'
      rcases hne' with rfl | rfl
      · cases e
      · injection e with e
        exact absurd e hne
    | noScope _ _ ha' hs' =>
      have e := ha.unique ha'
      subst e
      exact (scope_mem hs hs').elim
  | unnumberedScope hc hn ha hs hf hne ih =>
    cases h2 with
    | manuscript => contradiction
    | nonum _ hn' => rw [hn] at hn'; cases hn'
    | inScope _ _ ha' hs' hf' hne' =>
      have e := ha.unique ha'
      subst e
      have e := scope_unique hs hs'
      subst e
      have e := ih hf'
      rcases hne with rfl | rfl
      · cases e
      · injection e with e
        exact absurd e.symm hne'
    | unnumberedScope _ _ ha' hs' hf' hne' => rfl
    | noScope _ _ ha' hs' => rfl
  | noScope hc hn ha hs =>
    cases h2 with
    | manuscript => contradiction
    | nonum _ hn' => rw [hn] at hn'; cases hn'
    | inScope _ _ ha' hs' hf' hne' =>
      have e := ha.unique ha'
      subst e
      exact (scope_mem hs' hs).elim
    | unnumberedScope _ _ ha' hs' hf' hne' => rfl
    | noScope _ _ ha' hs' => rfl

/-! ### The manuscript of a source -/

variable {c : Cst} {fuel fuel' : Nat} {s s1 : ParserState} {r : Ref} {t : Tree} {log : List TWarning} {s2 : TState}

theorem counted_not_pending {h : Heap} {x : Ref} (hn : Numbered h x) : ¬ Pending h x := fun hp =>
  not_counts_pending hp (.inl hn)

theorem counted_not_later {h : Heap} {x : Ref} (hn : Numbered h x) : x ∉ laterContents h t := fun H => by
  have h1 := (List.mem_filter.mp (List.mem_of_mem_tail H)).2
  rw [decide_eq_true_eq] at h1
  have h2 := hn.1
  rw [h1] at h2
  exact absurd h2 (by decide)

/-- The number of what is at a seat. -/
theorem seated (S : Source c) (F : Forest s.heap) (hf : 12 * c.size < fuel) (h : parse fuel c s = .ok r s1)
    (D : Doc s1.heap r t) (N : NumbersRun s1.heap t s2) {pl : Place} {x : Ref} {anc : List Ref} (hx : x ∈ t.pre)
    (ha : Ancestors s1.heap x anc) (hs : Seat s1.heap (seen s1.heap t) x (pl.look, pl.before))
    (hall : List.Forall₂ (Seat s1.heap (seen s1.heap t)) anc pl.around)
    (hc : counted pl.look = true) (hb : pl.look.cls.numberAs ≠ .Bibitem) : FullNumber s2.heap x (some pl.number) ∧
      ((s2.heap.get x).reftextTemplate = if .Section ∈ pl.look.cls.mro ∧ inAppendix pl.before = true
        then Transformer.appendixTemplate pl.look.template else pl.look.template) ∧
      (s2.heap.get x).number.truthy = true := by
  have hs1 : pl.look = look s1.heap x := hs.1
  have hcl := offB_closed S F hf h D
  have seat : ∀ a q, Seat s1.heap (seen s1.heap t) a q → q.1.cls.numberAs ≠ .Bibitem → Match s2.heap a q := by
    intro a q hq hqb
    have hat : a ∈ t.pre := by
      obtain ⟨-, B, A, e, -⟩ := hq
      exact seen_pre t a (by rw [e]; simp)
    obtain ⟨k1, k2, -⟩ := N.same a (D.bound a hat)
    refine ⟨by rw [k1, hq.1]; rfl, by rw [k2, hq.1]; rfl, fun hqc => ?_⟩
    rw [hq.1, counted_look] at hqc
    obtain ⟨B, A, e⟩ := List.append_of_mem hat
    have hn := N.number B a A e hqc
    obtain ⟨g1, g2, g3, -⟩ := expected_own hcl D.nodup hq e hqc (by rw [hq.1] at hqb; exact hqb) hn.symm
    exact ⟨g1, g2, g3⟩
  have hxn : Numbered s1.heap x := by
    rw [← counted_look, ← hs.1]; exact hc
  have hw : ∀ w ∈ pl.look.cls.numberWithin, w ∈ scopes := by
    obtain ⟨w, hw, e⟩ := within_one (counted_iff.mp hc).1 (counted_iff.mp hc).2.2
    rw [e]
    intro v hv
    rw [List.mem_singleton] at hv
    rw [hv]; exact hw
  refine ⟨?_, ?_, ((seat x _ hs hb).2.2 hc).2.1⟩
  · obtain ⟨anc', ha', hfil⟩ := N.within x hx (counted_not_pending hxn) (counted_not_later hxn) anc ha
    have hm : List.Forall₂ (Match s2.heap) (anc'.filter (Scoped s2.heap ·))
        (pl.around.filter fun q => decide (q.1.cls ∈ scopes)) := by
      rw [hfil]
      have h3 := forall₂_filter (p := fun a => decide (Scoped s1.heap a))
        (q := fun q : Look × List Look => decide (q.1.cls ∈ scopes)) hall (fun a q hq => by
          rw [hq.1]; rfl)
      refine List.Forall₂.imp ?_ (List.forall₂_iff_zip.mpr ⟨h3.length_eq, fun {a q} hz => ?_⟩ :
        List.Forall₂ (fun a q => Match s2.heap a q) _ _)
      · exact fun _ _ h => h
      · have h4 := (List.forall₂_iff_zip.mp h3).2 hz
        refine seat a q h4 ?_
        have h5 := (List.mem_filter.mp (List.of_mem_zip hz).2).2
        rw [decide_eq_true_eq] at h5
        have : ∀ w ∈ scopes, w.numberAs ≠ .Bibitem := by decide
        exact this _ h5
    have h6 := full_of (q := (pl.look, pl.before)) ha' (seat x _ hs hb) hc (outer_spec ha' hm hw)
    unfold Place.number
    rw [within_eq]
    rw [outer_filter hw] at h6
    exact h6
  · obtain ⟨B, A, e⟩ := List.append_of_mem hx
    have hn := N.number B x A e hxn
    obtain ⟨-, -, -, g4⟩ := expected_own hcl D.nodup hs e hxn (by rw [hs1] at hb; exact hb) hn.symm
    rw [N.template B x A e hxn, hs1]
    have e1 : (look s1.heap x).cls = (s1.heap.get x).cls := rfl
    have e2 : (look s1.heap x).template = (s1.heap.get x).reftextTemplate := rfl
    rw [e1, e2]
    simp only [g4]

/-- What is somewhere in a source is a node of the manuscript, and what is around it are the nodes around that. -/
theorem place_node (S : Source c) (F : Forest s.heap) (hf : 12 * c.size < fuel) (h : parse fuel c s = .ok r s1)
    (D : Doc s1.heap r t) {pl : Place} (hpl : pl ∈ sourcePlaces c) :
    ∃ x ∈ t.pre, ∃ anc, Ancestors s1.heap x anc ∧ Seat s1.heap (seen s1.heap t) x (pl.look, pl.before) ∧
      List.Forall₂ (Seat s1.heap (seen s1.heap t)) anc pl.around := by
  obtain ⟨_, _, _, _, _, t1, d⟩ := parse_ok S F hf h
  have e := D.unique d.doc
  subst e
  exact places_tree (S := seen s1.heap t) (B := []) (A := []) (anc := []) (around := [])
    D.tree (by rw [D.root_eq]; exact D.parent_root_none) .nil (by simp) (sourceOutline c)
    (by rw [d.outl]; exact List.mem_singleton_self _) pl hpl

/-- What is somewhere in a source is a node of the manuscript, with the number that the source gives it. -/
theorem placed (S : Source c) (F : Forest s.heap) (hf : 12 * c.size < fuel) (h : parse fuel c s = .ok r s1)
    (hU : ErrorsUnlabelled c) (hT : TocFine c) (D : Doc s1.heap r t) (hf' : 12 * t.size < fuel')
    (h2 : Transformer.transform fuel' r { heap := s1.heap, log := log } = .ok () s2)
    {pl : Place} (hpl : pl ∈ sourcePlaces c) :
    ∃ x ∈ t.pre, Seat s1.heap (seen s1.heap t) x (pl.look, pl.before) ∧
      (counted pl.look = true → pl.look.cls.numberAs ≠ .Bibitem → FullNumber s2.heap x (some pl.number) ∧
        ((s2.heap.get x).reftextTemplate = if .Section ∈ pl.look.cls.mro ∧ inAppendix pl.before = true
          then Transformer.appendixTemplate pl.look.template else pl.look.template) ∧
        (s2.heap.get x).number.truthy = true) := by
  obtain ⟨hS, -, -, hR, hI⟩ := C76_input S F hf h D
  have N := numbers_run (hR hU) hS (hI hT) hf' h2
  obtain ⟨x, hx, anc, ha, hs, hall⟩ := place_node S F hf h D hpl
  exact ⟨x, hx, hs, fun hc hb => seated S F hf h D N hx ha hs hall hc hb⟩

end Parser
end RSM
