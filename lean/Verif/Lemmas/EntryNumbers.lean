import Verif.Spec.SourceCitations
import Verif.Lemmas.UnknownCite

/-! The numbers of the entries of bibliographies (helper lemmas for C88). -/

namespace RSM
namespace Parser
open PyM Tree

theorem sublist_filter {l m : List Ref} (h : l.Sublist m) (hm : m.Nodup) : l = m.filter fun x => decide (x ∈ l) := by
  induction h with
  | slnil => rfl
  | @cons l m a h ih =>
    rw [List.nodup_cons] at hm
    rw [List.filter_cons, if_neg (by simpa using fun e => hm.1 (h.subset e))]
    exact ih hm.2
  | @cons_cons l m a h ih =>
    rw [List.nodup_cons] at hm
    rw [List.filter_cons, if_pos (by simp)]
    congr 1
    refine (ih hm.2).trans (List.filter_congr fun x hx => ?_)
    have : x ≠ a := fun e => hm.1 (e ▸ hx)
    simp [this]

theorem roots_sublist : ∀ ts : List Tree, (ts.map Tree.root).Sublist (preL ts)
  | [] => .slnil
  | .node i ks :: ts => by
    rw [List.map_cons, Tree.preL, Tree.pre, List.cons_append]
    exact ((roots_sublist ts).trans (List.sublist_append_right _ _)).cons_cons i

theorem bibs_sublist {h : Heap} : ∀ (ts : List Tree) (p : Option Ref), (∀ k ∈ ts, IsTree h p k) →
    ((((ts.map Tree.root).filter fun b => decide ((h.get b).cls = .Bibliography)).map fun b =>
      (h.children b).filter fun x => decide ((h.get x).cls = .Bibitem)).flatten).Sublist (preL ts)
  | [], _, _ => .slnil
  | .node i ks :: ts, p, H => by
    have h1 := bibs_sublist ts p fun k hk => H k (List.mem_cons_of_mem _ hk)
    rw [List.map_cons, List.filter_cons, Tree.preL]
    split
    · rw [List.map_cons, List.flatten_cons]
      refine List.Sublist.append ?_ h1
      refine List.filter_sublist.trans ?_
      rw [Tree.root, (isTree_node.mp (H _ List.mem_cons_self)).2.1, Tree.pre]
      exact (roots_sublist ks).cons i
    · exact h1.trans (List.sublist_append_right _ _)

variable {c : Cst} {fuel : Nat} {s s' : ParserState} {r : Ref} {t : Tree}

/-- The entries of the manuscript, in order, are those of the bibliographies. -/
theorem parse_entries_order (S : Source c) (F : Forest s.heap) (hf : 12 * c.size < fuel) (h : parse fuel c s = .ok r s')
    (D : Doc s'.heap r t) (hB : ∀ a ∈ sourceLooks c, a.cls ≠ .Bibitem) :
    (t.pre.filter fun x => decide ((s'.heap.get x).cls = .Bibitem)).map (fun x => (s'.heap.get x).label) = entryLabels c ∧
    ∀ x ∈ t.pre, (s'.heap.get x).cls = .Bibitem → ∃ q, s'.heap.parent x = some q ∧ (s'.heap.get q).cls = .Bibliography := by
  obtain ⟨_, _, _, _, _, t1, d⟩ := parse_ok S F hf h
  have e := D.unique d.doc
  subst e
  have hL := parse_looks S F hf h D
  have hfil := filter_seen (h := s'.heap) (H := OffB s'.heap)
    (p := fun x => open Classical in decide ((s'.heap.get x).cls = .Bibitem ∧ ¬ OffB s'.heap x)) (fun x hx => .inl hx)
    (fun x hx => by simp [hx]) t (offB_closed S F hf h D)
  have hpar : ∀ x ∈ t.pre, (s'.heap.get x).cls = .Bibitem →
      ∃ q, s'.heap.parent x = some q ∧ (s'.heap.get q).cls = .Bibliography := by
    intro x hxt hxc
    by_cases ho : OffB s'.heap x
    · rcases ho with ho | ⟨_, ho⟩
      · exact absurd hxc (leftOut_number ho).2.2
      · exact ho
    · have hm : x ∈ t.pre.filter fun x => open Classical in decide ((s'.heap.get x).cls = .Bibitem ∧ ¬ OffB s'.heap x) :=
        List.mem_filter.mpr ⟨hxt, by simp [hxc, ho]⟩
      rw [hfil] at hm
      exact absurd hxc (hB (look s'.heap x) (by rw [hL]; exact List.mem_map_of_mem (List.mem_filter.mp hm).1))
  refine ⟨?_, hpar⟩
  have hsub : (bibliographiesOf s'.heap r).flatten.Sublist t.pre := by
    obtain ⟨i, ks⟩ := t
    obtain rfl : i = r := D.root_eq
    have T := isTree_node.mp D.tree
    unfold bibliographiesOf
    rw [T.2.1, Tree.pre]
    exact (bibs_sublist ks _ T.2.2).cons _
  have he : (t.pre.filter fun x => decide ((s'.heap.get x).cls = .Bibitem)) = (bibliographiesOf s'.heap r).flatten := by
    rw [sublist_filter hsub D.nodup]
    refine List.filter_congr fun x hxt => ?_
    rw [decide_eq_decide]
    constructor
    · intro hxc
      obtain ⟨q, hq, hqc⟩ := hpar x hxt hxc
      have hxr : x ≠ r := fun e => by rw [e, d.root_cls] at hxc; cases hxc
      obtain ⟨q', hqt, hq', hqk⟩ := D.parent_mem hxt hxr
      rw [hq] at hq'
      cases hq'
      refine List.mem_flatten.mpr ⟨_, List.mem_map.mpr ⟨q, List.mem_filter.mpr ⟨d.bibin q hqt hqc, by simp [hqc]⟩, rfl⟩, ?_⟩
      exact List.mem_filter.mpr ⟨hqk, by simp [hxc]⟩
    · intro hx
      obtain ⟨l, hl, hxl⟩ := List.mem_flatten.mp hx
      obtain ⟨b, -, rfl⟩ := List.mem_map.mp hl
      exact of_decide_eq_true (List.mem_filter.mp hxl).2
  rw [he]
  unfold entryLabels
  have : ∀ {l : List (List Ref)} {m : List (List Cst)},
      List.Forall₂ (List.Forall₂ fun x e => entryOf s'.heap x = entryLook e) l m →
      l.flatten.map (fun x => (s'.heap.get x).label) = m.flatten.map fun d => (entryLook d).label := by
    intro l m H
    induction H with
    | nil => rfl
    | cons h1 _ ih =>
      rw [List.flatten_cons, List.flatten_cons, List.map_append, List.map_append, ih]
      congr 1
      clear ih
      induction h1 with
      | nil => rfl
      | cons h2 _ ih => rw [List.map_cons, List.map_cons, ih, ← h2]; rfl
  exact this d.bibs

theorem bibRecord_plain {d : Cst} {n : NodeRec} (h : bibRecord d = .ok n) (hp : entryField d "reftext_template".toList = none) :
    n.nonum = false ∧ n.reftextTemplate = "{number}".toList := by
  unfold bibRecord at h
  obtain ⟨kind, h1, h⟩ := bind_ok h
  obtain ⟨label, h2, h⟩ := bind_ok h
  rw [entry_other field_nonum.on (fun _ => rfl) h, entry_text field_template h, hp]
  exact ⟨rfl, rfl⟩

/-- Each entry has a number and is cited by it. -/
theorem parse_entries_plain (S : Source c) (F : Forest s.heap) (hf : 12 * c.size < fuel) (h : parse fuel c s = .ok r s')
    (D : Doc s'.heap r t) (H : PlainEntries c) {x : Ref} (hx : x ∈ t.pre) (hc : (s'.heap.get x).cls = .Bibitem) :
    (s'.heap.get x).nonum = false ∧ (s'.heap.get x).reftextTemplate = "{number}".toList := by
  obtain ⟨q, hq, hqc⟩ := (parse_entries_order S F hf h D H.inside).2 x hx hc
  obtain ⟨G, -, -, -⟩ := parse_given S F hf h D
  have g := G x hx q hq
  cases g with
  | added h1 => rw [hc] at h1; rcases h1 with h1 | h1 <;> cases h1
  | bibliography _ h2 => rw [hqc] at h2; cases h2
  | @entry d n _ h1 h2 h3 =>
    obtain ⟨l, hl, hd⟩ := h1
    obtain ⟨g1, g2⟩ := bibRecord_plain h2 (H.plain d (List.mem_flatten.mpr ⟨l, hl, hd⟩))
    have e1 : (core (s'.heap.get x)).nonum = (core n).nonum := by rw [h3]
    have e2 : (core (s'.heap.get x)).reftextTemplate = (core n).reftextTemplate := by rw [h3]
    exact ⟨e1.trans g1, e2.trans g2⟩
  | made h1 h2 => exact absurd hqc h1

theorem idxOf_first {α : Type} {f : α → Str} {l : Str} : ∀ (B : List α) {b : α} {A : List α}, (∀ y ∈ B, f y ≠ l) → f b = l →
    ((B ++ b :: A).map f).idxOf l = B.length
  | [], b, A, _, h => by rw [List.nil_append, List.map_cons, h, List.idxOf_cons_self]; rfl
  | y :: B, b, A, h1, h => by
    rw [List.cons_append, List.map_cons, List.idxOf_cons_ne _ (h1 y List.mem_cons_self),
      idxOf_first B (fun z hz => h1 z (List.mem_cons_of_mem _ hz)) h]
    rfl

/-- The number of the entry with a label. -/
theorem entry_expected (S : Source c) (F : Forest s.heap) (hf : 12 * c.size < fuel) (h : parse fuel c s = .ok r s')
    (D : Doc s'.heap r t) (H : PlainEntries c) {l : Str} {b : Ref} {B A : List Ref} (e : t.pre = B ++ b :: A)
    (hB : ∀ y ∈ B, (s'.heap.get y).label ≠ l) (hb : (s'.heap.get b).label = l) (hc : (s'.heap.get b).cls = .Bibitem) :
    Transformer.expectedNumber s'.heap B b = some (.int (entryPosition c l : Nat)) := by
  have hno : ∀ a ∈ t.pre, ¬ IsAppendix s'.heap a := by
    intro a ha hA
    have hfil := filter_seen (h := s'.heap) (H := OffB s'.heap)
      (p := fun x => decide ((s'.heap.get x).cls = .Appendix)) (fun x hx => .inl hx)
      (fun y hy => by
        rcases hy with hy | ⟨hy, _⟩
        · simp [(leftOut_number hy).2.1]
        · simp [hy]) t (offB_closed S F hf h D)
    have hA : (s'.heap.get a).cls = .Appendix := hA
    have hm : a ∈ t.pre.filter fun x => decide ((s'.heap.get x).cls = .Appendix) :=
      List.mem_filter.mpr ⟨ha, by simp [hA]⟩
    rw [hfil] at hm
    exact H.body (look s'.heap a) (by rw [parse_looks S F hf h D]; exact List.mem_map_of_mem (List.mem_filter.mp hm).1) hA
  have hsub : ∀ y ∈ B, y ∈ t.pre := fun y hy => by rw [e]; simp [hy]
  unfold Transformer.expectedNumber
  rw [hc]
  show (if _ then _ else _) = _
  rw [if_neg (by rintro ⟨-, a, ha, hA⟩; exact hno a (hsub a ha) hA)]
  congr 3
  unfold earlierInScope
  rw [sinceLast_none]
  swap
  · rintro y hy (⟨hy1, hy2⟩ | ⟨hy1, -⟩)
    · have := hy1.1
      rw [hy2] at this
      revert this; decide
    · exact hno y (hsub y hy) hy1
  have e1 := (parse_entries_order S F hf h D H.inside).1
  unfold entryPosition
  rw [← e1, e, List.filter_append, List.filter_cons, if_pos (by simp [hc]),
    idxOf_first _ (fun y hy => hB y (List.mem_filter.mp hy).1) hb]
  congr 2
  refine List.filter_congr fun y hy => ?_
  rw [decide_eq_decide]
  constructor
  · rintro ⟨-, h2⟩
    unfold SameFamily at h2
    rw [hc] at h2
    exact family_bibitem h2
  · intro h2
    refine ⟨⟨by rw [h2]; decide, (parse_entries_plain S F hf h D H (hsub y hy) h2).1, by rw [h2]; decide⟩, ?_⟩
    unfold SameFamily
    rw [h2, hc]

theorem setAttr_backlinks {k v : Str} {n m : NodeRec} (h : setAttr k (.text v) n = .ok m) : m.backlinks = n.backlinks := by
  unfold setAttr at h
  split at h
  · cases h
  split at h
  · cases h; rfl
  split at h
  · rename_i e
    cases h
    simp only [setTextAttr] at e
    obtain ⟨f, hf, rfl⟩ := Option.map_eq_some_iff.mp e
    obtain ⟨p, hp, rfl⟩ := setter_mem hf
    simp only [textAttrs, List.mem_cons, List.not_mem_nil, or_false] at hp
    rcases hp with rfl | rfl | rfl | rfl | rfl | rfl | rfl | rfl | rfl | rfl | rfl | rfl | rfl | rfl | rfl |
      rfl | rfl | rfl <;> rfl
  · split at h
    · cases h
    · cases h; rfl

theorem bibLoop_backlinks : ∀ {l : List Cst} {n m : NodeRec}, bibLoop l n = .ok m → m.backlinks = n.backlinks
  | [], n, m, h => by cases h; rfl
  | p :: l, n, m, h => by
    rw [bibLoop] at h
    obtain ⟨⟨k', v⟩, h1, h⟩ := bind_ok h
    obtain ⟨n1, h2, h3⟩ := bind_ok h
    exact (bibLoop_backlinks h3).trans (setAttr_backlinks h2)

/-- What has a label that only entries have is an entry without links back. -/
theorem entry_of_label (S : Source c) (F : Forest s.heap) (hf : 12 * c.size < fuel) (h : parse fuel c s = .ok r s')
    (D : Doc s'.heap r t) {x : Ref} (hx : x ∈ t.pre) (hc : (s'.heap.get x).cls = .Bibitem)
    (hn : (s'.heap.get x).label ∉ (sourceLooks c).map Look.label) : (s'.heap.get x).backlinks = [] := by
  have hfil := filter_seen (h := s'.heap) (H := OffB s'.heap)
    (p := fun x => open Classical in decide (¬ OffB s'.heap x)) (fun x hx => .inl hx)
    (fun x hx => by simp [hx]) t (offB_closed S F hf h D)
  have ho : OffB s'.heap x := by
    by_contra ho
    have hm : x ∈ t.pre.filter fun x => open Classical in decide (¬ OffB s'.heap x) :=
      List.mem_filter.mpr ⟨hx, by simp [ho]⟩
    rw [hfil] at hm
    refine hn (List.mem_map.mpr ⟨look s'.heap x, ?_, rfl⟩)
    rw [parse_looks S F hf h D]
    exact List.mem_map_of_mem (List.mem_filter.mp hm).1
  rcases ho with ho | ⟨-, q, hq, hqc⟩
  · exact absurd hc (leftOut_number ho).2.2
  obtain ⟨G, -, -, -⟩ := parse_given S F hf h D
  cases G x hx q hq with
  | added h1 => rw [hc] at h1; rcases h1 with h1 | h1 <;> cases h1
  | bibliography _ h2 => rw [hqc] at h2; cases h2
  | @entry d n _ h1 h2 h3 =>
    have e1 : (core (s'.heap.get x)).backlinks = (core n).backlinks := by rw [h3]
    refine e1.trans ?_
    unfold bibRecord at h2
    obtain ⟨_, -, h2⟩ := bind_ok h2
    obtain ⟨_, -, h2⟩ := bind_ok h2
    exact bibLoop_backlinks h2
  | made h1 h2 => exact absurd hqc h1

end Parser

namespace Tr
open PyM

/-- What is written for an entry with a number. -/
theorem entry_reftext {k : Conf} {s : TrState} {b root : Ref} {t : Tree} {i : Nat} (D : Doc s.heap root t) (hb : b ∈ t.pre)
    (hk : 2 * t.size ≤ k.fuel) (hc : (s.heap.get b).cls = .Bibitem) (hn : (s.heap.get b).nonum = false)
    (hnum : (s.heap.get b).number = .int (i + 1 : Nat)) (ht : (s.heap.get b).reftextTemplate = "{number}".toList) :
    reftext k b s = .ok (natStr (i + 1)) s := by
  have pos := t.size_pos
  obtain ⟨l, h1, h2, _⟩ := D.ancestors hb
  obtain ⟨o, ho, ho2⟩ := fullNumber_spec h1 (fuel := k.fuel) (by omega)
  have hman : ∀ {x o}, FullNumber s.heap x o → (s.heap.get x).cls = .Manuscript → o = some [] := fun hx hm =>
    Parser.full_unique hx (.manuscript hm)
  have hw : (s.heap.get b).cls.numberWithin = [.Manuscript] := by rw [hc]; decide
  have e : (if (s.heap.get b).number.truthy then (s.heap.get b).number.fmt else []) = natStr (i + 1) := by
    rw [hnum]
    rfl
  have ho3 : o = some (natStr (i + 1)) := by
    cases ho2 with
    | manuscript h => rw [hc] at h; cases h
    | nonum _ h => rw [hn] at h; cases h
    | inScope _ _ _ h5 h6 h7 =>
      refine absurd (Option.some.inj (hman h6 ?_)) h7
      rcases h5 with h5 | h5
      · have := h5.1
        rw [hw] at this
        exact List.mem_singleton.mp this
      · exact h5.2.1
    | unnumberedScope => rw [e]
    | noScope => rw [e]
  rw [ho3] at ho
  unfold reftext
  simp only [bind_apply, number_shown ho, get_apply, fmtOpt, ht, format_entry, lift, pure_apply]
  rw [strip_kept]
  · exact fun c hc => Parser.natStr_not_space _ c (List.mem_of_mem_head? hc)
  · exact fun c hc => Parser.natStr_not_space _ c (List.mem_of_mem_getLast? hc)

end Tr
end RSM
