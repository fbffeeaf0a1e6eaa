import Verif.Props.SourceOrder
import Verif.Props.SourceCitations

/-!
# C94: the order of the entries of bibliographies
-/

namespace RSM
namespace Parser
open PyM Tr Html Transformer

variable {c : Cst} {fuel fuel' : Nat} {s s1 : ParserState} {r : Ref} {t : Tree} {log : List TWarning} {s2 : TState}
  {k : Conf} {s3 : TrState} {page : Str}

/-- The entries stand on the page in the order of the source. -/
theorem stage_entries_order (S : Source c) (F : Forest s.heap) (hf : 12 * c.size < fuel) (h : parse fuel c s = .ok r s1)
    (hU : TextsUnlabelled c) (hT : TocFine c) (L : LabelledEntries c) (D : Doc s1.heap r t) (hf' : 12 * t.size < fuel')
    (h2 : transform fuel' r { heap := s1.heap, log := log } = .ok () s2)
    (hk : ∀ t', Doc s2.heap r t' → 2 * t'.size ≤ k.fuel) (h3 : translate k r { heap := s2.heap } = .ok page s3) :
    InOrder ((entryLabels c).map idText) page := by
  obtain ⟨hS, -, -, hR, hI⟩ := C76_input S F hf h D
  obtain ⟨g1, -, -, -⟩ := parse_labels S F hf h D hU
  have hE := (parse_entries_order S F hf h D L.inside).1
  obtain ⟨s4, σ, t', R⟩ := passed (hR hU.errors) hS (hI hT) hf' h2
  obtain ⟨t5, D', hold, -⟩ := C31_author_nodes s1.heap r t fuel' log s2 (hR hU.errors) hS (hI hT) hf' h2
  obtain rfl := D'.unique R.doc
  obtain ⟨texts, hv, ord⟩ := translate_ordered (s := { heap := s2.heap }) D' (hk t5 D') h3
  let xs := t.pre.filter fun x => decide ((s1.heap.get x).cls = .Bibitem)
  have hxs : ∀ x ∈ xs, x ∈ t.pre ∧ (s1.heap.get x).cls = .Bibitem := fun x hx => by
    obtain ⟨a, b⟩ := List.mem_filter.mp hx
    exact ⟨a, of_decide_eq_true b⟩
  have hE : xs.map (fun x => (s1.heap.get x).label) = entryLabels c := hE
  have hsub : xs.Sublist t5.pre := by
    have e : xs.filter (fun x => ¬ Pending s1.heap x ∧ x ∉ laterContents s1.heap t) = xs := by
      rw [List.filter_eq_self]
      intro x hx
      obtain ⟨-, hc⟩ := hxs x hx
      refine decide_eq_true ⟨?_, fun H => ?_⟩
      · rintro (e | e | e) <;> rw [hc] at e <;> cases e
      · have := of_decide_eq_true (List.mem_filter.mp (List.mem_of_mem_tail H)).2
        rw [hc] at this
        cases this
    rw [← e]
    refine ((List.filter_sublist (l := t.pre)).filter _).trans ?_
    rw [← hold]
    exact List.filter_sublist
  have hlab : ∀ x ∈ xs, (s2.heap.get x).label = (s1.heap.get x).label := by
    intro x hx
    obtain ⟨hxt, hc⟩ := hxs x hx
    have hm : (s1.heap.get x).label ∈ entryLabels c := by rw [← hE]; exact List.mem_map_of_mem hx
    have hne : (s1.heap.get x).label ≠ [] := fun e => L.named (e ▸ hm)
    obtain ⟨B, A, e⟩ := List.append_of_mem hxt
    have hcar : Carries s1.heap t (s1.heap.get x).label x := by
      refine ⟨hne, rfl, B, A, e, fun y hy hyl => ?_⟩
      have hyt : y ∈ t.pre := by rw [e]; simp [hy]
      have hyx : y ∈ xs := by
        rcases g1 y hyt with g | g | g
        · exact absurd (List.mem_map.mpr ⟨_, g, hyl⟩) (L.alone _ hm)
        · exact absurd (hyl.symm.trans g) hne
        · exact List.mem_filter.mpr ⟨hyt, decide_eq_true g.1⟩
      have hnd := L.distinct
      rw [← hE] at hnd
      have := List.inj_on_of_nodup_map hnd hyx hx hyl
      have hn := D.nodup
      rw [e, List.nodup_append] at hn
      exact hn.2.2 y hy x List.mem_cons_self this
    rw [R.keeps.label x (Nat.lt_of_lt_of_le (D.bound x hxt) R.next)]
    exact R.label _ _ hcar
  obtain ⟨texts', hsub', hv'⟩ := exists_sublist hsub hv
  have hv' := (List.forall₂_and_left (p := fun x => x ∈ xs) _ _).mpr ⟨fun _ hx => hx, hv'⟩
  rw [← hE, List.map_map]
  refine (ord.sublist hsub').parts ?_
  rw [List.forall₂_map_left_iff]
  refine hv'.imp ?_
  rintro x text ⟨hx, s5, cmd, s6, w1, w2, rfl⟩
  obtain ⟨hxt, hc⟩ := hxs x hx
  have hc5 : (s5.heap.get x).cls = .Bibitem := by
    rw [w1.cls]
    exact (R.cls x (D.bound x hxt)).trans hc
  have hl5 : (s5.heap.get x).label = (s1.heap.get x).label := by
    rw [w1.label]
    exact hlab x hx
  have hne : (s5.heap.get x).label ≠ [] := fun e => L.named (by
    rw [← hE, ← e, hl5]
    exact List.mem_map_of_mem hx)
  obtain ⟨name, -, -, a, b, e⟩ := visit_hasId (d := .Bibitem) (by rw [hc5]; rfl) (by decide) rfl hne w2
  rw [hl5] at e
  refine ⟨a ++ '<' :: name ++ " ".toList, b, ?_⟩
  rw [← e]
  simp [idText]

end Parser

namespace Program
open PyM LogState Transformer Tree RSM.Parser Tr Html History

variable {o : Outer} {src page : Str} {hr : Bool}

/-- **C94.** The entries of the bibliographies stand on the page in the order of the source. -/
theorem C94_entries (S : Source (o.sitter src)) (hU : TextsUnlabelled (o.sitter src)) (hT : TocFine (o.sitter src))
    (L : LabelledEntries (o.sitter src)) (P : Published o src hr page) :
    InOrder ((entryLabels (o.sitter src)).map idText) page := by
  obtain ⟨body, ⟨r, s1, s2, s3, as, p1, p2, p3⟩, hb⟩ := published_staged S hU.errors hT P
  obtain ⟨t, D, hf, hk⟩ := stage (s2 := s2) (hr := hr) (as := as) S p1
  have h := stage_entries_order (s := { heap := Heap.empty }) S Forest.empty (Nat.lt_succ_self _) p1 hU hT L D hf p2 hk p3
  rcases hb with rfl | rfl
  · exact h
  · refine inOrder_page (fun q hq => ?_) h
    obtain ⟨l, -, rfl⟩ := List.mem_map.mp hq
    refine ⟨by simp [idText], fun c hc => ?_, fun c hc => ?_⟩
    · cases hc; rfl
    · unfold idText at hc
      rw [List.getLast?_append] at hc
      cases hc; rfl

theorem library_entries : LabelledEntries library where
  inside := by decide +kernel
  named := by decide +kernel
  distinct := by decide +kernel
  alone := by decide +kernel

theorem library_ids : (entryLabels library).map idText = ["id=\"euler\"".toList, "id=\"gauss\"".toList] := by
  decide +kernel

/-- Not vacuous: the two entries of this source, in their order. -/
example (hr : Bool) : ∃ page, Published { sampleOuter with sitter := fun _ => library } "source".toList hr page ∧
    InOrder ["id=\"euler\"".toList, "id=\"gauss\"".toList] page := by
  obtain ⟨page, hb, -, H⟩ := C87_page (o := { sampleOuter with sitter := fun _ => library }) (src := "source".toList) (hr := hr)
    (as := false) library_wellFormed library_texts.errors library_tocFine library_structured (library_page hr)
  obtain ⟨w1, h1, -⟩ := H _ _ {} sampleWorld (by decide) sampleText
  have P := published_of_page (o := { sampleOuter with sitter := fun _ => library }) (hr := hr) sampleText hb ⟨w1, h1⟩
  refine ⟨page, P, ?_⟩
  rw [← library_ids]
  exact C94_entries (o := { sampleOuter with sitter := fun _ => library }) (src := "source".toList) library_wellFormed.source
    library_texts library_tocFine library_entries P

end Program
end RSM
