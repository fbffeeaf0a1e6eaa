import Verif.Lemmas.RailsVisit2
import Verif.Lemmas.BalBib

/-! # Lemmas: what is written for entries of the bibliography with handrails -/

namespace RSM
namespace Tr
open PyM

variable {k : Conf} {h : Heap} {num : Ref → Option Str} {ref : Ref → Str} {src : Option Str}

/-- The text of an entry up to its links. -/
def entryFront (nd : NodeRec) : Str := Render.entry { nd with doi := [], backlinks := [] }

theorem not_mem_intercalate {c : Char} {sep : Str} (hs : c ∉ sep) : ∀ {l : List Str}, (∀ x ∈ l, c ∉ x) →
    c ∉ List.intercalate sep l
  | [], _ => by simp
  | [x], hl => by simpa using hl x (by simp)
  | x :: y :: l, hl => by
    rw [List.intercalate_cons_cons]
    simp only [List.mem_append, not_or]
    exact ⟨⟨hl x (by simp), hs⟩, not_mem_intercalate hs fun z hz => hl z (List.mem_cons_of_mem _ hz)⟩

theorem not_mem_undotted {c : Char} {s : Str} (hs : c ∉ s) : c ∉ Render.undotted s := by
  unfold Render.undotted
  intro hc
  rw [List.mem_reverse] at hc
  have h1 := (List.dropWhile_sublist _).mem hc
  rw [List.mem_reverse] at h1
  exact hs ((List.dropWhile_sublist _).mem h1)

theorem entryFront_plain {nd : NodeRec} (E : Rails.EntryPlain nd) : '<' ∉ entryFront nd := by
  obtain ⟨f1, f2, f3, f4, f5, f6⟩ := E.fields
  unfold entryFront Render.entry
  simp only [if_true, List.append_nil, List.mem_append, not_or]
  refine ⟨not_mem_intercalate (by decide) ?_, by decide⟩
  intro x hx
  rw [List.mem_map] at hx
  obtain ⟨y, hy, rfl⟩ := hx
  refine not_mem_undotted ?_
  simp only [List.mem_append] at hy
  rcases hy with (((hy | hy) | hy) | hy) | hy
  · split at hy
    · rw [List.mem_singleton] at hy
      subst hy
      simp only [List.mem_append, not_or]
      exact ⟨f1, by decide⟩
    · cases hy
  · simp only [List.mem_cons, List.not_mem_nil, or_false] at hy
    rcases hy with rfl | rfl
    · exact f2
    · simp only [List.mem_append, not_or]
      exact ⟨⟨by decide, f3⟩, by decide⟩
  · split at hy
    · rw [List.mem_singleton] at hy
      subst hy
      exact f4
    · cases hy
  · split at hy
    · rw [List.mem_singleton] at hy
      subst hy
      exact f5
    · cases hy
  · split at hy
    · rename_i z hz
      split at hy
      · cases hy
      · rw [List.mem_singleton] at hy
        subst hy
        exact f6 _ hz
    · cases hy

theorem backText_eq (nd : NodeRec) : backText nd = if nd.backlinks = [] then [] else
    "<br />[".toList ++ List.intercalate ",".toList (Render.backlinks 1 nd.backlinks) ++ "]".toList := by
  unfold backText
  rw [backlinks_eq, join_eq]
  by_cases hb : nd.backlinks = [] <;> simp [hb]

theorem doiTag_spec (nd : NodeRec) : doiTag nd = Rails.doiTag nd := by
  unfold doiTag Rails.doiTag
  rw [makeTag_eq]

theorem entry_split (nd : NodeRec) : Render.entry nd = entryFront nd
    ++ ((if nd.doi = [] then [] else " ".toList ++ (doiTag nd ++ "[link]</a>".toList)) ++ backText nd) := by
  rw [backText_eq, doiTag_spec]
  unfold entryFront Render.entry Rails.doiTag
  simp only [if_true, List.append_nil, List.append_assoc]
  congr 1

theorem unlinked_eq (nd : NodeRec) : Rails.unlinked nd = entryFront nd ++ (if nd.doi = [] then [] else " ".toList) ++ backText nd := by
  rw [backText_eq]
  rfl

theorem search_entry {nd : NodeRec} (E : Rails.EntryPlain nd) : searchDoi (Render.entry nd) =
    if nd.doi = [] then none else some (entryFront nd ++ " ".toList, Rails.doiTag nd, backText nd) := by
  have hls : Html.LinkSafe nd := ⟨E.label.1, E.label.2, E.doi.2, E.backlinks⟩
  rw [entry_split]
  by_cases hd : nd.doi = []
  · rw [if_pos hd, if_pos hd, List.nil_append, searchDoi_skip _ _ (entryFront_plain E), search_backText hls]
    rfl
  · rw [if_neg hd, if_neg hd]
    rw [show entryFront nd ++ (" ".toList ++ (doiTag nd ++ "[link]</a>".toList) ++ backText nd) =
      (entryFront nd ++ " ".toList) ++ (doiTag nd ++ "[link]</a>".toList ++ backText nd) by simp only [List.append_assoc]]
    rw [searchDoi_skip _ _ (by
      simp only [List.mem_append, not_or]
      exact ⟨entryFront_plain E, by decide⟩), search_doi E.doi.1 hls, doiTag_spec]
    simp only [Option.map_some, List.append_nil]

theorem rail_entry {r b s s' c ks} (hk : k.handrails = true) (E : Rails.EntryPlain (h.get r))
    (hn : s.heap.get r = record (Rails.dotless h) r b)
    (hc : (h.get r).cls = .Bibitem ∨ (h.get r).cls = .UnknownBibitem)
    (hv : visit k r s = .ok c s') : Railed k h num ref src r ks c s s' := by
  have hc' : (s.heap.get r).cls = (h.get r).cls := by rw [hn]; rfl
  have hm : (h.get r).cls ≠ .Math := by rcases hc with e | e <;> rw [e] <;> decide
  have hp : (h.get r).cls ≠ .Proof := by rcases hc with e | e <;> rw [e] <;> decide
  have hd : methodClass visitNames (s.heap.get r).cls = .ok .Bibitem := by
    rw [hc']; rcases hc with e | e <;> rw [e] <;> rfl
  have hshut : shutR h r = [Render.line (Render.endTag "div")] := by
    rcases hc with e | e <;> simp only [shutR, e]
  rw [visit_eq hd] at hv
  simp only [visitWith, hk, if_true, hrVisitBibitem, node, bind_apply, gets_apply, hn] at hv
  cases hh : bibitemText r s with
  | err e s2 => rw [hh] at hv; cases hv
  | ok out s2 =>
    rw [hh] at hv
    obtain ⟨he, rfl⟩ := entry_eq hh
    rw [hn, show Render.entry (record (Rails.dotless h) r b) = Render.entry (h.get r) from rfl] at hv
    dsimp only at hv
    rw [search_entry E] at hv
    have ei : infoIconContent (some "ext".toList) = "<div class=\"hr-info\">\n                ".toList ++ Rails.extIcon
        ++ "\n                </div>".toList := by decide +kernel
    have eu : Render.unique (["hr-hidden".toList] ++ ["hr".toList]) = ["hr-hidden".toList, "hr".toList] := by decide +kernel
    by_cases hdoi : (h.get r).doi = []
    · rw [if_pos hdoi] at hv
      simp only [warn, bind_apply, modify_apply] at hv
      cases hv
      refine ⟨?_, ?_, .same he hm hp⟩
      · have := wrap_text (.text (Render.entry (h.get r))) [.openTag (nodeTag (record (Rails.dotless h) r b))] []
          ["hr-hidden".toList] [] .off false (some "ext".toList)
        rw [ei, eu, text_text] at this
        have hop : Rails.opening h num ref k.highlight src r ks = Render.line (Render.nodeTag h r "div")
            ++ Rails.start (Rails.tag [] ["hr-hidden".toList, "hr".toList] true none) (Rails.collapseZone false)
              (Rails.menuZone [] none none none) Rails.borderZone ++ (Rails.unlinked (h.get r)
              ++ Rails.stop ("<div class=\"hr-info\">\n                ".toList ++ Rails.extIcon
              ++ "\n                </div>".toList)) := by
          rcases hc with e | e <;> simp only [Rails.opening, e, hdoi, if_true]
        rw [hop]
        have hent : Rails.unlinked (h.get r) = Render.entry (h.get r) := by
          rw [unlinked_eq, entry_split, if_pos hdoi, if_pos hdoi, List.append_nil, List.nil_append]
        rw [hent]
        refine this.trans ?_
        simp only [List.flatMap_cons, List.flatMap_nil, List.append_nil, nodeTag_text, line_nl, List.append_assoc]
        rfl
      · rw [hshut]
        have := wrap_deferred (.text (Render.entry (h.get r))) [.openTag (nodeTag (record (Rails.dotless h) r b))] []
          ["hr-hidden".toList] [] .off false (some "ext".toList)
        show (List.filterMap Item.deferred _).reverse = _
        refine (congrArg List.reverse this).trans ?_
        rw [← line_nl]
        rfl
    · rw [if_neg hdoi] at hv
      dsimp only at hv
      rw [wrapItem_one] at hv
      cases hv
      refine ⟨?_, ?_, .same he hm hp⟩
      · have hop : Rails.opening h num ref k.highlight src r ks = Render.line (Render.nodeTag h r "div")
            ++ Rails.start (Rails.tag [] ["hr-hidden".toList, "hr".toList] true none) (Rails.collapseZone false)
              (Rails.menuZone [] none none none) Rails.borderZone ++ ("<p>".toList ++ Rails.unlinked (h.get r) ++ "</p>".toList
              ++ Rails.stop ("<div class=\"hr-info\">\n".toList ++ Rails.doiTag (h.get r) ++ "\n".toList ++ Rails.extIcon
              ++ "</a>\n</div>".toList)) := by
          rcases hc with e | e <;> simp only [Rails.opening, e, hdoi, if_false]
        rw [hop]
        have ex : strip (pySlice (infoIconContent (some "ext".toList)) 22 (-6)) = Rails.extIcon := by decide +kernel
        rw [ex]
        have hent : Rails.unlinked (h.get r) = entryFront (h.get r) ++ " ".toList ++ backText (h.get r) := by
          rw [unlinked_eq, if_neg hdoi]
        rw [hent]
        generalize entryFront (h.get r) ++ " ".toList ++ backText (h.get r) = body
        rw [fromKeys_eq, eu]
        simp only [insertAt, Cmd.text, List.cons_append, List.nil_append, List.append_nil, List.length_cons, List.length_nil,
          List.set_cons_succ, List.set_cons_zero, List.take_succ_cons, List.take_zero, List.drop_succ_cons, List.drop_zero,
          List.flatMap_cons, List.flatMap_nil, nodeTag_text, line_nl]
        rw [show Render.nodeTag (Rails.dotless h) r "div".toList = Render.nodeTag h r "div".toList from rfl]
        generalize Render.line (Render.nodeTag h r "div".toList) = first
        simp only [rail_manual_text, collapseZone_text, menuZone_text, borderZone_text, spacerZone_text, box_text, text_text,
          closing_line]
        unfold Rails.start Rails.stop
        rw [show Rails.tag [] ["hr-content-zone".toList] false none = Render.tag "div" [] ["hr-content-zone"] by
          rw [← rail_tag, makeTag_eq]]
        simp only [List.append_assoc]
        rfl
      · rw [hshut]
        rw [fromKeys_eq]
        simp only [insertAt, List.cons_append, List.nil_append, List.append_nil, List.length_cons, List.length_nil,
          List.set_cons_succ, List.set_cons_zero, List.take_succ_cons, List.take_zero, List.drop_succ_cons, List.drop_zero,
          hrCollapseZone, hrMenuZone, hrBorderZone, hrSpacerZone]
        rw [← line_nl]
        rfl

end Tr
end RSM
