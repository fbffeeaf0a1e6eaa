import Verif.Lemmas.RailsVisit

/-! # Lemmas: what is written for paragraphs, steps, formulas, tables of contents and manuscripts with handrails -/

namespace RSM
namespace Tr
open PyM

variable {k : Conf} {h : Heap} {num : Ref → Option Str} {ref : Ref → Str} {src : Option Str}

theorem hidden_class (r : Ref) : (if "hr-hidden".toList ∈ Rails.classes h r [] then Rails.classes h r []
    else Rails.classes h r [] ++ ["hr-hidden".toList]) = Rails.classes h r ["hr-hidden"] := by
  unfold Rails.classes
  rw [← unique_snoc]
  simp only [List.append_assoc, List.append_nil, List.cons_append]

theorem rail_paragraph {r b s s' c ks} (hk : k.handrails = true) (hf : SameFrame h s.heap) (N : Named k h num ref r)
    (hn : s.heap.get r = record (Rails.dotless h) r b) (hc : (h.get r).cls = .Paragraph)
    (hv : visit k r s = .ok c s') : Railed k h num ref src r ks c s s' := by
  have hc' : (s.heap.get r).cls = (h.get r).cls := by rw [hn]; rfl
  rw [visit_eq (by rw [hc', hc]; rfl)] at hv
  simp only [visitWith, hk, if_true, hrVisitParagraph, bind_apply, get_apply] at hv
  cases hh : reftext k r s with
  | err e s2 => rw [hh] at hv; cases hv
  | ok t s2 =>
    rw [hh] at hv
    obtain ⟨rfl, rfl⟩ := reftext_named N hf hh
    dsimp only at hv
    rw [hn, rail_from] at hv
    have hm : (s2.heap.firstOfType r [.MathBlock]).isSome = (h.children r).any fun c => (h.get c).cls = .MathBlock := by
      rw [firstOfType_math, hf.children]
      simp only [hf.cls]
    have htag : ∀ T : TagArgs, (if "hr-hidden".toList ∈ T.classes then T
        else { T with classes := T.classes ++ ["hr-hidden".toList] }) = { T with classes :=
          if "hr-hidden".toList ∈ T.classes then T.classes else T.classes ++ ["hr-hidden".toList] } := by
      intro T
      split <;> rfl
    rw [htag] at hv
    dsimp only at hv
    rw [show Rails.classes (Rails.dotless h) r [] = Rails.classes h r [] from rfl, hidden_class] at hv
    cases hv
    unfold paragraphItems
    rw [hm, hn]
    have e : (record (Rails.dotless h) r b).title = (h.get r).title := rfl
    refine ⟨?_, ?_, .same rfl (by rw [hc]; decide) (by rw [hc]; decide)⟩
    · unfold Rails.opening
      simp only [hc, Cmd.text, List.flatMap_append, replace_text, linkOpt_as, e]
      rw [List.append_assoc]
      congr 1
      have e2 : '\n' :: Render.tag "p".toList [] [] = "\n<p>".toList := by decide
      by_cases ht : (h.get r).title = [] <;> split
      all_goals
        simp only [ht, ne_eq, not_true_eq_false, if_false, args_text, manual_text,
          element_text, before_nl, e2, line_nl, List.flatMap_cons, List.flatMap_nil, List.append_nil, List.append_assoc,
          List.nil_append, List.drop_succ_cons, List.drop_zero, List.cons_append]
    · unfold shutR
      simp only [hc, Cmd.closers, closersOf, List.filterMap_append, replace_deferred, closing_line, e]
      by_cases ht : (h.get r).title = [] <;>
        by_cases hh : (h.children r).any (fun c => (h.get c).cls = .MathBlock) = true <;>
        simp [ht, hh, manual_deferred, args_deferred, element_deferred, after_nl, Render.endTag]

theorem rail_subproof {r b s s' c ks} (hk : k.handrails = true)
    (hn : s.heap.get r = record (Rails.dotless h) r b) (hc : (h.get r).cls = .Subproof)
    (hv : visit k r s = .ok c s') : Railed k h num ref src r ks c s s' := by
  have hc' : (s.heap.get r).cls = (h.get r).cls := by rw [hn]; rfl
  rw [visit_eq (by rw [hc', hc]; rfl)] at hv
  simp only [visitWith, hk, if_true, hrVisitSubproof, node, bind_apply, gets_apply, hn, rail_from] at hv
  cases hv
  have he : (Rails.classes (Rails.dotless h) r ["hr-shift-1".toList]).erase "hr-hidden".toList =
      (Rails.classes h r ["hr-shift-1"]).filter (· ≠ "hr-hidden".toList) := by
    rw [List.Nodup.erase_eq_filter (by exact unique_nodup _)]
    show (Rails.classes h r ["hr-shift-1"]).filter _ = _
    generalize "hr-hidden".toList = w
    congr 1
    funext z
    by_cases hz : z = w <;> simp [hz]
  rw [he]
  refine ⟨?_, ?_, .same rfl (by rw [hc]; decide) (by rw [hc]; decide)⟩
  · unfold Rails.opening
    simp only [hc, Cmd.text, List.flatMap_cons, List.flatMap_nil, List.append_nil, rail_text, collapseZone_text,
      spacerZone_text, contentZone_text, Rails.start, List.append_assoc]
    rw [show hrMenuZoneEmpty.makeText = Rails.box "hr-menu-zone" [] from box_text _ _,
      show hrBorderZoneEmpty.makeText = Rails.box "hr-border-zone" "<div class=\"hr-border-rect\"></div>".toList from
        box_text _ _]
    rfl
  · rw [shutR_two (by rw [hc]; decide)]
    simp only [Cmd.closers, closersOf, List.filterMap_cons, hrCollapseZone, hrMenuZoneEmpty, hrBorderZoneEmpty,
      hrSpacerZone, hrContentZone, Item.deferred, List.filterMap_nil, if_true, closing_line]
    rfl

theorem firstOfType_find (h : Heap) (r : Ref) (c : Cls) (hs : ∀ d : Cls, [c].any d.isSub = decide (d = c)) :
    (h.firstOfType r [c]).map Prod.fst = (h.children r).find? fun x => (h.get x).cls = c := by
  unfold Heap.firstOfType
  rw [find?_zipIdx (fun c' => h.isInstAny c' [c])]
  congr 1
  funext x
  exact hs _

theorem rail_step {r b s s' c ks} (hk : k.handrails = true) (hf : SameFrame h s.heap) (N : Named k h num ref r)
    (hn : s.heap.get r = record (Rails.dotless h) r b) (hc : (h.get r).cls = .Step)
    (hv : visit k r s = .ok c s') : Railed k h num ref src r ks c s s' := by
  have hc' : (s.heap.get r).cls = (h.get r).cls := by rw [hn]; rfl
  rw [visit_eq (by rw [hc', hc]; rfl)] at hv
  simp only [visitWith, hk, if_true, hrVisitStep, bind_apply, get_apply] at hv
  cases hh : reftext k r s with
  | err e s2 => rw [hh] at hv; cases hv
  | ok t s2 =>
    rw [hh] at hv
    obtain ⟨rfl, rfl⟩ := reftext_named N hf hh
    dsimp only at hv
    rw [hn, rail_from] at hv
    have hsub : ∀ q, (s2.heap.firstOfType q [.Subproof]).map Prod.fst = (h.children q).find? fun x => (h.get x).cls = .Subproof := by
      intro q
      rw [firstOfType_find _ _ _ (by intro d; cases d <;> rfl), hf.children]
      simp only [hf.cls]
    have hst : ∀ q, (s2.heap.firstOfType q [.Step]).map Prod.fst = (h.children q).find? fun x => (h.get x).cls = .Step := by
      intro q
      rw [firstOfType_find _ _ _ (by intro d; cases d <;> rfl), hf.children]
      simp only [hf.cls]
    have key : ∀ cc ca : Opt, cc.as = some (Rails.subproof h r).isSome → ca.as = some (Rails.subproof h r == some true) →
        (pure (.batchDefer [.openTag { id := ((Rails.dotless h).get r).label
                                       classes := Rails.classes (Rails.dotless h) r []
                                       selectable := true, nodeid := ((Rails.dotless h).get r).nodeid }, hrCollapseZone false,
          hrMenuZone (ref r) cc ca (linkOpt (record (Rails.dotless h) r b)), hrBorderZone, hrSpacerZone,
          hrContentZone true]) : TrM Cmd) s2 = .ok c s' → Railed k h num ref src r ks c s2 s' := by
      intro cc ca h1 h2 hv
      cases hv
      refine ⟨?_, ?_, .same rfl (by rw [hc]; decide) (by rw [hc]; decide)⟩
      · unfold Rails.opening
        simp only [hc, Cmd.text, List.flatMap_cons, List.flatMap_nil, List.append_nil, rail_text, collapseZone_text,
          menuZone_text, borderZone_text, spacerZone_text, contentZone_text, Rails.start, List.append_assoc, linkOpt_as, h1, h2]
        rfl
      · rw [shutR_two (by rw [hc]; decide)]
        simp only [Cmd.closers, closersOf, List.filterMap_cons, hrCollapseZone, hrMenuZone, hrBorderZone,
          hrSpacerZone, hrContentZone, Item.deferred, List.filterMap_nil, if_true, closing_line]
        rfl
    have hs := hsub r
    cases hq : s2.heap.firstOfType r [.Subproof] with
    | none =>
      rw [hq] at hs hv
      refine key _ _ ?_ ?_ hv
      · unfold Rails.subproof; rw [← hs]; rfl
      · unfold Rails.subproof; rw [← hs]; rfl
    | some p =>
      obtain ⟨q, i⟩ := p
      rw [hq] at hs hv
      dsimp only at hv
      have hs2 := hst q
      have hany : ((h.children q).any fun c => (h.get c).cls = .Step) =
          ((h.children q).find? fun x => (h.get x).cls = .Step).isSome := by
        rw [Bool.eq_iff_iff, List.find?_isSome, List.any_eq_true]
      cases hq2 : s2.heap.firstOfType q [.Step] with
      | none =>
        rw [hq2] at hs2 hv
        refine key _ _ ?_ ?_ hv
        · unfold Rails.subproof; rw [← hs]; rfl
        · unfold Rails.subproof
          rw [← hs]
          simp only [Option.map_some, hany, ← hs2]
          rfl
      | some p2 =>
        rw [hq2] at hs2 hv
        refine key _ _ ?_ ?_ hv
        · unfold Rails.subproof; rw [← hs]; rfl
        · unfold Rails.subproof
          rw [← hs]
          simp only [Option.map_some, hany, ← hs2]
          rfl

theorem drop_idx {r : Ref} : ∀ {cs : List Ref} {i : Nat}, cs.idxOf? r = some i →
    cs.dropWhile (· ≠ r) = cs.drop i ∧ i < cs.length
  | [], _, hi => by cases hi
  | c :: cs, i, hi => by
    rw [List.idxOf?_cons] at hi
    by_cases hc : c = r
    · rw [if_pos (by simp [hc])] at hi
      cases hi
      simp [hc]
    · rw [if_neg (by simp [hc])] at hi
      cases hj : cs.idxOf? r with
      | none => rw [hj] at hi; cases hi
      | some j =>
        rw [hj] at hi
        cases hi
        have := drop_idx hj
        rw [List.dropWhile_cons_of_pos (by simpa using hc), this.1]
        simp [this.2]

theorem nextSibling_next {r o} (hv : h.nextSibling r .any = .ok o) : o = Rails.next h r := by
  unfold Heap.nextSibling at hv
  unfold Rails.next
  cases hp : h.parent r with
  | none => rw [hp] at hv; cases hv; rfl
  | some p =>
    rw [hp] at hv
    dsimp only at hv ⊢
    generalize h.children p = cs at hv
    cases hi : cs.idxOf? r with
    | none => rw [hi] at hv; cases hv
    | some i =>
      rw [hi] at hv
      dsimp only at hv
      obtain ⟨e, hl⟩ := drop_idx hi
      rw [e, List.tail_drop, List.head?_drop]
      by_cases hlt : i < cs.length - 1
      · rw [if_pos hlt] at hv
        cases hv; rfl
      · rw [if_neg hlt, List.drop_of_length_le (by omega)] at hv
        cases hv
        rw [List.getElem?_eq_none (by omega)]
        rfl

theorem rail_math {r b s s' c ks} (hk : k.handrails = true) (hf : SameFrame h s.heap)
    (hnext : ∀ y, Rails.next h r = some y → (s.heap.get y).text = (h.get y).text)
    (hn : s.heap.get r = record (Rails.dotless h) r b) (hc : (h.get r).cls = .Math)
    (hv : visit k r s = .ok c s') : Railed k h num ref src r ks c s s' := by
  have hc' : (s.heap.get r).cls = (h.get r).cls := by rw [hn]; rfl
  rw [visit_eq (by rw [hc', hc]; rfl)] at hv
  simp only [visitWith, hk, if_true, hrVisitMath, bind_apply, get_apply, hf.nextSibling] at hv
  have plain : Rails.dotted h r = false → (pure (Cmd.batchDefer (mathItems (s.heap.get r))) : TrM Cmd) s = .ok c s' →
      Railed k h num ref src r ks c s s' := by
    intro hd hv
    cases hv
    rw [hn]
    refine ⟨?_, ?_, rfl, fun x => ⟨(s.heap.get x).types, ?_, fun _ => ?_⟩⟩
    · unfold Rails.opening
      simp only [hc, hd, Bool.false_eq_true, if_false, List.nil_append, mathItems, Cmd.text, List.flatMap_cons, List.flatMap_nil, nodeTag_text, flat_nl,
        defer_text, List.append_nil]
      rfl
    · unfold shutR
      simp only [hc]
      closers hc
    · rw [hd]; simp
    · simp [lastOf, hc]
  cases hs : h.nextSibling r .any with
  | error e => rw [hs] at hv; cases hv
  | ok o =>
    rw [hs] at hv
    have ho := nextSibling_next hs
    subst ho
    simp only [lift, pure_apply] at hv
    cases hx : Rails.next h r with
    | none =>
      rw [hx] at hv
      exact plain (by unfold Rails.dotted; rw [hx]; simp) hv
    | some x =>
      rw [hx] at hv
      dsimp only at hv
      have hi : s.heap.isInst x .Text = (h.get x).cls.isSub .Text := by unfold Heap.isInst; rw [hf.cls]
      have ht := hnext x hx
      rw [hi, ht] at hv
      have hd : Rails.dotted h r = ((h.get x).cls.isSub .Text && (h.get x).text.head? == some '.') := by
        unfold Rails.dotted; rw [hx]; simp [hc]
      cases hb : (h.get x).cls.isSub .Text with
      | false =>
        rw [hb] at hv
        exact plain (by rw [hd, hb]; rfl) hv
      | true =>
        rw [hb, if_pos rfl] at hv
        rw [hb, Bool.true_and] at hd
        cases hw : (h.get x).text with
        | nil =>
          rw [hw] at hv hd
          exact plain hd hv
        | cons ch rest =>
          rw [hw] at hv hd
          by_cases hch : ch = '.'
          · subst hch
            have hd' : Rails.dotted h r = true := by rw [hd]; rfl
            simp only [assign, modify_apply, bind_apply] at hv
            cases hv
            rw [hn]
            refine ⟨?_, ?_, rfl, fun y => ⟨(s.heap.get y).types, ?_, fun _ => ?_⟩⟩
            · unfold Rails.opening
              simp only [hc, hd', if_true, mathItems, Cmd.text, List.flatMap_cons, List.flatMap_nil, nodeTag_text,
                flat_nl, defer_text, List.append_nil, manual_text, after_nl, List.append_assoc]
              rfl
            · unfold shutR
              simp only [hc]
              closers hc
            · dsimp only
              rw [hd', hx]
              rw [Heap.get_update, Heap.get_update]
              by_cases e1 : y = x
              · subst e1
                rw [if_pos rfl]
                by_cases e2 : y = r
                · subst e2
                  rw [if_pos rfl]
                  simp [ht, hw]
                · rw [if_neg e2]
                  simp [ht, hw, e2]
              · rw [if_neg e1]
                have e1' : x ≠ y := fun e => e1 e.symm
                by_cases e2 : y = r
                · subst e2
                  rw [if_pos rfl]
                  simp [e1']
                · rw [if_neg e2]
                  simp [e1', e2]
            · simp [lastOf, hc]
          · have hd' : Rails.dotted h r = false := by rw [hd]; simp [hch]
            refine plain hd' ?_
            generalize hg : ch :: rest = w at hv
            split at hv
            · exact absurd (List.cons.inj hg).1 hch
            · exact hv

theorem rail_mathblock {r b s s' c ks} (hk : k.handrails = true) (hf : SameFrame h s.heap) (N : Named k h num ref r)
    (hn : s.heap.get r = record (Rails.dotless h) r b) (hc : (h.get r).cls = .MathBlock)
    (hv : visit k r s = .ok c s') : Railed k h num ref src r ks c s s' := by
  have hc' : (s.heap.get r).cls = (h.get r).cls := by rw [hn]; rfl
  rw [visit_eq (by rw [hc', hc]; rfl)] at hv
  simp only [visitWith, hk, if_true, hrVisitMathBlock, node, bind_apply, gets_apply, hn, rail_from] at hv
  have hlab : ∀ {t s1}, mathBlockLabel k r s = .ok t s1 → s1 = s ∧
      t = if (h.get r).nonum then "Equation".toList else strip ("Equation ".toList ++ ref r) := by
    intro t s1 h1
    simp only [mathBlockLabel, node, bind_apply, gets_apply, hn] at h1
    rw [show (record (Rails.dotless h) r b).nonum = (h.get r).nonum from rfl] at h1
    cases hno : (h.get r).nonum with
    | true =>
      rw [hno, if_pos rfl] at h1
      cases h1
      exact ⟨rfl, rfl⟩
    | false =>
      rw [hno, if_neg (by decide)] at h1
      obtain ⟨t2, s2, h2, h3⟩ := bindOk h1
      obtain ⟨rfl, rfl⟩ := reftext_named N hf h2
      cases h3
      exact ⟨rfl, rfl⟩
  cases hh : mathBlockLabel k r s with
  | err e s2 => rw [hh] at hv; cases hv
  | ok t s2 =>
    rw [hh] at hv
    obtain ⟨rfl, rfl⟩ := hlab hh
    cases hv
    refine ⟨?_, ?_, .same rfl (by rw [hc]; decide) (by rw [hc]; decide)⟩
    · unfold Rails.opening
      simp only [hc, Cmd.text, List.flatMap_append, List.flatMap_cons, List.flatMap_nil, replace_text, linkOpt_as, text_text,
        defer_text, List.append_nil, List.append_assoc, List.cons_append]
      rfl
    · unfold shutR
      simp only [hc, Cmd.closers, closersOf, List.filterMap_append, List.cons_append, List.filterMap_cons, replace_deferred,
        closing_line, text_deferred, defer_deferred, List.filterMap_nil]
      rfl

/-! ## The map -/

theorem circles_text {ids ls} : ∀ {i cs}, minimapCircles h ids i ls = .ok cs →
    cs = (ls.zipIdx i).flatMap fun p => Rails.circles h ids p.1 p.2 := by
  induction ls with
  | nil => intro i cs hv; cases hv; rfl
  | cons x ls ih =>
    intro i cs hv
    rw [minimapCircles] at hv
    rw [List.zipIdx_cons, List.flatMap_cons]
    have hT : ∀ {rest}, minimapCircles h ids (i + 1) ls = .ok rest →
      rest = (ls.zipIdx (i + 1)).flatMap fun p => Rails.circles h ids p.1 p.2 := ih
    generalize (ls.zipIdx (i + 1)).flatMap (fun p => Rails.circles h ids p.1 p.2) = T at hT
    unfold Rails.circles
    dsimp only
    cases ht : (h.get x).target with
    | none => rw [ht] at hv; cases hv
    | str u => rw [ht] at hv; cases hv
    | node y =>
      rw [ht] at hv
      dsimp only at hv ⊢
      have hr : ∀ n, radius (h.get y).cls = some n → Rails.radius (h.get y).cls = n := by
        intro n hn
        cases hc : (h.get y).cls <;> rw [hc] at hn <;> first | (cases hn; rfl) | cases hn
      cases hrad : radius (h.get y).cls with
      | none => rw [hrad] at hv; cases hv
      | some n =>
        rw [hrad] at hv
        dsimp only at hv
        cases hrest : minimapCircles h ids (i + 1) ls with
        | error e => rw [hrest] at hv; cases hv
        | ok rest =>
          rw [hrest] at hv
          cases hv
          rw [hr n hrad, ← hT hrest]
          cases ids <;> simp only [if_true, Bool.false_eq_true, if_false, List.append_assoc, List.cons_append, List.nil_append]

theorem minimap_text {p u s s' l follow ids} (hf : SameFrame h s.heap) (ht : IsTree h p u) (hfuel : u.size < k.fuel)
    (hv : minimap k u.root follow ids s = .ok l s') :
    s' = s ∧ l.flatMap Item.makeText = Rails.minimap h follow ids (Rails.links h [u]) ∧ l.filterMap Item.deferred = [] := by
  unfold minimap at hv
  simp only [bind_apply, get_apply, hf.traverse] at hv
  have ei : (fun r => s.heap.isInst r .Reference) = fun x => (h.get x).cls.isSub .Reference := by
    funext x; unfold Heap.isInst; rw [hf.cls]
  rw [ei, traverse_tree _ ht hfuel] at hv
  dsimp only at hv
  rw [hf.minimapCircles] at hv
  have el : u.pre.filter (fun x => (h.get x).cls.isSub .Reference) = Rails.links h [u] := by
    unfold Rails.links
    rw [Tree.preL, Tree.preL, List.append_nil]
  rw [el] at hv
  cases hm : minimapCircles h ids 0 (Rails.links h [u]) with
  | error e => rw [hm] at hv; cases hv
  | ok cs =>
    rw [hm] at hv
    cases hv
    refine ⟨rfl, ?_, rfl⟩
    rw [circles_text hm]
    have e1 : minimapStart follow (max ((Rails.links h [u]).length * (24 + 8) + 8) 48) =
        Rails.drawing follow (max (32 * (Rails.links h [u]).length + 8) 48) := by
      rw [Nat.mul_comm]
      rfl
    rw [e1]
    simp only [List.flatMap_cons, List.flatMap_nil, manual_text, text_text, line_nl, List.append_nil, join_eq, Rails.minimap,
      List.append_assoc]
    rw [← line_nl (Render.endTag "div".toList)]
    rfl

theorem headed_snoc {r s s' l} {i j y : Item} {back : List Item}
    (hv : wrapHeading k r (j :: i :: (back ++ [y])) s = .ok l s') :
    ∃ L, wrapHeading k r (j :: i :: back) s = .ok L s' ∧ l = L ++ [y] := by
  unfold wrapHeading at hv ⊢
  obtain ⟨nd, s1, h1, hv⟩ := bindOk hv
  obtain ⟨t, s2, h2, hv⟩ := bindOk hv
  cases hv
  refine ⟨wrapItem 1 (j :: i :: back) ["heading"] t (linkOpt nd), ?_, ?_⟩
  · simp only [bind_apply, h1, h2]
    rfl
  · unfold wrapItem
    simp

theorem rail_contents {r b s s' c ks p} (hk : k.handrails = true) (hf : SameFrame h s.heap) (N : Named k h num ref r)
    (ht : IsTree h p (.node r ks)) (hfuel : (Tree.node r ks).size < k.fuel)
    (hn : s.heap.get r = record (Rails.dotless h) r b) (hc : (h.get r).cls = .Contents)
    (hv : visit k r s = .ok c s') : Railed k h num ref src r ks c s s' := by
  have hc' : (s.heap.get r).cls = (h.get r).cls := by rw [hn]; rfl
  rw [visit_eq (by rw [hc', hc]; rfl)] at hv
  simp only [visitWith, hk, if_true, hrVisitContents, node, bind_apply, gets_apply, hn] at hv
  have e : contentsItems (record (Rails.dotless h) r b) = .openTag { classes := ["toc"] } ::
    heading 3 "Table of Contents".toList :: ([.openTag { classes := ["toc-wrapper"] }] ++
      [.openTag (nodeTag (record (Rails.dotless h) r b) "ul")]) := rfl
  rw [e] at hv
  generalize hl : Item.openTag (nodeTag (record (Rails.dotless h) r b) "ul") = last at hv
  cases hh : wrapHeading k r (.openTag { classes := ["toc"] } ::
    heading 3 "Table of Contents".toList :: ([.openTag { classes := ["toc-wrapper"] }] ++ [last])) s with
  | err e s2 => rw [hh] at hv; cases hv
  | ok l s2 =>
    rw [hh] at hv
    obtain ⟨L, hL, rfl⟩ := headed_snoc hh
    obtain ⟨rfl, hT, hD⟩ := headed_read hf N (by rw [hn]) hL
    dsimp only at hv
    cases hm : minimap k r "mouse".toList false s2 with
    | err e s3 => rw [hm] at hv; cases hv
    | ok m s3 =>
      rw [hm] at hv
      obtain ⟨rfl, hMT, hMD⟩ := minimap_text (u := .node r ks) hf ht hfuel hm
      cases hv
      have hlt : last.makeText = Render.line (Render.nodeTag h r "ul") := by
        rw [← hl, nodeTag_text, line_nl]; rfl
      have hld : last.deferred = some (Render.line (Render.endTag "ul")) := by
        rw [← hl, nodeTag_deferred, line_nl]
      rw [List.dropLast_concat, List.getLast?_concat]
      refine ⟨?_, ?_, .same rfl (by rw [hc]; decide) (by rw [hc]; decide)⟩
      · unfold Rails.opening
        simp only [hc, Cmd.text, List.flatMap_append, hT, hMT, hlt, Option.toList_some, List.flatMap_cons, List.flatMap_nil,
          args_text, heading_text, line_nl, natStr_3, List.append_nil, List.append_assoc]
        rfl
      · unfold shutR
        simp only [hc, Cmd.closers, closersOf, List.filterMap_append, hD, hMD, Option.toList_some, List.filterMap_cons, hld]
        closers hc

/-! ## The manuscript -/

theorem find_roots (ks : List Tree) (q : Ref → Bool) : (ks.map Tree.root).find? q = (ks.find? fun t => q t.root).map Tree.root := by
  induction ks with
  | nil => rfl
  | cons t ts ih =>
    rw [List.map_cons, List.find?_cons, List.find?_cons]
    cases q t.root
    · exact ih
    · rfl

theorem forest_mem {p : Option Ref} {u : Tree} : ∀ {ts : List Tree}, IsForest h p ts → u ∈ ts → IsTree h p u ∧ u.size ≤ Tree.sizeL ts
  | t :: ts, T, hm => by
    rw [IsForest] at T
    rw [Tree.sizeL]
    rcases List.mem_cons.mp hm with rfl | hm
    · exact ⟨T.1, by omega⟩
    · obtain ⟨a, b⟩ := forest_mem T.2 hm
      exact ⟨a, by omega⟩

theorem rail_manuscript {r b s s' c ks p} (hk : k.handrails = true) (hf : SameFrame h s.heap)
    (ht : IsTree h p (.node r ks)) (hfuel : (Tree.node r ks).size < k.fuel)
    (hsrc : src = if k.addSource then some (h.get s.tree).src else none)
    (hn : s.heap.get r = record (Rails.dotless h) r b) (hc : (h.get r).cls = .Manuscript)
    (hv : visit k r s = .ok c s') : Railed k h num ref src r ks c s s' := by
  have hc' : (s.heap.get r).cls = (h.get r).cls := by rw [hn]; rfl
  have hs0 : (s.heap.get s.tree).src = (h.get s.tree).src := (congrArg NodeRec.src (hf.2 s.tree) :)
  rw [visit_eq (by rw [hc', hc]; rfl)] at hv
  simp only [visitWith, hk, if_true, hrVisitManuscript, bind_apply, get_apply, hn] at hv
  rw [IsTree] at ht
  obtain ⟨_, hkids, hF⟩ := ht
  rw [Tree.size] at hfuel
  -- the items before the title
  obtain ⟨i1, h1⟩ : ∃ i, i = Item.openTag { tag := "body".toList } := ⟨_, rfl⟩
  obtain ⟨i2, h2⟩ : ∃ i, i = Item.openTag { classes := ["manuscriptwrapper".toList] } := ⟨_, rfl⟩
  obtain ⟨i3, h3⟩ : ∃ i, i = Item.openTag (nodeTag (record (Rails.dotless h) r b)) := ⟨_, rfl⟩
  obtain ⟨i4, h4⟩ : ∃ i, i = Item.openTag { tag := "section".toList, classes := ["level-1".toList] } := ⟨_, rfl⟩
  obtain ⟨T, hTi, hTt, hTd⟩ : ∃ T, (if (record (Rails.dotless h) r b).title ≠ [] then
      wrapItem 4 (manuscriptItems (record (Rails.dotless h) r b)) ["heading".toList] "Title".toList .on
      else manuscriptItems (record (Rails.dotless h) r b)) = i1 :: i2 :: i3 :: i4 :: T ∧
      T.flatMap Item.makeText = (if (h.get r).title = [] then [] else
        Rails.headed "Title" (some true) (Render.line (Render.element "h1" [] (h.get r).title))) ∧
      T.filterMap Item.deferred = [] := by
    have e : (record (Rails.dotless h) r b).title = (h.get r).title := rfl
    unfold manuscriptItems
    rw [e, ← h1, ← h2, ← h3, ← h4]
    by_cases htt : (h.get r).title = []
    · rw [if_neg (fun x => x htt), if_neg (fun x => x htt), if_pos htt]
      exact ⟨[], rfl, rfl, rfl⟩
    · rw [if_pos htt, if_pos htt, if_neg htt]
      refine ⟨wrapItem 0 [heading 1 (h.get r).title] ["heading".toList] "Title".toList .on, ?_, ?_, ?_⟩
      · rfl
      · have := headed_text (heading 1 (h.get r).title) [] [] "Title".toList .on
        rw [List.flatMap_nil, List.nil_append, List.append_nil, heading_text, natStr_1] at this
        exact this
      · exact (wrap_deferred (heading 1 (h.get r).title) [] [] ["heading".toList] "Title".toList .on true none).trans rfl
  rw [hTi] at hv
  have t1 : i1.makeText = Render.line (Render.tag "body" [] []) := by rw [h1, args_text, line_nl]
  have t2 : i2.makeText = Render.line (Render.tag "div" [] ["manuscriptwrapper"]) := by rw [h2, args_text, line_nl]
  have t3 : i3.makeText = Render.line (Render.nodeTag h r "div") := by rw [h3, nodeTag_text, line_nl]; rfl
  have t4 : i4.makeText = Render.line (Render.tag "section" [] ["level-1"]) := by rw [h4, args_text, line_nl]
  have d1 : i1.deferred = some (Render.line (Render.endTag "body")) := by rw [h1, args_deferred, line_nl]
  have d2 : i2.deferred = some (Render.line (Render.endTag "div")) := by rw [h2, args_deferred, line_nl]
  have d3 : i3.deferred = some (Render.line (Render.endTag "div")) := by rw [h3, nodeTag_deferred, line_nl]
  have d4 : i4.deferred = some (Render.line (Render.endTag "section")) := by rw [h4, args_deferred, line_nl]
  have hfirst : (s.heap.firstOfType r [.Contents]).map Prod.fst =
      (ks.find? fun t => (h.get t.root).cls = .Contents).map Tree.root := by
    rw [firstOfType_find _ _ _ (by intro d; cases d <;> rfl), hf.children, hkids, find_roots]
    simp only [hf.cls]
  have hshut : shutR h r = [Render.line (Render.endTag "section"), Render.line (Render.endTag "div"),
      Render.line (Render.endTag "div"), Render.line (Render.endTag "body")] := by
    unfold shutR shut; simp only [hc]
  -- what is written, with and without the source and the map
  have hmap : ∀ items : List Item, (match s.heap.firstOfType r [.Contents] with
      | none => (pure (.batchDefer items) : TrM Cmd)
      | some (toc, _) => do
        let m ← minimap k toc "scroll".toList true
        pure (.batchDefer (items.take 3 ++ [Item.text "<div class=\"float-minimap-wrapper\">".toList] ++ m
          ++ [Item.text "</div>".toList] ++ items.drop 3))) s = .ok c s' → s' = s ∧
      c.text = (items.take 3).flatMap Item.makeText ++ Rails.map h ks ++ (items.drop 3).flatMap Item.makeText ∧
      c.closers = (items.filterMap Item.deferred).reverse := by
    intro items hv
    unfold Rails.map
    cases hq : s.heap.firstOfType r [.Contents] with
    | none =>
      rw [hq] at hv hfirst
      cases hv
      have : ks.find? (fun t => (h.get t.root).cls = .Contents) = none := by
        cases hz : ks.find? (fun t => (h.get t.root).cls = .Contents) with
        | none => rfl
        | some u => rw [hz] at hfirst; cases hfirst
      rw [this]
      refine ⟨rfl, ?_, rfl⟩
      dsimp only
      rw [List.append_nil, ← List.flatMap_append, List.take_append_drop]
      rfl
    | some q =>
      obtain ⟨x, i⟩ := q
      rw [hq] at hv hfirst
      dsimp only at hv
      cases hz : ks.find? (fun t => (h.get t.root).cls = .Contents) with
      | none => rw [hz] at hfirst; cases hfirst
      | some u =>
        rw [hz] at hfirst
        have hxu : x = u.root := Option.some.inj hfirst
        subst hxu
        obtain ⟨hu, hsz⟩ := forest_mem hF (List.mem_of_find?_eq_some hz)
        obtain ⟨m, s1, hm, hv2⟩ := bindOk hv
        obtain ⟨rfl, hMT, hMD⟩ := minimap_text hf hu (by omega) hm
        cases hv2
        refine ⟨rfl, ?_, ?_⟩
        · dsimp only
          simp only [Cmd.text, List.flatMap_append, List.flatMap_cons, List.flatMap_nil, hMT, text_text, List.append_nil,
            List.append_assoc]
        · have : (items.filterMap Item.deferred) = (items.take 3).filterMap Item.deferred ++ (items.drop 3).filterMap Item.deferred := by
            rw [← List.filterMap_append, List.take_append_drop]
          rw [this]
          simp only [Cmd.closers, closersOf, List.filterMap_append, hMD, List.filterMap_cons, List.filterMap_nil, text_deferred,
            List.nil_append, List.append_assoc]
  by_cases ha : k.addSource = true
  · rw [if_pos ha] at hv hsrc
    obtain ⟨rfl, hT, hD⟩ := hmap _ hv
    refine ⟨?_, ?_, .same rfl (by rw [hc]; decide) (by rw [hc]; decide)⟩
    · unfold Rails.opening
      rw [hT]
      simp only [hc, hsrc, insertAt, List.take_succ_cons, List.take_zero, List.drop_succ_cons, List.drop_zero, List.cons_append,
        List.nil_append, List.flatMap_cons, List.flatMap_nil, t1, t2, t3, t4, hTt, sourceDiv, text_text, hs0, List.append_nil,
        List.append_assoc]
    · rw [hD, hshut]
      simp only [insertAt, List.take_succ_cons, List.take_zero, List.drop_succ_cons, List.drop_zero, List.cons_append,
        List.nil_append, List.filterMap_cons, d1, d2, d3, d4, hTd, sourceDiv, text_deferred]
      rfl
  · rw [if_neg ha] at hv hsrc
    obtain ⟨rfl, hT, hD⟩ := hmap _ hv
    refine ⟨?_, ?_, .same rfl (by rw [hc]; decide) (by rw [hc]; decide)⟩
    · unfold Rails.opening
      rw [hT]
      simp only [hc, hsrc, List.take_succ_cons, List.take_zero, List.drop_succ_cons, List.drop_zero,
        List.flatMap_cons, List.flatMap_nil, t1, t2, t3, t4, hTt, List.append_nil, List.append_assoc]
    · rw [hD, hshut]
      simp only [List.filterMap_cons, d1, d2, d3, d4, hTd]
      rfl

end Tr
end RSM
