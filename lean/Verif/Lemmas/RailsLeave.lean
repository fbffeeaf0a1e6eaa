import Verif.Lemmas.RailsVisit3

/-! # Lemmas: what is written after the children of nodes with handrails -/

namespace RSM
namespace Tr
open PyM

variable {k : Conf} {h : Heap} {num : Ref → Option Str} {ref : Ref → Str} {src : Option Str}

/-- Whose method leaves nodes of a class. -/
def railLeaver : Cls → Cls
  | .Abstract => .Abstract
  | .MathBlock => .MathBlock
  | .Paragraph | .Caption => .Paragraph
  | .Proof => .Proof
  | .Author => .Author
  | .Theorem | .Lemma | .Corollary | .Example | .Exercise | .Proposition | .Problem | .Porism | .Remark
  | .Definition => .Theorem
  | .Sketch => .Sketch
  | .Subproof => .Subproof
  | .Step => .Step
  | .Math => .Math
  | _ => .Node

theorem railLeaver_eq (c : Cls) : methodClass (leaveNames true) c = .ok (railLeaver c) := by
  cases c <;> rfl

/-- The node is a display formula that is followed by something, inside the paragraph `x`. -/
def railMarks (h : Heap) (r x : Ref) : Bool :=
  decide ((h.get r).cls = .MathBlock) && (decide (h.parent r = some x) && Rails.resumed h r)

/-- What leaving a node does. -/
structure Departed (h : Heap) (num : Ref → Option Str) (r : Ref) (d : Cmd) (s s' : TrState) : Prop where
  text : d.text = Rails.closing h num r
  next : s'.heap.next = s.heap.next
  heap : ∀ x, s'.heap.get x = { s.heap.get x with mustCloseP := (s.heap.get x).mustCloseP || railMarks h r x }

theorem Departed.same {r d s s'} (ht : d.text = Rails.closing h num r) (hc : (h.get r).cls ≠ .MathBlock)
    (e : s'.heap = s.heap) : Departed h num r d s s' :=
  ⟨ht, by rw [e], fun x => by rw [e]; simp [railMarks, hc]⟩

theorem number_text (o : Option Str) (b : Bool) : (hrInfoZoneNumber o b).makeText = Rails.box "hr-info-zone"
    (Rails.numberInfo o (if b then "<div class=\"step-number\"><p>⟨".toList else "<div class=\"eqn-number\"><p>(".toList)
      (if b then "⟩</p></div>".toList else ")</p></div>".toList)) := by
  unfold hrInfoZoneNumber
  rw [box_text]
  unfold Rails.numberInfo
  cases o with
  | none => rfl
  | some n => cases b <;> rfl

theorem leave_pop {s : TrState} {c0 : Cmd} {ds} (hd : s.deferred = c0 :: ds) :
    leaveNode s = .ok c0 { s with deferred := ds } := by
  simp only [leaveNode, bind_apply, get_apply, hd]; rfl

theorem closer_items {c0 : Cmd} {L : List Str} (hC : c0.Closer) (hc0 : c0.allItems.map Item.makeText = L) {l} {s1 s2 : TrState}
    (h1 : itemsOf c0 s1 = .ok l s2) : s2 = s1 ∧ c0 = .batch l ∧ l = L.map Item.text := by
  rcases hC with ⟨t, rfl⟩ | ⟨l', rfl⟩
  · cases h1
  · cases h1
    refine ⟨rfl, rfl, ?_⟩
    rw [← hc0, Cmd.allItems, List.map_map, List.map_map]
    exact (List.map_congr_left fun _ _ => rfl)

theorem texts_flat (a : List Str) : (a.map Item.text).flatMap Item.makeText = a.flatten := by
  rw [List.flatMap_def, List.map_map]
  congr 1
  exact (List.map_congr_left fun _ _ => rfl).trans (List.map_id a)

theorem before_last (a : List Str) (b : Str) (x : Item) :
    Cmd.text (.batch (insertBeforeLast x ((a ++ [b]).map Item.text))) = a.flatten ++ (x.makeText ++ b) := by
  have e : insertBeforeLast x ((a ++ [b]).map Item.text) = a.map Item.text ++ [x, .text b] := by
    simp [insertBeforeLast, insertAt]
  rw [e, Cmd.text, List.flatMap_append, texts_flat]
  simp only [List.flatMap_cons, List.flatMap_nil, List.append_nil, text_text]

theorem leave_info_railed {r s s' c0 ds d} (hd : s.deferred = c0 :: ds) (hC : c0.Closer)
    (hc0 : c0.allItems.map Item.makeText = shutR h r) (hm : (h.get r).cls ≠ .MathBlock)
    (hs : Rails.closing h num r = Rails.stop Rails.noInfo ∧
      shutR h r = [Render.line (Render.endTag "div"), Render.line (Render.endTag "div")])
    (hl : leaveInfo (hrInfoZoneIcon none) s = .ok d s') : Departed h num r d s s' := by
  unfold leaveInfo at hl
  rw [bind_apply, leave_pop hd] at hl
  dsimp only at hl
  obtain ⟨l, s2, h1, h2⟩ := bindOk hl
  cases h2
  obtain ⟨rfl, -, rfl⟩ := closer_items hC hc0 h1
  refine Departed.same ?_ hm rfl
  rw [hs.1, hs.2]
  unfold Rails.stop
  show ([_, hrInfoZoneIcon none, _].flatMap Item.makeText) = _
  simp only [List.flatMap_cons, List.flatMap_nil, List.append_nil, noInfo_text, List.append_assoc, text_text]

theorem closing_para {r} (hc : (h.get r).cls = .Paragraph ∨ (h.get r).cls = .Caption)
    (hcap : (h.get r).cls = .Caption → h.parent r ≠ none) :
    Cmd.text (.batch (insertBeforeLast (hrInfoZoneIcon none)
      (((if Render.interrupted h r then ["</p>".toList] else []) ++ shutR h r).map Item.text))) =
        Rails.closing h num r := by
  rcases hc with hc | hc
  · have : (h.children r).any (fun c => decide ((h.get c).cls = .MathBlock)) = false →
        Render.interrupted h r = false := by
      intro h1
      unfold Render.interrupted
      rw [List.any_eq_false] at h1 ⊢
      exact fun y hy => h1 y (List.dropLast_subset _ hy)
    unfold Rails.closing shutR Rails.stop
    dsimp only
    rw [hc]
    dsimp only
    rw [show ∀ (a b : List Str) (e : Str), a ++ (b ++ [e, e]) = (a ++ (b ++ [e])) ++ [e] by
      intro a b e; simp, before_last, noInfo_text]
    generalize Render.line (Render.endTag "div".toList) = w
    generalize Rails.box "hr-info-zone".toList Rails.noInfo = v
    generalize "</p>\n".toList = u
    generalize "</p>".toList = u'
    cases h1 : (h.children r).any (fun c => decide ((h.get c).cls = .MathBlock)) with
    | true =>
      cases Render.interrupted h r <;> simp
    | false =>
      rw [this h1]
      simp
  · unfold Rails.closing shutR shut
    dsimp only
    rw [hc]
    dsimp only
    cases hp : h.parent r with
    | none => exact absurd hp (hcap hc)
    | some p =>
      dsimp only
      rw [before_last, noInfo_text]
      generalize Rails.box "hr-info-zone".toList Rails.noInfo = v
      generalize "</p>".toList = u'
      cases Render.interrupted h r <;>
        simp only [Bool.false_eq_true, if_false, if_true, List.flatten_cons, List.flatten_nil, List.append_nil,
          List.append_assoc, List.nil_append]

theorem leave_para_railed {r s s' c0 ds d} (hd : s.deferred = c0 :: ds) (hC : c0.Closer)
    (hc0 : c0.allItems.map Item.makeText = shutR h r)
    (hc : (h.get r).cls = .Paragraph ∨ (h.get r).cls = .Caption)
    (hcap : (h.get r).cls = .Caption → h.parent r ≠ none)
    (hint : (s.heap.get r).mustCloseP = Render.interrupted h r)
    (hl : (do let c ← leaveParagraph r; infoBeforeLast c : TrM Cmd) s = .ok d s') : Departed h num r d s s' := by
  unfold leaveParagraph at hl
  simp only [bind_apply, leave_pop hd, node, gets_apply, hint] at hl
  have hm : (h.get r).cls ≠ .MathBlock := by rcases hc with e | e <;> rw [e] <;> decide
  have key := closing_para (num := num) hc hcap
  cases hi : Render.interrupted h r with
  | true =>
    simp only [hi, if_true] at hl key
    cases h1 : itemsOf c0 { s with deferred := ds } with
    | err e s2 => rw [bind_apply, h1] at hl; cases hl
    | ok l s2 =>
      rw [bind_apply, h1] at hl
      obtain ⟨rfl, rfl, rfl⟩ := closer_items hC hc0 h1
      cases hl
      exact Departed.same key hm rfl
  | false =>
    simp only [hi, Bool.false_eq_true, if_false, pure_apply, infoBeforeLast, bind_apply] at hl key
    cases h1 : itemsOf c0 { s with deferred := ds } with
    | err e s2 => rw [h1] at hl; cases hl
    | ok l s2 =>
      rw [h1] at hl
      obtain ⟨rfl, rfl, rfl⟩ := closer_items hC hc0 h1
      cases hl
      exact Departed.same key hm rfl

theorem leave_plain_railed {r s s' c0 ds d} (hd : s.deferred = c0 :: ds)
    (hc0 : c0.allItems.map Item.makeText = shutR h r) (hcl : Rails.closing h num r = (shutR h r).flatten)
    (hm : (h.get r).cls ≠ .MathBlock) (hl : leaveNode s = .ok d s') : Departed h num r d s s' := by
  rw [leave_pop hd] at hl
  cases hl
  refine Departed.same ?_ hm rfl
  rw [text_flat, hc0, hcl]

theorem leave_step_railed {r s s' c0 ds d} (hf : SameFrame h s.heap) (N : Named k h num ref r)
    (hd : s.deferred = c0 :: ds) (hC : c0.Closer) (hc0 : c0.allItems.map Item.makeText = shutR h r)
    (hc : (h.get r).cls = .Step) (hl : hrLeaveStep k r s = .ok d s') : Departed h num r d s s' := by
  unfold hrLeaveStep at hl
  rw [bind_apply, leave_pop hd] at hl
  dsimp only at hl
  obtain ⟨l, s2, h1, h2⟩ := bindOk hl
  obtain ⟨rfl, -, rfl⟩ := closer_items hC hc0 h1
  obtain ⟨o, s3, h3, h4⟩ := bindOk h2
  obtain ⟨rfl, rfl⟩ := fullNumber_named N (s := { s with deferred := ds }) hf h3
  cases h4
  refine Departed.same ?_ (by rw [hc]; decide) rfl
  have e1 : shutR h r = [Render.line (Render.endTag "div"), Render.line (Render.endTag "div")] := by
    unfold shutR; dsimp only; rw [hc]
  have e2 : Rails.closing h num r = Rails.stop (Rails.numberInfo (num r) "<div class=\"step-number\"><p>⟨".toList
      "⟩</p></div>".toList) := by
    unfold Rails.closing; rw [hc]
  rw [e1, e2]
  unfold Rails.stop
  show ([_, hrInfoZoneNumber (num r) true, _].flatMap Item.makeText) = _
  simp only [List.flatMap_cons, List.flatMap_nil, List.append_nil, number_text, List.append_assoc, text_text, if_true]

theorem leave_author_railed {r s s' c0 ds d} (hd : s.deferred = c0 :: ds) (hC : c0.Closer)
    (hc0 : c0.allItems.map Item.makeText = shutR h r)
    (hc : (h.get r).cls = .Author) (hl : (do let c ← leaveNode; infoBeforeLast c : TrM Cmd) s = .ok d s') :
    Departed h num r d s s' := by
  rw [bind_apply, leave_pop hd] at hl
  dsimp only [infoBeforeLast] at hl
  obtain ⟨l, s2, h1, h2⟩ := bindOk hl
  obtain ⟨rfl, rfl, rfl⟩ := closer_items hC hc0 h1
  cases h2
  refine Departed.same ?_ (by rw [hc]; decide) rfl
  have e1 : shutR h r = [Render.line (Render.endTag "div")] ++ [Render.line (Render.endTag "div")] := by
    unfold shutR; dsimp only; rw [hc]; rfl
  have e2 : Rails.closing h num r = Rails.stop Rails.noInfo := by
    unfold Rails.closing; rw [hc]
  rw [e1, e2]
  refine (before_last ..).trans ?_
  rw [noInfo_text]
  unfold Rails.stop
  simp only [List.flatten_cons, List.flatten_nil, List.append_nil, List.append_assoc]

theorem leave_math_railed {r s s' c0 ds d} (hd : s.deferred = c0 :: ds) (hC : c0.Closer)
    (hc0 : c0.allItems.map Item.makeText = shutR h r) (hc : (h.get r).cls = .Math)
    (hdot : (s.heap.get r).followedByDot = Rails.dotted h r)
    (hl : hrLeaveMath r s = .ok d s') : Departed h num r d s s' := by
  unfold hrLeaveMath at hl
  simp only [bind_apply, leave_pop hd, node, gets_apply, hdot] at hl
  have e2 : Rails.closing h num r = (shutR h r).flatten ++
      (if Rails.dotted h r then "<span>.</span></span>".toList else []) := by
    unfold Rails.closing shutR shut; dsimp only; rw [hc]
    dsimp only
    generalize (if Rails.dotted h r then "<span>.</span></span>".toList else []) = w
    simp only [List.flatten_cons, List.flatten_nil, List.append_nil, List.append_assoc]
  have hm : (h.get r).cls ≠ .MathBlock := by rw [hc]; decide
  cases hi : Rails.dotted h r with
  | true =>
    simp only [hi, if_true, bind_apply] at hl e2
    cases h1 : itemsOf c0 { s with deferred := ds } with
    | err e s2 => rw [h1] at hl; cases hl
    | ok l s2 =>
      rw [h1] at hl
      obtain ⟨rfl, rfl, rfl⟩ := closer_items hC hc0 h1
      cases hl
      refine Departed.same ?_ hm rfl
      rw [e2]
      show (List.map Item.text (shutR h r) ++ [Item.text "<span>.</span>".toList, Item.text "</span>".toList]).flatMap
        Item.makeText = _
      rw [List.flatMap_append, texts_flat]
      congr 1
  | false =>
    simp only [hi, Bool.false_eq_true, if_false, pure_apply, List.append_nil] at hl e2
    cases hl
    refine Departed.same ?_ hm rfl
    rw [text_flat, hc0, e2]

theorem leave_abstract_railed {r s s' c0 ds d} (hf : SameFrame h s.heap) (hd : s.deferred = c0 :: ds)
    (hc0 : c0.allItems.map Item.makeText = shutR h r)
    (hc : (h.get r).cls = .Abstract) (hl : leaveAbstract r s = .ok d s') : Departed h num r d s s' := by
  unfold leaveAbstract at hl
  simp only [bind_apply, node, gets_apply, leave_pop hd] at hl
  have e1 : (s.heap.get r).keywords = (h.get r).keywords := (congrArg NodeRec.keywords (hf.2 r) :)
  have e2 : (s.heap.get r).msc = (h.get r).msc := (congrArg NodeRec.msc (hf.2 r) :)
  have e3 : d.allItems = abstractParagraphs (s.heap.get r) ++ c0.allItems := by
    cases c0 <;> cases hl <;> rfl
  refine Departed.same ?_ (by rw [hc]; decide) (by cases hl; rfl)
  rw [text_flat]
  rw [e3, List.map_append, List.flatten_append, hc0, ← List.flatMap_def, abstractParagraphs_eq, e1, e2]
  unfold Rails.closing Render.closing shutR shut
  dsimp only
  rw [hc]
  simp only [List.flatten_cons, List.flatten_nil, List.append_nil, List.append_assoc]

theorem leave_mathblock_railed {r s s' c0 ds d} (hf : SameFrame h s.heap) (N : Named k h num ref r)
    (hd : s.deferred = c0 :: ds) (hC : c0.Closer) (hc0 : c0.allItems.map Item.makeText = shutR h r)
    (hc : (h.get r).cls = .MathBlock)
    (hnext : ∀ p, h.parent r = some p → hasNext h r = Render.followed h r)
    (hl : hrLeaveMathBlock k r s = .ok d s') : Departed h num r d s s' := by
  have e1 : shutR h r = ["\n$$".toList, Render.line (Render.endTag "div"), Render.line (Render.endTag "div")] := by
    unfold shutR; dsimp only; rw [hc]
  have e2 : Rails.closing h num r = "\n$$".toList ++ (Render.line (Render.endTag "div") ++
      (Rails.box "hr-info-zone" (Rails.numberInfo (num r) "<div class=\"eqn-number\"><p>(".toList ")</p></div>".toList)
      ++ (Render.line (Render.endTag "div") ++ if Rails.resumed h r then "<p>".toList else []))) := by
    unfold Rails.closing Rails.stop; rw [hc]; simp only [List.append_assoc]
  unfold hrLeaveMathBlock at hl
  obtain ⟨c, s1, h1, h2⟩ := bindOk hl
  obtain ⟨o, s2, h3, h4⟩ := bindOk h2
  obtain ⟨l, s3, h5, h6⟩ := bindOk h4
  clear hl h2 h4
  have key : s1.heap.next = s.heap.next ∧ (∀ x, s1.heap.get x =
        { s.heap.get x with mustCloseP := (s.heap.get x).mustCloseP || railMarks h r x }) ∧
      c.Closer ∧ c.allItems.map Item.makeText = shutR h r ++ if Rails.resumed h r then ["<p>".toList] else [] := by
    have none_case : Rails.resumed h r = false → c = c0 → s1 = { s with deferred := ds } →
        s1.heap.next = s.heap.next ∧ (∀ x, s1.heap.get x =
        { s.heap.get x with mustCloseP := (s.heap.get x).mustCloseP || railMarks h r x }) ∧
      c.Closer ∧ c.allItems.map Item.makeText = shutR h r ++ if Rails.resumed h r then ["<p>".toList] else [] := by
      rintro hr rfl rfl
      refine ⟨rfl, fun x => by simp [railMarks, hr], hC, by rw [hc0, hr]; simp⟩
    unfold leaveMathBlock at h1
    simp only [bind_apply, leave_pop hd, get_apply, hf.parent] at h1
    cases hp : h.parent r with
    | none =>
      rw [hp] at h1
      cases h1
      exact none_case (by simp [Rails.resumed, hp]) rfl rfl
    | some p =>
      rw [hp] at h1
      simp only [hf.isInst] at h1
      cases hpi : h.isInst p .BaseParagraph with
      | false =>
        simp only [hpi, Bool.false_eq_true, if_false] at h1
        cases h1
        have hpi' : (h.get p).cls.isSub .BaseParagraph = false := hpi
        exact none_case (by simp [Rails.resumed, hp, hpi']) rfl rfl
      | true =>
        have hpi' : (h.get p).cls.isSub .BaseParagraph = true := hpi
        simp only [hpi, if_true, bind_apply, hf.nextSibling] at h1
        cases hsib : h.nextSibling r .any with
        | error e => rw [hsib] at h1; cases h1
        | ok o =>
          rw [hsib] at h1
          simp only [lift, pure_apply] at h1
          cases o with
          | none =>
            cases h1
            have hfo : Render.followed h r = false := by rw [← hnext p hp]; unfold hasNext; rw [hsib]
            exact none_case (by simp [Rails.resumed, hfo]) rfl rfl
          | some y =>
            have hfo : Render.followed h r = true := by rw [← hnext p hp]; unfold hasNext; rw [hsib]
            have hre : Rails.resumed h r = true := by simp [Rails.resumed, hp, hpi', hfo]
            simp only [bind_apply, assign, modify_apply] at h1
            rcases hC with ⟨t, rfl⟩ | ⟨l', rfl⟩
            · cases h1
            · cases h1
              refine ⟨rfl, fun x => ?_, .inr ⟨l' ++ ["<p>".toList], by simp [List.map_append]⟩, ?_⟩
              · dsimp only
                rw [Heap.get_update]
                by_cases e : x = p
                · subst e
                  rw [if_pos rfl]
                  simp [railMarks, hc, hp, hre]
                · rw [if_neg e]
                  have : h.parent r ≠ some x := by rw [hp]; exact fun e' => e (Option.some.inj e').symm
                  simp [railMarks, this]
              · rw [← hc0, hre]
                simp only [Cmd.allItems, List.map_append, if_true]
                rfl
  obtain ⟨k1, k2, k3, k4⟩ := key
  have hf1 : SameFrame h s1.heap := ⟨k1.trans hf.1, fun x => by
    rw [k2 x]; exact hf.2 x⟩
  obtain ⟨rfl, rfl⟩ := fullNumber_named N hf1 h3
  obtain ⟨rfl, rfl, rfl⟩ := closer_items k3 k4 h5
  cases h6
  refine ⟨?_, k1, k2⟩
  rw [e2, e1]
  show (List.take 2 _ ++ hrInfoZoneNumber (num r) false :: List.drop 2 _).flatMap Item.makeText = _
  rw [List.map_append]
  simp only [List.map_cons, List.map_nil, List.cons_append, List.nil_append, List.take_succ_cons, List.take_zero,
    List.drop_succ_cons, List.drop_zero, List.flatMap_cons, texts_flat, number_text, text_text, Bool.false_eq_true, if_false]
  cases Rails.resumed h r <;> simp only [Bool.false_eq_true, if_false, if_true, List.flatten_cons, List.flatten_nil, List.append_nil]

theorem closing_two {r} {c : Cls} (hc : (h.get r).cls = c) (hm : c ∈ [.Author, .Subproof, .Sketch, .Proof, .Theorem, .Lemma,
      .Corollary, .Example, .Exercise, .Proposition, .Problem, .Porism, .Remark, .Definition]) :
    Rails.closing h num r = Rails.stop Rails.noInfo ∧
    shutR h r = [Render.line (Render.endTag "div"), Render.line (Render.endTag "div")] := by
  unfold Rails.closing shutR
  dsimp only
  rw [hc]
  revert hm
  cases c <;> intro hm <;> first
    | exact ⟨rfl, rfl⟩
    | exact absurd hm (by decide)

theorem closing_rest {r} (hc : (h.get r).cls ∉ [.Author, .Subproof, .Sketch, .Proof, .Theorem, .Lemma,
      .Corollary, .Example, .Exercise, .Proposition, .Problem, .Porism, .Remark, .Definition, .Step, .Math, .MathBlock,
      .Abstract, .Paragraph, .Caption]) :
    Rails.closing h num r = (shutR h r).flatten := by
  by_cases hb : (h.get r).cls ∈ [.Bibliography, .Bibitem, .UnknownBibitem]
  · unfold Rails.closing shutR
    dsimp only
    simp only [List.mem_cons, List.not_mem_nil, or_false] at hb
    rcases hb with e | e | e <;> rw [e] <;> simp only [List.flatten_cons, List.flatten_nil, List.append_nil]
  · have : Rails.closing h num r = Render.closing h r ∧ shutR h r = shut h r := by
      unfold Rails.closing shutR
      dsimp only
      revert hc hb
      cases (h.get r).cls <;> intro hc hb <;> first
        | exact ⟨rfl, rfl⟩
        | exact absurd hc (by decide)
        | exact absurd hb (by decide)
    rw [this.1, this.2]
    refine closing_flat ?_
    simp only [List.mem_cons, List.not_mem_nil, or_false, not_or] at hc ⊢
    tauto

theorem leave_railed {r s s' c0 ds d} (hk : k.handrails = true) (hf : SameFrame h s.heap) (N : Named k h num ref r)
    (hd : s.deferred = c0 :: ds) (hC : c0.Closer) (hc0 : c0.allItems.map Item.makeText = shutR h r)
    (hint : (h.get r).cls = .Paragraph ∨ (h.get r).cls = .Caption →
      (s.heap.get r).mustCloseP = Render.interrupted h r)
    (hnext : (h.get r).cls = .MathBlock → ∀ p, h.parent r = some p → hasNext h r = Render.followed h r)
    (hcap : (h.get r).cls = .Caption → h.parent r ≠ none)
    (hdot : (h.get r).cls = .Math → (s.heap.get r).followedByDot = Rails.dotted h r)
    (hl : leave k r s = .ok d s') : Departed h num r d s s' := by
  have hcls : (s.heap.get r).cls = (h.get r).cls := hf.cls r
  have e : leave k r s = leaveWith k (railLeaver (h.get r).cls) r s := by
    simp only [leave, bind_apply, node, gets_apply, hk, railLeaver_eq, lift, pure_apply, hcls]
  rw [e] at hl
  clear e
  by_cases ha : (h.get r).cls = .Abstract
  · rw [ha] at hl; exact leave_abstract_railed hf hd hc0 ha hl
  by_cases hm : (h.get r).cls = .MathBlock
  · rw [hm] at hl
    have hl : leaveWith k .MathBlock r s = .ok d s' := hl
    simp only [leaveWith, hk, if_true] at hl
    exact leave_mathblock_railed hf N hd hC hc0 hm (hnext hm) hl
  by_cases hp : (h.get r).cls = .Paragraph ∨ (h.get r).cls = .Caption
  · have : railLeaver (h.get r).cls = .Paragraph := by rcases hp with e | e <;> rw [e] <;> rfl
    rw [this] at hl
    simp only [leaveWith, hk, if_true] at hl
    exact leave_para_railed hd hC hc0 hp hcap (hint hp) hl
  by_cases hau : (h.get r).cls = .Author
  · rw [hau] at hl; exact leave_author_railed hd hC hc0 hau hl
  by_cases hs : (h.get r).cls = .Step
  · rw [hs] at hl; exact leave_step_railed hf N hd hC hc0 hs hl
  by_cases hma : (h.get r).cls = .Math
  · rw [hma] at hl; exact leave_math_railed hd hC hc0 hma (hdot hma) hl
  by_cases h2 : (h.get r).cls ∈ [.Author, .Subproof, .Sketch, .Proof, .Theorem, .Lemma,
      .Corollary, .Example, .Exercise, .Proposition, .Problem, .Porism, .Remark, .Definition]
  · refine leave_info_railed hd hC hc0 hm (closing_two rfl h2) ?_
    have : railLeaver (h.get r).cls ∈ [.Theorem, .Sketch, .Subproof, .Proof] := by
      revert h2 hau; generalize (h.get r).cls = c; cases c <;> decide
    simp only [List.mem_cons, List.not_mem_nil, or_false] at this
    rcases this with e | e | e | e <;> rw [e] at hl
    · exact hl
    · exact hl
    · exact hl
    · simpa only [leaveWith, hk, if_true] using hl
  · refine leave_plain_railed hd hc0 (closing_rest ?_) hm ?_
    · simp only [List.mem_cons, List.not_mem_nil, or_false, not_or] at h2 hp ⊢
      tauto
    · have : railLeaver (h.get r).cls = .Node := by
        revert ha hm hp hau hs hma h2
        generalize (h.get r).cls = c; cases c <;> decide
      rw [this] at hl
      exact hl

end Tr
end RSM
