import Verif.Lemmas.NumberPage
import Verif.Lemmas.SourceSteps

/-! The numbers of steps on a page (helper lemmas). -/

namespace RSM
namespace Html
open PyM Tr Parser Nodes Normalize

theorem step_defers {k : Conf} {x : Ref} {s s' : TrState} {cmd : Cmd} (hc : (s.heap.get x).cls = .Step)
    (hk : k.handrails = true) (h : visit k x s = .ok cmd s') : cmd.defers = true := by
  rw [visit_eq (d := .Step) (by rw [hc]; rfl)] at h
  unfold visitWith at h
  rw [hk] at h
  simp only [if_true] at h
  unfold hrVisitStep at h
  obtain ⟨_, _, -, h⟩ := bindOk h
  obtain ⟨_, _, -, h⟩ := bindOk h
  cases h
  rfl

theorem step_shows {k : Conf} {x : Ref} {s s' : TrState} {cmd : Cmd} (hc : (s.heap.get x).cls = .Step)
    (hk : k.handrails = true) {n : Str} (hn : s.heap.fullNumber k.fuel x = some (some n)) (h : leave k x s = .ok cmd s') :
    ShowsStepNumber cmd.text n := by
  unfold leave at h
  simp only [bind_apply, node, gets_apply, hc, hk, show methodClass (leaveNames true) .Step = .ok .Step from rfl,
    Tr.lift, pure_apply] at h
  unfold leaveWith at h
  simp only [hk, if_true] at h
  unfold hrLeaveStep at h
  obtain ⟨c, s1, h1, h⟩ := bindOk h
  obtain ⟨l, s2, h2, h⟩ := bindOk h
  obtain ⟨fn, s3, h3, h⟩ := bindOk h
  cases h
  have e1 : s1.heap = s.heap := by
    unfold leaveNode at h1
    simp only [bind_apply, get_apply] at h1
    cases e : s.deferred with
    | nil => rw [e] at h1; cases h1
    | cons d ds => rw [e] at h1; cases h1; rfl
  have e2 : s2 = s1 := by
    unfold itemsOf at h2
    cases e : c.items? <;> rw [e] at h2 <;> cases h2
    rfl
  have : fn = some n := by
    rw [number_shown (show s2.heap.fullNumber k.fuel x = some (some n) by rw [e2, e1]; exact hn)] at h3
    cases h3; rfl
  subst this
  have key : ShowsStepNumber (hrInfoZoneNumber (some n) true).makeText n := by
    refine ⟨"\n<div class=\"hr-info-zone\">\n<div class=\"hr-info\">".toList, "</div>\n</div>\n".toList, ?_⟩
    unfold hrInfoZoneNumber Item.makeText
    simp [TagArgs.opening, makeTag, closeTag, join, nl]
  refine key.trans ?_
  have hm : hrInfoZoneNumber (some n) true ∈ insertAt 1 (hrInfoZoneNumber (some n) true) l := by
    unfold insertAt; simp
  exact item_infix hm

theorem format_step (nc num : Str) : formatGo nc num .lit "Step ⟨{number}⟩".toList = .ok ("Step ⟨".toList ++ num ++ "⟩".toList) := by
  simp [formatGo, Except.map]

/-- What a reference to a step shows. -/
theorem steptext_shown {k : Conf} {x : Ref} {s : TrState} {n : Str}
    (ht : (s.heap.get x).reftextTemplate = Cls.Step.classreftext) (hn : s.heap.fullNumber k.fuel x = some (some n)) :
    reftext k x s = .ok ("Step ⟨".toList ++ n ++ "⟩".toList) s := by
  unfold reftext
  have h1 := format_step (s.heap.get x).cls.name n
  rw [show ("Step ⟨{number}⟩".toList : Str) = (s.heap.get x).reftextTemplate by rw [ht]; rfl] at h1
  simp only [bind_apply, number_shown hn, get_apply, Tr.lift, pure_apply, show fmtOpt (some n) = n from rfl, h1]
  rw [strip_kept]
  · intro d hd; cases hd; decide
  · exact noTrail_append (by decide) (by decide)

end Html
end RSM
