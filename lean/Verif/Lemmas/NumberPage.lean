import Verif.Lemmas.SourceNumbers
import Verif.Lemmas.TrAllEnds
import Verif.Lemmas.BalHr
import Verif.Lemmas.NormText

/-!
# What the translators write of numbers

For C91.
-/

namespace RSM
namespace Tr
open PyM Html

theorem SameFrame.title {a b : Heap} (h : SameFrame a b) (x) : (b.get x).title = (a.get x).title :=
  (congrArg NodeRec.title (h.2 x) :)
theorem SameFrame.nonum {a b : Heap} (h : SameFrame a b) (x) : (b.get x).nonum = (a.get x).nonum :=
  (congrArg NodeRec.nonum (h.2 x) :)
theorem SameFrame.number {a b : Heap} (h : SameFrame a b) (x) : (b.get x).number = (a.get x).number :=
  (congrArg NodeRec.number (h.2 x) :)

theorem number_read {k : Conf} {h : Heap} {root : Ref} {t : Tree} {x : Ref} {n : Option Str} (D : Doc h root t) (hx : x ∈ t.pre)
    (hk : 2 * t.size ≤ k.fuel) (hn : FullNumber h x n) : h.fullNumber k.fuel x = some n := by
  have pos := t.size_pos
  obtain ⟨l, h1, h2, _⟩ := D.ancestors hx
  obtain ⟨o, ho, ho2⟩ := fullNumber_spec h1 (fuel := k.fuel) (by omega)
  rw [ho, Parser.full_unique ho2 hn]

theorem number_shown {k : Conf} {s : TrState} {x : Ref} {n : Option Str} (h : s.heap.fullNumber k.fuel x = some n) :
    fullNumber k x s = .ok n s := by
  unfold fullNumber
  simp only [bind_apply, get_apply, h, pure_apply]

theorem heading_shows (l : Nat) (t : Str) : HasHeading (heading l t).makeText (natStr l) t := by
  have e : (heading l t).makeText = nl true ++ ("<h".toList ++ natStr l ++ ">".toList) ++ nl false ++ t ++ nl false
      ++ ("</h".toList ++ natStr l ++ ">".toList) ++ nl true := by
    unfold heading Item.makeText
    simp [TagArgs.opening, makeTag, closeTag, join]
  rw [e]
  exact ⟨nl true, nl true, by simp [nl]⟩

/-- What a heading shows. -/
theorem sectionHeading_ok {k : Conf} {x : Ref} {s : TrState} {n : Str}
    (hn : (s.heap.get x).nonum = false → s.heap.fullNumber k.fuel x = some (some n)) :
    sectionHeading k x s =
      .ok (if (s.heap.get x).nonum then (s.heap.get x).title else n ++ ". ".toList ++ (s.heap.get x).title) s := by
  unfold sectionHeading
  simp only [bind_apply, node, gets_apply]
  by_cases e : (s.heap.get x).nonum = true
  · simp only [e, if_true, pure_apply]
  · have e' : (s.heap.get x).nonum = false := by simpa using e
    simp only [e', Bool.false_eq_true, if_false, bind_apply, number_shown (hn e'), pure_apply, fmtOpt]

theorem section_shows {k : Conf} {x : Ref} {s s' : TrState} {cmd : Cmd} {l : Nat}
    (hm : methodClass visitNames (s.heap.get x).cls = .ok .Section) (hl : (s.heap.get x).cls.level = some l) {n : Str}
    (hn : (s.heap.get x).nonum = false → s.heap.fullNumber k.fuel x = some (some n)) (h : visit k x s = .ok cmd s') :
    HasHeading cmd.text (natStr l)
      (if (s.heap.get x).nonum then (s.heap.get x).title else n ++ ". ".toList ++ (s.heap.get x).title) := by
  rw [visit_eq hm] at h
  unfold visitWith at h
  obtain ⟨items, s1, h1, h2⟩ := bindOk h
  obtain ⟨items', s2, h3, h4⟩ := bindOk h2
  unfold sectionItems at h1
  simp only [bind_apply, node, gets_apply, hl, assign, modify_apply] at h1
  have F := SameFrame.update s.heap x (fun nd => { nd with types := ("level-".toList ++ natStr l) :: nd.types }) (fun _ => rfl)
  have e := sectionHeading_ok (k := k) (x := x) (n := n)
    (s := { s with heap := s.heap.update x fun nd => { nd with types := ("level-".toList ++ natStr l) :: nd.types } })
    (by rw [F.nonum, F.fullNumber]; exact hn)
  simp only [e, pure_apply, F.nonum, F.title] at h1
  cases h1
  cases h4
  refine (heading_shows l _).trans (item_infix (i := heading l _) ?_)
  unfold wrapIf at h3
  split at h3
  · unfold wrapHeading at h3
    obtain ⟨_, _, -, h5⟩ := bindOk h3
    obtain ⟨_, _, -, h6⟩ := bindOk h5
    cases h6
    rw [wrapItem_one]
    simp
  · cases h3
    exact .tail _ (.head _)

/-- What a table of contents shows. -/
theorem contents_shows {k : Conf} {x : Ref} {s s' : TrState} {cmd : Cmd} (hc : (s.heap.get x).cls = .Contents)
    (h : visit k x s = .ok cmd s') : HasHeading cmd.text "3".toList "Table of Contents".toList := by
  rw [visit_eq (d := .Contents) (by rw [hc]; decide)] at h
  unfold visitWith at h
  have hh := heading_shows 3 "Table of Contents".toList
  dsimp only at h
  split at h
  · unfold hrVisitContents at h
    obtain ⟨nd, s1, h1, h⟩ := bindOk h
    obtain ⟨items, s2, h2, h⟩ := bindOk h
    obtain ⟨m, s3, h3, h⟩ := bindOk h
    cases h
    refine hh.trans (item_infix (i := heading 3 "Table of Contents") ?_)
    unfold wrapHeading at h2
    obtain ⟨_, _, -, h5⟩ := bindOk h2
    obtain ⟨_, _, -, h6⟩ := bindOk h5
    cases h6
    unfold contentsItems
    rw [wrapItem_one]
    simp
  · obtain ⟨nd, s1, h1, h⟩ := bindOk h
    cases h
    exact hh.trans (item_infix (i := heading 3 "Table of Contents") (.tail _ (.head _)))

theorem titleText_shows {label : Str} (hl : label ≠ []) (desc : Str) : ShowsLabel (titleText label desc) label := by
  unfold titleText
  rw [if_pos hl]
  refine ⟨"\n<div class=\"paragraph hr-label\">\n\n<p>".toList, (if desc ≠ [] then titleSpan "desc" desc else [])
    ++ "</p>\n\n</div>\n".toList, ?_⟩
  unfold titleSpan
  simp only [List.append_assoc]
  rfl

/-- What a theorem shows. -/
theorem theorem_shows {k : Conf} {x : Ref} {s s' : TrState} {cmd : Cmd}
    (hm : methodClass visitNames (s.heap.get x).cls = .ok .Theorem) {n : Str}
    (hn : (s.heap.get x).nonum = false → s.heap.fullNumber k.fuel x = some (some n) ∧ (s.heap.get x).number.truthy = true)
    (h : visit k x s = .ok cmd s') :
    ShowsLabel cmd.text (capitalize (lower (s.heap.get x).cls.name) ++ (if (s.heap.get x).nonum then [] else ' ' :: n) ++
      if (s.heap.get x).title = [] then ".".toList else ": ".toList) := by
  rw [visit_eq hm] at h
  unfold visitWith at h
  obtain ⟨items, s1, h1, h2⟩ := bindOk h
  unfold theoremItems at h1
  have e : theoremNumber k x s = .ok (if (s.heap.get x).nonum then [] else ' ' :: n) s := by
    unfold theoremNumber
    simp only [bind_apply, node, gets_apply]
    by_cases e : (s.heap.get x).nonum = true
    · simp [e, pure_apply]
    · have e' : (s.heap.get x).nonum = false := by simpa using e
      simp [e', (hn e').2, bind_apply, number_shown (hn e').1, pure_apply, fmtOpt]
  simp only [bind_apply, node, gets_apply, e, pure_apply] at h1
  cases h1
  have e2 : (if (s.heap.get x).title ≠ [] then ": ".toList else ".".toList) =
      if (s.heap.get x).title = [] then ".".toList else ": ".toList := by
    by_cases e : (s.heap.get x).title = [] <;> simp [e]
  rw [e2] at h2
  refine (titleText_shows (fun e => by
    have := (List.append_eq_nil_iff.mp e).2
    split at this <;> exact absurd this (by decide)) (s.heap.get x).title).trans ?_
  split at h2
  · unfold hrLabeled at h2
    obtain ⟨hs, s2, -, h3⟩ := bindOk h2
    cases h3
    exact item_infix (i := .text _) (List.mem_append_right _ (.head _))
  · cases h2
    exact item_infix (i := .text _) (.tail _ (.head _))

/-! ## References -/

theorem format_default (nc num : Str) : formatGo nc num .lit "{nodeclass} {number}".toList = .ok (nc ++ ' ' :: num) := by
  simp [formatGo, Except.map]
theorem format_section (nc num : Str) : formatGo nc num .lit "Section {number}".toList = .ok ("Section ".toList ++ num) := by
  simp [formatGo, Except.map]
theorem format_appendix (nc num : Str) : formatGo nc num .lit "Appendix {number}".toList = .ok ("Appendix ".toList ++ num) := by
  simp [formatGo, Except.map]
theorem format_math (nc num : Str) : formatGo nc num .lit "({number})".toList = .ok ("(".toList ++ num ++ ")".toList) := by
  simp [formatGo, Except.map]

open Normalize

theorem strip_kept {x : Str} (h1 : NoLead x) (h2 : NoTrail x) : strip x = x := by
  unfold strip
  rw [lstrip_of_noLead h1, rstrip_of_noTrail h2]

open Parser

theorem getD_default {l : List Char} {n : Nat} {d : Char} (h : l.length ≤ n) : l.getD n d = d := by
  rw [List.getD_eq_getElem?_getD, List.getElem?_eq_none h]; rfl

theorem own_chars (a : Look) (before : List Look) : ∀ c ∈ ownNumber a before, isSpace c = false := by
  intro c hc
  unfold ownNumber at hc
  split at hc
  · split at hc
    · rw [List.mem_singleton] at hc
      subst hc
      have : ∀ n, isSpace ("ABCDEFGHIJKLMNOPQRSTUVWXYZ".toList.getD n '?') = false := by
        intro n
        by_cases hn : n < 26
        · have : ∀ n : Fin 26, isSpace ("ABCDEFGHIJKLMNOPQRSTUVWXYZ".toList.getD n.1 '?') = false := by decide
          exact this ⟨n, hn⟩
        · rw [getD_default (by
            have : "ABCDEFGHIJKLMNOPQRSTUVWXYZ".toList.length = 26 := by decide
            omega)]
          decide
      exact this _
    · exact natStr_not_space _ c hc
  · cases hc

theorem dotted_chars {a b : Str} (ha : ∀ c ∈ a, isSpace c = false) (hb : ∀ c ∈ b, isSpace c = false) :
    ∀ c ∈ dotted a b, isSpace c = false := by
  intro c hc
  unfold dotted at hc
  split at hc
  · exact hb c hc
  · rcases List.mem_append.mp hc with h | h
    · exact ha c h
    · rcases List.mem_cons.mp h with rfl | h
      · decide
      · exact hb c h

theorem outer_chars : ∀ (around : List (Look × List Look)) (ws : List Cls), ∀ c ∈ outerNumber ws around, isSpace c = false
  | [], ws, c, hc => by cases hc
  | (a, before) :: around, ws, c, hc => by
    rw [outerNumber] at hc
    split at hc
    · split at hc
      · exact dotted_chars (outer_chars around _) (own_chars _ _) c hc
      · cases hc
    · exact outer_chars around ws c hc

theorem number_chars (p : Place) : ∀ c ∈ p.number, isSpace c = false := dotted_chars (outer_chars _ _) (own_chars _ _)

theorem number_ne {p : Place} (h : counted p.look = true) : p.number ≠ [] := by
  unfold Place.number dotted
  have : ownNumber p.look p.before ≠ [] := by
    obtain ⟨w, -, e⟩ := within_one (counted_iff.mp h).1 (counted_iff.mp h).2.2
    unfold ownNumber
    rw [within_eq, e]
    simp only
    split
    · simp
    · unfold natStr; exact Nat.toDigits_ne_nil
  split
  · exact this
  · simp

theorem noTrail_append {a b : Str} (hb : ∀ c ∈ b, isSpace c = false) (hne : b ≠ []) : NoTrail (a ++ b) := by
  intro c hc
  rw [List.getLast?_append, List.getLast?_eq_getLast_of_ne_nil hne] at hc
  cases hc
  exact hb _ (List.getLast_mem hne)

/-- The classes with numbers, with their reference texts. -/
theorem numbered_classes {c : Cls} (h : c ∈ withNumber) :
    (c = .Section ∧ c.classreftext = "{nodeclass} {number}".toList) ∨
      ((c = .Subsection ∨ c = .Subsubsection) ∧ c.classreftext = "Section {number}".toList) ∨
      (c = .MathBlock ∧ c.classreftext = "({number})".toList) ∨
      (c.classreftext = "{nodeclass} {number}".toList ∧ .Section ∉ c.mro ∧
        ∀ ap n, refTextOf c ap n = c.name ++ ' ' :: n) := by
  cases c <;> first
    | exact absurd h (by decide)
    | exact .inl ⟨rfl, by decide⟩
    | exact .inr (.inl ⟨by decide, by decide⟩)
    | exact .inr (.inr (.inl ⟨rfl, by decide⟩))
    | exact .inr (.inr (.inr ⟨by decide, by decide, fun _ _ => rfl⟩))

theorem name_noLead (c : Cls) (s : Str) : NoLead (c.name ++ s) := by
  cases c <;> (intro d hd; cases hd; decide)

/-- What a reference to something with a number shows. -/
theorem reftext_shown {k : Conf} {x : Ref} {s : TrState} {a : Look} {ap : Bool} {o : Option Str} {n : Str}
    (hne : n ≠ []) (hch : ∀ c ∈ n, isSpace c = false)
    (hb : a.cls ∈ withNumber) (hcls : (s.heap.get x).cls = a.cls)
    (ht : (s.heap.get x).reftextTemplate = if .Section ∈ a.cls.mro ∧ ap = true
      then Transformer.appendixTemplate a.template else a.template)
    (hd : a.template = a.cls.classreftext) (hn : s.heap.fullNumber k.fuel x = some o) (ho : fmtOpt o = n) :
    reftext k x s = .ok (refTextOf a.cls ap n) s := by
  have key : ∀ y, formatGo (s.heap.get x).cls.name n .lit (s.heap.get x).reftextTemplate = .ok y → strip y = y →
      reftext k x s = .ok y s := by
    intro y h1 h2
    unfold reftext
    simp only [bind_apply, number_shown hn, get_apply, ho, h1, lift, pure_apply, h2]
  have end1 : ∀ b, NoTrail (b ++ n) := fun b => noTrail_append hch hne
  refine key _ ?_ ?_
  · rw [ht, hcls, hd]
    rcases numbered_classes hb with ⟨e1, e2⟩ | ⟨e1, e2⟩ | ⟨e1, e2⟩ | ⟨e1, e2, e3⟩
    · rw [e2, e1]
      unfold refTextOf
      by_cases ha : ap = true
      · rw [if_pos ⟨by decide, ha⟩, show Transformer.appendixTemplate "{nodeclass} {number}".toList =
          "Appendix {number}".toList by decide, format_appendix]
        simp [ha]
      · rw [if_neg (fun h => ha h.2), format_default]
        simp [ha]
        rfl
    · have e3 : refTextOf a.cls ap n = "Section ".toList ++ n := by
        rcases e1 with e | e <;> rw [e] <;> rfl
      rw [e2, e3, show Transformer.appendixTemplate "Section {number}".toList = "Section {number}".toList by decide, ite_self,
        format_section]
    · rw [e2, e1, if_neg (fun h => absurd h.1 (by decide)), format_math]
      rfl
    · rw [e1, if_neg (fun h => e2 h.1), format_default, e3]
  · refine strip_kept ?_ ?_
    · rcases numbered_classes hb with ⟨e1, e2⟩ | ⟨e1, e2⟩ | ⟨e1, e2⟩ | ⟨e1, e2, e3⟩
      · rw [e1]
        unfold refTextOf
        intro d hd
        revert hd
        simp only
        split <;> (intro hd; cases hd; decide)
      · rcases e1 with e | e <;> rw [e] <;> (intro d hd; cases hd; decide)
      · rw [e1]
        intro d hd; cases hd; decide
      · rw [e3]; exact name_noLead _ _
    · rcases numbered_classes hb with ⟨e1, e2⟩ | ⟨e1, e2⟩ | ⟨e1, e2⟩ | ⟨e1, e2, e3⟩
      · rw [e1]
        exact end1 _
      · rcases e1 with e | e <;> rw [e] <;> exact end1 _
      · rw [e1]
        exact noTrail_append (by decide) (by decide)
      · rw [e3, show a.cls.name ++ ' ' :: n = (a.cls.name ++ [' ']) ++ n by simp]
        exact end1 _

/-! ## Figures, captions and formulas -/

theorem SameFrame.path {a b : Heap} (h : SameFrame a b) (x) : (b.get x).path = (a.get x).path :=
  (congrArg NodeRec.path (h.2 x) :)

theorem figure_shows {k : Conf} {x : Ref} {s s' : TrState} {cmd : Cmd} (hc : (s.heap.get x).cls = .Figure) {o : Option Str}
    (hn : s.heap.fullNumber k.fuel x = some o) (hp : (s.heap.get x).path ≠ []) (h : visit k x s = .ok cmd s') :
    HasImage cmd.text (s.heap.get x).path ("Figure ".toList ++ fmtOpt o ++ ".".toList) := by
  rw [visit_eq (d := .Figure) (by rw [hc]; rfl)] at h
  unfold visitWith visitFigure at h
  simp only [bind_apply, node, gets_apply, number_shown hn, pure_apply] at h
  cases h
  have key : ∀ id onload : Str, HasImage (makeTag "img" id [] (kwargs := [("src", (s.heap.get x).path),
      ("alt", (s.heap.get x).cls.name ++ ' ' :: fmtOpt o ++ ".".toList), ("onload", onload)])) (s.heap.get x).path
      ("Figure ".toList ++ fmtOpt o ++ ".".toList) := by
    intro id onload
    have e : (s.heap.get x).cls.name ++ ' ' :: fmtOpt o ++ ".".toList = "Figure ".toList ++ fmtOpt o ++ ".".toList := by
      rw [hc]; rfl
    rw [e]
    have hne : "Figure ".toList ++ fmtOpt o ++ ".".toList ≠ [] := by simp
    unfold HasImage makeTag
    generalize "Figure ".toList ++ fmtOpt o ++ ".".toList = alt at hne
    generalize (s.heap.get x).path = path at hp
    by_cases ho : onload = []
    · refine ⟨"<img".toList ++ (if id ≠ [] then " id=\"".toList ++ id ++ "\"".toList else []) ++ " ".toList, ">".toList, ?_⟩
      simp [hp, hne, ho, join]
    · refine ⟨"<img".toList ++ (if id ≠ [] then " id=\"".toList ++ id ++ "\"".toList else []) ++ " ".toList,
        " onload=\"".toList ++ onload ++ "\">".toList, ?_⟩
      simp [hp, hne, ho, join]
  exact (key _ _).trans (item_infix (i := .text _) (.tail _ (.head _)))

theorem caption_shows {k : Conf} {x p : Ref} {s s' : TrState} {cmd : Cmd} (hc : (s.heap.get x).cls = .Caption)
    (hp : s.heap.parent x = some p) {o : Option Str} (hn : s.heap.fullNumber k.fuel p = some o) (h : visit k x s = .ok cmd s') :
    ShowsCaption cmd.text ((s.heap.get p).cls.name ++ ' ' :: fmtOpt o ++ ". ".toList) := by
  rw [visit_eq (d := .Caption) (by rw [hc]; rfl)] at h
  unfold visitWith visitCaption at h
  simp only [bind_apply, get_apply, hp, number_shown hn, pure_apply] at h
  cases h
  have key : ∀ t, ShowsCaption
      (Item.openClose { tag := "span", content := t, classes := ["label"], newlineInner := false, newlineOuter := false }).makeText
      t := by
    intro t
    unfold ShowsCaption Item.makeText
    refine ⟨[], [], ?_⟩
    simp [TagArgs.opening, makeTag, closeTag, join, nl]
  exact (key _).trans (item_infix (.tail _ (.head _)))

/-- What is written at the end of a node that is deferred is in the output. -/
def Ended (k : Conf) (s : TrState) (out : Str) (x : Ref) : Prop :=
  ∃ s1 c s2, SameFrame s.heap s1.heap ∧ visit k x s1 = .ok c s2 ∧ (c.defers = true →
    ∃ s3 d s4, SameFrame s.heap s3.heap ∧ leave k x s3 = .ok d s4 ∧ d.text <:+: out)

theorem Ended.mono {k s s' out out' x} (h : Ended k s out x) (hs : SameFrame s'.heap s.heap)
    (ho : out <:+: out') : Ended k s' out' x := by
  obtain ⟨s1, c, s2, h1, h2, h3⟩ := h
  refine ⟨s1, c, s2, hs.trans h1, h2, fun hd => ?_⟩
  obtain ⟨s3, d, s4, h4, h5, h6⟩ := h3 hd
  exact ⟨s3, d, s4, hs.trans h4, h5, h6.trans ho⟩

theorem finish_left {k r c} (hc : c.Visit) {s s' : TrState} {ds : List Cmd} (hs : s.deferred = c.pushed ++ ds)
    (h : finish k r c s = .ok () s') (hd : c.defers = true) :
    ∃ d s4, leave k r s = .ok d s4 ∧ s'.body = s.body ++ d.text := by
  unfold finish at h
  rcases hc.pushed with ⟨h1, c0, h2, h3⟩ | ⟨h1, h3⟩
  · rw [h1, if_pos rfl, bind_apply] at h
    have := leave_spec k r (s := s) (c0 := c0) (ds := ds) (by rw [hs, h3]; rfl) h2
    cases hv : leave k r s with
    | ok d s4 =>
      rw [hv] at this h
      obtain ⟨hp, -⟩ := this
      simp only [Cmd.execute_eq] at h
      cases h
      exact ⟨d, s4, rfl, by show s4.body ++ d.text = _; rw [hp.body]⟩
    | err e s4 => rw [hv] at h; cases h
  · rw [hd] at h1; cases h1

mutual
theorem evalTree_ended (k) : ∀ (t : Tree) (s s' : TrState), evalTree k t s = .ok () s' →
    ∃ out, s'.body = s.body ++ out ∧ ∀ x ∈ t.pre, Ended k s out x
  | .node r ks, s, s', h => by
    rw [evalTree_node, bind_apply] at h
    have hv := visit_spec k r s
    cases ev : visit k r s with
    | err e s1 => rw [ev] at h; cases h
    | ok c s1 =>
      rw [ev] at h hv
      obtain ⟨hk, hc⟩ := hv
      simp only [bind_apply, Cmd.execute_eq] at h
      have ho := evalForest_outcome k ks
        { s1 with body := s1.body ++ c.text, deferred := c.pushed ++ s1.deferred }
      cases ef : evalForest k ks
          { s1 with body := s1.body ++ c.text, deferred := c.pushed ++ s1.deferred } with
      | err e s2 => rw [ef] at h; cases h
      | ok a s2 =>
        obtain ⟨out, e1, ih⟩ := evalForest_ended k ks _ _ ef
        rw [ef] at h ho
        obtain ⟨hfr, h2, -, -⟩ := ho
        have hds : s2.deferred = c.pushed ++ s.deferred := by
          rw [h2]; show c.pushed ++ s1.deferred = _; rw [hk.deferred]
        have hf := finish_outcome (k := k) (r := r) hc (s := s2) (ds := s.deferred) hds
        dsimp only at h
        have hl := finish_left hc hds h
        rw [h] at hf
        obtain ⟨-, -, -, out', e2⟩ := hf
        refine ⟨c.text ++ (out ++ out'), ?_, ?_⟩
        · rw [e2, e1]; show s1.body ++ c.text ++ out ++ out' = _; rw [hk.body]; simp
        · intro x hx
          rw [Tree.pre_node, List.mem_cons] at hx
          rcases hx with rfl | hx
          · refine ⟨s, c, s1, SameFrame.refl _, ev, fun hd => ?_⟩
            obtain ⟨d, s4, g1, g2⟩ := hl hd
            rw [e2] at g2
            have := List.append_cancel_left g2
            subst this
            exact ⟨s2, d, s4, hk.frame.trans hfr, g1, ⟨c.text ++ out, [], by simp⟩⟩
          · exact (ih x hx).mono hk.frame ⟨c.text, out', by simp⟩
theorem evalForest_ended (k) : ∀ (ts : List Tree) (s s' : TrState), evalForest k ts s = .ok () s' →
    ∃ out, s'.body = s.body ++ out ∧ ∀ x ∈ Tree.preL ts, Ended k s out x
  | [], s, s', h => by
    rw [evalForest_nil] at h
    cases h
    exact ⟨[], by simp, by simp⟩
  | t :: ts, s, s', h => by
    rw [evalForest_cons, bind_apply] at h
    have ho := evalTree_outcome k t s
    cases e : evalTree k t s with
    | err x s1 => rw [e] at h; cases h
    | ok a s1 =>
      obtain ⟨out, e1, ih⟩ := evalTree_ended k t s s1 e
      rw [e] at h ho
      obtain ⟨out', e2, ih'⟩ := evalForest_ended k ts s1 s' h
      refine ⟨out ++ out', by rw [e2, e1]; simp, ?_⟩
      intro x hx
      rw [Tree.preL_cons, List.mem_append] at hx
      rcases hx with hx | hx
      · exact (ih x hx).mono (SameFrame.refl _) (List.prefix_append _ _).isInfix
      · exact (ih' x hx).mono ho.1 (List.suffix_append _ _).isInfix
end

theorem translate_ended {k : Conf} {root : Ref} {t : Tree} {s s' : TrState} {out : Str}
    (hd : Doc s.heap root t) (hfuel : 2 * t.size ≤ k.fuel) (hok : translate k root s = .ok out s') :
    ∀ x ∈ t.pre, Ended k s out x := by
  rw [translate_eq k hd hfuel] at hok
  split at hok
  · cases hok
  · cases e : evalTree k t (started root s) with
    | err x s1 => rw [e] at hok; cases hok
    | ok a s1 =>
      rw [e] at hok
      cases hok
      obtain ⟨o, e1, h⟩ := evalTree_ended k t _ _ e
      rw [show s'.body = o by rw [e1]; rfl]
      exact h

theorem formula_defers {k : Conf} {x : Ref} {s s' : TrState} {cmd : Cmd} (hc : (s.heap.get x).cls = .MathBlock)
    (hk : k.handrails = true) (h : visit k x s = .ok cmd s') : cmd.defers = true := by
  rw [visit_eq (d := .MathBlock) (by rw [hc]; rfl)] at h
  unfold visitWith at h
  rw [hk] at h
  simp only [if_true] at h
  unfold hrVisitMathBlock at h
  obtain ⟨_, _, -, h⟩ := bindOk h
  obtain ⟨_, _, -, h⟩ := bindOk h
  cases h
  rfl

theorem leaveMathBlock_frame {x : Ref} {s s' : TrState} {cmd : Cmd} (h : leaveMathBlock x s = .ok cmd s') :
    SameFrame s.heap s'.heap := by
  have lifted : ∀ {α} {e : Except PyErr α} {s s' : TrState} {a : α}, (lift e : TrM α) s = .ok a s' → s' = s := by
    intro α e s s' a h
    cases e <;> cases h
    rfl
  have itemed : ∀ {c : Cmd} {s s' : TrState} {l}, itemsOf c s = .ok l s' → s' = s := by
    intro c s s' l h
    unfold itemsOf at h
    cases e : c.items? <;> rw [e] at h <;> cases h
    rfl
  unfold leaveMathBlock at h
  obtain ⟨c, s1, h1, h⟩ := bindOk h
  have e1 : s1.heap = s.heap := by
    unfold leaveNode at h1
    simp only [bind_apply, get_apply] at h1
    cases e : s.deferred with
    | nil => rw [e] at h1; cases h1
    | cons d ds => rw [e] at h1; cases h1; rfl
  rw [← e1]
  simp only [bind_apply, get_apply] at h
  cases hp : s1.heap.parent x with
  | none => rw [hp] at h; cases h; exact SameFrame.refl _
  | some p =>
    rw [hp] at h
    cases hi : s1.heap.isInst p .BaseParagraph with
    | false => simp only [hi, Bool.false_eq_true, if_false] at h; cases h; exact SameFrame.refl _
    | true =>
      simp only [hi, if_true] at h
      obtain ⟨sib, s2, h2, h⟩ := bindOk h
      have e2 := lifted h2
      subst e2
      cases sib with
      | none => cases h; exact SameFrame.refl _
      | some y =>
        obtain ⟨⟨⟩, s3, h3, h5⟩ := bindOk h
        obtain ⟨l, s4, h4, h6⟩ := bindOk h5
        have e4 := itemed h4
        cases h6
        subst e4
        cases h3
        exact SameFrame.update _ _ _ fun _ => rfl

theorem formula_shows {k : Conf} {x : Ref} {s s' : TrState} {cmd : Cmd} (hc : (s.heap.get x).cls = .MathBlock)
    (hk : k.handrails = true) {n : Str} (hn : s.heap.fullNumber k.fuel x = some (some n)) (h : leave k x s = .ok cmd s') :
    ShowsFormulaNumber cmd.text n := by
  unfold leave at h
  simp only [bind_apply, node, gets_apply, hc, hk, show methodClass (leaveNames true) .MathBlock = .ok .MathBlock from rfl,
    lift, pure_apply] at h
  unfold leaveWith at h
  simp only [hk, if_true] at h
  unfold hrLeaveMathBlock at h
  obtain ⟨c, s1, h1, h⟩ := bindOk h
  obtain ⟨fn, s2, h2, h⟩ := bindOk h
  obtain ⟨l, s3, h3, h⟩ := bindOk h
  cases h
  have hfr : SameFrame s.heap s1.heap := leaveMathBlock_frame h1
  have : fn = some n := by
    rw [number_shown (hfr.fullNumber _ _ ▸ hn)] at h2
    cases h2; rfl
  subst this
  have key : ShowsFormulaNumber (hrInfoZoneNumber (some n) false).makeText n := by
    refine ⟨"\n<div class=\"hr-info-zone\">\n<div class=\"hr-info\">".toList, "</div>\n</div>\n".toList, ?_⟩
    unfold hrInfoZoneNumber Item.makeText
    simp [TagArgs.opening, makeTag, closeTag, join, nl]
  refine key.trans ?_
  have hm : hrInfoZoneNumber (some n) false ∈ insertAt 2 (hrInfoZoneNumber (some n) false) l := by
    unfold insertAt; simp
  cases c <;> exact item_infix hm

end Tr
end RSM
