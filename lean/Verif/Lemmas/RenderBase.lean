import Verif.Spec.Render
import Verif.Spec.Obstacle
import Verif.Lemmas.TrEnds
import Verif.Lemmas.TrSim
import Verif.Lemmas.Reading
import Verif.Lemmas.BalTree
import Verif.Lemmas.TrAnchors

/-! # Lemmas: the parts of the page -/

namespace RSM
namespace Tr
open PyM

/-! ## Tags -/

theorem join_eq (sep : Str) (l : List Str) : join sep l = List.intercalate sep l := by
  induction l with
  | nil => rfl
  | cons x xs ih =>
    cases xs with
    | nil => simp [join, List.intercalate]
    | cons y ys =>
      rw [join, ih]
      simp [List.intercalate, List.intersperse]

theorem fromKeys_eq (l : List Str) : fromKeys l = Render.unique l := by
  induction l with
  | nil => rfl
  | cons x xs ih => simp [fromKeys, Render.unique, ih]

theorem join_space (l : List Str) :
    (if l ≠ [] then " ".toList else []) ++ join " ".toList l = l.flatMap (' ' :: ·) := by
  induction l with
  | nil => rfl
  | cons x xs ih =>
    cases xs with
    | nil => simp [join]
    | cons y ys =>
      rw [if_pos (by simp)] at ih ⊢
      simp only [join]
      rw [List.flatMap_cons, ← ih]
      simp

theorem intercalate_space (l : List Str) :
    (if l ≠ [] then " ".toList else []) ++ List.intercalate " ".toList l = l.flatMap (' ' :: ·) := by
  rw [← join_eq, join_space]

theorem makeTag_eq (t id : Str) (cl : List Str) (nid : Option Nat) (kw : List (Str × Str)) :
    makeTag t id cl false nid kw = Render.tag t id cl kw nid := by
  unfold makeTag Render.tag
  simp only [Bool.false_eq_true, if_false, List.append_nil, join_eq]
  have e1 : ∀ a b c d : Str, a ++ b ++ c ++ d = a ++ (b ++ c) ++ d := by simp
  rw [e1, intercalate_space]
  have h1 : (if id ≠ [] then " id=\"".toList ++ id ++ "\"".toList else []) =
      if id = [] then [] else Render.attr "id" id := by
    by_cases h : id = [] <;> simp [h, Render.attr]
  have h2 : (if cl ≠ [] then " class=\"".toList ++ List.intercalate " ".toList cl ++ "\"".toList else []) =
      if cl = [] then [] else Render.attr "class" (List.intercalate " ".toList cl) := by
    by_cases h : cl = [] <;> simp [h, Render.attr]
  rw [h1, h2, List.flatMap_append, List.flatMap_map]
  cases nid with
  | none => simp [Render.attr]
  | some n => simp [Render.attr]

theorem opening_tag (a : TagArgs) (h : a.selectable = false) :
    a.opening = Render.tag a.tag a.id a.classes [] a.nodeid := by
  unfold TagArgs.opening; rw [h, makeTag_eq]

/-! ## Numbers and texts of references -/


theorem formatGo_fills (nc num : Str) : ∀ (s : Str) (m : FmtMode), m.sound → ∀ o,
    formatGo nc num m s = .ok o → Render.Fills nc num (m.seen ++ s) o
  | [], .lit, _, o, h => by cases h; exact .nil
  | [], .opened, _, o, h => by cases h
  | [], .closed, _, o, h => by cases h
  | [], .field b, _, o, h => by cases h
  | c :: s, .lit, _, o, h => by
    rw [formatGo] at h
    split at h
    · rename_i e; subst e; exact formatGo_fills nc num s .opened trivial o h
    · split at h
      · rename_i e; subst e; exact formatGo_fills nc num s .closed trivial o h
      · rename_i e1 e2
        cases hs : formatGo nc num .lit s with
        | error e => rw [hs] at h; cases h
        | ok x => rw [hs] at h; cases h; exact .char e1 e2 (formatGo_fills nc num s .lit trivial x hs)
  | c :: s, .opened, _, o, h => by
    rw [formatGo] at h
    split at h
    · rename_i e
      subst e
      cases hs : formatGo nc num .lit s with
      | error e => rw [hs] at h; cases h
      | ok x => rw [hs] at h; cases h; exact .opening (formatGo_fills nc num s .lit trivial x hs)
    · split at h
      · cases h
      · rename_i e1 e2
        exact formatGo_fills nc num s (.field [c]) ⟨by simp, by simpa using Ne.symm e2, by simpa using e1⟩ o h
  | c :: s, .closed, _, o, h => by
    rw [formatGo] at h
    split at h
    · rename_i e
      subst e
      cases hs : formatGo nc num .lit s with
      | error e => rw [hs] at h; cases h
      | ok x => rw [hs] at h; cases h; exact .closing (formatGo_fills nc num s .lit trivial x hs)
    · cases h
  | c :: s, .field b, hb, o, h => by
    rw [formatGo] at h
    split at h
    · rename_i e
      subst e
      split at h
      · rename_i e
        cases hs : formatGo nc num .lit s with
        | error e => rw [hs] at h; cases h
        | ok x =>
          rw [hs] at h; cases h
          have := Render.Fills.nodeclass (formatGo_fills nc num s .lit trivial x hs)
          simpa [FmtMode.seen, e] using this
      · split at h
        · rename_i e
          cases hs : formatGo nc num .lit s with
          | error e => rw [hs] at h; cases h
          | ok x =>
            rw [hs] at h; cases h
            have := Render.Fills.number (formatGo_fills nc num s .lit trivial x hs)
            simpa [FmtMode.seen, e] using this
        · cases h
    · rename_i e
      have := formatGo_fills nc num s (.field (c :: b)) ⟨by simp, by simp [hb.2.1, Ne.symm e], by
        rw [List.reverse_cons, List.head?_append]
        have := hb.2.2
        cases hh : b.reverse.head? with
        | none => rw [List.head?_eq_none_iff, List.reverse_eq_nil_iff] at hh; exact absurd hh hb.1
        | some x => rw [hh] at this; simpa using this⟩ o h
      simpa [FmtMode.seen] using this

/-- The full numbers and the texts of references that are shown. -/
structure Named (k : Conf) (h0 : Heap) (num : Ref → Option Str) (ref : Ref → Str) (x : Ref) : Prop where
  num : ∀ o, h0.fullNumber k.fuel x = some o → o = num x
  ref : ∀ o s, h0.fullNumber k.fuel x = some o →
    Render.Fills (h0.get x).cls.name (Render.shown o) (h0.get x).reftextTemplate s → strip s = ref x

variable {k : Conf} {h0 : Heap} {num : Ref → Option Str} {ref : Ref → Str}

theorem fullNumber_named {x : Ref} (N : Named k h0 num ref x) {s s' : TrState} (hf : SameFrame h0 s.heap) {o}
    (h : fullNumber k x s = .ok o s') : s' = s ∧ o = num x := by
  simp only [fullNumber, bind_apply, get_apply] at h
  rw [hf.fullNumber] at h
  cases e : h0.fullNumber k.fuel x with
  | none => rw [e] at h; cases h
  | some o' => rw [e] at h; cases h; exact ⟨rfl, N.num _ e⟩

theorem fmtOpt_eq (o : Option Str) : fmtOpt o = Render.shown o := by cases o <;> rfl

theorem reftext_named {x : Ref} (N : Named k h0 num ref x) {s s' : TrState} (hf : SameFrame h0 s.heap) {t}
    (h : reftext k x s = .ok t s') : s' = s ∧ t = ref x := by
  unfold reftext at h
  obtain ⟨o, s1, h1, h⟩ := bindOk h
  have h1' := h1
  simp only [fullNumber, bind_apply, get_apply] at h1'
  rw [hf.fullNumber] at h1'
  cases e : h0.fullNumber k.fuel x with
  | none => rw [e] at h1'; cases h1'
  | some o' =>
    rw [e] at h1'; cases h1'
    simp only [bind_apply, get_apply] at h
    have e1 : (s.heap.get x).cls = (h0.get x).cls := hf.cls x
    have e2 : (s.heap.get x).reftextTemplate = (h0.get x).reftextTemplate :=
      (congrArg NodeRec.reftextTemplate (hf.2 x) :)
    rw [e1, e2] at h
    cases hg : formatGo (h0.get x).cls.name (fmtOpt o) .lit (h0.get x).reftextTemplate with
    | error e => rw [hg] at h; cases h
    | ok out =>
      rw [hg] at h
      cases h
      exact ⟨rfl, N.ref _ _ e (by
        have := formatGo_fills _ _ _ .lit trivial _ hg
        rw [fmtOpt_eq] at this; exact this)⟩

end Tr
end RSM
