import Verif.Spec.Html
import Verif.Model.Translator
import Mathlib.Tactic.Tauto

/-! # Lemmas: texts as stack transformers, and the tags the translator writes -/

namespace RSM
namespace Html

theorem scan_append (a b : Str) (s : Scan) : scan (a ++ b) s = (scan a s).bind (scan b) := by
  induction a generalizing s with
  | nil => rfl
  | cons c cs ih =>
    simp only [List.cons_append, scan]
    cases feed s c with
    | none => rfl
    | some s' => simpa using ih s'

/-- The text turns the stack of open elements `p` into `q`, whatever is open around. -/
def Nets (s : Str) (p q : List Str) : Prop := ∀ st, scan s ⟨p ++ st, none⟩ = some ⟨q ++ st, none⟩

theorem Nets.append {a b : Str} {p q r} (ha : Nets a p q) (hb : Nets b q r) : Nets (a ++ b) p r := by
  intro st; rw [scan_append, ha st]; exact hb st

theorem Nets.frame {a : Str} {p q} (ha : Nets a p q) (x : List Str) : Nets a (p ++ x) (q ++ x) := by
  intro st; rw [List.append_assoc, List.append_assoc]; exact ha _

theorem Nets.nil (p) : Nets [] p p := fun _ => rfl

/-- The text leaves the open elements alone. -/
abbrev Inert (s : Str) : Prop := Nets s [] []

theorem Inert.any {s : Str} (h : Inert s) (p) : Nets s p p := by simpa using h.frame p

theorem Inert.append {a b : Str} (ha : Inert a) (hb : Inert b) : Inert (a ++ b) := Nets.append ha hb

theorem inert_iff {s : Str} : Inert s ↔ ∀ st, scan s ⟨st, none⟩ = some ⟨st, none⟩ := Iff.rfl

theorem NoAngle.nil : NoAngle [] := by simp [NoAngle]
theorem noAngle_append {a b : Str} : NoAngle (a ++ b) ↔ NoAngle a ∧ NoAngle b := by
  simp only [NoAngle, List.mem_append]; tauto
theorem noAngle_cons {c : Char} {b : Str} : NoAngle (c :: b) ↔ (c ≠ '<' ∧ c ≠ '>') ∧ NoAngle b := by
  simp only [NoAngle, List.mem_cons]; constructor
  · rintro ⟨h1, h2⟩
    exact ⟨⟨fun e => h1 (.inl e.symm), fun e => h2 (.inl e.symm)⟩, fun e => h1 (.inr e),
      fun e => h2 (.inr e)⟩
  · rintro ⟨⟨a, b⟩, c, d⟩
    exact ⟨fun e => e.elim (fun e => a e.symm) c, fun e => e.elim (fun e => b e.symm) d⟩

theorem NoAngle.inert {s : Str} (h : NoAngle s) : Inert s := by
  intro st
  induction s with
  | nil => rfl
  | cons c cs ih =>
    rw [noAngle_cons] at h
    simp only [scan, feed, if_neg h.1.1, Option.bind_some]
    exact ih h.2

theorem scan_inTag {s : Str} (h : NoAngle s) (st b) :
    scan s ⟨st, some b⟩ = some ⟨st, some (s.reverse ++ b)⟩ := by
  induction s generalizing b with
  | nil => rfl
  | cons c cs ih =>
    rw [noAngle_cons] at h
    simp only [scan, feed, if_neg h.1.1, if_neg h.1.2, Option.bind_some]
    rw [ih h.2]; simp

theorem scan_tag {s : Str} (h : NoAngle s) (st) :
    scan ('<' :: s ++ ['>']) ⟨st, none⟩ = (tagEffect s st).map fun o => ⟨o, none⟩ := by
  rw [scan_append]
  simp only [scan, feed, if_pos, Option.bind_some]
  rw [scan_inTag h]
  simp only [Option.bind_some, List.append_nil, List.reverse_reverse]
  cases tagEffect s st <;> rfl

/-- A name that opens an element: not empty, no blank, no slash at the ends, not void. -/
def GoodTag (tag : Str) : Prop :=
  NoAngle tag ∧ ' ' ∉ tag ∧ '/' ∉ tag ∧ tag ≠ [] ∧ tag ∉ voidNames

instance (s : Str) : Decidable (GoodTag s) := by unfold GoodTag; infer_instance

/-- Attributes as they follow the name of a tag: nothing, or a blank, and something that does not
end in a slash. -/
def Attrs (s : Str) : Prop :=
  NoAngle s ∧ (s = [] ∨ ∃ m c, s = ' ' :: m ++ [c] ∧ c ≠ '/')

theorem Attrs.nil : Attrs [] := ⟨NoAngle.nil, .inl rfl⟩

theorem Attrs.append {a b : Str} (ha : Attrs a) (hb : Attrs b) : Attrs (a ++ b) := by
  refine ⟨noAngle_append.mpr ⟨ha.1, hb.1⟩, ?_⟩
  rcases ha.2 with rfl | ⟨m, c, rfl, hc⟩
  · simpa using hb.2
  · rcases hb.2 with rfl | ⟨m', c', rfl, hc'⟩
    · exact .inr ⟨m, c, by simp, hc⟩
    · exact .inr ⟨m ++ c :: ' ' :: m', c', by simp, hc'⟩

/-- One attribute: it does not end in a slash. -/
def Attr1 (s : Str) : Prop := NoAngle s ∧ ∃ m c, s = m ++ [c] ∧ c ≠ '/'

theorem noAngle_join {sep : Str} (hsep : NoAngle sep) : ∀ {l : List Str}, (∀ x ∈ l, NoAngle x) →
    NoAngle (Tr.join sep l)
  | [], _ => NoAngle.nil
  | [x], h => by simpa [Tr.join] using h x (by simp)
  | x :: y :: xs, h => by
    simp only [Tr.join, noAngle_append]
    exact ⟨⟨h x (by simp), hsep⟩, noAngle_join hsep fun z hz => h z (by simp at hz ⊢; tauto)⟩

theorem attr1_join : ∀ {l : List Str}, l ≠ [] → (∀ x ∈ l, Attr1 x) → Attr1 (Tr.join [' '] l)
  | [], h, _ => absurd rfl h
  | [x], _, h => by simpa [Tr.join] using h x (by simp)
  | x :: y :: xs, _, h => by
    obtain ⟨hn, m, c, e, hc⟩ := attr1_join (l := y :: xs) (by simp)
      fun z hz => h z (by simp at hz ⊢; tauto)
    simp only [Tr.join]
    refine ⟨?_, x ++ [' '] ++ m, c, by rw [e]; simp, hc⟩
    simp only [noAngle_append]
    exact ⟨⟨(h x (by simp)).1, by decide⟩, hn⟩

theorem Attr1.attrs {s : Str} (h : Attr1 s) : Attrs (' ' :: s) := by
  obtain ⟨hn, m, c, rfl, hc⟩ := h
  exact ⟨noAngle_cons.mpr ⟨by decide, hn⟩, .inr ⟨m, c, by simp, hc⟩⟩

theorem attr1_quoted {a b : Str} (ha : NoAngle a) (hb : NoAngle b) : Attr1 (a ++ b ++ ['"']) :=
  ⟨by simp only [noAngle_append]; exact ⟨⟨ha, hb⟩, by decide⟩, a ++ b, '"', by simp, by decide⟩

theorem noAngle_digits (n : Nat) : NoAngle (natStr n) := by
  have h : ∀ c ∈ natStr n, c.isDigit = true := fun c hc => by
    unfold natStr at hc; exact Nat.isDigit_of_mem_toDigits (by decide) (by decide) hc
  constructor
  · intro hc; exact absurd (h _ hc) (by decide)
  · intro hc; exact absurd (h _ hc) (by decide)

/-- What `_make_tag` writes is one tag with its attributes. -/
theorem makeTag_eq {tag id : Str} {classes : List Str} {sel : Bool} {nodeid : Option Nat}
    {kw : List (Str × Str)} (hid : NoAngle id) (hc : ∀ x ∈ classes, NoAngle x)
    (hk : ∀ x ∈ kw, NoAngle x.1 ∧ NoAngle x.2) :
    ∃ at', Attrs at' ∧
      Tr.makeTag tag id classes sel nodeid kw = '<' :: (tag ++ at') ++ ['>'] := by
  unfold Tr.makeTag
  generalize hit : (List.map (fun kv : Str × Str => kv.1 ++ "=\"".toList ++ kv.2 ++ "\"".toList)
      (List.filter (fun x => decide (x.2 ≠ [])) kw)
    ++ (if sel = true then ["tabindex=0".toList] else [])
    ++ (match nodeid with
        | none => []
        | some n => ["data-nodeid=\"".toList ++ natStr n ++ "\"".toList])) = items
  have hitems : ∀ x ∈ items, Attr1 x := by
    intro x hx
    rw [← hit] at hx
    simp only [List.mem_append, List.mem_map, List.mem_filter] at hx
    rcases hx with (⟨kv, ⟨hkv, _⟩, rfl⟩ | hx) | hx
    · have := hk kv hkv
      exact attr1_quoted (noAngle_append.mpr ⟨this.1, by decide⟩) this.2
    · by_cases hs : sel = true
      · simp only [hs, if_true, List.mem_singleton] at hx
        subst hx
        exact ⟨by decide, "tabindex=".toList, '0', by rfl, by decide⟩
      · simp [hs] at hx
    · cases nodeid with
      | none => simp at hx
      | some n =>
        simp only [List.mem_singleton] at hx
        subst hx
        exact attr1_quoted (by decide) (noAngle_digits n)
  have hI : Attrs ((if items ≠ [] then " ".toList else []) ++ Tr.join " ".toList items) := by
    by_cases hi : items = []
    · subst hi; exact Attrs.nil
    · rw [if_pos hi]; exact (attr1_join hi hitems).attrs
  have hC : Attrs (if classes ≠ [] then " class=\"".toList ++ Tr.join " ".toList classes ++ "\"".toList
      else []) := by
    by_cases hi : classes = []
    · subst hi; exact Attrs.nil
    · rw [if_pos hi]
      exact (attr1_quoted (a := "class=\"".toList) (by decide)
        (noAngle_join (sep := " ".toList) (by decide) hc)).attrs
  have hD : Attrs (if id ≠ [] then " id=\"".toList ++ id ++ "\"".toList else []) := by
    by_cases hi : id = []
    · subst hi; exact Attrs.nil
    · rw [if_pos hi]
      exact (attr1_quoted (a := "id=\"".toList) (by decide) hid).attrs
  refine ⟨_, (hD.append hC).append hI, ?_⟩
  simp only [List.append_assoc]
  rw [List.cons_append]
  simp only [List.append_assoc]
  rfl

theorem tagName_append {tag at' : Str} (hsp : ' ' ∉ tag) (ha : Attrs at') :
    tagName (tag ++ at') = tag := by
  unfold tagName
  have hall : ∀ c ∈ tag, decide (c ≠ ' ') = true := by
    intro c hc; simp; rintro rfl; exact hsp hc
  rw [List.takeWhile_append_of_pos hall]
  rcases ha.2 with rfl | ⟨m, c, rfl, _⟩ <;> simp

theorem nets_opening {tag at' : Str} (ht : GoodTag tag) (ha : Attrs at') :
    Nets ('<' :: (tag ++ at') ++ ['>']) [] [tag] := by
  obtain ⟨hn, hsp, hsl, hne, hv⟩ := ht
  intro st
  rw [scan_tag (noAngle_append.mpr ⟨hn, ha.1⟩)]
  have hname : tagName (tag ++ at') = tag := tagName_append hsp ha
  have hlast : (tag ++ at').getLast? ≠ some '/' := by
    rcases ha.2 with rfl | ⟨m, c, rfl, hc⟩
    · rw [List.append_nil]
      intro e; exact hsl (List.mem_of_getLast? e)
    · rw [show tag ++ (' ' :: m ++ [c]) = (tag ++ ' ' :: m) ++ [c] by simp, List.getLast?_concat]
      simpa using hc
  have heff : tagEffect (tag ++ at') ([] ++ st) = some (tag :: st) := by
    unfold tagEffect
    cases tag with
    | nil => exact absurd rfl hne
    | cons c cs =>
      have hc : c ≠ '/' := fun e => hsl (by simp [e])
      split
      · rename_i e; simp only [List.cons_append, List.cons.injEq] at e; exact absurd e.1 hc
      · rw [hname, if_neg (fun h => h.elim hlast hv)]
        rfl
  rw [heff]; rfl

/-- An opening tag that `_make_tag` writes opens its element. -/
theorem nets_makeTag {tag id : Str} {classes : List Str} {sel : Bool} {nodeid : Option Nat}
    {kw : List (Str × Str)} (ht : GoodTag tag) (hid : NoAngle id) (hc : ∀ x ∈ classes, NoAngle x)
    (hk : ∀ x ∈ kw, NoAngle x.1 ∧ NoAngle x.2) :
    Nets (Tr.makeTag tag id classes sel nodeid kw) [] [tag] := by
  obtain ⟨a, ha, e⟩ := makeTag_eq (tag := tag) (sel := sel) (nodeid := nodeid) hid hc hk
  rw [e]; exact nets_opening ht ha

/-- A tag of a void element leaves the open elements alone. -/
theorem inert_void {tag id : Str} {classes : List Str} {sel : Bool} {nodeid : Option Nat}
    {kw : List (Str × Str)} (hn : NoAngle tag) (hsp : ' ' ∉ tag) (hsl : tag.head? ≠ some '/')
    (hne : tag ≠ []) (hv : tag ∈ voidNames) (hid : NoAngle id) (hc : ∀ x ∈ classes, NoAngle x)
    (hk : ∀ x ∈ kw, NoAngle x.1 ∧ NoAngle x.2) :
    Inert (Tr.makeTag tag id classes sel nodeid kw) := by
  obtain ⟨at', ha, e⟩ := makeTag_eq (tag := tag) (sel := sel) (nodeid := nodeid) hid hc hk
  rw [e]
  intro st
  rw [scan_tag (noAngle_append.mpr ⟨hn, ha.1⟩)]
  have hname : tagName (tag ++ at') = tag := tagName_append hsp ha
  have heff : tagEffect (tag ++ at') ([] ++ st) = some st := by
    unfold tagEffect
    cases tag with
    | nil => exact absurd rfl hne
    | cons c cs =>
      have hc : c ≠ '/' := fun e => hsl (by simp [e])
      split
      · rename_i e; simp only [List.cons_append, List.cons.injEq] at e; exact absurd e.1 hc
      · rw [hname, if_pos (.inr hv)]; rfl
  rw [heff]; rfl

/-- A closing tag closes its element. -/
theorem nets_closeTag {tag : Str} (ht : GoodTag tag) : Nets (Tr.closeTag tag) [tag] [] := by
  intro st
  have e : Tr.closeTag tag = '<' :: ('/' :: tag) ++ ['>'] := rfl
  rw [e, scan_tag (noAngle_cons.mpr ⟨by decide, ht.1⟩)]
  simp [tagEffect]

theorem inert_nl (b : Bool) : Inert (Tr.nl b) := by cases b <;> exact fun _ => rfl

end Html
end RSM
