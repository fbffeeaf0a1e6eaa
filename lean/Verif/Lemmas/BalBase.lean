import Verif.Spec.Balance
import Verif.Lemmas.Html
import Verif.Lemmas.TrTags

/-! # Lemmas: commands as stack transformers -/

namespace RSM
namespace Html

/-! ## Balanced texts are inert -/

theorem tagEffect_frame {b : Str} {p q : List Str} (h : tagEffect b p = some q) (st : List Str) :
    tagEffect b (p ++ st) = some (q ++ st) := by
  unfold tagEffect at h ⊢
  split
  · cases p with
    | nil => simp at h
    | cons a p =>
      simp only at h
      simp only [List.cons_append]
      split at h
      · rename_i e; cases h; rw [if_pos e]
      · cases h
  · rename_i hn
    split at h
    · rename_i n; exact absurd rfl (hn n)
    · split at h
      · rename_i e; cases h; rw [if_pos e]
      · rename_i e; cases h; rw [if_neg e]; rfl

theorem scan_frame (s : Str) : ∀ {p : List Str} {b} {q : List Str} {b'}
    (_ : scan s ⟨p, b⟩ = some ⟨q, b'⟩) (st : List Str),
    scan s ⟨p ++ st, b⟩ = some ⟨q ++ st, b'⟩ := by
  induction s with
  | nil => intro p b q b' h st; cases h; rfl
  | cons c s ih =>
    intro p b q b' h st
    simp only [scan] at h ⊢
    cases b with
    | none =>
      simp only [feed] at h ⊢
      split at h
      · rename_i e; simp only [e, if_true, Option.bind_some] at h ⊢; exact ih h st
      · rename_i e; simp only [e, if_false, Option.bind_some] at h ⊢; exact ih h st
    | some b =>
      simp only [feed] at h ⊢
      split at h
      · rename_i e
        simp only [e, if_true]
        cases he : tagEffect b.reverse p with
        | none => rw [he] at h; simp at h
        | some o =>
          rw [he] at h
          rw [tagEffect_frame he st]
          simp only [Option.map_some, Option.bind_some] at h ⊢
          exact ih h st
      · rename_i e
        split at h
        · simp at h
        · rename_i e2
          simp only [e, e2, if_false, Option.bind_some] at h ⊢
          exact ih h st

theorem Balanced.inert {s : Str} (h : Balanced s) : Inert s := by
  intro st
  exact scan_frame s h st

theorem Nets.balanced {s : Str} (h : Inert s) : Balanced s := h []

/-! ## Chains of texts -/

/-- The texts, one after the other, turn the stack `p` into `q`, and none of them ends inside of a
tag. -/
def Chain : List Str → List Str → List Str → Prop
  | [], p, q => p = q
  | d :: ds, p, r => ∃ q, Nets d p q ∧ Chain ds q r

theorem Chain.nets {ds : List Str} {p q} (h : Chain ds p q) : Nets ds.flatten p q := by
  induction ds generalizing p with
  | nil => cases h; exact Nets.nil _
  | cons d ds ih =>
    obtain ⟨m, h1, h2⟩ := h
    exact h1.append (ih h2)

theorem Chain.append {a b : List Str} {p q r} (ha : Chain a p q) (hb : Chain b q r) :
    Chain (a ++ b) p r := by
  induction a generalizing p with
  | nil => cases ha; exact hb
  | cons d ds ih =>
    obtain ⟨m, h1, h2⟩ := ha
    exact ⟨m, h1, ih h2⟩

theorem Chain.frame {a : List Str} {p q} (ha : Chain a p q) (x : List Str) :
    Chain a (p ++ x) (q ++ x) := by
  induction a generalizing p with
  | nil => cases ha; rfl
  | cons d ds ih =>
    obtain ⟨m, h1, h2⟩ := ha
    exact ⟨m ++ x, h1.frame x, ih h2⟩

theorem Chain.single {d : Str} {p q} (h : Nets d p q) : Chain [d] p q := ⟨q, h, rfl⟩

theorem Chain.insert {ds : List Str} {p q} (h : Chain ds p q) {x : Str} (hx : Inert x) (n : Nat) :
    Chain (Tr.insertAt n x ds) p q := by
  induction n generalizing ds p with
  | zero => exact ⟨p, hx.any p, by simpa using h⟩
  | succ n ih =>
    cases ds with
    | nil => exact ⟨p, hx.any p, h⟩
    | cons d ds =>
      obtain ⟨m, h1, h2⟩ := h
      exact ⟨m, h1, ih h2⟩

theorem insertAt_map {α β : Type} (f : α → β) (n : Nat) (x : α) (l : List α) :
    (Tr.insertAt n x l).map f = Tr.insertAt n (f x) (l.map f) := by
  simp [Tr.insertAt, List.map_take, List.map_drop]

end Html

namespace Tr
open PyM Html

/-! ## Items -/

/-- The texts the items defer, in the order in which they will be written. -/
def closersOf (l : List Item) : List Str := (l.filterMap Item.deferred).reverse

/-- The texts a command defers, in the order in which they will be written. -/
def Cmd.closers : Cmd → List Str
  | .item i => i.deferred.toList
  | .batch _ => []
  | .batchDefer l => closersOf l

/-- What the items write turns `p` into some stack, and what they defer turns this into `q`. -/
def Fair (l : List Item) (p q : List Str) : Prop :=
  ∃ m, Nets (l.flatMap Item.makeText) p m ∧ Chain (closersOf l) m q

theorem Fair.nil : Fair [] [] [] := ⟨[], Nets.nil _, rfl⟩

theorem Fair.append {a b : List Item} {p q} (ha : Fair a p q) (hb : Fair b [] []) :
    Fair (a ++ b) p q := by
  obtain ⟨m1, h1, h2⟩ := ha
  obtain ⟨m2, h3, h4⟩ := hb
  refine ⟨m2 ++ m1, ?_, ?_⟩
  · rw [List.flatMap_append]
    exact h1.append (by simpa using h3.frame m1)
  · unfold closersOf at *
    rw [List.filterMap_append, List.reverse_append]
    exact Chain.append (by simpa using h4.frame m1) h2

theorem Fair.cons {i : Item} {b : List Item} {p q} (ha : Fair [i] p q) (hb : Fair b [] []) :
    Fair (i :: b) p q := ha.append hb

/-- Items that defer nothing. -/
theorem Fair.after {a b : List Item} {p m q} (hd : DoneL a) (ha : Nets (a.flatMap Item.makeText) p m)
    (hb : Fair b m q) : Fair (a ++ b) p q := by
  obtain ⟨m2, h3, h4⟩ := hb
  refine ⟨m2, ?_, ?_⟩
  · rw [List.flatMap_append]; exact ha.append h3
  · unfold closersOf at *
    rw [List.filterMap_append, List.filterMap_eq_nil_iff.mpr hd]
    exact h4

theorem Fair.done {a : List Item} {p q} (hd : DoneL a) (ha : Nets (a.flatMap Item.makeText) p q) :
    Fair a p q := by
  refine ⟨q, ha, ?_⟩
  unfold closersOf
  rw [List.filterMap_eq_nil_iff.mpr hd]
  rfl

/-- The arguments of a tag command that opens an element. -/
structure TagOk (a : TagArgs) : Prop where
  tag : GoodTag a.tag
  id : NoAngle a.id
  classes : ∀ x ∈ a.classes, NoAngle x
  content : Inert a.content

theorem TagOk.opening {a : TagArgs} (h : TagOk a) : Nets a.opening [] [a.tag] :=
  nets_makeTag h.tag h.id h.classes (by simp)

theorem TagOk.closing {a : TagArgs} (h : TagOk a) : Nets a.closing [a.tag] [] :=
  (((inert_nl _).any _).append (nets_closeTag h.tag)).append (inert_nl _)

/-- An item that writes something well nested and defers nothing. -/
def Still (i : Item) : Prop := i.deferred = none ∧ Inert i.makeText

theorem still_text {s : Str} (h : Inert s) : Still (.text s) := ⟨rfl, h⟩
theorem still_openClose {a : TagArgs} (h : TagOk a) : Still (.openClose a) := by
  refine ⟨rfl, ?_⟩
  unfold Item.makeText
  exact (((((((inert_nl _).any _).append h.opening : Nets _ [] _).append ((inert_nl _).any _)).append
    (h.content.any _)).append ((inert_nl _).any _)).append (nets_closeTag h.tag)).append
      ((inert_nl _).any _)

theorem StillL.inert {l : List Item} (h : ∀ i ∈ l, Still i) : Inert (l.flatMap Item.makeText) := by
  induction l with
  | nil => exact Nets.nil _
  | cons i l ih =>
    rw [List.flatMap_cons]
    exact (h i (by simp)).2.append (ih fun j hj => h j (by simp [hj]))

theorem StillL.done {l : List Item} (h : ∀ i ∈ l, Still i) : DoneL l := fun i hi => (h i hi).1

theorem fair_stills {l : List Item} (h : ∀ i ∈ l, Still i) : Fair l [] [] :=
  Fair.done (StillL.done h) (StillL.inert h)

theorem fair_still {i : Item} (h : Still i) : Fair [i] [] [] := fair_stills (by simpa using h)

theorem nets_openManual {a : TagArgs} (h : TagOk a) : Nets (Item.makeText (.openManual a)) [] [a.tag] := by
  unfold Item.makeText
  exact ((Nets.append (inert_nl _) h.opening).append ((inert_nl _).any _)).append (h.content.any _)

theorem fair_openTag {a : TagArgs} (h : TagOk a) : Fair [.openTag a] [] [] := by
  refine ⟨[a.tag], ?_, Chain.single h.closing⟩
  simp only [List.flatMap_cons, List.flatMap_nil, List.append_nil]
  unfold Item.makeText
  exact (Nets.append (inert_nl _) h.opening).append ((inert_nl _).any _)

theorem fair_defer {s d : Str} (hs : Inert s) (hd : Inert d) : Fair [.defer s d] [] [] := by
  refine ⟨[], ?_, Chain.single hd⟩
  simpa [Item.makeText] using hs

/-- An element that is opened and closed by hand, with still items in between. -/
theorem fair_block {a : TagArgs} (ha : TagOk a) {l : List Item} (hl : ∀ i ∈ l, Still i) {c : Str}
    (hc : Nets c [a.tag] []) : Fair (.openManual a :: l ++ [.text c]) [] [] := by
  refine Fair.done ?_ ?_
  · intro i hi
    simp only [List.cons_append, List.mem_cons, List.mem_append, List.not_mem_nil,
      or_false] at hi
    rcases hi with rfl | hi | rfl
    · rfl
    · exact (hl i hi).1
    · rfl
  · rw [List.flatMap_append, List.flatMap_cons]
    refine ((nets_openManual ha).append ((StillL.inert hl).any _)).append ?_
    simpa [Item.makeText] using hc

/-! ## Strings -/

theorem noAngle_of_subset {a b : Str} (h : NoAngle b) (hs : ∀ c ∈ a, c ∈ b) : NoAngle a :=
  ⟨fun hc => h.1 (hs _ hc), fun hc => h.2 (hs _ hc)⟩

theorem mem_of_mem_dropWhile {α : Type} {p : α → Bool} {l : List α} {x : α} (h : x ∈ l.dropWhile p) :
    x ∈ l := (List.dropWhile_sublist p).subset h

theorem noAngle_strip {s : Str} (h : NoAngle s) : NoAngle (strip s) := by
  refine noAngle_of_subset h fun c hc => ?_
  unfold strip rstrip lstrip at hc
  exact mem_of_mem_dropWhile (List.mem_reverse.mp (mem_of_mem_dropWhile (List.mem_reverse.mp hc)))

theorem noAngle_stripDots {s : Str} (h : NoAngle s) : NoAngle (stripDots s) := by
  refine noAngle_of_subset h fun c hc => ?_
  unfold stripDots at hc
  exact mem_of_mem_dropWhile (List.mem_reverse.mp (mem_of_mem_dropWhile (List.mem_reverse.mp hc)))

theorem noAngle_name (c : Cls) : NoAngle c.name := by cases c <;> decide
theorem noAngle_lower_name (c : Cls) : NoAngle (lower c.name) := by cases c <;> decide
theorem noAngle_cap_name (c : Cls) : NoAngle (capitalize (lower c.name)) := by cases c <;> decide

theorem noAngle_int : ∀ n : Int, NoAngle (intStr n)
  | .ofNat n => noAngle_digits n
  | .negSucc n => noAngle_cons.mpr ⟨by decide, noAngle_digits _⟩

theorem noAngle_fmt {n : PyNum} (h : CleanNum n) : NoAngle n.fmt := by
  cases n with
  | none => decide
  | int n => exact noAngle_int n
  | str s => exact h

theorem noAngle_fmtOpt {o : Option Str} (h : ∀ s, o = some s → NoAngle s) : NoAngle (fmtOpt o) := by
  cases o with
  | none => show NoAngle "None".toList; decide
  | some s => exact h s rfl

theorem noAngle_fullNumber {h : Heap} (hc : CleanHeap h) : ∀ (n : Nat) (r : Ref) {o : Option Str}
    (_ : h.fullNumber n r = some o), ∀ s, o = some s → NoAngle s
  | 0, _, _, e => by simp [Heap.fullNumber] at e
  | n + 1, r, o, e => by
    intro s hs
    subst hs
    have hnum := noAngle_fmt (hc r).number
    have hown : NoAngle (if (h.get r).number.truthy then (h.get r).number.fmt else []) := by
      split
      · exact hnum
      · exact NoAngle.nil
    unfold Heap.fullNumber at e
    simp only at e
    split at e
    · cases e; exact NoAngle.nil
    · split at e
      · cases e
      · simp only [Option.bind_eq_bind, Option.bind_eq_some_iff] at e
        obtain ⟨a1, _, e⟩ := e
        obtain ⟨a2, e⟩ : ∃ a2 : Option Ref, (match a2 with
            | .none => some (some (if (h.get r).number.truthy then (h.get r).number.fmt else []))
            | .some a => (h.fullNumber n a).bind fun fa => match fa with
              | .some (c :: s) => some (some ((c :: s) ++ '.' :: (h.get r).number.fmt))
              | _ => some (some (if (h.get r).number.truthy then (h.get r).number.fmt else [])))
            = some (some s) := by
          cases a1 with
          | some a => exact ⟨some a, e⟩
          | none =>
            simp only [Option.bind_eq_some_iff] at e
            obtain ⟨a2, _, e⟩ := e
            exact ⟨a2, by cases a2 <;> exact e⟩
        cases a2 with
        | none => simp only [Option.some.injEq] at e; rw [← e]; exact hown
        | some a =>
          simp only [Option.bind_eq_some_iff] at e
          obtain ⟨fa, hfa, e⟩ := e
          split at e
          · rename_i c cs
            simp only [Option.some.injEq] at e
            rw [← e]
            exact noAngle_append.mpr ⟨noAngle_fullNumber hc n a hfa _ rfl,
              noAngle_cons.mpr ⟨by decide, hnum⟩⟩
          · simp only [Option.some.injEq] at e; rw [← e]; exact hown

/-- The modes of the template scanner without angle brackets: only literal output matters. -/
theorem noAngle_formatGo {nc num : Str} (h1 : NoAngle nc) (h2 : NoAngle num) (s : Str) :
    ∀ (m : FmtMode) {o : Str}, NoAngle s → formatGo nc num m s = .ok o → NoAngle o := by
  induction s with
  | nil =>
    intro m o _ e
    cases m <;> simp [formatGo] at e
    rw [e]; exact NoAngle.nil
  | cons c s ih =>
    intro m o hs e
    rw [noAngle_cons] at hs
    have key : ∀ (m : FmtMode) (g : Str → Str), (∀ x, NoAngle x → NoAngle (g x)) →
        (formatGo nc num m s).map g = .ok o → NoAngle o := by
      intro m g hg e
      cases e' : formatGo nc num m s with
      | error x => rw [e'] at e; cases e
      | ok a =>
        rw [e'] at e
        cases e
        exact hg a (ih m hs.2 e')
    cases m <;> simp only [formatGo] at e
    · split at e
      · exact ih _ hs.2 e
      · split at e
        · exact ih _ hs.2 e
        · exact key _ _ (fun x hx => noAngle_cons.mpr ⟨hs.1, hx⟩) e
    · split at e
      · exact key _ _ (fun x hx => noAngle_cons.mpr ⟨by decide, hx⟩) e
      · split at e
        · cases e
        · exact ih _ hs.2 e
    · split at e
      · exact key _ _ (fun x hx => noAngle_cons.mpr ⟨by decide, hx⟩) e
      · cases e
    · split at e
      · split at e
        · exact key _ _ (fun x hx => noAngle_append.mpr ⟨h1, hx⟩) e
        · split at e
          · exact key _ _ (fun x hx => noAngle_append.mpr ⟨h2, hx⟩) e
          · cases e
      · exact ih _ hs.2 e

theorem goodTag_heading (n : Nat) : GoodTag ('h' :: natStr n) := by
  have hd : ∀ c ∈ natStr n, c.isDigit = true := fun c hc => by
    unfold natStr at hc; exact Nat.isDigit_of_mem_toDigits (by decide) (by decide) hc
  have hne : natStr n ≠ [] := by unfold natStr; exact Nat.toDigits_ne_nil
  refine ⟨noAngle_cons.mpr ⟨by decide, noAngle_digits n⟩, ?_, ?_, by simp, ?_⟩
  · intro h
    simp only [List.mem_cons] at h
    rcases h with h | h
    · cases h
    · exact absurd (hd _ h) (by decide)
  · intro h
    simp only [List.mem_cons] at h
    rcases h with h | h
    · cases h
    · exact absurd (hd _ h) (by decide)
  · intro h
    cases hs : natStr n with
    | nil => exact hne hs
    | cons c cs =>
      rw [hs] at h hd
      have hc := hd c (by simp)
      have : ∀ v ∈ voidNames, v.head? = some 'h' → v = "hr".toList := by decide
      have := this _ h rfl
      simp only [String.toList] at this
      have e : 'h' :: c :: cs = ['h', 'r'] := this
      simp only [List.cons.injEq, true_and] at e
      rw [e.1] at hc
      exact absurd hc (by decide)

theorem tagOk_nodeTag {nd : NodeRec} (hn : Clean nd) {tag : Str} (ht : GoodTag tag)
    {add : List Str} (ha : ∀ x ∈ add, NoAngle x) (ni no sel : Bool) :
    TagOk (nodeTag nd tag add ni no sel) := by
  refine ⟨ht, hn.label, ?_, Nets.nil _⟩
  intro x hx
  rw [show (nodeTag nd tag add ni no sel).classes = fromKeys (lower nd.cls.name :: nd.types ++ add)
    from rfl, mem_fromKeys] at hx
  simp only [List.cons_append, List.mem_cons, List.mem_append] at hx
  rcases hx with rfl | hx | hx
  · exact noAngle_lower_name _
  · exact hn.types x hx
  · exact ha x hx

theorem still_heading {s : Str} (n : Nat) (h : NoAngle s) : Still (heading n s) :=
  still_openClose ⟨goodTag_heading n, NoAngle.nil, by simp, h.inert⟩

theorem still_paragraphTag {s : Str} (h : Inert s) {cs : List Str} (hc : ∀ x ∈ cs, NoAngle x) :
    Still (paragraphTag s cs) :=
  still_openClose ⟨(by decide : GoodTag "p".toList), NoAngle.nil, hc, h⟩

theorem still_halmos : Still halmos :=
  still_openClose ⟨by decide, NoAngle.nil, by decide, Nets.nil _⟩

end Tr
end RSM
