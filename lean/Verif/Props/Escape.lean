import Verif.Lemmas.Escape

/-!
# C32 – C36: `EscapedString`

Positions are counted from 0.  `chars` lists the set of special characters in the order Python
happens to iterate over it; `Nodup` says it is a set.
-/

namespace RSM

/-! ## C32 -/

/-- `escape()` deletes exactly the backslashes that directly precede a special character,
whatever order the set is iterated in, if the backslash is not itself special. -/
theorem C32_escape (e : EscapedString) (hset : e.chars.Nodup) (hb : '\\' ∉ e.chars) :
    e.escape = unescape (· ∈ e.chars) e.src := by
  unfold EscapedString.escape
  have := foldl_replace e.chars (fun _ => False) e.src hset hb id (by simp)
  rw [unescape_none] at this
  rw [this]
  exact unescape_congr (by simp) _

/-- Consequence: two iteration orders of the same set give the same text. -/
theorem C32_order_irrelevant (s : Str) (cs ds : List Char) (h : cs.Perm ds) (hset : cs.Nodup)
    (hb : '\\' ∉ cs) :
    (EscapedString.mk s cs).escape = (EscapedString.mk s ds).escape := by
  rw [C32_escape _ hset hb,
    C32_escape _ (h.nodup_iff.mp hset) (fun hc => hb (h.mem_iff.mpr hc))]
  exact unescape_congr (fun c => h.mem_iff) _

/-- With the backslash in the set the result depends on the iteration order. -/
theorem C32_order_matters_with_backslash :
    ∃ (s : Str) (cs ds : List Char), cs.Perm ds ∧ cs.Nodup ∧
      (EscapedString.mk s cs).escape ≠ (EscapedString.mk s ds).escape :=
  ⟨"\\\\:".toList, ['\\', ':'], [':', '\\'], List.Perm.swap .., by decide, by decide⟩

example : (EscapedString.mk "a\\:b\\c\\\\%".toList [':', '%', '$']).escape = "a:b\\c\\%".toList := by
  decide
example : unescape (· ∈ [':', '%', '$']) "a\\:b\\c\\\\%".toList = "a:b\\c\\%".toList := by decide

/-! ## C33 -/

/-- Escaping every special character and calling `escape()` gives the text back. -/
theorem C33_round_trip (s : Str) (cs : List Char) (hset : cs.Nodup) (hb : '\\' ∉ cs) :
    (EscapedString.mk (addEscapes (· ∈ cs) s) cs).escape = s := by
  rw [C32_escape _ hset hb]
  exact unescape_addEscapes (by simpa using hb) s

example : addEscapes (· ∈ [':', '%']) "a:\\:%".toList = "a\\:\\\\:\\%".toList := by decide

/-! ## C34 -/

/-- `find(c, start, end)` for a special character ends (`fuel` bounds the number of iterations;
one more than the length is enough) and returns the first unescaped occurrence in the range, or
-1 when there is none. -/
theorem C34_find (e : EscapedString) (c : Char) (hc : c ∈ e.chars) (start : Int)
    (stop : Option Int) (fuel : Nat) (hfuel : e.src.length < fuel) :
    let ok := fun i => InRange e.src.length start (stop.getD e.src.length) i ∧ UnescapedAt e.src c i
    (e.find fuel [c] start stop = some (-1) ∧ ∀ i, ¬ ok i) ∨
    ∃ i : Nat, e.find fuel [c] start stop = some (i : Int) ∧ ok i ∧ ∀ j < i, ¬ ok j := by
  intro ok
  have hesc : e.isEscapeChar [c] = true := (isEscapeChar_iff e c).mpr hc
  unfold EscapedString.find
  simp only [hesc, Bool.not_true, Bool.or_self, Bool.false_eq_true, if_false]
  rcases pyFind_char e.src c start (stop.getD e.src.length) with ⟨h1, h2⟩ | ⟨i, h1, h2, h3, h4⟩
  · left
    rw [h1]
    exact ⟨by simp, fun i hi => h2 i hi.1 hi.2.1⟩
  · rw [h1]
    by_cases hi0 : i = 0
    · right
      subst hi0
      exact ⟨0, by simp, ⟨h2, h3, .inl rfl⟩, by simp⟩
    · rw [if_neg (by omega)]
      rcases findLoop_spec e c start _ fuel i (by omega) h2 h3
        (fun j hj hr hu => h4 j hj hr hu.1) (by omega) with ⟨h5, h6⟩ | ⟨k, h5, h6, h7, h8⟩
      · exact .inl ⟨h5, fun j hj => h6 j hj.1 hj.2⟩
      · exact .inr ⟨k, h5, ⟨h6, h7⟩, fun j hj hok => h8 j hj hok.1 hok.2⟩

example : (EscapedString.mk "\\:\\:a:b".toList [':']).find 8 [':'] = some 5 := by decide
example : (EscapedString.mk "\\:\\:a:b".toList [':']).find 8 [':'] 0 (some (-2)) = some (-1) := by
  decide

/-! ## C35 -/

/-- `index(c)` raises `ValueError` exactly when the character does not occur in the range. -/
theorem C35_index_raises (e : EscapedString) (c : Char) (start : Int)
    (stop : Option Int) (fuel : Nat) :
    e.index fuel [c] start stop = some (.error .valueError) ↔
      ∀ i, InRange e.src.length start (stop.getD e.src.length) i → e.src[i]? ≠ some c := by
  have hloop : ∀ (st : Int) n i, e.indexLoop [c] st n i ≠ some (.error .valueError) := by
    intro st n
    induction n with
    | zero => intro i; simp [EscapedString.indexLoop]
    | succ n ih =>
      intro i
      rw [EscapedString.indexLoop]
      split
      · simp
      · split
        · exact ih _
        · simp
  unfold EscapedString.index
  rcases pyFind_char e.src c start (stop.getD e.src.length) with ⟨h1, h2⟩ | ⟨i, h1, h2, h3, h4⟩
  · simp only [h1]
    simp only [show ((-1 : Int) < 0) by decide, if_true, true_iff]
    exact h2
  · simp only [h1]
    rw [if_neg (by omega)]
    constructor
    · intro h
      exfalso
      split at h
      · simp at h
      · split at h
        · simp at h
        · exact hloop _ _ _ h
    · intro h
      exact absurd h3 (h i h2)

/-- When there is an unescaped occurrence in the range, `index(c)` returns the first one. -/
theorem C35_index_first (e : EscapedString) (c : Char) (hc : c ∈ e.chars) (start : Int)
    (stop : Option Int) (fuel : Nat) (hfuel : e.src.length < fuel)
    (hex : ∃ i, InRange e.src.length start (stop.getD e.src.length) i ∧ UnescapedAt e.src c i) :
    let ok := fun i => InRange e.src.length start (stop.getD e.src.length) i ∧ UnescapedAt e.src c i
    ∃ i : Nat, e.index fuel [c] start stop = some (.ok (i : Int)) ∧ ok i ∧ ∀ j < i, ¬ ok j := by
  intro ok
  have hesc : e.isEscapeChar [c] = true := (isEscapeChar_iff e c).mpr hc
  obtain ⟨i0, h0, h0'⟩ := hex
  unfold EscapedString.index
  simp only [hesc, Bool.not_true, Bool.or_self, Bool.false_eq_true, if_false]
  rcases pyFind_char e.src c start (stop.getD e.src.length) with ⟨h1, h2⟩ | ⟨i, h1, h2, h3, h4⟩
  · exact absurd h0'.1 (h2 i0 h0)
  · rw [h1, if_neg (by omega)]
    by_cases hi0 : i = 0
    · subst hi0
      exact ⟨0, by simp, ⟨h2, h3, .inl rfl⟩, by simp⟩
    · rw [if_neg (by omega)]
      rcases findLoop_spec e c start _ fuel i (by omega) h2 h3
        (fun j hj hr hu => h4 j hj hr hu.1) (by omega) with ⟨h5, h6⟩ | ⟨k, h5, h6, h7, h8⟩
      · exact absurd h0' (h6 i0 h0)
      · exact ⟨k, indexLoop_of_findLoop e c _ fuel i k (by omega)
          (Nat.le_of_lt h2.2.2) h5, ⟨h6, h7⟩, fun j hj hok => h8 j hj hok.1 hok.2⟩

/-- When every occurrence in the range is escaped, `index(c)` does not raise but returns -1, if
the next-to-last character of the string is not a backslash. -/
theorem C35_index_minus_one (e : EscapedString) (c : Char) (hc : c ∈ e.chars) (start : Int)
    (stop : Option Int) (fuel : Nat) (hfuel : e.src.length + 1 < fuel)
    (hocc : ∃ i, InRange e.src.length start (stop.getD e.src.length) i ∧ e.src[i]? = some c)
    (hesc : ∀ i, InRange e.src.length start (stop.getD e.src.length) i → ¬ UnescapedAt e.src c i)
    (hlast : e.src[e.src.length - 2]? ≠ some '\\') :
    e.index fuel [c] start stop = some (.ok (-1)) := by
  have hsp : e.isEscapeChar [c] = true := (isEscapeChar_iff e c).mpr hc
  obtain ⟨i0, h0, h0'⟩ := hocc
  unfold EscapedString.index
  simp only [hsp, Bool.not_true, Bool.or_self, Bool.false_eq_true, if_false]
  rcases pyFind_char e.src c start (stop.getD e.src.length) with ⟨h1, h2⟩ | ⟨i, h1, h2, h3, h4⟩
  · exact absurd h0' (h2 i0 h0)
  · rw [h1, if_neg (by omega)]
    have hi0 : i ≠ 0 := by
      rintro rfl
      exact hesc 0 h2 ⟨h3, .inl rfl⟩
    rw [if_neg (by omega)]
    exact indexLoop_neg e c start _ fuel i (by omega) h2 h3 hesc hlast (by omega)

/-- When every occurrence before `end` is escaped and the next-to-last character is a backslash,
`index(c)` runs for ever: it has not ended after any number of iterations. -/
theorem C35_index_diverges (e : EscapedString) (c : Char) (hc : c ∈ e.chars) (start : Int)
    (stop : Option Int)
    (hocc : ∃ i, InRange e.src.length start (stop.getD e.src.length) i ∧ e.src[i]? = some c)
    (hesc : ∀ i, InRange e.src.length 0 (stop.getD e.src.length) i → ¬ UnescapedAt e.src c i)
    (hlast : e.src[e.src.length - 2]? = some '\\') :
    ∀ fuel, e.index fuel [c] start stop = none := by
  intro fuel
  have hsp : e.isEscapeChar [c] = true := (isEscapeChar_iff e c).mpr hc
  obtain ⟨i0, h0, h0'⟩ := hocc
  have hall : ∀ k, InRange e.src.length start (stop.getD e.src.length) k →
      InRange e.src.length 0 (stop.getD e.src.length) k := by
    intro k hk
    exact ⟨by simp, hk.2.1, hk.2.2⟩
  unfold EscapedString.index
  simp only [hsp, Bool.not_true, Bool.or_self, Bool.false_eq_true, if_false]
  rcases pyFind_char e.src c start (stop.getD e.src.length) with ⟨h1, h2⟩ | ⟨i, h1, h2, h3, h4⟩
  · exact absurd h0' (h2 i0 h0)
  · rw [h1, if_neg (by omega)]
    have hi0 : i ≠ 0 := by
      rintro rfl
      exact hesc 0 (hall 0 h2) ⟨h3, .inl rfl⟩
    rw [if_neg (by omega)]
    exact indexLoop_diverges e c _ fuel i (.inr ⟨i, rfl, by omega, hall i h2, h3⟩) hesc
      (by have := h2.2.2; omega) hlast

example : (EscapedString.mk "a\\:b:".toList [':']).index 8 [':'] = some (.ok 4) := by rfl
example : (EscapedString.mk "\\:ab".toList [':']).index 8 [':'] = some (.ok (-1)) := by rfl
example : (EscapedString.mk "ab".toList [':']).index 8 [':'] = some (.error .valueError) := by rfl
/-- The string of a backslash and a colon makes `index` run for ever. -/
example : ∀ fuel, (EscapedString.mk "\\:".toList [':']).index fuel [':'] = none :=
  C35_index_diverges _ ':' (by decide) 0 none ⟨1, by decide, by decide⟩
    (by
      intro i hi
      have : i = 0 ∨ i = 1 := by have := hi.2.2; simp at this; omega
      rcases this with rfl | rfl <;> decide)
    (by decide)

/-! ## C36 -/

/-- `split` returns one piece more than there are cut positions, whichever special character was
asked for. -/
theorem C36_split_count (e : EscapedString) (sep : Char) :
    (e.split sep).length = (cutPositions (· ∈ e.chars) e.src).length + 1 := by
  have := splitLoop_spec e 0 0 [] e.src rfl (Nat.zero_le _)
  simp only [Int.natCast_zero, List.nil_append] at this
  unfold EscapedString.split
  rw [this]
  simp [cutPositions, List.range_eq_range']

/-- The pieces exactly: between consecutive cut positions `p` and `q` (the ends of the text
counting as such) the piece holds the characters at positions `p + 1` to `q - 2`. -/
theorem C36_split_pieces (e : EscapedString) (sep : Char) :
    let cuts := cutPositions (· ∈ e.chars) e.src
    e.split sep = List.zipWith (fun p q => between e.src (p + 1) (q - 1))
      (0 :: cuts) (cuts ++ [e.src.length]) := by
  have := splitLoop_spec e 0 0 [] e.src rfl (Nat.zero_le _)
  simp only [Int.natCast_zero, List.nil_append] at this
  unfold EscapedString.split
  rw [this]
  simp [cutPositions, List.range_eq_range']

/-- So the text is not kept: the first and last characters and the one before each cut are lost. -/
theorem C36_split_loses_text :
    (EscapedString.mk "a:b".toList [':']).split ':' = [[], []] ∧
    (EscapedString.mk "hello:world".toList [':', '%']).split ':' = ["ell".toList, "worl".toList] ∧
    (EscapedString.mk "one%two".toList [':', '%']).split ':' = ["n".toList, "tw".toList] := by
  decide

example : cutPositions (· ∈ [':', '%']) ":a:b\\:c%d".toList = [2, 7] := by decide

end RSM
