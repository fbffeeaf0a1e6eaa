import Verif.Lemmas.ParserRecords
import Verif.Spec.Parser

/-! What meta sets (helper lemmas). -/

namespace RSM
namespace Parser
open PyM Nodes

/-! ## One attribute -/

/-- In the classes `P`, the attribute `g` is set by the key `k` and by no other. -/
structure FieldOn (P : Cls → Prop) {β : Type} (g : NodeRec → β) (k : Str) (dec : MetaVal → Option β) : Prop where
  hit : ∀ {v n m}, P n.cls → setAttr k v n = .ok m → dec v = some (g m)
  miss : ∀ {k' v n m}, k' ≠ k → setAttr k' v n = .ok m → g m = g n

/-- The attribute `g` is set by the key `k` and by no other. -/
structure Field {β : Type} (g : NodeRec → β) (k : Str) (dec : MetaVal → Option β) : Prop where
  hit : ∀ {v n m}, setAttr k v n = .ok m → dec v = some (g m)
  miss : ∀ {k' v n m}, k' ≠ k → setAttr k' v n = .ok m → g m = g n
  notRef : k ≠ "reftext".toList ∧ k ≠ "reftext_template".toList

theorem Field.on {β : Type} {g : NodeRec → β} {k : Str} {dec : MetaVal → Option β} (F : Field g k dec) :
    FieldOn (fun _ => True) g k dec := ⟨fun _ h => F.hit h, F.miss⟩

/-- The text of a value. -/
def asText : MetaVal → Option Str
  | .text s => some s
  | _ => none

/-- The list of a value. -/
def asList : MetaVal → Option (List Str)
  | .list l => some l
  | _ => none

/-- The flag of a value. -/
def asFlag : MetaVal → Option Bool
  | .bool => some true
  | _ => none

theorem setter_mem' {β : Type} {table : List (String × β)} {k : Str} {f : β}
    (h : setter table k = some f) : ∃ p ∈ table, p.2 = f ∧ p.1.toList = k := by
  unfold setter at h
  obtain ⟨p, hp, rfl⟩ := Option.map_eq_some_iff.mp h
  exact ⟨p, List.mem_of_find?_eq_some hp, rfl, by simpa using List.find?_some hp⟩

/-- An attribute stays if no setter of another key touches it. -/
theorem miss_of {β : Type} {g : NodeRec → β} {k : Str}
    (ht : ∀ p ∈ textAttrs, p.1.toList ≠ k → ∀ s n, g (p.2 s n) = g n)
    (hl : ∀ p ∈ listAttrs, p.1.toList ≠ k → ∀ s n, g (p.2 s n) = g n)
    (hb : ∀ p ∈ boolAttrs, p.1.toList ≠ k → ∀ n, g (p.2 n) = g n)
    {k' v n m} (hk : k' ≠ k) (h : setAttr k' v n = .ok m) : g m = g n := by
  unfold setAttr at h
  split at h
  · cases h
  split at h
  · cases h; rfl
  split at h
  · rename_i e
    cases h
    cases v with
    | text s =>
      obtain ⟨f, hf, rfl⟩ := Option.map_eq_some_iff.mp e
      obtain ⟨p, hp, rfl, rfl⟩ := setter_mem' hf
      exact ht p hp hk s n
    | list l =>
      obtain ⟨f, hf, rfl⟩ := Option.map_eq_some_iff.mp e
      obtain ⟨p, hp, rfl, rfl⟩ := setter_mem' hf
      exact hl p hp hk l n
    | bool =>
      obtain ⟨f, hf, rfl⟩ := Option.map_eq_some_iff.mp e
      obtain ⟨p, hp, rfl, rfl⟩ := setter_mem' hf
      exact hb p hp hk n
  · split at h
    · cases h
    · cases h; rfl

theorem hit_of {β : Type} {g : NodeRec → β} {k : Str} {dec : MetaVal → Option β}
    (hk : k ≠ "keywords".toList ∧ k ≠ "msc".toList) (ha : isAttr k = true)
    (ht : ∀ {s n m}, setTextAttr k s n = some m → dec (.text s) = some (g m))
    (hl : ∀ {s n m}, setListAttr k s n = some m → dec (.list s) = some (g m))
    (hb : ∀ {n m}, setBoolAttr k n = some m → dec .bool = some (g m))
    {v n m} (h : setAttr k v n = .ok m) : dec v = some (g m) := by
  unfold setAttr at h
  split at h
  · cases h
  rw [if_neg (by tauto)] at h
  split at h
  · rename_i e
    cases h
    cases v with
    | text s => exact ht e
    | list l => exact hl e
    | bool => exact hb e
  · cases h

theorem forall_textAttrs {P : String × (Str → NodeRec → NodeRec) → Prop}
    (h : ∀ i : Fin textAttrs.length, P (textAttrs.get i)) : ∀ p ∈ textAttrs, P p := by
  intro p hp
  obtain ⟨i, rfl⟩ := List.get_of_mem hp
  exact h i

theorem field_label : Field NodeRec.label "label".toList asText where
  hit := hit_of (by decide) (by decide)
    (fun h => by cases h; rfl) (fun h => by cases h) (fun h => by cases h)
  miss := miss_of
    (by simp only [textAttrs, List.forall_mem_cons, List.not_mem_nil, false_imp_iff, implies_true, and_true]
        simp)
    (by simp [listAttrs]) (by simp [boolAttrs])
  notRef := by decide

theorem field_title : Field NodeRec.title "title".toList asText where
  hit := hit_of (by decide) (by decide)
    (fun h => by cases h; rfl) (fun h => by cases h) (fun h => by cases h)
  miss := miss_of
    (by simp only [textAttrs, List.forall_mem_cons, List.not_mem_nil, false_imp_iff, implies_true, and_true]
        simp)
    (by simp [listAttrs]) (by simp [boolAttrs])
  notRef := by decide

theorem field_types : Field NodeRec.types "types".toList asList where
  hit := hit_of (by decide) (by decide)
    (fun h => by cases h) (fun h => by cases h; rfl) (fun h => by cases h)
  miss := miss_of
    (by simp only [textAttrs, List.forall_mem_cons, List.not_mem_nil, false_imp_iff, implies_true, and_true])
    (by simp [listAttrs]) (by simp [boolAttrs])
  notRef := by decide

theorem field_nonum : Field NodeRec.nonum "nonum".toList asFlag where
  hit := hit_of (by decide) (by decide)
    (fun h => by cases h) (fun h => by cases h) (fun h => by cases h; rfl)
  miss := miss_of
    (by simp only [textAttrs, List.forall_mem_cons, List.not_mem_nil, false_imp_iff, implies_true, and_true])
    (by simp [listAttrs]) (by simp [boolAttrs])
  notRef := by decide

theorem field_isclaim : Field NodeRec.isclaim "isclaim".toList asFlag where
  hit := hit_of (by decide) (by decide)
    (fun h => by cases h) (fun h => by cases h) (fun h => by cases h; rfl)
  miss := miss_of
    (by simp only [textAttrs, List.forall_mem_cons, List.not_mem_nil, false_imp_iff, implies_true, and_true])
    (by simp [listAttrs]) (by simp [boolAttrs])
  notRef := by decide

/-- The kind of an entry. -/
theorem field_kind : Field NodeRec.kind "kind".toList asText where
  hit := hit_of (by decide) (by decide)
    (fun h => by cases h; rfl) (fun h => by cases h) (fun h => by cases h)
  miss := miss_of
    (by simp only [textAttrs, List.forall_mem_cons, List.not_mem_nil, false_imp_iff, implies_true, and_true]
        simp)
    (by simp [listAttrs]) (by simp [boolAttrs])
  notRef := by decide

theorem start_kept {k : Str} {v : MetaVal} {n m : NodeRec} (h : setAttr k v n = .ok m) :
    m.startPoint = n.startPoint := by
  have key : ∀ k0 : Str, k ≠ k0 → m.startPoint = n.startPoint := fun k0 hk =>
    miss_of (g := NodeRec.startPoint) (k := k0) (k' := k)
      (by simp only [textAttrs, List.forall_mem_cons, List.not_mem_nil, false_imp_iff, implies_true, and_true])
      (by simp [listAttrs]) (by simp [boolAttrs]) hk h
  by_cases hk : k = []
  · exact key ['x'] (by rw [hk]; decide)
  · exact key [] hk

/-! ## Several attributes -/

/-- The last value of a key. -/
def lastVal (d : List (Str × MetaVal)) (k : Str) : Option MetaVal :=
  ((d.filter fun p => p.1 = k).getLast?).map (·.2)

theorem lastVal_nil (k : Str) : lastVal [] k = none := rfl

theorem getLast?_cons {α : Type} (a : α) (l : List α) : (a :: l).getLast? = some (l.getLast?.getD a) := by
  cases l <;> simp [List.getLast?_cons]

theorem lastVal_cons (k' : Str) (v : MetaVal) (d : List (Str × MetaVal)) (k : Str) :
    lastVal ((k', v) :: d) k = (lastVal d k).or (if k' = k then some v else none) := by
  unfold lastVal
  rw [List.filter_cons]
  by_cases h : k' = k
  · simp only [h, decide_true, if_true, getLast?_cons]
    cases (d.filter fun p => p.1 = k).getLast? <;> rfl
  · simp only [h, decide_false, if_false, Bool.false_eq_true]
    cases (d.filter fun p => p.1 = k).getLast? <;> rfl

theorem lastVal_append (a b : List (Str × MetaVal)) (k : Str) :
    lastVal (a ++ b) k = (lastVal b k).or (lastVal a k) := by
  induction a with
  | nil => cases h : lastVal b k <;> simp [lastVal_nil, h]
  | cons x a ih => rw [List.cons_append, lastVal_cons, ih, lastVal_cons, Option.or_assoc]

theorem lastVal_map_other {k k' : Str} (h : k' ≠ k) (v : MetaVal) (d : List (Str × MetaVal)) :
    lastVal (d.map fun p => if p.1 = k' then (k', v) else p) k = lastVal d k := by
  induction d with
  | nil => rfl
  | cons x d ih =>
    obtain ⟨a, b⟩ := x
    rw [List.map_cons]
    by_cases ha : a = k'
    · subst ha
      rw [if_pos rfl, lastVal_cons, lastVal_cons, ih, if_neg h, if_neg h]
    · rw [if_neg ha, lastVal_cons, lastVal_cons, ih]

theorem lastVal_map_same {k : Str} (v : MetaVal) : ∀ (d : List (Str × MetaVal)),
    (d.any fun p => p.1 = k) = true → lastVal (d.map fun p => if p.1 = k then (k, v) else p) k = some v
  | [], h => by cases h
  | (a, b) :: d, h => by
    rw [List.map_cons]
    by_cases hd : (d.any fun p => p.1 = k) = true
    · have ih := lastVal_map_same v d hd
      by_cases ha : a = k
      · rw [if_pos ha, lastVal_cons, ih]; rfl
      · rw [if_neg ha, lastVal_cons, ih]; rfl
    · have hn : lastVal (d.map fun p => if p.1 = k then (k, v) else p) k = none := by
        have : ∀ x ∈ d, x.1 ≠ k := by
          intro x hx e
          exact hd (List.any_eq_true.mpr ⟨x, hx, by simpa using e⟩)
        unfold lastVal
        rw [List.filter_eq_nil_iff.mpr]
        · rfl
        · intro y hy
          obtain ⟨x, hx, rfl⟩ := List.mem_map.mp hy
          rw [if_neg (this x hx)]
          simpa using this x hx
      have ha : a = k := by
        rw [List.any_cons] at h
        rw [Bool.not_eq_true] at hd
        rw [hd] at h
        simpa using h
      rw [if_pos ha, lastVal_cons, hn, if_pos rfl]; rfl

theorem lastVal_dictSet (d : List (Str × MetaVal)) (k' : Str) (v : MetaVal) (k : Str) :
    lastVal (dictSet d k' v) k = if k' = k then some v else lastVal d k := by
  unfold dictSet
  split
  · rename_i h
    by_cases hk : k' = k
    · subst hk; rw [if_pos rfl]; exact lastVal_map_same v d h
    · rw [if_neg hk]; exact lastVal_map_other hk v d
  · rw [lastVal_append, lastVal_cons, lastVal_nil]
    by_cases hk : k' = k
    · simp [hk]
    · simp [hk]

theorem setAll_field {P : Cls → Prop} {β : Type} {g : NodeRec → β} {k : Str} {dec : MetaVal → Option β}
    (F : FieldOn P g k dec) :
    ∀ {d : List (Str × MetaVal)} {n m : NodeRec}, P n.cls → setAll d n = .ok m →
      match lastVal d k with
      | none => g m = g n
      | some v => dec v = some (g m)
  | [], n, m, _, h => by cases h; rfl
  | (k', v) :: d, n, m, hP, h => by
    rw [setAll] at h
    obtain ⟨n1, h1, h2⟩ := bind_ok h
    have ih := setAll_field F (by rw [(setAttr_core h1).1]; exact hP) h2
    rw [lastVal_cons]
    cases hd : lastVal d k with
    | some w => rw [hd] at ih; exact ih
    | none =>
      rw [hd] at ih
      simp only at ih
      by_cases hk : k' = k
      · subst hk
        simp only [if_true, Option.none_or]
        rw [ih]; exact F.hit hP h1
      · simp only [hk, if_false, Option.none_or]
        rw [ih]; exact F.miss hk h1

theorem setAll_start : ∀ {d : List (Str × MetaVal)} {n m : NodeRec}, setAll d n = .ok m →
    m.startPoint = n.startPoint
  | [], n, m, h => by cases h; rfl
  | (k', v) :: d, n, m, h => by
    rw [setAll] at h
    obtain ⟨n1, h1, h2⟩ := bind_ok h
    rw [setAll_start h2, start_kept h1]

theorem ingest_setAll {d : List (Str × MetaVal)} {n m : NodeRec} (h : ingest d n = .ok m) :
    ∃ d', setAll d' n = .ok m ∧ ∀ k, k ≠ "reftext".toList → k ≠ "reftext_template".toList →
      lastVal d' k = lastVal d k := by
  unfold ingest at h
  split at h
  · refine ⟨_, h, fun k h1 h2 => ?_⟩
    have : ∀ e : List (Str × MetaVal), lastVal (e.filter fun p => p.1 ≠ "reftext".toList) k = lastVal e k := by
      intro e
      unfold lastVal
      rw [List.filter_filter]
      congr 2
      refine List.filter_congr fun p _ => ?_
      by_cases hp : p.1 = k
      · simp only [hp, decide_true, Bool.true_and]; exact decide_eq_true h1
      · simp [hp]
    rw [this, lastVal_dictSet, if_neg (Ne.symm h2)]
  · exact ⟨d, h, fun _ _ _ => rfl⟩

/-! ## Pairs -/

/-- The value of a pair as the parser takes it. -/
def PairVal (p : Cst) : MetaVal → Prop
  | .text s => (pairValue p).map (fun v => strip v.text) = some s
  | .list l => (pairValue p).map (fun v => v.namedChildren.map fun x => strip x.text) = some l
  | .bool => True

theorem pair_ok {p k : Cst} {v : Option Cst} {key : Str} {val : MetaVal}
    (h1 : pairParts p.namedChildren = .ok (k, v)) (h2 : parseMetaPair k v = .ok (key, val)) :
    pairKey p = some key ∧ PairVal p val := by
  have hk : p.namedChildren.head? = some k ∧ pairValue p = v := by
    unfold pairParts at h1
    unfold pairValue
    split at h1
    · rename_i e; cases h1; rw [e]; exact ⟨rfl, rfl⟩
    · rename_i e; cases h1; rw [e]; exact ⟨rfl, rfl⟩
    · cases h1
  have hitem : ∀ {x}, item k.namedChildren 0 = .ok x → k.namedChildren.head? = some x := by
    intro x hx
    unfold item at hx
    split at hx
    · rename_i e
      cases hx
      rw [List.head?_eq_getElem?]; exact e
    · cases hx
  have key_of : ∀ {x}, item k.namedChildren 0 = .ok x → x.type = key → pairKey p = some key := by
    intro x hx e
    unfold pairKey
    rw [hk.1, Option.bind_some, hitem hx, Option.map_some, e]
  unfold parseMetaPair at h2
  split at h2
  · obtain ⟨x, hx, h2⟩ := bind_ok h2
    cases v with
    | none => cases h2
    | some v =>
      cases h2
      exact ⟨key_of hx rfl, by unfold PairVal; rw [hk.2]; rfl⟩
  split at h2
  · obtain ⟨x, hx, h2⟩ := bind_ok h2
    cases v with
    | none => cases h2
    | some v =>
      cases h2
      exact ⟨key_of hx rfl, by unfold PairVal; rw [hk.2]; rfl⟩
  split at h2
  · obtain ⟨x, hx, h2⟩ := bind_ok h2
    cases h2
    exact ⟨key_of hx rfl, trivial⟩
  · cases h2

theorem metaLoop_last : ∀ {ps : List Cst} {d d' : List (Str × MetaVal)} (k : Str), metaLoop ps d = .ok d' →
    match (ps.filter fun p => pairKey p = some k).getLast? with
    | none => lastVal d' k = lastVal d k
    | some p => ∃ v, lastVal d' k = some v ∧ PairVal p v
  | [], d, d', k, h => by cases h; rfl
  | p :: ps, d, d', k, h => by
    rw [metaLoop] at h
    obtain ⟨⟨ck, cv⟩, h1, h⟩ := bind_ok h
    obtain ⟨⟨key, val⟩, h2, h⟩ := bind_ok h
    have ih := metaLoop_last k h
    obtain ⟨hk, hv⟩ := pair_ok h1 h2
    rw [List.filter_cons]
    by_cases e : pairKey p = some k
    · rw [if_pos (by simpa using e), getLast?_cons]
      cases hl : (ps.filter fun p => pairKey p = some k).getLast? with
      | none =>
        rw [hl] at ih
        have : key = k := by rw [hk] at e; exact Option.some.inj e
        subst this
        rw [lastVal_dictSet, if_pos rfl] at ih
        exact ⟨val, ih, hv⟩
      | some q => rw [hl] at ih; exact ih
    · rw [if_neg (by simpa using e)]
      cases hl : (ps.filter fun p => pairKey p = some k).getLast? with
      | none =>
        rw [hl] at ih
        have : key ≠ k := by rintro rfl; exact e hk
        simp only at ih ⊢
        rw [ih, lastVal_dictSet, if_neg this]
      | some q => rw [hl] at ih; exact ih

theorem lastPair_eq {c m : Cst} (h : c.byField "meta".toList = some m) (k : Str) :
    lastPair c k = ((m.namedChildren.filter fun x => endsWith x.type "pair".toList).filter
      fun p => pairKey p = some k).getLast? := by
  unfold lastPair
  rw [h]
  simp only [Option.toList_some, List.flatMap_cons, List.flatMap_nil, List.append_nil, List.filter_filter]
  congr 2
  funext p
  unfold endsWith
  rw [Bool.and_comm]

theorem lastPair_none {c : Cst} (h : c.byField "meta".toList = none) (k : Str) : lastPair c k = none := by
  unfold lastPair; rw [h]; rfl

/-- An attribute after the meta of a node has been read. -/
theorem ingestMeta_on {P : Cls → Prop} {β : Type} {g : NodeRec → β} {k : Str} {dec : MetaVal → Option β}
    (F : FieldOn P g k dec) (notRef : k ≠ "reftext".toList ∧ k ≠ "reftext_template".toList)
    {c : Cst} {n m : NodeRec} (hP : P n.cls) (h : ingestMeta c n = .ok m) :
    match lastPair c k with
    | none => g m = g n
    | some p => ∃ v, PairVal p v ∧ dec v = some (g m) := by
  unfold ingestMeta at h
  cases hm : c.byField "meta".toList with
  | none =>
    rw [hm] at h
    cases h
    rw [lastPair_none hm]
  | some x =>
    rw [hm] at h
    obtain ⟨d, h1, h2⟩ := bind_ok h
    obtain ⟨d', h3, h4⟩ := ingest_setAll h2
    have h5 := setAll_field F hP h3
    rw [h4 k notRef.1 notRef.2] at h5
    unfold parseMeta at h1
    have h6 := metaLoop_last k h1
    rw [lastPair_eq hm]
    cases hl : ((x.namedChildren.filter fun x => endsWith x.type "pair".toList).filter
      fun p => pairKey p = some k).getLast? with
    | none =>
      rw [hl] at h6
      simp only [lastVal_nil] at h6
      rw [h6] at h5
      exact h5
    | some p =>
      rw [hl] at h6
      obtain ⟨v, h7, h8⟩ := h6
      rw [h7] at h5
      exact ⟨v, h8, h5⟩

theorem ingestMeta_field {β : Type} {g : NodeRec → β} {k : Str} {dec : MetaVal → Option β} (F : Field g k dec)
    {c : Cst} {n m : NodeRec} (h : ingestMeta c n = .ok m) :
    match lastPair c k with
    | none => g m = g n
    | some p => ∃ v, PairVal p v ∧ dec v = some (g m) := ingestMeta_on F.on F.notRef trivial h

theorem meta_text {g : NodeRec → Str} {k : Str} (F : Field g k asText) {c : Cst} {n m : NodeRec}
    (h : ingestMeta c n = .ok m) : g m = (metaText c k).getD (g n) := by
  have := ingestMeta_field F h
  unfold metaText
  cases hl : lastPair c k with
  | none => rw [hl] at this; exact this
  | some p =>
    rw [hl] at this
    obtain ⟨v, h1, h2⟩ := this
    cases v with
    | text s => cases h2; rw [Option.bind_some, show (pairValue p).map _ = some _ from h1]; rfl
    | list l => cases h2
    | bool => cases h2

theorem list_of_pair {β : List Str} {c : Cst} {k : Str} {x : List Str}
    (h : match lastPair c k with
      | none => x = β
      | some p => ∃ v, PairVal p v ∧ asList v = some x) : x = (metaList c k).getD β := by
  unfold metaList
  cases hl : lastPair c k with
  | none => rw [hl] at h; exact h
  | some p =>
    rw [hl] at h
    obtain ⟨v, h1, h2⟩ := h
    cases v with
    | text s => cases h2
    | list l => cases h2; rw [Option.bind_some, show (pairValue p).map _ = some _ from h1]; rfl
    | bool => cases h2

theorem meta_list {g : NodeRec → List Str} {k : Str} (F : Field g k asList) {c : Cst} {n m : NodeRec}
    (h : ingestMeta c n = .ok m) : g m = (metaList c k).getD (g n) := list_of_pair (ingestMeta_field F h)

theorem meta_flag {g : NodeRec → Bool} {k : Str} (F : Field g k asFlag) {c : Cst} {n m : NodeRec}
    (h : ingestMeta c n = .ok m) : g m = (metaFlag c k || g n) := by
  have := ingestMeta_field F h
  unfold metaFlag
  cases hl : lastPair c k with
  | none => rw [hl] at this; simpa using this
  | some p =>
    rw [hl] at this
    obtain ⟨v, h1, h2⟩ := this
    cases v with
    | text s => cases h2
    | list l => cases h2
    | bool => rw [← Option.some.inj h2]; rfl

theorem meta_start {c : Cst} {n m : NodeRec} (h : ingestMeta c n = .ok m) : m.startPoint = n.startPoint := by
  unfold ingestMeta at h
  split at h
  · cases h; rfl
  · obtain ⟨d, h1, h2⟩ := bind_ok h
    obtain ⟨d', h3, _⟩ := ingest_setAll h2
    exact setAll_start h3

/-! ## Entries -/

theorem bibLoop_field {β : Type} {g : NodeRec → β} {k : Str} {dec : MetaVal → Option β}
    (F : FieldOn (fun _ => True) g k dec) :
    ∀ {l : List Cst} {n m : NodeRec}, bibLoop l n = .ok m →
      match (l.filter fun p => p.namedChildren.head?.map Cst.text = some k).getLast? with
      | none => g m = g n
      | some p => ∃ s, (pairValue p).map Cst.text = some s ∧ dec (.text s) = some (g m)
  | [], n, m, h => by cases h; rfl
  | p :: l, n, m, h => by
    rw [bibLoop] at h
    obtain ⟨⟨k', v⟩, h1, h⟩ := bind_ok h
    obtain ⟨n1, h2, h3⟩ := bind_ok h
    have ih := bibLoop_field F h3
    have hp : p.namedChildren.head?.map Cst.text = some k' ∧ (pairValue p).map Cst.text = some v := by
      unfold bibPair at h1
      unfold pairValue
      split at h1
      · rename_i e; cases h1; rw [e]; exact ⟨rfl, rfl⟩
      · cases h1
    rw [List.filter_cons]
    by_cases e : p.namedChildren.head?.map Cst.text = some k
    · rw [if_pos (by simpa using e), getLast?_cons]
      have : k' = k := by rw [hp.1] at e; exact Option.some.inj e
      subst this
      cases hl : (l.filter fun p => p.namedChildren.head?.map Cst.text = some k').getLast? with
      | none =>
        rw [hl] at ih
        refine ⟨v, hp.2, ?_⟩
        simp only at ih
        rw [ih]; exact F.hit trivial h2
      | some q => rw [hl] at ih; exact ih
    · rw [if_neg (by simpa using e)]
      cases hl : (l.filter fun p => p.namedChildren.head?.map Cst.text = some k).getLast? with
      | none =>
        rw [hl] at ih
        have : k' ≠ k := by rintro rfl; exact e hp.1
        simp only at ih ⊢
        rw [ih, F.miss this h2]
      | some q => rw [hl] at ih; exact ih

theorem entry_text {g : NodeRec → Str} {k : Str} (F : FieldOn (fun _ => True) g k asText) {c : Cst} {n m : NodeRec}
    (h : bibLoop (c.namedChildren.filter fun x => x.type = "bibitempair".toList) n = .ok m) :
    g m = (entryField c k).getD (g n) := by
  have := bibLoop_field F h
  unfold entryField
  rw [List.filter_filter] at this
  have e : (fun p : Cst => decide (p.namedChildren.head?.map Cst.text = some k) &&
      decide (p.type = "bibitempair".toList)) = (fun p => p.type = "bibitempair".toList &&
        p.namedChildren.head?.map Cst.text = some k) := by
    funext p; rw [Bool.and_comm]
  rw [e] at this
  cases hl : (c.namedChildren.filter fun p => p.type = "bibitempair".toList &&
        p.namedChildren.head?.map Cst.text = some k).getLast? with
  | none => rw [hl] at this; exact this
  | some p =>
    rw [hl] at this
    obtain ⟨s, h1, h2⟩ := this
    cases h2
    rw [Option.bind_some, h1]; rfl

/-- An attribute that is not a text keeps its value. -/
theorem entry_other {β : Type} {g : NodeRec → β} {k : Str} {dec : MetaVal → Option β} 
    (F : FieldOn (fun _ => True) g k dec) (hd : ∀ s, dec (.text s) = none) {c : Cst} {n m : NodeRec}
    (h : bibLoop (c.namedChildren.filter fun x => x.type = "bibitempair".toList) n = .ok m) : g m = g n := by
  have := bibLoop_field F h
  split at this
  · exact this
  · obtain ⟨s, _, h2⟩ := this
    rw [hd] at h2; cases h2

end Parser
end RSM
