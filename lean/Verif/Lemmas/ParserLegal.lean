import Verif.Spec.Source
import Verif.Lemmas.ParserErr

/-! Well-formed sources are parsed (helper lemmas). -/

namespace RSM
namespace Parser
open PyM Nodes Heap

/-! ## Meta -/

/-- A key with a value of its type. -/
def Typed (k : Str) : MetaVal → Prop
  | .text _ => k ∈ textKeys
  | .list _ => k ∈ listKeys
  | .bool => k ∈ flagKeys

theorem pair_parsed {p : Cst} (h : pairOk p = true) : ∃ k v key val, pairParts p.namedChildren = .ok (k, v) ∧
    parseMetaPair k v = .ok (key, val) ∧ Typed key val := by
  have hkey : ∀ {k : Cst} {l keys}, p.namedChildren = k :: l → keyIn p keys = true →
      ∃ x, item k.namedChildren 0 = .ok x ∧ x.type ∈ keys := by
    intro k l keys e hk
    unfold keyIn pairKey at hk
    rw [e, List.head?_cons, Option.bind_some] at hk
    cases hc : k.namedChildren with
    | nil => rw [hc] at hk; cases hk
    | cons x xs =>
      rw [hc] at hk
      refine ⟨x, rfl, ?_⟩
      simpa using hk
  unfold pairOk at h
  split at h
  · rename_i k e
    simp only [Bool.and_eq_true, decide_eq_true_eq] at h
    obtain ⟨h1, h2⟩ := h
    obtain ⟨x, hx, hm⟩ := hkey e h2
    refine ⟨k, none, x.type, .bool, by rw [e]; rfl, ?_, hm⟩
    unfold parseMetaPair
    rw [h1, if_neg (by decide), if_neg (by decide), if_pos rfl, hx]
    rfl
  · rename_i k v e
    simp only [Bool.or_eq_true, Bool.and_eq_true, decide_eq_true_eq] at h
    rcases h with (⟨h1, h2⟩ | ⟨h1, h2⟩) | ⟨h1, h2⟩
    · obtain ⟨x, hx, hm⟩ := hkey e h2
      refine ⟨k, some v, x.type, .bool, by rw [e]; rfl, ?_, hm⟩
      unfold parseMetaPair
      rw [h1, if_neg (by decide), if_neg (by decide), if_pos rfl, hx]
      rfl
    · obtain ⟨x, hx, hm⟩ := hkey e h2
      refine ⟨k, some v, x.type, .list (v.namedChildren.map fun c => strip c.text), by rw [e]; rfl, ?_, hm⟩
      unfold parseMetaPair
      rw [if_pos h1, hx]
      rfl
    · obtain ⟨x, hx, hm⟩ := hkey e h2
      refine ⟨k, some v, x.type, .text (strip v.text), by rw [e]; rfl, ?_, hm⟩
      unfold parseMetaPair
      rw [if_neg (by rcases h1 with h | h <;> rw [h] <;> decide), if_pos h1, hx]
      rfl
  · cases h

theorem typed_dictSet {P : Str → MetaVal → Prop} {d : List (Str × MetaVal)} {k : Str} {v : MetaVal} (hd : ∀ p ∈ d, P p.1 p.2)
    (h : P k v) : ∀ p ∈ dictSet d k v, P p.1 p.2 := by
  intro p hp
  unfold dictSet at hp
  split at hp
  · obtain ⟨q, hq, rfl⟩ := List.mem_map.mp hp
    split
    · exact h
    · exact hd q hq
  · rcases List.mem_append.mp hp with hp | hp
    · exact hd p hp
    · rw [List.mem_singleton] at hp
      subst hp
      exact h

theorem metaLoop_typed : ∀ {ps : List Cst} {d : List (Str × MetaVal)}, (∀ p ∈ ps, pairOk p = true) →
    (∀ p ∈ d, Typed p.1 p.2) → ∃ d', metaLoop ps d = .ok d' ∧ ∀ p ∈ d', Typed p.1 p.2
  | [], d, _, hd => ⟨d, rfl, hd⟩
  | p :: ps, d, hp, hd => by
    obtain ⟨k, v, key, val, h1, h2, h3⟩ := pair_parsed (hp p (by simp))
    obtain ⟨d', e, h⟩ := metaLoop_typed (fun q hq => hp q (List.mem_cons_of_mem _ hq)) (typed_dictSet hd h3)
    refine ⟨d', ?_, h⟩
    rw [metaLoop, h1]
    show (parseMetaPair k v >>= _) = _
    rw [h2]
    exact e

/-- A key that is an attribute, with a value of its type. -/
def Typed' (k : Str) (v : MetaVal) : Prop :=
  Typed k v ∧ k ≠ "reftext".toList ∨ k = "reftext_template".toList ∧ ∃ s, v = .text s

theorem readOnly_false {k : Str} {c : Cls} (h : k ≠ "children".toList ∧ k ≠ "number_within".toList ∧
    k ≠ "number_as".toList ∧ k ≠ "full_number".toList ∧ k ≠ "reftext".toList)
    (h' : (c.isSub .Construct = false ∧ c.isSub .MathBlock = false) ∨
      (k ≠ "keyword".toList ∧ k ≠ "long_reftext".toList)) : readOnly c k = false := by
  obtain ⟨a1, a2, a3, a4, a5⟩ := h
  unfold readOnly
  rw [decide_eq_false a1, decide_eq_false a2, decide_eq_false a3, decide_eq_false a4, decide_eq_false a5]
  rcases h' with ⟨b1, b2⟩ | ⟨b1, b2⟩
  · rw [b1, b2]; rfl
  · rw [decide_eq_false b1, decide_eq_false b2, Bool.and_false, Bool.and_false]; rfl

theorem setAttr_typed {k : Str} {v : MetaVal} (h : Typed' k v) (n : NodeRec) : ∃ m, setAttr k v n = .ok m := by
  have hro : ∀ w ∈ "reftext_template".toList :: (textKeys.filter (· ≠ "reftext".toList) ++ listKeys ++ flagKeys),
      w ≠ "children".toList ∧ w ≠ "number_within".toList ∧ w ≠ "number_as".toList ∧ w ≠ "full_number".toList ∧
      w ≠ "reftext".toList ∧ w ≠ "keyword".toList ∧ w ≠ "long_reftext".toList := by decide +kernel
  have hs1 : ∀ w ∈ "reftext_template".toList :: textKeys.filter (· ≠ "reftext".toList), (setter textAttrs w).isSome = true := by
    decide +kernel
  have hs2 : ∀ w ∈ listKeys, (setter listAttrs w).isSome = true := by decide +kernel
  have hs3 : ∀ w ∈ flagKeys, (setter boolAttrs w).isSome = true := by decide +kernel
  have hmem : k ∈ "reftext_template".toList :: (textKeys.filter (· ≠ "reftext".toList) ++ listKeys ++ flagKeys) := by
    rcases h with ⟨h, hne⟩ | ⟨rfl, _⟩
    · refine List.mem_cons_of_mem _ ?_
      cases v with
      | text s => exact List.mem_append_left _ (List.mem_append_left _ (List.mem_filter.mpr ⟨h, decide_eq_true hne⟩))
      | list l => exact List.mem_append_left _ (List.mem_append_right _ h)
      | bool => exact List.mem_append_right _ h
    · exact List.mem_cons_self
  obtain ⟨a1, a2, a3, a4, a5, a6, a7⟩ := hro k hmem
  unfold setAttr
  rw [if_neg]
  · split
    · exact ⟨_, rfl⟩
    · have : ∃ m, (match v with
        | .text s => setTextAttr k s n
        | .list l => setListAttr k l n
        | .bool => setBoolAttr k n) = some m := by
        cases v with
        | text s =>
          have hk : k ∈ "reftext_template".toList :: textKeys.filter (· ≠ "reftext".toList) := by
            rcases h with ⟨h, hne⟩ | ⟨rfl, _⟩
            · exact List.mem_cons_of_mem _ (List.mem_filter.mpr ⟨h, decide_eq_true hne⟩)
            · exact List.mem_cons_self
          obtain ⟨f, hf⟩ := Option.isSome_iff_exists.mp (hs1 k hk)
          exact ⟨f s n, by unfold setTextAttr; rw [hf]; rfl⟩
        | list l =>
          have hk : k ∈ listKeys := by
            rcases h with ⟨h, _⟩ | ⟨_, _, h⟩
            · exact h
            · cases h
          obtain ⟨f, hf⟩ := Option.isSome_iff_exists.mp (hs2 k hk)
          exact ⟨f l n, by unfold setListAttr; rw [hf]; rfl⟩
        | bool =>
          have hk : k ∈ flagKeys := by
            rcases h with ⟨h, _⟩ | ⟨_, _, h⟩
            · exact h
            · cases h
          obtain ⟨f, hf⟩ := Option.isSome_iff_exists.mp (hs3 k hk)
          exact ⟨f n, by unfold setBoolAttr; rw [hf]; rfl⟩
      obtain ⟨m, hm⟩ := this
      cases v <;> simp only at hm ⊢ <;> rw [hm] <;> exact ⟨m, rfl⟩
  · rw [readOnly_false ⟨a1, a2, a3, a4, a5⟩ (.inr ⟨a6, a7⟩)]
    exact Bool.false_ne_true

theorem setAll_typed : ∀ {d : List (Str × MetaVal)}, (∀ p ∈ d, Typed' p.1 p.2) → ∀ n, ∃ m, setAll d n = .ok m
  | [], _, n => ⟨n, rfl⟩
  | (k, v) :: d, h, n => by
    obtain ⟨m, hm⟩ := setAttr_typed (h (k, v) (by simp)) n
    obtain ⟨m', hm'⟩ := setAll_typed (fun p hp => h p (List.mem_cons_of_mem _ hp)) m
    refine ⟨m', ?_⟩
    rw [setAll, hm]
    exact hm'

theorem lookup_typed {d : List (Str × MetaVal)} (h : ∀ p ∈ d, Typed p.1 p.2) {k : Str} {v : MetaVal}
    (e : d.lookup k = some v) : Typed k v := h _ (mem_of_lookup e)

theorem ingest_typed {d : List (Str × MetaVal)} (h : ∀ p ∈ d, Typed p.1 p.2) (n : NodeRec) :
    ∃ m, ingest d n = .ok m := by
  unfold ingest
  split
  · rename_i v hv
    have hv := lookup_typed h hv
    refine setAll_typed (fun p hp => ?_) n
    obtain ⟨hp, hne⟩ := List.mem_filter.mp hp
    have hne : p.1 ≠ "reftext".toList := of_decide_eq_true hne
    refine (typed_dictSet (P := fun k v => Typed k v ∨ k = "reftext_template".toList ∧ ∃ s, v = .text s)
      (fun p hp => .inl (h p hp)) (.inr ⟨rfl, ?_⟩) p hp).elim (fun hT => .inl ⟨hT, hne⟩) .inr
    cases v with
    | text s => exact ⟨s, rfl⟩
    | list l => exact absurd (show "reftext".toList ∈ listKeys from hv) (by decide)
    | bool => exact absurd (show "reftext".toList ∈ flagKeys from hv) (by decide)
  · rename_i hv
    refine setAll_typed (fun p hp => .inl ⟨h p hp, ?_⟩) n
    intro e
    rw [List.lookup_eq_none_iff] at hv
    have := hv p hp
    simp [e] at this

theorem ingestMeta_typed {c : Cst} (h : metaOk c = true) (n : NodeRec) : ∃ m, ingestMeta c n = .ok m := by
  unfold ingestMeta
  unfold metaOk at h
  split
  · exact ⟨n, rfl⟩
  · rename_i m hm
    rw [hm] at h
    obtain ⟨d, hd, ht⟩ := metaLoop_typed (ps := m.namedChildren.filter fun x => endsWith x.type "pair".toList) (d := [])
      (fun p hp => by
        obtain ⟨h1, h2⟩ := List.mem_filter.mp hp
        have h3 := List.all_eq_true.mp h p h1
        have h2 : "pair".toList.isSuffixOf p.type = true := h2
        rw [h2] at h3
        exact h3) (by simp)
    obtain ⟨m', hm'⟩ := ingest_typed ht n
    refine ⟨m', ?_⟩
    unfold parseMeta
    rw [hd]
    exact hm'

/-! ## Entries -/

theorem setAttr_field {k v : Str} (h : k ∉ reservedFields) {n : NodeRec} (hn : n.cls = .Bibitem) :
    ∃ m, setAttr k (.text v) n = .ok m := by
  have hall : ∀ w ∈ ["children".toList, "number_within".toList, "number_as".toList, "full_number".toList, "reftext".toList],
      w ∈ reservedFields := by decide +kernel
  have hne : ∀ w ∈ ["children".toList, "number_within".toList, "number_as".toList, "full_number".toList, "reftext".toList],
      k ≠ w := fun w hw e => h (e ▸ hall w hw)
  unfold setAttr
  rw [if_neg]
  · split
    · exact ⟨_, rfl⟩
    · rename_i hkw
      simp only
      cases hs : setter textAttrs k with
      | some f =>
        have : setTextAttr k v n = some (f v n) := by unfold setTextAttr; rw [hs]; rfl
        rw [this]
        exact ⟨_, rfl⟩
      | none =>
        have : setTextAttr k v n = none := by unfold setTextAttr; rw [hs]; rfl
        rw [this]
        have hb : isAttr k = false := by
          rw [Bool.eq_false_iff]
          intro hat
          unfold isAttr at hat
          rw [hs] at hat
          simp only [Option.isSome_none, Bool.false_or, Bool.or_eq_true] at hat
          have hin : ∀ {β : Type} {table : List (String × β)}, (setter table k).isSome = true →
              k ∈ table.map fun p => p.1.toList := by
            intro β table hx
            unfold setter at hx
            rw [Option.isSome_map, List.find?_isSome] at hx
            obtain ⟨p, hp, e⟩ := hx
            exact List.mem_map.mpr ⟨p, hp, of_decide_eq_true e⟩
          have l1 : ∀ w ∈ listAttrs.map fun p => p.1.toList,
              w = "keywords".toList ∨ w = "msc".toList ∨ w ∈ reservedFields := by decide +kernel
          have l2 : ∀ w ∈ boolAttrs.map fun p => p.1.toList, w ∈ reservedFields := by decide +kernel
          have l3 : ∀ w ∈ (["parent", "text", "asis", "src", "target", "overwrite_reftext", "targetlabels", "targets",
              "backlinks", "nodeid", "handrail_depth", "start_point", "end_point", "_children", "_parent"] : List String),
              w.toList ∈ reservedFields := by decide +kernel
          rcases hat with (hat | hat) | hat
          · rcases l1 k (hin hat) with e | e | e
            · exact hkw ⟨.inl e, by rw [hn]; decide⟩
            · exact hkw ⟨.inr e, by rw [hn]; decide⟩
            · exact h e
          · exact h (l2 k (hin hat))
          · rw [List.any_eq_true] at hat
            obtain ⟨w, hw, e⟩ := hat
            exact h (of_decide_eq_true e ▸ l3 w hw)
        simp only [hb, Bool.false_eq_true, if_false]
        exact ⟨_, rfl⟩
  · rw [readOnly_false ⟨hne _ (by simp), hne _ (by simp), hne _ (by simp), hne _ (by simp), hne _ (by simp)⟩
      (.inl (by rw [hn]; decide))]
    exact Bool.false_ne_true

theorem bibLoop_fields : ∀ {ps : List Cst}, (∀ p ∈ ps, fieldOk p = true) → ∀ {n : NodeRec}, n.cls = .Bibitem →
    ∃ m, bibLoop ps n = .ok m
  | [], _, n, _ => ⟨n, rfl⟩
  | p :: ps, h, n, hn => by
    have hp := h p (by simp)
    unfold fieldOk at hp
    split at hp
    · rename_i k v e
      obtain ⟨m, hm⟩ := setAttr_field (v := v.text) (k := k.text) (by simpa using hp) hn
      obtain ⟨m', hm'⟩ := bibLoop_fields (fun q hq => h q (List.mem_cons_of_mem _ hq)) ((setAttr_core hm).1.trans hn)
      refine ⟨m', ?_⟩
      rw [bibLoop, e]
      show (setAttr k.text (.text v.text) n >>= _) = _
      rw [hm]
      exact hm'
    · cases hp

theorem bibRecord_entryOk {c : Cst} (h : entryOk c = true) : ∃ n, bibRecord c = .ok n := by
  unfold entryOk at h
  simp only [Bool.and_eq_true, Option.isSome_iff_exists] at h
  obtain ⟨⟨⟨a, ha⟩, b, hb⟩, hf⟩ := h
  unfold bibRecord fieldText
  rw [ha, hb]
  obtain ⟨m, hm⟩ := bibLoop_fields (ps := c.namedChildren.filter fun x => x.type = "bibitempair".toList) (fun p hp => by
      obtain ⟨h1, h2⟩ := List.mem_filter.mp hp
      have h3 := List.all_eq_true.mp hf p h1
      simpa [of_decide_eq_true h2] using h3)
    (n := { NodeRec.new .Bibitem with kind := a.text, label := b.text }) rfl
  exact ⟨m, hm⟩

theorem bibRecords_entryOk : ∀ {cs : List Cst}, (∀ c ∈ cs, entryOk c = true) → ∃ ns, bibRecords cs = .ok ns
  | [], _ => ⟨[], rfl⟩
  | c :: cs, h => by
    obtain ⟨n, hn⟩ := bibRecord_entryOk (h c (by simp))
    obtain ⟨ns, hns⟩ := bibRecords_entryOk fun d hd => h d (List.mem_cons_of_mem _ hd)
    refine ⟨n :: ns, ?_⟩
    rw [bibRecords, hn]
    show (bibRecords cs >>= _) = _
    rw [hns]
    rfl

/-! ## Nodes -/

/-- The kind of a construct is known. -/
def KnownR (n : NodeRec) : Prop := n.cls.isSub .Construct = true → ∃ w, (n.kind, w) ∈ Normalize.keywordTable

mutual
/-- The kinds of all constructs are known. -/
def KnownI : Item → Prop
  | .node n ks => KnownR n ∧ KnownL ks
def KnownL : List Item → Prop
  | [] => True
  | i :: is => KnownI i ∧ KnownL is
end

theorem knownL_append : ∀ {a b : List Item}, KnownL a → KnownL b → KnownL (a ++ b)
  | [], _, _, hb => hb
  | i :: a, b, ha, hb => by
    rw [KnownL] at ha
    rw [List.cons_append, KnownL]
    exact ⟨ha.1, knownL_append ha.2 hb⟩

theorem make_lookup {type : Str} {cls : Cls} (c : Cst) (h : astTypes.lookup type = some cls) :
    ∃ n, make type c = some n ∧ n.cls = cls := by
  unfold make
  rw [h]
  exact ⟨_, rfl, rfl⟩

theorem item_lt {l : List Cst} {i : Nat} (h : i < l.length) : ∃ a, item l i = .ok a := by
  unfold item
  rw [List.getElem?_eq_getElem h]
  exact ⟨_, rfl⟩

/-- What a well-formed part is like, if it is made into a node. -/
structure NodeOk (kind : Str) (c : Cst) : Prop where
  kind_ok : kind = "ERROR".toList ∨ ∃ cls, astTypes.lookup kind = some cls
  meta_ok : metaOk c = true
  asis_ok : asisTypes.contains kind = true → ∃ a, c.namedChildren.getLast? = some a ∧ a.type = "asis_text".toList
  target_ok : kind = "ref".toList ∨ kind = "previous".toList ∨ kind = "url".toList ∨ kind = "cite".toList →
    1 < c.namedChildren.length
  tag_ok : kind = "construct".toList ∨ kind = "specialconstruct".toList →
    ∃ t w, c.byField "tag".toList = some t ∧ (t.type, w) ∈ Normalize.keywordTable

theorem nodeOk {kind : Str} {c : Cst} {ps : List Part} (hk : kind ≠ "bibliography".toList ∧ kind ≠ "bibtex".toList ∧
    kind ≠ "bibitem".toList) (h : partOk (.node kind c ps) = true) : NodeOk kind c := by
  rw [partOk, if_neg hk.1, if_neg hk.2.1, if_neg hk.2.2] at h
  rw [Bool.and_eq_true, Bool.and_eq_true, Bool.and_eq_true, Bool.and_eq_true] at h
  obtain ⟨⟨⟨⟨h1, h2⟩, h3⟩, h4⟩, h5⟩ := h
  refine ⟨?_, h2, fun ha => ?_, fun hm => ?_, fun hm => ?_⟩
  · rw [Bool.or_eq_true, decide_eq_true_eq, Option.isSome_iff_exists] at h1
    exact h1
  · rw [verbatimKinds_eq, ha, Bool.not_true, Bool.false_or, decide_eq_true_eq, Option.map_eq_some_iff] at h3
    exact h3
  · have hc : ["ref".toList, "previous".toList, "url".toList, "cite".toList].contains kind = true := by
      rw [List.contains_iff_mem]
      rcases hm with e | e | e | e
      · rw [e]; exact List.mem_cons_self
      · rw [e]; exact List.mem_cons_of_mem _ List.mem_cons_self
      · rw [e]; exact List.mem_cons_of_mem _ (List.mem_cons_of_mem _ List.mem_cons_self)
      · rw [e]; exact List.mem_cons_of_mem _ (List.mem_cons_of_mem _ (List.mem_cons_of_mem _ List.mem_cons_self))
    rw [hc, Bool.not_true, Bool.false_or, decide_eq_true_eq] at h4
    exact h4
  · have hc : ["construct".toList, "specialconstruct".toList].contains kind = true := by
      rw [List.contains_iff_mem]
      rcases hm with e | e
      · rw [e]; exact List.mem_cons_self
      · rw [e]; exact List.mem_cons_of_mem _ List.mem_cons_self
    rw [hc, Bool.not_true, Bool.false_or, Option.any_eq_true] at h5
    obtain ⟨t, ht, hw⟩ := h5
    rw [List.any_eq_true] at hw
    obtain ⟨⟨w1, w2⟩, hw, e⟩ := hw
    have e : w1 = t.type := of_decide_eq_true e
    subst e
    exact ⟨t, w2, ht, hw⟩

theorem construct_kinds {type : Str} {cls : Cls} (h : astTypes.lookup type = some cls)
    (hc : cls.isSub .Construct = true) : type = "construct".toList ∨ type = "specialconstruct".toList := by
  have : ∀ p ∈ astTypes, p.2.isSub .Construct = true → p.1 = "construct".toList ∨ p.1 = "specialconstruct".toList := by
    decide +kernel
  exact this _ (mem_of_lookup h) hc

theorem setTarget_fine {kind : Str} {c : Cst} (O : NodeOk kind c) (n : NodeRec) :
    ∃ m s, setTarget kind c n = .ok (m, s) ∧ m.kind = n.kind := by
  unfold setTarget
  split
  · rename_i h
    obtain ⟨a, ha⟩ := item_lt (O.target_ok (by
      rcases h with h | h | h
      · exact .inl h
      · exact .inr (.inl h)
      · exact .inr (.inr (.inl h))))
    rw [ha]
    cases h2 : c.namedChildren[2]? with
    | none => exact ⟨_, _, rfl, rfl⟩
    | some r => exact ⟨_, _, rfl, rfl⟩
  · exact ⟨_, _, rfl, rfl⟩

theorem setCite_fine {kind : Str} {c : Cst} (O : NodeOk kind c) (n : NodeRec) :
    ∃ m s, setCite kind c n = .ok (m, s) ∧ m.kind = n.kind := by
  unfold setCite
  split
  · rename_i h
    obtain ⟨a, ha⟩ := item_lt (O.target_ok (.inr (.inr (.inr h))))
    rw [ha]
    exact ⟨_, _, rfl, rfl⟩
  · exact ⟨_, _, rfl, rfl⟩

theorem asisRecord_fine {kind : Str} {c : Cst} (O : NodeOk kind c) (n : NodeRec) :
    ∃ a, asisRecord kind c n = .ok a := by
  unfold asisRecord
  split
  · rename_i h
    obtain ⟨a, ha, ht⟩ := O.asis_ok h
    have : lastItem c.namedChildren = .ok a := by unfold lastItem; rw [ha]
    rw [this]
    show ∃ a', (if a.type ≠ "asis_text".toList then _ else _) = _
    rw [if_neg (by rw [ht]; exact fun h => h rfl)]
    split <;> exact ⟨_, rfl⟩
  · exact ⟨_, rfl⟩

theorem baseRecord_fine {kind : Str} {c : Cst} (O : NodeOk kind c) : ∃ n, baseRecord kind c = .ok n := by
  unfold baseRecord
  rcases O.kind_ok with h | ⟨cls, h⟩
  · have : make kind c = none := by
      unfold make
      rw [h]
      rfl
    rw [this]
    simp only
    rw [if_pos h]
    exact ⟨_, rfl⟩
  · obtain ⟨n, hn, _⟩ := make_lookup c h
    rw [hn]
    exact ⟨_, rfl⟩

theorem setPrev_kind (type : Str) (n : NodeRec) : (setPrev type n).kind = n.kind := by
  unfold setPrev
  split
  · rfl
  split
  · rfl
  split <;> rfl

theorem padText_kind (type : Str) (c : Cst) (prev next : Option Cst) (n : NodeRec) :
    (padText type c prev next n).kind = n.kind := by
  unfold padText
  split <;> rfl

theorem nodeRecord_fine {kind : Str} {c : Cst} (O : NodeOk kind c) (prev next : Option Cst) :
    ∃ n a ids, nodeRecord kind c prev next = .ok (n, a, ids) ∧ KnownR n := by
  obtain ⟨n1, h1⟩ := baseRecord_fine O
  obtain ⟨n2, h2⟩ := ingestMeta_typed O.meta_ok n1
  obtain ⟨a, h3⟩ := asisRecord_fine O n2
  obtain ⟨n4, s1, h4, k4⟩ := setTarget_fine O (setKind kind c n2)
  obtain ⟨n5, s2, h5, k5⟩ := setCite_fine O (setPrev kind n4)
  have e : nodeRecord kind c prev next = .ok (padText kind c prev next n5, a, s1 ++ s2) := by
    unfold nodeRecord
    rw [h1]
    show (ingestMeta c n1 >>= _) = _
    rw [h2]
    show (asisRecord kind c n2 >>= _) = _
    rw [h3]
    show (setTarget kind c (setKind kind c n2) >>= _) = _
    rw [h4]
    show (setCite kind c (setPrev kind n4) >>= _) = _
    rw [h5]
    rfl
  refine ⟨_, _, _, e, fun hc => ?_⟩
  obtain ⟨_, hl, _⟩ := nodeRecord_ok e
  have hk : kind = "construct".toList ∨ kind = "specialconstruct".toList := by
    rcases hl with hl | ⟨_, hl⟩
    · exact construct_kinds hl hc
    · rw [hl] at hc; cases hc
  obtain ⟨t, w, ht, hw⟩ := O.tag_ok hk
  refine ⟨w, ?_⟩
  rw [padText_kind, k5, setPrev_kind, k4]
  unfold setKind
  rw [if_pos hk, ht]
  exact hw

theorem topRec_cls {kind : Str} {c : Cst} {prev next : Option Cst} {n : NodeRec} {a : Option NodeRec} {ids : List Nat}
    (h : nodeRecord kind c prev next = .ok (n, a, ids)) (hc : ¬ IsHeading c) :
    (topRec kind c n).cls = topClass kind c := by
  obtain ⟨_, hcl, _⟩ := nodeRecord_look h hc
  have hcls := (kind_made (nodeRecord_ok h).2.1).1
  unfold topRec topClass
  by_cases h : IsClaim kind c
  · rw [if_pos h, if_pos (by rw [hcl]; exact h)]
    rfl
  · rw [if_neg h, if_neg (by rw [hcl]; exact h)]
    exact hcls.symm

theorem allowed_iff (p c : Cls) : allowed p c = .ok () ↔ mayHold p c = true := by
  unfold allowed mayHold
  rw [Bool.or_eq_true, Bool.or_eq_true, Bool.not_eq_true', List.isEmpty_iff, List.contains_iff_mem]
  by_cases h : p.isSub .NodeWithChildren = false ∨ c.possibleParents = [] ∨ p ∈ c.possibleParents
  · rw [if_pos h]
    exact iff_of_true rfl (or_assoc.mpr h)
  · rw [if_neg h]
    exact iff_of_false nofun fun e => h (or_assoc.mp e)

/-! ## The whole tree -/

theorem mem_walks_append {q : Part} : ∀ {a b : List Part}, q ∈ walks (a ++ b) ↔ q ∈ walks a ∨ q ∈ walks b
  | [], b => by rw [walks]; simp
  | p :: a, b => by
    rw [List.cons_append, walks, walks, List.mem_append, List.mem_append, mem_walks_append (a := a), or_assoc]

theorem fitsL_append (p : Cls) : ∀ a b : List Part, fitsL p (a ++ b) = (fitsL p a && fitsL p b)
  | [], b => by rw [fitsL]; rfl
  | q :: a, b => by rw [List.cons_append, fitsL, fitsL, fitsL_append p a b, Bool.and_assoc]

/-- A tree that is well formed below `p`. -/
structure Good (p : Cls) (c : Cst) : Prop where
  tidy : ∀ x ∈ c.nodes, tidy x = true
  parts : ∀ q ∈ walks (parts c), partOk q = true
  nesting : fitsL p (Parser.parts c) = true

theorem fine_evs {f : Cls → Bool → Sib → Except PyErr Out} {p : Cls} : ∀ {xs : List Sib} {b : Bool},
    (∀ x ∈ xs, ∀ b, Good p x.2.1 → ∃ o, f p b x = .ok o ∧ KnownL o.items) →
    (∀ x ∈ xs, ∀ y ∈ x.2.1.nodes, tidy y = true) →
    (∀ q ∈ walks (xs.flatMap fun x => parts x.2.1), partOk q = true) →
    fitsL p (xs.flatMap fun x => parts x.2.1) = true → ∃ o, evs f p b xs = .ok o ∧ KnownL o.items
  | [], b, _, _, _, _ => ⟨{}, rfl, trivial⟩
  | x :: xs, b, hf, ht, hp, hn => by
    rw [List.flatMap_cons] at hp hn
    rw [fitsL_append, Bool.and_eq_true] at hn
    obtain ⟨o, ho, hk⟩ := hf x (by simp) b ⟨ht x (by simp), fun q hq => hp q (mem_walks_append.mpr (.inl hq)), hn.1⟩
    obtain ⟨o', ho', hk'⟩ := fine_evs (b := hasBib b o.events) (fun y hy => hf y (List.mem_cons_of_mem _ hy))
      (fun y hy => ht y (List.mem_cons_of_mem _ hy)) (fun q hq => hp q (mem_walks_append.mpr (.inr hq))) hn.2
    refine ⟨⟨o.items ++ o'.items, o.events ++ o'.events⟩, ?_, knownL_append hk hk'⟩
    rw [evs, ho]
    show (evs f p (hasBib b o.events) xs >>= _) = _
    rw [ho']
    rfl

theorem knownR_claim (c : Cst) : KnownR (claimRec c) := by
  intro _
  exact ⟨_, (by decide +kernel : ("claimblock".toList, (Normalize.keywordTable.lookup "claimblock".toList).get!) ∈
    Normalize.keywordTable)⟩

theorem known_asis {type : Str} {c : Cst} {m : NodeRec} {a : Option NodeRec} (h : asisRecord type c m = .ok a) :
    KnownL (a.toList.map fun a => .node a []) := by
  unfold asisRecord at h
  split at h
  · obtain ⟨t, _, h⟩ := bind_ok h
    split at h
    · cases h
    split at h
    · cases h
      exact ⟨⟨(fun e => nomatch e), trivial⟩, trivial⟩
    · cases h
      exact ⟨⟨(fun e => nomatch e), trivial⟩, trivial⟩
  · cases h
    exact trivial

theorem known_kept {c : Cls} {is : List Item} (h : KnownL is) : KnownL (kept c is) := by
  unfold kept
  split
  · exact h
  · exact trivial

theorem known_first {type : Str} {n : NodeRec} {a : Option NodeRec} (hn : KnownR n)
    (ha : KnownL (a.toList.map fun a => .node a [])) : KnownL (firstItems type n a) := by
  unfold firstItems
  split
  · exact ⟨⟨hn, ha⟩, trivial⟩
  · exact ha

theorem bibRecord_cls {c : Cst} {n : NodeRec} (h : bibRecord c = .ok n) : n.cls = .Bibitem := (bibRecord_ok h).2

/-- What is needed of the parts. -/
structure GoodL (p : Cls) (ps : List Part) : Prop where
  parts : ∀ q ∈ walks ps, partOk q = true
  nesting : fitsL p ps = true

theorem GoodL.node {p : Cls} {kind : Str} {c : Cst} {ps : List Part} (h : GoodL p [.node kind c ps])
    (hk : kind ≠ "bibliography".toList ∧ kind ≠ "bibtex".toList ∧ kind ≠ "bibitem".toList) :
    NodeOk kind c ∧ mayHold p (topClass kind c) = true ∧ GoodL (topClass kind c) ps := by
  have h1 : ∀ q, q ∈ walks [.node kind c ps] ↔ q = .node kind c ps ∨ q ∈ walks ps := by
    intro q
    rw [walks, walk, walks, List.append_nil, List.mem_cons]
  have h2 := h.nesting
  rw [fitsL, fits, fitsL, Bool.and_true, if_neg (by rintro (e | e); exacts [hk.1 e, hk.2.1 e]), if_neg hk.2.2,
    Bool.and_eq_true] at h2
  exact ⟨nodeOk hk (h.parts _ ((h1 _).mpr (.inl rfl))), h2.1, fun q hq => h.parts _ ((h1 _).mpr (.inr hq)), h2.2⟩

theorem sib_type {c y : Cst} (hy : y ∈ (sibs c fun x => x.type = "bibitem".toList).map (·.2.1)) :
    y.type = "bibitem".toList := by
  obtain ⟨x, hx, rfl⟩ := List.mem_map.mp hy
  exact of_decide_eq_true (Bool.and_eq_true_iff.mp (List.mem_filter.mp hx).2).2

theorem parts_bibitem {y : Cst} (ht : y.type = "bibitem".toList) : parts y = [.node y.type y []] := by
  rw [parts_eq, if_neg (by rw [ht]; decide), if_neg (fun h => by rw [ht] at h; exact absurd h.1 (by decide)),
    if_neg (by rw [ht]; decide), if_pos ht]

theorem entries_fine {c : Cst} (h : ∀ q ∈ walks (partsWhere (fun y => y.named && y.type = "bibitem".toList) c.children),
    partOk q = true) : ∃ ns, bibRecords ((sibs c fun x => x.type = "bibitem".toList).map (·.2.1)) = .ok ns := by
  refine bibRecords_entryOk fun y hy => ?_
  have ht := sib_type hy
  have := h (.node y.type y []) (by
    rw [entries_walk entryParts, partsWhere_eq, ← sibs_map]
    refine List.mem_flatMap.mpr ⟨y, hy, ?_⟩
    rw [parts_bibitem ht]
    exact List.mem_singleton.mpr rfl)
  rw [partOk, ht, if_neg (by decide), if_neg (by decide), if_pos rfl, Bool.and_eq_true] at this
  exact this.2

theorem not_bib {kind : Str} {c : Cst} {ps : List Part} (h : partOk (.node kind c ps) = true)
    (h2 : ¬ (c.type = "specialblock".toList ∧ c.children.head?.map Cst.type = some "bibliography".toList))
    (h3 : c.type ≠ "bibtex".toList) (h4 : c.type ≠ "bibitem".toList) :
    kind ≠ "bibliography".toList ∧ kind ≠ "bibtex".toList ∧ kind ≠ "bibitem".toList := by
  rw [partOk] at h
  refine ⟨fun e => ?_, fun e => ?_, fun e => ?_⟩
  · rw [if_pos e, Bool.and_eq_true, decide_eq_true_eq, decide_eq_true_eq] at h
    exact h2 h
  · rw [if_neg (by rw [e]; decide), if_pos e, decide_eq_true_eq] at h
    exact h3 h
  · rw [if_neg (by rw [e]; decide), if_neg (by rw [e]; decide), if_pos e, Bool.and_eq_true, decide_eq_true_eq] at h
    exact h4 h.1

theorem heading_fine {c : Cst} (hH : c.type = "source_file".toList ∨ endsWith c.type "section".toList = true)
    (hk : c.type = "ERROR".toList ∨ ∃ cls, astTypes.lookup c.type = some cls) (hm : metaOk c = true) :
    ∃ n, headingRecord c = .ok n ∧ n.cls = classOf c.type ∧ KnownR n := by
  rcases hk with e | ⟨cls, hl⟩
  · rw [e] at hH
    exact absurd hH (by decide)
  obtain ⟨m, hm1, _⟩ := make_lookup c hl
  obtain ⟨n, hn⟩ := ingestMeta_typed hm (match c.byField "title".toList with
    | none => m
    | some t => { m with title := t.text })
  have hr : headingRecord c = .ok n := by
    unfold headingRecord
    rw [hm1]
    exact hn
  refine ⟨n, hr, (lookup_class (headingRecord_ok hr).2).1.symm, fun hc => ?_⟩
  rcases construct_kinds (headingRecord_ok hr).2 hc with e | e <;> rw [e] at hH <;> exact absurd hH (by decide)

theorem first_fine {c : Cst} (h : tidy c = true) (hc : c.type = "specialblock".toList ∨ c.type = "specialinline".toList ∨
    c.type = "td".toList ∨ c.type = "paragraph".toList) : ∃ y, item c.namedChildren 0 = .ok y := by
  apply item_lt
  unfold tidy at h
  have hm : ["specialblock".toList, "specialinline".toList, "td".toList, "paragraph".toList].contains c.type = true := by
    rw [List.contains_iff_mem]
    rcases hc with e | e | e | e
    · rw [e]; exact List.mem_cons_self
    · rw [e]; exact List.mem_cons_of_mem _ List.mem_cons_self
    · rw [e]; exact List.mem_cons_of_mem _ (List.mem_cons_of_mem _ List.mem_cons_self)
    · rw [e]; exact List.mem_cons_of_mem _ (List.mem_cons_of_mem _ (List.mem_cons_of_mem _ List.mem_cons_self))
  rw [hm, Bool.not_true, Bool.false_or, Bool.and_eq_true] at h
  cases hn : c.namedChildren with
  | nil => rw [hn] at h; exact absurd h.1 (by decide)
  | cons a l => simp

theorem tag_fine {c : Cst} (h : tidy c = true) (hc : c.type = "block".toList ∨ c.type = "inline".toList) :
    ∃ t, c.byField "tag".toList = some t := by
  unfold tidy at h
  have hm : ["block".toList, "inline".toList].contains c.type = true := by
    rw [List.contains_iff_mem]
    rcases hc with e | e
    · rw [e]; exact List.mem_cons_self
    · rw [e]; exact List.mem_cons_of_mem _ List.mem_cons_self
  rw [hm, Bool.not_true, Bool.false_or, Bool.and_eq_true, Option.isSome_iff_exists] at h
  exact h.2

theorem fine_ev : ∀ (k : Nat) (p : Cls) (b : Bool) (x : Sib), x.2.1.size ≤ k → (∀ y ∈ x.2.1.nodes, tidy y = true) →
    GoodL p (parts x.2.1) → ∃ o, ev k p b x = .ok o ∧ KnownL o.items
  | 0, p, b, (prev, c, next), h, _, _ => by have := c.size_eq; simp only at h; omega
  | k + 1, p, b, (prev, c, next), h, ht, hg => by
    simp only at h ht hg
    rw [ev]
    rw [parts_eq] at hg
    by_cases h1 : c.type = "comment".toList
    · rw [if_pos h1]
      exact ⟨_, rfl, trivial⟩
    rw [if_neg h1] at hg ⊢
    by_cases h2 : c.type = "specialblock".toList ∧ c.children.head?.map Cst.type = some "bibliography".toList
    · rw [if_pos h2]
      exact ⟨_, rfl, trivial⟩
    rw [if_neg h2] at hg ⊢
    by_cases h3 : c.type = "bibtex".toList
    · rw [if_pos h3] at hg ⊢
      cases b with
      | false => exact ⟨_, rfl, trivial⟩
      | true =>
        rw [if_pos rfl]
        obtain ⟨ns, hns⟩ := entries_fine (c := c) fun q hq => hg.parts q (by
          rw [walks, walk, walks, List.append_nil]
          exact List.mem_cons_of_mem _ hq)
        rw [hns]
        exact ⟨_, rfl, trivial⟩
    rw [if_neg h3] at hg ⊢
    by_cases h4 : c.type = "bibitem".toList
    · rw [if_pos h4] at hg ⊢
      have hp := hg.parts (.node c.type c []) (by rw [walks, walk]; exact List.mem_cons_self)
      rw [partOk, h4, if_neg (by decide), if_neg (by decide), if_pos rfl, Bool.and_eq_true] at hp
      obtain ⟨n, hn⟩ := bibRecord_entryOk hp.2
      have hf := hg.nesting
      rw [fitsL, fits, h4, if_neg (by decide), if_pos rfl, fitsL, Bool.and_true] at hf
      rw [hn]
      refine ⟨⟨[.node n []], []⟩, ?_, ⟨fun e => ?_, trivial⟩, trivial⟩
      · show (if p.isSub .NodeWithChildren = true then _ else _) = _
        rw [if_pos hf]
      · rw [bibRecord_cls hn] at e
        cases e
    rw [if_neg h4] at hg ⊢
    have K : ∀ (q : Cls) (y : Cst) (cond : Cst → Bool) (b : Bool), y.size ≤ k + 1 → (∀ z ∈ y.nodes, tidy z = true) →
        GoodL q ((sibs y cond).flatMap fun x => parts x.2.1) →
        ∃ o, evs (ev k) q b (sibs y cond) = .ok o ∧ KnownL o.items := by
      intro q y cond b hy hyt hyg
      refine fine_evs (fun x hx b hG => fine_ev k q b x ?_ hG.tidy ⟨hG.parts, hG.nesting⟩)
        (fun x hx z hz => hyt z (nodes_child (sibs_mem hx) hz)) hyg.parts hyg.nesting
      have := sib_small hx
      omega
    have T : ((sibs c fun _ => true).take 1).flatMap (fun x => parts x.2.1) = partsFirst c.children →
        GoodL p (partsFirst c.children) →
        ∃ o, evs (ev k) p b ((sibs c fun _ => true).take 1) = .ok o ∧ KnownL o.items := by
      intro e hG
      rw [← e] at hG
      refine fine_evs (fun x hx b hG => fine_ev k p b x ?_ hG.tidy ⟨hG.parts, hG.nesting⟩)
        (fun x hx z hz => ht z (nodes_child (sibs_mem (List.mem_of_mem_take hx)) hz)) hG.parts hG.nesting
      have := sib_small (List.mem_of_mem_take hx)
      omega
    by_cases h5 : c.type = "source_file".toList ∨ endsWith c.type "section".toList = true
    · rw [if_pos h5]
      have hH : IsHeading c := (isHeading_iff c).mpr h5
      obtain ⟨k1, k2, t1, t2, t3, t4, t5, t6, t7, t8, t9, t10⟩ := heading_facts hH
      rw [if_neg (by
        rintro (e | ⟨e | e, _⟩)
        · exact t9 e
        · exact t5 e
        · exact t6 e), if_neg (fun e => t10 e.1), k1] at hg
      have nb : c.type ≠ "bibliography".toList := by
        intro e
        rw [e] at h5
        exact absurd h5 (by decide)
      obtain ⟨O, hm, hG⟩ := hg.node ⟨nb, t7, t8⟩
      obtain ⟨n, hn, hc, hkn⟩ := heading_fine h5 O.kind_ok O.meta_ok
      have hc : n.cls = topClass c.type c := by
        rw [hc]
        unfold topClass
        rw [if_neg (fun e => t2 e.1)]
      rw [← flatMap_push k2.symm] at hG
      obtain ⟨o, ho, hko⟩ := K (topClass c.type c) c _ b h ht hG
      have ha : allowed p n.cls = .ok () := by rw [hc]; exact (allowed_iff _ _).mpr hm
      refine ⟨⟨[.node n (kept n.cls o.items)], o.events⟩, ?_, ⟨hkn, known_kept hko⟩, trivial⟩
      rw [hn]
      show (allowed p n.cls >>= _) = _
      rw [ha]
      show (evs (ev k) n.cls b (pushSibs c (titleIds c)) >>= _) = _
      rw [hc]
      show (evs (ev k) (topClass c.type c) b (sibs c _) >>= _) = _
      rw [ho]
      rfl
    rw [if_neg h5]
    have hH : ¬ IsHeading c := fun hh => h5 ((isHeading_iff c).mp hh)
    -- a node that is made
    have M : ∀ (type : Str) (y : Cst) (skip : List Nat) (hy : ¬ IsHeading y) (hz : y.size ≤ k + 1)
        (hyt : ∀ z ∈ y.nodes, tidy z = true)
        (hk : type ≠ "bibliography".toList ∧ type ≠ "bibtex".toList ∧ type ≠ "bibitem".toList)
        (hs : skip = if y.type = "block".toList ∨ y.type = "inline".toList then
          (y.byField "tag".toList).toList.map Cst.id else [])
        (hg : GoodL p [.node type y (partsWhere (partOf type y) y.children)]),
        ∃ o, (do
          let (n, a, ids) ← nodeRecord type y prev next
          allowed p (topRec type y n).cls
          let o ← evs (ev k) (topRec type y n).cls b (pushSibs y (skip ++ ids))
          .ok ⟨[.node (topRec type y n) (firstItems type n a ++ kept (topRec type y n).cls o.items)],
            errorEvents type y ++ o.events⟩ : Except PyErr Out) = .ok o ∧ KnownL o.items := by
      intro type y skip hy hz hyt hk hs hg
      obtain ⟨O, hm, hG⟩ := hg.node hk
      obtain ⟨n, a, ids, hn, hkn⟩ := nodeRecord_fine O prev next
      have hc := topRec_cls hn hy
      have hsk : skip ++ ids = hidden type y := by
        unfold hidden
        rw [if_neg hy, List.nil_append, hs, (nodeRecord_look hn hy).2.2, List.append_assoc]
      rw [← flatMap_push hsk] at hG
      obtain ⟨o, ho, hko⟩ := K (topClass type y) y _ b hz hyt hG
      have ha : allowed p (topRec type y n).cls = .ok () := by rw [hc]; exact (allowed_iff _ _).mpr hm
      obtain ⟨m, hm'⟩ := (nodeRecord_ok hn).2.2.2.2
      refine ⟨⟨[.node (topRec type y n) (firstItems type n a ++ kept (topRec type y n).cls o.items)],
            errorEvents type y ++ o.events⟩, ?_, ⟨?_, knownL_append (known_first hkn (known_asis hm')) (known_kept hko)⟩,
            trivial⟩
      · rw [hn]
        show (allowed p (topRec type y n).cls >>= _) = _
        rw [ha]
        show (evs (ev k) (topRec type y n).cls b (pushSibs y (skip ++ ids)) >>= _) = _
        rw [hc]
        show (evs (ev k) (topClass type y) b (sibs y _) >>= _) = _
        rw [ho]
        rfl
      · unfold topRec
        split
        · exact knownR_claim y
        · exact hkn
    have tc := ht c c.self_mem_nodes
    have B : ∀ {kind : Str} {ps : List Part}, GoodL p [.node kind c ps] →
        kind ≠ "bibliography".toList ∧ kind ≠ "bibtex".toList ∧ kind ≠ "bibitem".toList := fun hg =>
      not_bib (hg.parts _ (by rw [walks, walk]; exact List.mem_cons_self)) h2 h3 h4
    unfold roleOf
    by_cases r1 : c.type = "specialblock".toList ∨ c.type = "specialinline".toList
    · obtain ⟨y, hy⟩ := first_fine tc (by rcases r1 with e | e; exacts [.inl e, .inr (.inl e)])
      rw [if_pos r1, hy]
      have hf := firstType_eq hy
      have ntd : c.type ≠ "td".toList := by rcases r1 with e | e <;> rw [e] <;> decide
      have npar : c.type ≠ "paragraph".toList := by rcases r1 with e | e <;> rw [e] <;> decide
      have nbl : ¬ (c.type = "block".toList ∨ c.type = "inline".toList) := by
        rcases r1 with e | e <;> rw [e] <;> decide
      by_cases r2 : y.type = "table".toList
      · rw [if_pos (.inr ⟨r1, hf.trans r2⟩)] at hg
        show ∃ o, ((if y.type = "table".toList then Except.ok Role.through else _) >>= _) = _ ∧ _
        rw [if_pos r2]
        exact T (flatMap_take c) hg
      · rw [if_neg (by
          rintro (e | e)
          · exact ntd e
          · exact r2 (hf.symm.trans e.2)), if_neg (fun h => npar h.1)] at hg
        have hk : kindOf c = y.type := by unfold kindOf; rw [if_pos r1, hf]
        rw [hk] at hg
        show ∃ o, ((if y.type = "table".toList then Except.ok Role.through else _) >>= _) = _ ∧ _
        rw [if_neg r2]
        exact M _ _ _ hH h ht (B hg) (by rw [if_neg nbl]) hg
    rw [if_neg r1]
    by_cases r3 : c.type = "mathblock".toList
    · rw [if_pos r3]
      have nbl : ¬ (c.type = "block".toList ∨ c.type = "inline".toList) := by rw [r3]; decide
      rw [if_neg (show ¬ (c.type = "td".toList ∨ _) by
        rintro (e | e)
        · rw [r3] at e; exact absurd e (by decide)
        · exact r1 e.1), if_neg (fun h => by rw [r3] at h; exact absurd h.1 (by decide))] at hg
      have hk : kindOf c = c.type := by unfold kindOf; rw [if_neg r1, if_neg nbl]
      rw [hk] at hg
      exact M _ _ _ hH h ht (B hg) (by rw [if_neg nbl]) hg
    rw [if_neg r3]
    by_cases r4 : c.type = "td".toList
    · obtain ⟨y, hy⟩ := first_fine tc (.inr (.inr (.inl r4)))
      rw [if_pos r4, hy]
      rw [if_pos (.inl r4)] at hg
      exact T (flatMap_take c) hg
    rw [if_neg r4]
    rw [if_neg (by
      rintro (e | e)
      · exact r4 e
      · exact r1 e.1)] at hg
    by_cases r5 : c.type = "paragraph".toList
    · obtain ⟨y, hy⟩ := first_fine tc (.inr (.inr (.inr r5)))
      rw [if_pos r5, hy]
      have hf := firstType_eq hy
      have nbl : ¬ (c.type = "block".toList ∨ c.type = "inline".toList) := by rw [r5]; decide
      show ∃ o, ((if y.type = "item".toList ∨ y.type = "caption".toList then
        Except.ok (Role.as y.type y []) else _) >>= _) = _ ∧ _
      by_cases r6 : y.type = "item".toList ∨ y.type = "caption".toList
      · rw [if_pos r6]
        rw [if_pos ⟨r5, hf ▸ r6⟩, partsInstead_eq (item_ok hy)] at hg
        have hyn := List.mem_of_getElem? (item_ok hy)
        refine M _ _ _ ?_ (by have := size_lt_of_named hyn; omega)
          (fun z hz => ht z (nodes_child (List.mem_filter.mp hyn).1 hz)) ?_ ?_ hg
        · rw [isHeading_iff]; rcases r6 with e | e <;> rw [e] <;> decide
        · rcases r6 with e | e <;> rw [e] <;> decide
        · rw [if_neg]; rcases r6 with e | e <;> rw [e] <;> decide
      · rw [if_neg r6]
        rw [if_neg (fun e => r6 (hf ▸ e.2))] at hg
        have hk : kindOf c = c.type := by unfold kindOf; rw [if_neg r1, if_neg nbl]
        rw [hk] at hg
        exact M _ _ _ hH h ht (B hg) (by rw [if_neg nbl]) hg
    rw [if_neg r5]
    rw [if_neg (fun h => r5 h.1)] at hg
    by_cases r7 : c.type = "block".toList ∨ c.type = "inline".toList
    · obtain ⟨t, htag⟩ := tag_fine tc r7
      rw [if_pos r7, htag]
      have hk : kindOf c = t.type := by unfold kindOf; rw [if_neg r1, if_pos r7, htag]; rfl
      rw [hk] at hg
      exact M _ _ _ hH h ht (B hg) (by rw [if_pos r7, htag]; rfl) hg
    · rw [if_neg r7]
      have hk : kindOf c = c.type := by unfold kindOf; rw [if_neg r1, if_neg r7]
      rw [hk] at hg
      exact M _ _ _ hH h ht (B hg) (by rw [if_neg r7]) hg

/-- A well-formed source can be read. -/
theorem fine_evRoot {c : Cst} (W : WellFormed c) : ∃ n o, evRoot c = .ok (n, o) ∧ KnownR n ∧ KnownL o.items := by
  have hs := W.source.1
  obtain ⟨n, hn, hc, hkn⟩ := heading_fine (.inl hs) (.inr ⟨_, by rw [hs]; exact manuscript_lookup⟩) W.metaok
  have hc : n.cls = .Manuscript := by rw [hc, hs]; decide
  have hf := heading_facts (c := c) (.inl hs)
  have hg : GoodL .Manuscript ((pushSibs c (titleIds c)).flatMap fun x => parts x.2.1) := by
    rw [flatMap_push hf.2.1.symm, ← hf.1]
    exact ⟨W.parts, W.nesting⟩
  obtain ⟨o, ho, hko⟩ := fine_evs (f := ev (c.size - 1)) (p := .Manuscript) (xs := pushSibs c (titleIds c)) (b := false)
    (fun x hx b hG => fine_ev _ _ b x (by have := sib_small hx; omega) hG.tidy ⟨hG.parts, hG.nesting⟩)
    (fun x hx z hz => W.tidy z (nodes_child (sibs_mem hx) hz)) hg.parts hg.nesting
  refine ⟨n, o, ?_, hkn, hko⟩
  unfold evRoot
  rw [hn]
  show (evs (ev (c.size - 1)) n.cls false (pushSibs c (titleIds c)) >>= _) = _
  rw [hc, ho]
  rfl

/-! ## The kinds of the constructs in the heap -/

/-- The bibliographies among the trees have entries only. -/
def OnlyEntries (h : Heap) (ts : List Tree) : Prop :=
  ∀ x ∈ Tree.preL ts, isBib h x = true → ∀ y ∈ h.children x, (h.get y).cls = .Bibitem

theorem bibitems_pre {h : Heap} {p : Option Ref} : ∀ {ks : List Tree}, IsForest h p ks →
    (∀ k ∈ ks, (h.get k.root).cls = .Bibitem) → ∀ x ∈ Tree.preL ks, (h.get x).cls = .Bibitem
  | [], _, _, x, hx => by rw [Tree.preL] at hx; cases hx
  | .node y ls :: ks, T, hc, x, hx => by
    rw [IsForest, IsTree] at T
    have hy : (h.get y).cls = .Bibitem := hc (.node y ls) List.mem_cons_self
    have hl : h.children y = [] := by
      unfold Heap.children Heap.isInst
      rw [hy]; rfl
    rw [hl] at T
    have : ls = [] := List.map_eq_nil_iff.mp T.1.2.1.symm
    subst this
    rw [Tree.preL, Tree.pre, Tree.preL] at hx
    rcases List.mem_cons.mp hx with rfl | hx
    · exact hy
    · exact bibitems_pre T.2 (fun k hk => hc k (List.mem_cons_of_mem _ hk)) x hx

theorem built_known {h : Heap} {lo hi : Nat} : ∀ {ts : List Tree} {p q : Option Ref} {items : List Item},
    IsForest h p ts → BuiltL h lo hi q items (rootsL h ts) → OnlyEntries h ts → KnownL items →
    ∀ x ∈ Tree.preL ts, KnownR (h.get x)
  | [], p, q, items, _, B, _, _, x, hx => by rw [Tree.preL] at hx; cases hx
  | .node y ks :: ts, p, q, items, T, B, bl, U, x, hx => by
    rw [IsForest] at T
    have T1 := T.1
    rw [IsTree] at T1
    rw [rootsL_cons, Tree.root] at B
    have bt : OnlyEntries h ts := fun z hz => bl z (by rw [Tree.preL]; exact List.mem_append_right _ hz)
    have bk : OnlyEntries h ks := fun z hz => bl z (by
      rw [Tree.preL, Tree.pre]; exact List.mem_append_left _ (List.mem_cons_of_mem _ hz))
    have by' := bl y (by rw [Tree.preL, Tree.pre]; exact List.mem_append_left _ List.mem_cons_self)
    rw [Tree.preL, Tree.pre, List.mem_append, List.mem_cons] at hx
    cases hb : isBib h y with
    | true =>
      rw [hb, if_pos rfl] at B
      rcases hx with (rfl | hx) | hx
      · intro e
        rw [show (h.get x).cls = .Bibliography from of_decide_eq_true hb] at e
        cases e
      · intro e
        rw [bibitems_pre T1.2.2 (fun k hk => by' hb _ (by rw [T1.2.1]; exact List.mem_map_of_mem hk)) x hx] at e
        cases e
      · exact built_known T.2 B bt U x hx
    | false =>
      rw [hb, if_neg (by simp)] at B
      obtain ⟨n, is, rest, rfl, _, _, e, _, B1, B2⟩ := builtL_cons B
      rw [skids_tree T.1 hb] at B1
      rw [KnownL, KnownI] at U
      rcases hx with (rfl | hx) | hx
      · unfold KnownR
        rw [bare_field NodeRec.cls (fun _ => rfl) e, bare_field NodeRec.kind (fun _ => rfl) e]
        exact U.1.1
      · exact built_known T1.2.2 B1 bk U.1.2 x hx
      · exact built_known T.2 B2 bt U.2 x hx

theorem parse_known {c : Cst} (S : Source c) {s : ParserState} {n : NodeRec} {o : Out} {s1 : PState} {t : Tree}
    (he : evRoot c = .ok (n, o)) (fr : Fresh n) (hcls : n.cls = .Manuscript)
    (D : Doc s1.heap s.heap.next t) (I : Inv s1 (o.events.foldl Event.apply []) s.heap.next)
    (P : Post s.heap.next (born s.heap n) s1.heap o.items) (N : Neat s.heap.next s.heap.next s1)
    (hnew : ∀ x ∈ t.pre, s.heap.next ≤ x) (hk : KnownL o.items) : Normalize.KnownKinds s1.heap t := by
  obtain ⟨hlook, hsay⟩ := root_says S he
  have hroot : t.root = s.heap.next := D.root_eq
  obtain ⟨x0, ks⟩ := t
  rw [Tree.root] at hroot
  subst hroot
  have T := D.tree
  rw [IsTree] at T
  have hbr : isBib s1.heap s.heap.next = false := by
    unfold isBib; rw [I.root_cls]; decide
  have hb : BuiltL s1.heap (s.heap.next + 1) s1.heap.next (some s.heap.next) o.items (rootsL s1.heap ks) := by
    obtain ⟨rs, sk, bl⟩ := P.skel
    have h1 := sk s.heap.next (by simp [born_next])
    rw [if_pos rfl, skids_tree D.tree hbr] at h1
    have h2 : skids (born s.heap n) s.heap.next = [] := by
      unfold skids Heap.children
      rw [born_get_self, fr.2]
      simp
    rw [h2, List.nil_append] at h1
    rw [if_pos (by unfold Heap.isInst; rw [born_get_self, hcls]; decide)] at bl
    rw [h1]
    exact bl
  have hB := hsay.bibs [] [] .nil rfl
  have hE : OnlyEntries s1.heap ks := by
    intro x hx hxb
    have hx' : x ∈ (Tree.node s.heap.next ks).pre := by rw [Tree.pre]; exact List.mem_cons_of_mem _ hx
    have h1 := (N.obj x (hnew x hx') (D.bound x hx')).2 hxb
    obtain ⟨l, hl, E⟩ := forall₂_mem_left I.bibs x (List.mem_filter.mpr ⟨(I.forest.agree x _).mp h1, hxb⟩)
    obtain ⟨m, _, F⟩ := forall₂_mem_left hB l hl
    exact entries_bibitem E F
  intro x hx hc
  rw [Tree.pre] at hx
  rcases List.mem_cons.mp hx with rfl | hx
  · unfold Heap.isInst at hc
    rw [I.root_cls] at hc
    cases hc
  · exact built_known T.2.2 hb hE hk x hx hc

/-- A well-formed source is parsed. -/
theorem parse_fine {c : Cst} (W : WellFormed c) {fuel : Nat} (hf : 12 * c.size < fuel) {s : ParserState}
    (F : Forest s.heap) : ∃ s', parse fuel c s = .ok s.heap.next s' := by
  obtain ⟨n, o, he, _, hk⟩ := fine_evRoot W
  have R := parse_run W.source hf F
  rw [he] at R
  obtain ⟨fr, hcls, s1, t, D, I, P, N, hfuel, hnew, hold, e⟩ := R
  obtain ⟨h', _, hr, _⟩ := (Normalize.C62_outcome D hfuel).1 (parse_known W.source he fr hcls D I P N hnew hk)
  rw [hr] at e
  exact ⟨_, e⟩

end Parser
end RSM
