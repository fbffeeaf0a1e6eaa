import Verif.Lemmas.ParserMeta

/-! The attributes that meta sets (helper lemmas). -/

namespace RSM
namespace Parser
open PyM Nodes

/-! ## Attributes that no key sets -/

/-- What neither meta nor the fields of an entry change. -/
structure SameAt (n m : NodeRec) : Prop where
  start : m.startPoint = n.startPoint
  stop : m.endPoint = n.endPoint
  target : m.target = n.target
  reftext : m.overwriteReftext = n.overwriteReftext
  cites : m.targetlabels = n.targetlabels

theorem SameAt.refl (n : NodeRec) : SameAt n n := ⟨rfl, rfl, rfl, rfl, rfl⟩

theorem SameAt.trans {a b c : NodeRec} (h1 : SameAt a b) (h2 : SameAt b c) : SameAt a c :=
  ⟨h2.start.trans h1.start, h2.stop.trans h1.stop, h2.target.trans h1.target, h2.reftext.trans h1.reftext,
    h2.cites.trans h1.cites⟩

/-- An attribute that no setter touches. -/
theorem untouched {β : Type} {g : NodeRec → β} {k : Str} {v : MetaVal} {n m : NodeRec}
    (ht : ∀ p ∈ textAttrs, ∀ s n, g (p.2 s n) = g n) (hl : ∀ p ∈ listAttrs, ∀ s n, g (p.2 s n) = g n)
    (hb : ∀ p ∈ boolAttrs, ∀ n, g (p.2 n) = g n) (h : setAttr k v n = .ok m) : g m = g n := by
  have key : ∀ k0 : Str, k ≠ k0 → g m = g n := fun k0 hk =>
    miss_of (g := g) (k := k0) (k' := k) (fun p hp _ => ht p hp) (fun p hp _ => hl p hp)
      (fun p hp _ => hb p hp) hk h
  by_cases hk : k = []
  · exact key ['a'] (by simp [hk])
  · exact key [] hk

theorem setAttr_kept {k : Str} {v : MetaVal} {n m : NodeRec} (h : setAttr k v n = .ok m) : SameAt n m := by
  refine ⟨?_, ?_, ?_, ?_, ?_⟩ <;>
  · refine untouched ?_ ?_ ?_ h
    · simp only [textAttrs, List.forall_mem_cons, List.not_mem_nil, false_imp_iff, implies_true, and_true]
    · simp only [listAttrs, List.forall_mem_cons, List.not_mem_nil, false_imp_iff, implies_true, and_true]
    · simp only [boolAttrs, List.forall_mem_cons, List.not_mem_nil, false_imp_iff, implies_true, and_true]

theorem setAll_kept : ∀ {d : List (Str × MetaVal)} {n m : NodeRec}, setAll d n = .ok m → SameAt n m
  | [], n, m, h => by cases h; exact .refl _
  | (k', v) :: d, n, m, h => by
    rw [setAll] at h
    obtain ⟨n1, h1, h2⟩ := bind_ok h
    exact (setAttr_kept h1).trans (setAll_kept h2)

theorem ingestMeta_kept {c : Cst} {n m : NodeRec} (h : ingestMeta c n = .ok m) : SameAt n m := by
  unfold ingestMeta at h
  split at h
  · cases h; exact .refl _
  · obtain ⟨d, h1, h2⟩ := bind_ok h
    obtain ⟨d', h3, _⟩ := ingest_setAll h2
    exact setAll_kept h3

theorem bibLoop_kept : ∀ {l : List Cst} {n m : NodeRec}, bibLoop l n = .ok m → SameAt n m
  | [], n, m, h => by cases h; exact .refl _
  | p :: l, n, m, h => by
    rw [bibLoop] at h
    obtain ⟨⟨k', v⟩, h1, h⟩ := bind_ok h
    obtain ⟨n1, h2, h3⟩ := bind_ok h
    exact (setAttr_kept h2).trans (bibLoop_kept h3)

/-! ## One attribute each -/

/-- The date of a value. -/
def asDate : MetaVal → Option (Option Str)
  | .text s => some (some s)
  | _ => none

theorem field_date : Field NodeRec.date "date".toList asDate where
  hit := hit_of (by decide) (by decide)
    (fun h => by cases h; rfl) (fun h => by cases h) (fun h => by cases h)
  miss := miss_of
    (by simp only [textAttrs, List.forall_mem_cons, List.not_mem_nil, false_imp_iff, implies_true, and_true]
        simp)
    (by simp [listAttrs]) (by simp [boolAttrs])
  notRef := by decide

theorem field_name : Field NodeRec.name "name".toList asText where
  hit := hit_of (by decide) (by decide)
    (fun h => by cases h; rfl) (fun h => by cases h) (fun h => by cases h)
  miss := miss_of
    (by simp only [textAttrs, List.forall_mem_cons, List.not_mem_nil, false_imp_iff, implies_true, and_true]
        simp)
    (by simp [listAttrs]) (by simp [boolAttrs])
  notRef := by decide

theorem field_affiliation : Field NodeRec.affiliation "affiliation".toList asText where
  hit := hit_of (by decide) (by decide)
    (fun h => by cases h; rfl) (fun h => by cases h) (fun h => by cases h)
  miss := miss_of
    (by simp only [textAttrs, List.forall_mem_cons, List.not_mem_nil, false_imp_iff, implies_true, and_true]
        simp)
    (by simp [listAttrs]) (by simp [boolAttrs])
  notRef := by decide

theorem field_email : Field NodeRec.email "email".toList asText where
  hit := hit_of (by decide) (by decide)
    (fun h => by cases h; rfl) (fun h => by cases h) (fun h => by cases h)
  miss := miss_of
    (by simp only [textAttrs, List.forall_mem_cons, List.not_mem_nil, false_imp_iff, implies_true, and_true]
        simp)
    (by simp [listAttrs]) (by simp [boolAttrs])
  notRef := by decide

theorem field_lang : Field NodeRec.lang "lang".toList asText where
  hit := hit_of (by decide) (by decide)
    (fun h => by cases h; rfl) (fun h => by cases h) (fun h => by cases h)
  miss := miss_of
    (by simp only [textAttrs, List.forall_mem_cons, List.not_mem_nil, false_imp_iff, implies_true, and_true]
        simp)
    (by simp [listAttrs]) (by simp [boolAttrs])
  notRef := by decide

theorem field_path : Field NodeRec.path "path".toList asText where
  hit := hit_of (by decide) (by decide)
    (fun h => by cases h; rfl) (fun h => by cases h) (fun h => by cases h)
  miss := miss_of
    (by simp only [textAttrs, List.forall_mem_cons, List.not_mem_nil, false_imp_iff, implies_true, and_true]
        simp)
    (by simp [listAttrs]) (by simp [boolAttrs])
  notRef := by decide

theorem field_scale : Field NodeRec.scale "scale".toList asText where
  hit := hit_of (by decide) (by decide)
    (fun h => by cases h; rfl) (fun h => by cases h) (fun h => by cases h)
  miss := miss_of
    (by simp only [textAttrs, List.forall_mem_cons, List.not_mem_nil, false_imp_iff, implies_true, and_true]
        simp)
    (by simp [listAttrs]) (by simp [boolAttrs])
  notRef := by decide

theorem field_strong : Field NodeRec.strong "strong".toList asFlag where
  hit := hit_of (by decide) (by decide)
    (fun h => by cases h) (fun h => by cases h) (fun h => by cases h; rfl)
  miss := miss_of
    (by simp only [textAttrs, List.forall_mem_cons, List.not_mem_nil, false_imp_iff, implies_true, and_true])
    (by simp [listAttrs]) (by simp [boolAttrs])
  notRef := by decide

theorem field_emphas : Field NodeRec.emphas "emphas".toList asFlag where
  hit := hit_of (by decide) (by decide)
    (fun h => by cases h) (fun h => by cases h) (fun h => by cases h; rfl)
  miss := miss_of
    (by simp only [textAttrs, List.forall_mem_cons, List.not_mem_nil, false_imp_iff, implies_true, and_true])
    (by simp [listAttrs]) (by simp [boolAttrs])
  notRef := by decide

theorem field_little : Field NodeRec.little "little".toList asFlag where
  hit := hit_of (by decide) (by decide)
    (fun h => by cases h) (fun h => by cases h) (fun h => by cases h; rfl)
  miss := miss_of
    (by simp only [textAttrs, List.forall_mem_cons, List.not_mem_nil, false_imp_iff, implies_true, and_true])
    (by simp [listAttrs]) (by simp [boolAttrs])
  notRef := by decide

theorem field_insert : Field NodeRec.insert "insert".toList asFlag where
  hit := hit_of (by decide) (by decide)
    (fun h => by cases h) (fun h => by cases h) (fun h => by cases h; rfl)
  miss := miss_of
    (by simp only [textAttrs, List.forall_mem_cons, List.not_mem_nil, false_imp_iff, implies_true, and_true])
    (by simp [listAttrs]) (by simp [boolAttrs])
  notRef := by decide

theorem field_delete : Field NodeRec.delete "delete".toList asFlag where
  hit := hit_of (by decide) (by decide)
    (fun h => by cases h) (fun h => by cases h) (fun h => by cases h; rfl)
  miss := miss_of
    (by simp only [textAttrs, List.forall_mem_cons, List.not_mem_nil, false_imp_iff, implies_true, and_true])
    (by simp [listAttrs]) (by simp [boolAttrs])
  notRef := by decide

theorem abstract_iff (c : Cls) : c.isSub .Abstract = true ↔ c = .Abstract := by cases c <;> decide

theorem hit_abstract {g : NodeRec → List Str} {k : Str} (ha : isAttr k = true)
    (ht : ∀ s n, setTextAttr k s n = none) (hl : ∀ {s n m}, setListAttr k s n = some m → s = g m)
    (hb : ∀ n, setBoolAttr k n = none) {v n m} (hc : n.cls = .Abstract) (h : setAttr k v n = .ok m) :
    asList v = some (g m) := by
  unfold setAttr at h
  split at h
  · cases h
  rw [if_neg (by rintro ⟨_, h2⟩; rw [(abstract_iff _).mpr hc] at h2; cases h2)] at h
  split at h
  · rename_i e
    cases h
    cases v with
    | text s => simp only [ht] at e; cases e
    | list l => rw [← hl e]; rfl
    | bool => simp only [hb] at e; cases e
  · cases h

theorem field_keywords : FieldOn (· = .Abstract) NodeRec.keywords "keywords".toList asList where
  hit := hit_abstract (by decide) (fun _ _ => rfl) (fun h => by cases h; rfl) (fun _ => rfl)
  miss := miss_of
    (by simp only [textAttrs, List.forall_mem_cons, List.not_mem_nil, false_imp_iff, implies_true, and_true])
    (by simp [listAttrs]) (by simp [boolAttrs])

theorem setAttr_keywords {k : Str} {v : MetaVal} {n m : NodeRec} (hc : n.cls ≠ .Abstract)
    (h : setAttr k v n = .ok m) : m.keywords = n.keywords := by
  by_cases hk : k = "keywords".toList
  · unfold setAttr at h
    split at h
    · cases h
    rw [if_pos ⟨by tauto, by
      rw [← Bool.not_eq_true, abstract_iff]; exact hc⟩] at h
    cases h; rfl
  · exact field_keywords.miss hk h

theorem setAll_keywords : ∀ {d : List (Str × MetaVal)} {n m : NodeRec}, n.cls ≠ .Abstract → setAll d n = .ok m →
    m.keywords = n.keywords
  | [], n, m, _, h => by cases h; rfl
  | (k', v) :: d, n, m, hc, h => by
    rw [setAll] at h
    obtain ⟨n1, h1, h2⟩ := bind_ok h
    exact (setAll_keywords (by rw [(setAttr_core h1).1]; exact hc) h2).trans (setAttr_keywords hc h1)

theorem meta_keywords {c : Cst} {n m : NodeRec} (h : ingestMeta c n = .ok m) :
    m.keywords = if n.cls = .Abstract then (metaList c "keywords".toList).getD n.keywords else n.keywords := by
  split
  · rename_i hc
    exact list_of_pair (ingestMeta_on field_keywords (by decide) hc h)
  · rename_i hc
    unfold ingestMeta at h
    split at h
    · cases h; rfl
    · obtain ⟨d, h1, h2⟩ := bind_ok h
      obtain ⟨d', h3, _⟩ := ingest_setAll h2
      exact setAll_keywords hc h3

theorem field_msc : FieldOn (· = .Abstract) NodeRec.msc "msc".toList asList where
  hit := hit_abstract (by decide) (fun _ _ => rfl) (fun h => by cases h; rfl) (fun _ => rfl)
  miss := miss_of
    (by simp only [textAttrs, List.forall_mem_cons, List.not_mem_nil, false_imp_iff, implies_true, and_true])
    (by simp [listAttrs]) (by simp [boolAttrs])

theorem setAttr_msc {k : Str} {v : MetaVal} {n m : NodeRec} (hc : n.cls ≠ .Abstract)
    (h : setAttr k v n = .ok m) : m.msc = n.msc := by
  by_cases hk : k = "msc".toList
  · unfold setAttr at h
    split at h
    · cases h
    rw [if_pos ⟨by tauto, by
      rw [← Bool.not_eq_true, abstract_iff]; exact hc⟩] at h
    cases h; rfl
  · exact field_msc.miss hk h

theorem setAll_msc : ∀ {d : List (Str × MetaVal)} {n m : NodeRec}, n.cls ≠ .Abstract → setAll d n = .ok m →
    m.msc = n.msc
  | [], n, m, _, h => by cases h; rfl
  | (k', v) :: d, n, m, hc, h => by
    rw [setAll] at h
    obtain ⟨n1, h1, h2⟩ := bind_ok h
    exact (setAll_msc (by rw [(setAttr_core h1).1]; exact hc) h2).trans (setAttr_msc hc h1)

theorem meta_msc {c : Cst} {n m : NodeRec} (h : ingestMeta c n = .ok m) :
    m.msc = if n.cls = .Abstract then (metaList c "msc".toList).getD n.msc else n.msc := by
  split
  · rename_i hc
    exact list_of_pair (ingestMeta_on field_msc (by decide) hc h)
  · rename_i hc
    unfold ingestMeta at h
    split at h
    · cases h; rfl
    · obtain ⟨d, h1, h2⟩ := bind_ok h
      obtain ⟨d', h3, _⟩ := ingest_setAll h2
      exact setAll_msc hc h3

theorem meta_date {c : Cst} {n m : NodeRec} (h : ingestMeta c n = .ok m) :
    m.date = (metaText c "date".toList).or n.date := by
  have := ingestMeta_field field_date h
  unfold metaText
  cases hl : lastPair c "date".toList with
  | none => rw [hl] at this; exact this
  | some p =>
    rw [hl] at this
    obtain ⟨v, h1, h2⟩ := this
    cases v with
    | text s =>
      rw [Option.bind_some, show (pairValue p).map _ = some _ from h1]
      exact (Option.some.inj h2).symm
    | list l => cases h2
    | bool => cases h2

/-! ## The template of references -/

theorem field_template : FieldOn (fun _ => True) NodeRec.reftextTemplate "reftext_template".toList asText where
  hit _ h := hit_of (by decide) (by decide)
    (fun h => by cases h; rfl) (fun h => by cases h) (fun h => by cases h) h
  miss := miss_of
    (by simp only [textAttrs, List.forall_mem_cons, List.not_mem_nil, false_imp_iff, implies_true, and_true]
        simp)
    (by simp [listAttrs]) (by simp [boolAttrs])

/-- The keys of a dictionary are distinct. -/
theorem lookup_dictSet (d : List (Str × MetaVal)) (k' : Str) (v : MetaVal) (k : Str) :
    (dictSet d k' v).lookup k = if k' = k then some v else d.lookup k := by
  have hm : ∀ d : List (Str × MetaVal), (d.map fun p => if p.1 = k' then (k', v) else p).lookup k =
      if k' = k then (d.lookup k).map (fun _ => v) else d.lookup k := by
    intro d
    induction d with
    | nil => simp
    | cons x d ih =>
      obtain ⟨a, b⟩ := x
      rw [List.map_cons]
      by_cases ha : a = k'
      · subst ha
        simp only [if_true, List.lookup_cons, ih]
        by_cases hk : a = k
        · subst hk; simp
        · rw [if_neg hk, if_neg hk, show (k == a) = false from beq_false_of_ne (Ne.symm hk)]
      · simp only [ha, if_false, List.lookup_cons, ih]
        by_cases hk : k = a
        · subst hk; simp [Ne.symm ha]
        · simp [beq_false_of_ne hk]
  have happ : ∀ d : List (Str × MetaVal), (d ++ [(k', v)]).lookup k =
      (d.lookup k).or (if k' = k then some v else none) := by
    intro d
    induction d with
    | nil =>
      by_cases hk : k' = k
      · simp [hk]
      · simp [List.lookup_cons, hk, beq_false_of_ne (Ne.symm hk)]
    | cons x d ih =>
      obtain ⟨a, b⟩ := x
      rw [List.cons_append, List.lookup_cons, List.lookup_cons, ih]
      split <;> simp
  have hs : ∀ d : List (Str × MetaVal), (d.any fun p => p.1 = k') = (d.lookup k').isSome := by
    intro d
    induction d with
    | nil => rfl
    | cons x d ih =>
      obtain ⟨a, b⟩ := x
      rw [List.any_cons, List.lookup_cons, ih]
      by_cases hk : a = k'
      · simp [hk]
      · simp [hk, beq_false_of_ne (Ne.symm hk)]
  unfold dictSet
  split
  · rename_i h
    rw [hm]
    split
    · rename_i hk
      subst hk
      rw [hs] at h
      obtain ⟨w, hw⟩ := Option.isSome_iff_exists.mp h
      rw [hw]; rfl
    · rfl
  · rename_i h
    rw [happ]
    split
    · rename_i hk
      subst hk
      rw [hs] at h
      rw [Option.not_isSome_iff_eq_none.mp h]; rfl
    · simp

theorem lookup_metaLoop : ∀ {ps : List Cst} {d d' : List (Str × MetaVal)}, (∀ k, d.lookup k = lastVal d k) →
    metaLoop ps d = .ok d' → ∀ k, d'.lookup k = lastVal d' k
  | [], d, d', hd, h => by cases h; exact hd
  | p :: ps, d, d', hd, h => by
    rw [metaLoop] at h
    obtain ⟨⟨_, _⟩, _, h⟩ := bind_ok h
    obtain ⟨⟨_, _⟩, _, h⟩ := bind_ok h
    refine lookup_metaLoop (fun k => ?_) h
    rw [lookup_dictSet, lastVal_dictSet, hd]

theorem lastVal_filter {k k' : Str} (h : k ≠ k') (e : List (Str × MetaVal)) :
    lastVal (e.filter fun p => p.1 ≠ k') k = lastVal e k := by
  unfold lastVal
  rw [List.filter_filter]
  congr 2
  refine List.filter_congr fun p _ => ?_
  by_cases hp : p.1 = k
  · simp only [hp, decide_true, Bool.true_and]; exact decide_eq_true h
  · simp [hp]

theorem last_text {c x : Cst} {d : List (Str × MetaVal)} (hm : c.byField "meta".toList = some x)
    (h : parseMeta x = .ok d) (k : Str) :
    match lastVal d k with
    | none => metaText c k = none
    | some v => ∀ {s}, asText v = some s → metaText c k = some s := by
  unfold parseMeta at h
  have h6 := metaLoop_last k h
  unfold metaText
  rw [lastPair_eq hm]
  cases hl : ((x.namedChildren.filter fun x => endsWith x.type "pair".toList).filter
      fun p => pairKey p = some k).getLast? with
  | none =>
    rw [hl] at h6
    simp only [lastVal_nil] at h6
    rw [h6]; rfl
  | some p =>
    rw [hl] at h6
    obtain ⟨v, h7, h8⟩ := h6
    rw [h7]
    intro s hs
    cases v with
    | text t => cases hs; exact h8
    | list l => cases hs
    | bool => cases hs

theorem meta_template {c : Cst} {n m : NodeRec} (h : ingestMeta c n = .ok m) :
    m.reftextTemplate = (metaText c "reftext".toList).getD
      ((metaText c "reftext_template".toList).getD n.reftextTemplate) := by
  unfold ingestMeta at h
  cases hm : c.byField "meta".toList with
  | none =>
    rw [hm] at h
    cases h
    unfold metaText
    rw [lastPair_none hm, lastPair_none hm]; rfl
  | some x =>
    rw [hm] at h
    obtain ⟨d, h1, h2⟩ := bind_ok h
    have hd : ∀ k, d.lookup k = lastVal d k := lookup_metaLoop (fun k => rfl) h1
    have t1 := last_text hm h1 "reftext".toList
    have t2 := last_text hm h1 "reftext_template".toList
    unfold ingest at h2
    rw [hd] at h2
    cases hl : lastVal d "reftext".toList with
    | some v =>
      rw [hl] at h2 t1
      have h5 := setAll_field field_template trivial h2
      rw [lastVal_filter (by decide), lastVal_dictSet, if_pos rfl] at h5
      rw [t1 h5]; rfl
    | none =>
      rw [hl] at h2 t1
      have h5 := setAll_field field_template trivial h2
      rw [show metaText c _ = none from t1]
      cases hl2 : lastVal d "reftext_template".toList with
      | none =>
        rw [hl2] at h5 t2
        rw [show metaText c _ = none from t2]; exact h5
      | some v =>
        rw [hl2] at h5 t2
        rw [t2 h5]; rfl

end Parser
end RSM
