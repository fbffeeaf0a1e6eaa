import Verif.Lemmas.ParserFields
import Verif.Lemmas.NormRun
import Verif.Lemmas.ParserEval

/-! What the records of the parser look like (helper lemmas). -/

namespace RSM
namespace Parser
open PyM Nodes

theorem shownTypes_eq : shownTypes = pushTypes := rfl

theorem classTable_eq : classTable = astTypes := rfl

theorem verbatimKinds_eq : verbatimKinds = asisTypes := rfl

theorem splitComma_eq : ∀ s : Str, splitComma s = s.splitOn ','
  | [] => by simp [splitComma]
  | c :: s => by
    have ih := splitComma_eq s
    unfold splitComma
    rw [ih]
    unfold List.splitOn
    rw [List.splitOnP_cons_eq_if_modifyHead]
    by_cases h : c = ','
    · rw [if_pos h, if_pos (by simp [h])]
    · rw [if_neg h, if_neg (by simp [h])]
      cases he : List.splitOnP (fun x => x == ',') s with
      | nil => exact absurd he (List.splitOnP_ne_nil _ _)
      | cons p ps => rfl

theorem setKind_look (type : Str) (c : Cst) (n : NodeRec) : lookR (setKind type c n) = { lookR n with
    kind := if type = "construct".toList ∨ type = "specialconstruct".toList then
      ((c.byField "tag".toList).map Cst.type).getD n.kind else n.kind } := by
  unfold setKind
  split
  · split
    · rename_i e; rw [e]; rfl
    · rename_i e; rw [e]; rfl
  · rfl

theorem setPrev_look {type : Str} {n : NodeRec} (c : Cst) (h : ¬ IsRef type → n.target = .none)
    (h' : IsRef type → n.target = targetOf type c) :
    lookR (setPrev type n) = { lookR n with target := targetOf type c } := by
  have e : (if IsRef type then n.target else .none) = n.target := by
    split
    · rfl
    · rename_i hr; exact (h hr).symm
  unfold setPrev
  by_cases h1 : type = "prev".toList
  · subst h1; rfl
  rw [if_neg h1]
  by_cases h2 : type = "prev2".toList
  · subst h2; rfl
  rw [if_neg h2]
  by_cases h3 : type = "prev3".toList
  · subst h3; rfl
  rw [if_neg h3]
  have : n.target = targetOf type c := by
    by_cases hr : IsRef type
    · exact h' hr
    · rw [h hr]; unfold targetOf; rw [if_neg hr, if_neg h1, if_neg h2, if_neg h3]
  rw [← this]; rfl

theorem padText_look (type : Str) (c : Cst) (prev next : Option Cst) (n : NodeRec) :
    lookR (padText type c prev next n) = lookR n := by
  rw [padText_eq]; rfl

theorem setTarget_look {type : Str} {c : Cst} {n m : NodeRec} {ids} (hn : n.overwriteReftext = [])
    (h : setTarget type c n = .ok (m, ids)) :
    lookR m = { lookR n with
      target := if IsRef type then targetOf type c else n.target, reftext := reftextOf type c } ∧
    ids = if IsRef type then ((c.namedChildren.drop 1).take 2).map Cst.id else [] := by
  unfold setTarget at h
  split at h
  · rename_i ht
    have ht' : IsRef type := ht
    unfold targetOf reftextOf
    rw [if_pos ht', if_pos ht', if_pos ht', if_pos ht']
    obtain ⟨x, hx, h⟩ := bind_ok h
    have hx := item_ok hx
    simp only at h
    have hd : (c.namedChildren.drop 1).take 2 = x :: (c.namedChildren[2]?).toList := by
      generalize c.namedChildren = l at hx ⊢
      match l, hx with
      | [], hx => cases hx
      | [_], hx => cases hx
      | [_, b], hx => cases hx; rfl
      | _ :: b :: d :: _, hx => cases hx; rfl
    rw [hd, hx]
    split at h
    · rename_i e; cases h; rw [e]; refine ⟨?_, rfl⟩; unfold lookR; simp only [hn]; rfl
    · rename_i e; cases h; rw [e]; exact ⟨rfl, rfl⟩
  · rename_i ht
    have ht' : ¬ IsRef type := ht
    unfold reftextOf
    cases h; rw [if_neg ht', if_neg ht', if_neg ht']
    refine ⟨?_, rfl⟩
    unfold lookR
    simp only [hn]

theorem setCite_look {type : Str} {c : Cst} {n m : NodeRec} {ids} (hn : n.targetlabels = [])
    (h : setCite type c n = .ok (m, ids)) :
    lookR m = { lookR n with cites := citesOf type c } ∧
    ids = if type = "cite".toList then ((c.namedChildren.drop 1).take 1).map Cst.id else [] := by
  unfold setCite at h
  unfold citesOf
  split at h
  · rename_i ht
    rw [if_pos ht, if_pos ht]
    obtain ⟨x, hx, h⟩ := bind_ok h
    have hx := item_ok hx
    have hd : (c.namedChildren.drop 1).take 1 = [x] := by
      generalize c.namedChildren = l at hx ⊢
      match l, hx with
      | [], hx => cases hx
      | [_], hx => cases hx
      | _ :: b :: _, hx => cases hx; rfl
    cases h; rw [hd, hx]
    refine ⟨?_, rfl⟩
    rw [splitComma_eq]; rfl
  · rename_i ht
    cases h; rw [if_neg ht, if_neg ht]
    refine ⟨?_, rfl⟩
    unfold lookR
    simp only [hn]

theorem lookup_class {type : Str} {cls : Cls} (h : astTypes.lookup type = some cls) :
    classOf type = cls ∧ type ≠ "ERROR".toList ∧ type ≠ "bibitem".toList ∧ type ≠ "bibtex".toList ∧
      type ≠ "bibliography".toList := by
  have : ∀ p ∈ astTypes, p.1 ≠ "ERROR".toList ∧ p.1 ≠ "bibitem".toList ∧ p.1 ≠ "bibtex".toList ∧
      p.1 ≠ "bibliography".toList := by decide +kernel
  obtain ⟨h1, h2, h3, h4⟩ := this _ (mem_of_lookup h)
  refine ⟨?_, h1, h2, h3, h4⟩
  unfold classOf
  rw [if_neg h1, if_neg h2, classTable_eq, h]; rfl

theorem classOf_error : classOf "ERROR".toList = .Error := rfl

/-- The kinds of nodes that are made. -/
theorem kind_made {type : Str} {cls : Cls}
    (h : astTypes.lookup type = some cls ∨ type = "ERROR".toList ∧ cls = .Error) :
    classOf type = cls ∧ type ≠ "bibitem".toList ∧ type ≠ "bibtex".toList ∧
      type ≠ "bibliography".toList := by
  rcases h with h | ⟨rfl, rfl⟩
  · obtain ⟨h1, _, h2⟩ := lookup_class h
    exact ⟨h1, h2⟩
  · exact ⟨rfl, by decide, by decide, by decide⟩

/-- How a node looks before its meta is read. -/
def lookBase (type : Str) (c : Cst) (cls : Cls) (title : Str) : Look :=
  { cls := cls, start := c.start, stop := c.stop, title := title
    strong := type = "spanstrong".toList, emphas := type = "spanemphas".toList }

theorem lookup_not_claim {type : Str} {cls : Cls} (h : astTypes.lookup type = some cls) : cls ≠ .ClaimBlock := by
  have : ∀ p ∈ astTypes, p.2 ≠ .ClaimBlock := by decide +kernel
  exact this _ (mem_of_lookup h)

theorem make_look {type : Str} {c : Cst} {n : NodeRec} (h : make type c = some n) :
    lookR n = lookBase type c (classOf type) [] := by
  unfold make at h
  obtain ⟨cls, hc, rfl⟩ := Option.map_eq_some_iff.mp h
  rw [(lookup_class hc).1]
  unfold lookR lookBase NodeRec.new
  rw [if_neg (lookup_not_claim hc)]

theorem baseRecord_look {type : Str} {c : Cst} {n : NodeRec} (h : baseRecord type c = .ok n) :
    lookR n = lookBase type c (classOf type) [] := by
  unfold baseRecord at h
  split at h
  · rename_i m hm
    have P := make_look hm
    split at h
    · cases h; exact P
    · cases h; exact P
  · split at h
    · rename_i e; cases h; subst e; rfl
    · cases h

/-- What meta changes. -/
def lookMeta (c : Cst) (l : Look) : Look :=
  { l with
    label := (metaText c "label".toList).getD l.label
    title := (metaText c "title".toList).getD l.title
    types := (metaList c "types".toList).getD l.types
    nonum := metaFlag c "nonum".toList || l.nonum
    template := (metaText c "reftext".toList).getD ((metaText c "reftext_template".toList).getD l.template)
    kind := (metaText c "kind".toList).getD l.kind
    date := (metaText c "date".toList).or l.date
    name := (metaText c "name".toList).getD l.name
    affiliation := (metaText c "affiliation".toList).getD l.affiliation
    email := (metaText c "email".toList).getD l.email
    keywords := if l.cls = .Abstract then (metaList c "keywords".toList).getD l.keywords else l.keywords
    msc := if l.cls = .Abstract then (metaList c "msc".toList).getD l.msc else l.msc
    lang := (metaText c "lang".toList).getD l.lang
    path := (metaText c "path".toList).getD l.path
    scale := (metaText c "scale".toList).getD l.scale
    claim := metaFlag c "isclaim".toList || l.claim
    strong := metaFlag c "strong".toList || l.strong
    emphas := metaFlag c "emphas".toList || l.emphas
    little := metaFlag c "little".toList || l.little
    insert := metaFlag c "insert".toList || l.insert
    delete := metaFlag c "delete".toList || l.delete }

theorem ingestMeta_look {c : Cst} {n m : NodeRec} (h : ingestMeta c n = .ok m) :
    lookR m = lookMeta c (lookR n) := by
  unfold lookR lookMeta
  simp only
  obtain ⟨k1, k2, k3, k4, k5⟩ := ingestMeta_kept h
  rw [(ingestMeta_core h).1, k1, k2, k3, k4, k5, meta_text field_label h, meta_text field_title h,
    meta_list field_types h, meta_flag field_nonum h, meta_template h, meta_text field_kind h, meta_date h,
    meta_text field_name h, meta_text field_affiliation h, meta_text field_email h, meta_keywords h, meta_msc h,
    meta_text field_lang h, meta_text field_path h, meta_text field_scale h, meta_flag field_isclaim h,
    meta_flag field_strong h, meta_flag field_emphas h, meta_flag field_little h, meta_flag field_insert h,
    meta_flag field_delete h]

theorem look_unesc (n : NodeRec) : lookR (Normalize.unescAttrs n) = { lookR n with
    title := if n.cls.isSub .Section || n.cls.isSub .Manuscript then Normalize.readAs false n.title
      else n.title } := by
  unfold lookR Normalize.unescAttrs
  simp only [Normalize.unesc_eq]
  rfl

theorem construct_iff {type : Str} (h : type ∈ astTypes.map (·.1) ∨ type = "ERROR".toList) :
    (type = "construct".toList ∨ type = "specialconstruct".toList) ↔ classOf type = .Construct := by
  have : ∀ t ∈ "ERROR".toList :: astTypes.map (·.1),
      (t = "construct".toList ∨ t = "specialconstruct".toList) ↔ classOf t = .Construct := by decide +kernel
  refine this _ ?_
  rcases h with h | h
  · exact List.mem_cons_of_mem _ h
  · rw [h]; exact List.mem_cons_self

/-- A node without the steps that follow meta. -/
theorem lookOf_eq {kind : Str} {c : Cst} (hk : kind ≠ "bibitem".toList)
    (hm : (kind = "construct".toList ∨ kind = "specialconstruct".toList) ↔ classOf kind = .Construct) :
    lookOf kind c = { lookMeta c (lookBase kind c (classOf kind) []) with
      title :=
        let title := (metaText c "title".toList).getD
          (if IsHeading c then ((c.byField "title".toList).map Cst.text).getD [] else [])
        if (classOf kind).isSub .Section || (classOf kind).isSub .Manuscript then
          Normalize.readAs false title else title
      target := targetOf kind c
      reftext := reftextOf kind c
      cites := citesOf kind c
      kind := if kind = "construct".toList ∨ kind = "specialconstruct".toList then
        ((c.byField "tag".toList).map Cst.type).getD ((metaText c "kind".toList).getD [])
        else (metaText c "kind".toList).getD [] } := by
  unfold lookOf
  rw [if_neg hk]
  unfold lookMeta lookBase
  simp only [Bool.or_false, Option.or_none]
  congr 1
  by_cases h : classOf kind = .Construct
  · rw [if_pos h, if_pos (hm.mpr h)]
  · rw [if_neg h, if_neg (fun e => h (hm.mp e))]

theorem nodeRecord_look {type : Str} {c : Cst} {prev next : Option Cst} {n : NodeRec} {a : Option NodeRec}
    {ids : List Nat} (h : nodeRecord type c prev next = .ok (n, a, ids)) (hc : ¬ IsHeading c) :
    lookR (Normalize.unescAttrs n) = lookOf type c ∧ n.isclaim = metaFlag c "isclaim".toList ∧
    ids = (if type = "ref".toList ∨ type = "previous".toList ∨ type = "url".toList then
        ((c.namedChildren.drop 1).take 2).map Cst.id else []) ++
      (if type = "cite".toList then ((c.namedChildren.drop 1).take 1).map Cst.id else []) := by
  have hk := (nodeRecord_ok h).2.1
  obtain ⟨k1, k2, _, _⟩ := kind_made hk
  have hm := construct_iff (type := type) (by
    rcases hk with hk | ⟨hk, _⟩
    · exact .inl (List.mem_map_of_mem (mem_of_lookup hk))
    · exact .inr hk)
  unfold nodeRecord at h
  obtain ⟨n1, h1, h⟩ := bind_ok h
  obtain ⟨n2, h2, h⟩ := bind_ok h
  obtain ⟨a', h3, h⟩ := bind_ok h
  obtain ⟨⟨n4, s1⟩, h4, h⟩ := bind_ok h
  obtain ⟨⟨n5, s2⟩, h5, h⟩ := bind_ok h
  cases h
  have L1 := baseRecord_look h1
  have L2 := ingestMeta_look h2
  rw [L1] at L2
  have L3 := setKind_look type c n2
  rw [L2] at L3
  have kk : n2.kind = (metaText c "kind".toList).getD [] := congrArg Look.kind L2
  rw [kk] at L3
  obtain ⟨L4, i1⟩ := setTarget_look (congrArg Look.reftext L3) h4
  rw [L3] at L4
  have tk : (setKind type c n2).target = .none := congrArg Look.target L3
  rw [tk] at L4
  have t4 : n4.target = if IsRef type then targetOf type c else .none := congrArg Look.target L4
  have L5 := setPrev_look (n := n4) c (fun hr => by rw [t4, if_neg hr]) (fun hr => by rw [t4, if_pos hr])
  rw [L4] at L5
  obtain ⟨L6, i2⟩ := setCite_look (congrArg Look.cites L5) h5
  rw [L5] at L6
  have L7 := (padText_look type c prev next n5).trans L6
  refine ⟨?_, ?_, by rw [i1, i2]; rfl⟩
  · have c1 : (padText type c prev next n5).cls = classOf type := congrArg Look.cls L7
    have c2 := congrArg Look.title L7
    rw [look_unesc, L7, c1, lookOf_eq k2 hm, if_neg hc]
    rw [show (padText type c prev next n5).title = (metaText c "title".toList).getD [] from c2]
  · have := congrArg Look.claim L7
    rw [show (padText type c prev next n5).isclaim = _ from this]
    exact Bool.or_false _

theorem headingRecord_look {c : Cst} {n : NodeRec} (h : headingRecord c = .ok n) (hc : IsHeading c) :
    lookR (Normalize.unescAttrs n) = lookOf c.type c := by
  obtain ⟨k1, _, k2, _⟩ := lookup_class (headingRecord_ok h).2
  have hm := construct_iff (type := c.type) (.inl (List.mem_map_of_mem (mem_of_lookup (headingRecord_ok h).2)))
  have hh : ∀ t ∈ astTypes.map (·.1), (t = "source_file".toList ∨ "section".toList <:+ t) →
      ¬ IsRef t ∧ t ≠ "prev".toList ∧ t ≠ "prev2".toList ∧ t ≠ "prev3".toList ∧
      t ≠ "cite".toList ∧ ¬ (t = "construct".toList ∨ t = "specialconstruct".toList) := by decide +kernel
  obtain ⟨h1, h2, h3, h4, h5, h6⟩ := hh c.type (List.mem_map_of_mem (mem_of_lookup (headingRecord_ok h).2)) hc
  unfold headingRecord at h
  split at h
  · cases h
  · rename_i m hmk
    have P := make_look hmk
    have P' : lookR (match c.byField "title".toList with
        | none => m
        | some t => { m with title := t.text }) = lookBase c.type c (classOf c.type)
          (((c.byField "title".toList).map Cst.text).getD []) := by
      cases c.byField "title".toList with
      | none => exact P
      | some t => exact congrArg (fun l : Look => { l with title := t.text }) P
    have L : lookR n = _ := (ingestMeta_look h).trans (congrArg (lookMeta c) P')
    have c1 : n.cls = classOf c.type := congrArg Look.cls L
    have c2 := congrArg Look.title L
    rw [look_unesc, L, c1, lookOf_eq k2 hm, if_pos hc, if_neg h6]
    unfold targetOf reftextOf citesOf
    rw [if_neg h1, if_neg h2, if_neg h3, if_neg h4, if_neg h5, if_neg h1]
    rw [show n.title = _ from c2]
    rfl

theorem entry_date {c : Cst} {n m : NodeRec}
    (h : bibLoop (c.namedChildren.filter fun x => x.type = "bibitempair".toList) n = .ok m) :
    m.date = (entryField c "date".toList).or n.date := by
  have := bibLoop_field field_date.on h
  unfold entryField
  rw [List.filter_filter] at this
  have e : (fun p : Cst => decide (p.namedChildren.head?.map Cst.text = some "date".toList) &&
      decide (p.type = "bibitempair".toList)) = (fun p => p.type = "bibitempair".toList &&
        p.namedChildren.head?.map Cst.text = some "date".toList) := by
    funext p; rw [Bool.and_comm]
  rw [e] at this
  cases hl : (c.namedChildren.filter fun p => p.type = "bibitempair".toList &&
        p.namedChildren.head?.map Cst.text = some "date".toList).getLast? with
  | none => rw [hl] at this; exact this
  | some p =>
    rw [hl] at this
    obtain ⟨s, h1, h2⟩ := this
    rw [Option.bind_some, h1]
    exact (Option.some.inj h2).symm

theorem entry_lists : ∀ {l : List Cst} {n m : NodeRec}, n.cls ≠ .Abstract → bibLoop l n = .ok m →
    m.keywords = n.keywords ∧ m.msc = n.msc
  | [], n, m, _, h => by cases h; exact ⟨rfl, rfl⟩
  | p :: l, n, m, hc, h => by
    rw [bibLoop] at h
    obtain ⟨⟨k', v⟩, h1, h⟩ := bind_ok h
    obtain ⟨n1, h2, h3⟩ := bind_ok h
    obtain ⟨i1, i2⟩ := entry_lists (by rw [(setAttr_core h2).1]; exact hc) h3
    exact ⟨i1.trans (setAttr_keywords hc h2), i2.trans (setAttr_msc hc h2)⟩

theorem bibRecord_look {c : Cst} {n : NodeRec} (h : bibRecord c = .ok n) :
    lookR (Normalize.unescAttrs n) = lookOf "bibitem".toList c := by
  have hcls := (bibRecord_ok h).2
  unfold bibRecord at h
  obtain ⟨kind, h1, h⟩ := bind_ok h
  obtain ⟨label, h2, h⟩ := bind_ok h
  have hf : ∀ {f x}, fieldText c f = .ok x → ((c.byField f).map Cst.text).getD [] = x := by
    intro f x hx
    unfold fieldText at hx
    split at hx
    · cases hx
    · rename_i e; cases hx; rw [e]; rfl
  obtain ⟨q1, q2, q3, q4, q5⟩ := bibLoop_kept h
  rw [look_unesc]
  unfold lookOf lookR
  rw [if_pos rfl, entry_text field_label.on h, entry_text field_title.on h, q1, q2, q3, q4, q5,
    entry_other field_types.on (fun _ => rfl) h, entry_other field_nonum.on (fun _ => rfl) h, hf h1, hf h2, hcls,
    entry_text field_template h, entry_text field_kind.on h, entry_date h, entry_text field_name.on h,
    entry_text field_affiliation.on h, entry_text field_email.on h, entry_text field_lang.on h,
    entry_text field_path.on h, entry_text field_scale.on h, (entry_lists (show Cls.Bibitem ≠ .Abstract by decide) h).1,
    (entry_lists (show Cls.Bibitem ≠ .Abstract by decide) h).2, entry_other field_isclaim.on (fun _ => rfl) h,
    entry_other field_strong.on (fun _ => rfl) h, entry_other field_emphas.on (fun _ => rfl) h,
    entry_other field_little.on (fun _ => rfl) h, entry_other field_insert.on (fun _ => rfl) h,
    entry_other field_delete.on (fun _ => rfl) h]
  simp only [NodeRec.new, Option.or_none]
  rfl

/-! ## Entries of bibliographies -/

/-- The number of a value. -/
def asNum : MetaVal → Option PyNum
  | .text s => some (.str s)
  | _ => none

theorem field_author : Field NodeRec.author "author".toList asText where
  hit := hit_of (by decide) (by decide)
    (fun h => by cases h; rfl) (fun h => by cases h) (fun h => by cases h)
  miss := miss_of
    (by simp only [textAttrs, List.forall_mem_cons, List.not_mem_nil, false_imp_iff, implies_true, and_true]
        simp)
    (by simp [listAttrs]) (by simp [boolAttrs])
  notRef := by decide

theorem field_year : Field NodeRec.year "year".toList asNum where
  hit := hit_of (by decide) (by decide)
    (fun h => by cases h; rfl) (fun h => by cases h) (fun h => by cases h)
  miss := miss_of
    (by simp only [textAttrs, List.forall_mem_cons, List.not_mem_nil, false_imp_iff, implies_true, and_true]
        simp)
    (by simp [listAttrs]) (by simp [boolAttrs])
  notRef := by decide

theorem field_journal : Field NodeRec.journal "journal".toList asText where
  hit := hit_of (by decide) (by decide)
    (fun h => by cases h; rfl) (fun h => by cases h) (fun h => by cases h)
  miss := miss_of
    (by simp only [textAttrs, List.forall_mem_cons, List.not_mem_nil, false_imp_iff, implies_true, and_true]
        simp)
    (by simp [listAttrs]) (by simp [boolAttrs])
  notRef := by decide

theorem field_volume : Field NodeRec.volume "volume".toList asNum where
  hit := hit_of (by decide) (by decide)
    (fun h => by cases h; rfl) (fun h => by cases h) (fun h => by cases h)
  miss := miss_of
    (by simp only [textAttrs, List.forall_mem_cons, List.not_mem_nil, false_imp_iff, implies_true, and_true]
        simp)
    (by simp [listAttrs]) (by simp [boolAttrs])
  notRef := by decide

theorem field_number : Field NodeRec.number "number".toList asNum where
  hit := hit_of (by decide) (by decide)
    (fun h => by cases h; rfl) (fun h => by cases h) (fun h => by cases h)
  miss := miss_of
    (by simp only [textAttrs, List.forall_mem_cons, List.not_mem_nil, false_imp_iff, implies_true, and_true]
        simp)
    (by simp [listAttrs]) (by simp [boolAttrs])
  notRef := by decide

/-- A proof has no number unless it is given one. -/
def Unset (c : Cst) (n : NodeRec) : Prop := n.cls = .Proof → metaText c "number".toList = none → n.number = .none

theorem ingestMeta_number {c : Cst} {n m : NodeRec} (h : ingestMeta c n = .ok m) (hn : metaText c "number".toList = none) :
    m.number = n.number := by
  have := ingestMeta_field field_number h
  unfold metaText at hn
  cases hl : lastPair c "number".toList with
  | none => rw [hl] at this; exact this
  | some p =>
    rw [hl] at this hn
    obtain ⟨v, h1, h2⟩ := this
    cases v with
    | text s => rw [Option.bind_some, show (pairValue p).map _ = some _ from h1] at hn; cases hn
    | list l => cases h2
    | bool => cases h2

theorem make_number {type : Str} {c : Cst} {n : NodeRec} (h : make type c = some n) (hc : n.cls = .Proof) : n.number = .none := by
  unfold make at h
  obtain ⟨cls, -, rfl⟩ := Option.map_eq_some_iff.mp h
  cases show cls = .Proof from hc
  rfl

theorem headingRecord_number {c : Cst} {n : NodeRec} (h : headingRecord c = .ok n) : Unset c n := by
  intro hc hn
  unfold headingRecord at h
  split at h
  · cases h
  · rename_i m hm
    have e1 := ingestMeta_number h hn
    have e2 := (ingestMeta_core h).1
    rw [e1]
    rw [hc] at e2
    cases ht : c.byField "title".toList with
    | none => rw [ht] at e2; exact make_number hm e2.symm
    | some x =>
      rw [ht] at e2
      have : m.number = .none := make_number hm e2.symm
      exact this

theorem baseRecord_number {type : Str} {c : Cst} {n : NodeRec} (h : baseRecord type c = .ok n) (hc : n.cls = .Proof) :
    n.number = .none := by
  unfold baseRecord at h
  split at h
  · rename_i m hm
    cases h
    split at hc
    · rw [if_pos ‹_›]
      have : m.number = .none := make_number hm hc
      exact this
    · rw [if_neg ‹_›]
      exact make_number hm hc
  · split at h
    · cases h; cases hc
    · cases h

theorem nodeRecord_number {type : Str} {c : Cst} {prev next : Option Cst} {n : NodeRec} {a : Option NodeRec}
    {ids : List Nat} (h : nodeRecord type c prev next = .ok (n, a, ids)) : Unset c n := by
  intro hc hn
  unfold nodeRecord at h
  obtain ⟨n1, h1, h⟩ := bind_ok h
  obtain ⟨n2, h2, h⟩ := bind_ok h
  obtain ⟨a', h3, h⟩ := bind_ok h
  obtain ⟨⟨n4, s1⟩, h4, h⟩ := bind_ok h
  obtain ⟨⟨n5, s2⟩, h5, h⟩ := bind_ok h
  cases h
  rw [padText_eq] at hc ⊢
  have C : Core n1 n5 := (ingestMeta_core h2).trans ((setKind_core _ _ _).trans ((setTarget_core h4).trans
    ((setPrev_core _ _).trans (setCite_core h5))))
  have k1 : (setKind type c n2).number = n2.number := by
    unfold setKind
    split
    · split <;> rfl
    · rfl
  have k2 : n4.number = (setKind type c n2).number := by
    unfold setTarget at h4
    split at h4
    · obtain ⟨x, hx, h4⟩ := bind_ok h4
      simp only at h4
      split at h4 <;> (cases h4; rfl)
    · cases h4; rfl
  have k3 : (setPrev type n4).number = n4.number := by
    unfold setPrev
    repeat' split
    all_goals rfl
  have k4 : n5.number = (setPrev type n4).number := by
    unfold setCite at h5
    split at h5
    · obtain ⟨x, hx, h5⟩ := bind_ok h5
      cases h5; rfl
    · cases h5; rfl
  show n5.number = .none
  rw [k4, k3, k2, k1, ingestMeta_number h2 hn]
  exact baseRecord_number h1 (C.1.symm.trans hc)

theorem field_publisher : Field NodeRec.publisher "publisher".toList asText where
  hit := hit_of (by decide) (by decide)
    (fun h => by cases h; rfl) (fun h => by cases h) (fun h => by cases h)
  miss := miss_of
    (by simp only [textAttrs, List.forall_mem_cons, List.not_mem_nil, false_imp_iff, implies_true, and_true]
        simp)
    (by simp [listAttrs]) (by simp [boolAttrs])
  notRef := by decide

theorem field_doi : Field NodeRec.doi "doi".toList asText where
  hit := hit_of (by decide) (by decide)
    (fun h => by cases h; rfl) (fun h => by cases h) (fun h => by cases h)
  miss := miss_of
    (by simp only [textAttrs, List.forall_mem_cons, List.not_mem_nil, false_imp_iff, implies_true, and_true]
        simp)
    (by simp [listAttrs]) (by simp [boolAttrs])
  notRef := by decide

theorem entry_num {g : NodeRec → PyNum} {k : Str} (F : Field g k asNum) {c : Cst} {n m : NodeRec}
    (h : bibLoop (c.namedChildren.filter fun x => x.type = "bibitempair".toList) n = .ok m) :
    g m = ((entryField c k).map PyNum.str).getD (g n) := by
  have := bibLoop_field F.on h
  unfold entryField
  rw [List.filter_filter] at this
  have e : (fun p : Cst => decide (p.namedChildren.head?.map Cst.text = some k) &&
      decide (p.type = "bibitempair".toList)) = (fun p => p.type = "bibitempair".toList &&
        p.namedChildren.head?.map Cst.text = some k) := by
    funext p; rw [Bool.and_comm]
  rw [e] at this
  cases hl : (c.namedChildren.filter fun p => p.type = "bibitempair".toList &&
        p.namedChildren.head?.map Cst.text = some k).getLast? with
  | none => rw [hl] at this; exact this
  | some p =>
    rw [hl] at this
    obtain ⟨s, h1, h2⟩ := this
    rw [Option.bind_some, h1]
    exact (Option.some.inj h2).symm

/-- The fields of an entry. -/
def entryR (n : NodeRec) : EntryLook :=
  ⟨n.kind, n.label, n.title, n.author, n.year, n.journal, n.volume, n.number, n.publisher, n.doi⟩

theorem bibRecord_entry {c : Cst} {n : NodeRec} (h : bibRecord c = .ok n) : entryR n = entryLook c := by
  unfold bibRecord at h
  obtain ⟨kind, h1, h⟩ := bind_ok h
  obtain ⟨label, h2, h⟩ := bind_ok h
  have hf : ∀ {f x}, fieldText c f = .ok x → ((c.byField f).map Cst.text).getD [] = x := by
    intro f x hx
    unfold fieldText at hx
    split at hx
    · cases hx
    · rename_i e; cases hx; rw [e]; rfl
  unfold entryR entryLook
  rw [entry_text field_kind.on h, entry_text field_label.on h, entry_text field_title.on h, entry_text field_author.on h,
    entry_num field_year h, entry_text field_journal.on h, entry_num field_volume h, entry_num field_number h,
    entry_text field_publisher.on h, entry_text field_doi.on h, hf h1, hf h2]
  rfl

end Parser
end RSM
