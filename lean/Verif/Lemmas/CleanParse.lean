import Verif.Lemmas.CleanRun
import Verif.Lemmas.NormText
import Verif.Lemmas.ParserEval

/-! # Lemmas: the parser brings no angle brackets into texts -/

namespace RSM
open Transformer Html Tr PyM

/-- The condition of `clean_steady` for all nodes. -/
abbrev AllClean (h : Heap) : Prop := All (fun _ n => CleanIn n) h

theorem noAngle_rstrip {s : Str} (h : NoAngle s) : NoAngle (rstrip s) :=
  noAngle_of_subset h fun c hc => by
    unfold rstrip at hc
    exact List.mem_reverse.mp (mem_of_mem_dropWhile (List.mem_reverse.mp hc))

theorem noAngle_lstrip {s : Str} (h : NoAngle s) : NoAngle (lstrip s) :=
  noAngle_of_subset h fun _ hc => mem_of_mem_dropWhile hc

theorem noAngle_blank {s : Str} (h : NoAngle s) : NoAngle (' ' :: s) := noAngle_cons.mpr ⟨by decide, h⟩

namespace CleanRun
open Normalize hiding Holds

theorem noAngle_joinBlank : ∀ {l : List Str}, (∀ x ∈ l, NoAngle x) → NoAngle (joinBlank l)
  | [], _ => NoAngle.nil
  | [x], h => h x (by simp)
  | x :: y :: l, h => noAngle_append.mpr ⟨h x (by simp),
      noAngle_blank (noAngle_joinBlank fun z hz => h z (List.mem_cons_of_mem _ hz))⟩

theorem noAngle_joinRun {a : Str} {l : List Str} (ha : NoAngle a) (hl : ∀ x ∈ l, NoAngle x) : NoAngle (joinRun a l) := by
  unfold joinRun
  refine noAngle_append.mpr ⟨noAngle_rstrip ha, noAngle_blank (noAngle_append.mpr ⟨noAngle_joinBlank ?_,
    noAngle_blank (noAngle_lstrip ?_)⟩)⟩
  · intro x hx
    obtain ⟨y, hy, rfl⟩ := List.mem_map.mp hx
    exact noAngle_strip (hl y ((List.dropLast_sublist l).subset hy))
  · rw [List.getLastD_eq_getLast?]
    cases e : l.getLast? with
    | none => exact NoAngle.nil
    | some x => exact hl x (List.mem_of_getLast? e)

theorem noAngle_unesc {s : Str} (h : NoAngle s) : NoAngle (unesc s) := by
  have key : ∀ (cs : List Char), (∀ c ∈ cs, NoAngle [c]) → ∀ s : Str, NoAngle s →
      NoAngle (cs.foldl (fun ret c => pyReplace ['\\', c] [c] ret) s) := by
    intro cs
    induction cs with
    | nil => exact fun _ s h => h
    | cons c cs ih =>
      intro hc s h
      rw [List.foldl_cons]
      exact ih (fun d hd => hc d (List.mem_cons_of_mem _ hd)) _ (noAngle_replaceScan (hc c List.mem_cons_self) _ _ h)
  exact key delims (by decide) s h

theorem noAngle_subTrailing {s : Str} (h : NoAngle s) : NoAngle (subTrailing s.length s) := by
  rw [subTrailing_eq _ _ le_rfl]
  split
  · exact h
  · exact noAngle_append.mpr ⟨noAngle_rstrip h, by decide⟩

theorem noAngle_subLeading {s : Str} (h : NoAngle s) : NoAngle (subLeading s) := by
  unfold subLeading
  split
  · exact h
  · exact noAngle_blank (noAngle_lstrip h)

theorem clean_text {n : NodeRec} {s : Str} (h : CleanIn n) (hs : NoAngle s) : CleanIn { n with text := s } :=
  { h with text := hs }

theorem holds_setText (r : Ref) {f : Str → Str} (hf : ∀ s, NoAngle s → NoAngle (f s)) : Holds AllClean (setText r f) :=
  .modify fun _ A => A.update r fun h => clean_text h (hf _ h.text)

theorem holds_mergeRun (run : List Ref) : Holds AllClean (mergeRun run) := by
  unfold mergeRun
  refine .get fun h A => ?_
  split
  · exact .bind (holds_setText _ fun s hs => noAngle_append.mpr ⟨noAngle_rstrip hs, noAngle_blank (noAngle_lstrip (A _).text)⟩)
      fun _ => holds_removeSelf clean_steady _
  · refine .bind (holds_setText _ fun s hs => noAngle_joinRun hs fun x hx => ?_)
      fun _ => .forEach fun x _ => holds_removeSelf clean_steady x
    obtain ⟨y, -, rfl⟩ := List.mem_map.mp hx
    exact (A y).text
  · exact .pure ()

theorem holds_mergeTexts (r : Ref) : Holds AllClean (mergeTexts r) := by
  unfold mergeTexts
  refine .get fun h _ => .forEach fun g _ => ?_
  split
  · exact holds_mergeRun _
  · exact .pure ()

theorem holds_setIfText (o : Option Ref) {f : Str → Str} (hf : ∀ s, NoAngle s → NoAngle (f s)) :
    Holds AllClean (setIfText o f) := by
  unfold setIfText
  refine .get fun h _ => ?_
  split
  · split
    · exact holds_setText _ hf
    · exact .pure ()
  · exact .pure ()

theorem holds_stripEnds (r : Ref) : Holds AllClean (stripEnds r) := by
  unfold stripEnds
  refine .get fun h _ => ?_
  split
  · exact .bind (holds_setIfText _ fun _ => noAngle_lstrip) fun _ => holds_setIfText _ fun _ => noAngle_rstrip
  · exact .pure ()

theorem holds_liftSib (e : Except PyErr (Option Ref)) : Holds AllClean (liftSib e) := by
  unfold liftSib
  split
  · exact .pure _
  · exact .throw _

theorem holds_whenFirst (o : Option (Ref × Nat)) {act : Ref → HeapM Unit} (h : ∀ r, Holds AllClean (act r)) :
    Holds AllClean (whenFirst o act) := by
  unfold whenFirst
  split
  · exact .pure ()
  · refine .get fun _ _ => .bind (holds_liftSib _) fun _ => ?_
    split
    · exact h _
    · exact .pure ()

theorem holds_whenLast (o : Option (Ref × Nat)) {act : Ref → HeapM Unit} (h : ∀ r, Holds AllClean (act r)) :
    Holds AllClean (whenLast o act) := by
  unfold whenLast
  split
  · exact .pure ()
  · refine .get fun _ _ => .bind (holds_liftSib _) fun _ => ?_
    split
    · exact h _
    · exact .pure ()

theorem holds_stripParagraph (r : Ref) : Holds AllClean (stripParagraph r) := by
  unfold stripParagraph
  refine .get fun h _ => ?_
  split
  · exact .bind (holds_whenFirst _ fun r => holds_setText r fun _ => noAngle_lstrip) fun _ =>
      .get fun _ _ => holds_whenLast _ fun r => holds_setText r fun _ => noAngle_rstrip
  · exact .pure ()

theorem holds_prepend (r c : Ref) : Holds AllClean (Nodes.prepend r c) := by
  unfold Nodes.prepend
  refine .bind (holds_requireNWC r) fun _ => .get fun h _ => ?_
  split
  · exact .throw _
  · exact .bind (holds_setKids clean_steady r _) fun _ => holds_setParent clean_steady c _

theorem holds_newText {s : Str} (hs : NoAngle s) : Holds AllClean (newText s) :=
  holds_new fun _ => clean_text (cleanIn_new .Text) hs

theorem noAngle_keywordOf {kind w : Str} (h : keywordOf kind = some w) : NoAngle w := by
  have key : ∀ (l : List (Str × Str)), (∀ p ∈ l, NoAngle p.2) → l.lookup kind = some w → NoAngle w := by
    intro l
    induction l with
    | nil => intro _ h; cases h
    | cons p l ih =>
      intro hl h
      rw [List.lookup_cons] at h
      split at h
      · injection h with h; rw [← h]; exact hl p List.mem_cons_self
      · exact ih (fun q hq => hl q (List.mem_cons_of_mem _ hq)) h
  exact key _ (by decide) h

theorem holds_prependKeyword (r : Ref) : Holds AllClean (prependKeyword r) := by
  unfold prependKeyword
  refine .bind (holds_new fun _ => cleanIn_new _) fun k => .get fun h _ => ?_
  split
  · exact .throw _
  · rename_i w hw
    exact .bind (holds_newText (noAngle_keywordOf hw)) fun _ => .bind (holds_append clean_steady _ _) fun _ => holds_prepend _ _

theorem holds_openConstruct (r : Ref) : Holds AllClean (openConstruct r) := by
  unfold openConstruct
  refine .get fun h _ => ?_
  split
  · exact .bind (holds_whenFirst _ fun r => holds_setText r fun _ => noAngle_blank) fun _ => .get fun _ _ =>
      .bind (holds_whenFirst _ fun _ => .bind (holds_newText (by decide)) fun _ => holds_prepend _ _) fun _ =>
        holds_prependKeyword _
  · exact .pure ()

theorem holds_squeezeTexts (r : Ref) : Holds AllClean (squeezeTexts r) := by
  unfold squeezeTexts
  refine .get fun h _ => .forEach fun c _ => ?_
  unfold squeeze
  refine .get fun h _ => ?_
  split
  · exact .bind (holds_setText _ fun _ => noAngle_subTrailing) fun _ => holds_setText _ fun _ => noAngle_subLeading
  · exact .pure ()

theorem holds_spaceAfter (r : Ref) : Holds AllClean (spaceAfter r) := by
  unfold spaceAfter
  refine .get fun h _ => .bind (holds_liftSib _) fun _ => ?_
  split
  · exact .bind (holds_newText (by decide)) fun _ => holds_replaceSelf clean_steady _ _
  · exact .pure ()

theorem clean_unesc {n : NodeRec} (h : CleanIn n) : CleanIn (unescAttrs n) := by
  unfold unescAttrs
  refine { h with text := ?_, title := ?_ }
  · dsimp only
    split
    · exact noAngle_unesc h.text
    · exact h.text
  · dsimp only
    split
    · exact noAngle_unesc h.title
    · exact h.title

/-- `_normalize_text` brings no angle brackets into texts. -/
theorem holds_normalizeText (fuel : Nat) (root : Ref) : Holds AllClean (normalizeText fuel root) := by
  refine .travLoop (fun r => ?_) _ _
  exact .bind (holds_mergeTexts r) fun _ => .bind (holds_stripEnds r) fun _ => .bind (holds_stripParagraph r) fun _ =>
    .bind (holds_openConstruct r) fun _ => .bind (holds_squeezeTexts r) fun _ => .bind (holds_spaceAfter r) fun _ =>
      .modify fun _ A => A.update r clean_unesc

end CleanRun

/-! ## From the concrete syntax tree -/

namespace Parser
open CleanRun

theorem CleanCst.self {c : Cst} (h : CleanCst c) : NoAngle c.text ∧ NoAngle c.type := h c c.self_mem_nodes

theorem CleanCst.child {c d : Cst} (h : CleanCst c) (hd : d ∈ c.children) : CleanCst d :=
  fun x hx => h x (nodes_child hd hx)

theorem CleanCst.named {c d : Cst} (h : CleanCst c) (hd : d ∈ c.namedChildren) : CleanCst d :=
  h.child (List.mem_filter.mp hd).1

theorem CleanCst.field {c d : Cst} {f : Str} (h : CleanCst c) (hd : c.byField f = some d) : CleanCst d :=
  h.child (List.mem_of_find?_eq_some hd)

theorem CleanCst.item {c d : Cst} {i : Nat} (h : CleanCst c) (hd : item c.namedChildren i = .ok d) : CleanCst d :=
  h.named (List.mem_of_getElem? (item_ok hd))

/-- A value without angle brackets. -/
def CleanVal : MetaVal → Prop
  | .list l => ∀ x ∈ l, NoAngle x
  | .text s => NoAngle s
  | .bool => True

theorem setter_from {β : Type} {table : List (String × β)} {k : Str} {f : β} (h : setter table k = some f) :
    ∃ w, (w, f) ∈ table := by
  unfold setter at h
  rw [Option.map_eq_some_iff] at h
  obtain ⟨p, hp, rfl⟩ := h
  exact ⟨p.1, List.mem_of_find?_eq_some hp⟩

theorem clean_setText {k s : Str} {n n' : NodeRec} (hn : CleanIn n) (hs : NoAngle s) (h : setTextAttr k s n = some n') :
    CleanIn n' := by
  unfold setTextAttr at h
  rw [Option.map_eq_some_iff] at h
  obtain ⟨f, hf, rfl⟩ := h
  obtain ⟨w, hw⟩ := setter_from hf
  simp only [textAttrs, List.mem_cons, Prod.mk.injEq, List.not_mem_nil, or_false] at hw
  rcases hw with ⟨-, rfl⟩ | ⟨-, rfl⟩ | ⟨-, rfl⟩ | ⟨-, rfl⟩ | ⟨-, rfl⟩ | ⟨-, rfl⟩ | ⟨-, rfl⟩ | ⟨-, rfl⟩ | ⟨-, rfl⟩ |
    ⟨-, rfl⟩ | ⟨-, rfl⟩ | ⟨-, rfl⟩ | ⟨-, rfl⟩ | ⟨-, rfl⟩ | ⟨-, rfl⟩ | ⟨-, rfl⟩ | ⟨-, rfl⟩ | ⟨-, rfl⟩
  · exact { hn with label := hs }
  · exact { hn with reftextTemplate := hs }
  · exact { hn with title := hs }
  · exact { hn with }
  · exact { hn with name := hs }
  · exact { hn with affiliation := hs }
  · exact { hn with email := hs }
  · exact { hn with lang := hs }
  · exact { hn with path := hs }
  · exact { hn with scale := hs }
  · exact { hn with kind := hs }
  · exact { hn with author := hs }
  · exact { hn with year := hs }
  · exact { hn with journal := hs }
  · exact { hn with }
  · exact { hn with number := hs }
  · exact { hn with publisher := hs }
  · exact { hn with doi := hs }

theorem clean_setList {k : Str} {l : List Str} {n n' : NodeRec} (hn : CleanIn n) (hl : ∀ x ∈ l, NoAngle x)
    (h : setListAttr k l n = some n') : CleanIn n' := by
  unfold setListAttr at h
  rw [Option.map_eq_some_iff] at h
  obtain ⟨f, hf, rfl⟩ := h
  obtain ⟨w, hw⟩ := setter_from hf
  simp only [listAttrs, List.mem_cons, Prod.mk.injEq, List.not_mem_nil, or_false] at hw
  rcases hw with ⟨-, rfl⟩ | ⟨-, rfl⟩ | ⟨-, rfl⟩
  · exact { hn with types := hl }
  · exact { hn with keywords := hl }
  · exact { hn with msc := hl }

theorem clean_setBool {k : Str} {n n' : NodeRec} (hn : CleanIn n) (h : setBoolAttr k n = some n') : CleanIn n' := by
  unfold setBoolAttr at h
  rw [Option.map_eq_some_iff] at h
  obtain ⟨f, hf, rfl⟩ := h
  obtain ⟨w, hw⟩ := setter_from hf
  simp only [boolAttrs, List.mem_cons, Prod.mk.injEq, List.not_mem_nil, or_false] at hw
  rcases hw with ⟨-, rfl⟩ | ⟨-, rfl⟩ | ⟨-, rfl⟩ | ⟨-, rfl⟩ | ⟨-, rfl⟩ | ⟨-, rfl⟩ | ⟨-, rfl⟩ <;> exact { hn with }

theorem clean_setAttr {k : Str} {v : MetaVal} {n n' : NodeRec} (hn : CleanIn n) (hv : CleanVal v)
    (h : setAttr k v n = .ok n') : CleanIn n' := by
  unfold setAttr at h
  split at h
  · cases h
  split at h
  · cases h; exact hn
  split at h
  · rename_i m hm
    cases h
    cases v with
    | text s => exact clean_setText hn hv hm
    | list l => exact clean_setList hn hv hm
    | bool => exact clean_setBool hn hm
  · split at h
    · cases h
    · cases h; exact hn

theorem clean_setAll : ∀ {d : List (Str × MetaVal)} {n n' : NodeRec}, (∀ p ∈ d, CleanVal p.2) → CleanIn n →
    setAll d n = .ok n' → CleanIn n'
  | [], n, n', _, hn, h => by cases h; exact hn
  | (k, v) :: d, n, n', hd, hn, h => by
    rw [setAll] at h
    obtain ⟨m, h1, h2⟩ := bind_ok h
    exact clean_setAll (fun p hp => hd p (List.mem_cons_of_mem _ hp)) (clean_setAttr hn (hd (k, v) List.mem_cons_self) h1) h2

theorem clean_dictSet {d : List (Str × MetaVal)} {k : Str} {v : MetaVal} (hd : ∀ p ∈ d, CleanVal p.2) (hv : CleanVal v) :
    ∀ p ∈ dictSet d k v, CleanVal p.2 := by
  intro p hp
  unfold dictSet at hp
  split at hp
  · obtain ⟨q, hq, rfl⟩ := List.mem_map.mp hp
    split
    · exact hv
    · exact hd q hq
  · rcases List.mem_append.mp hp with hp | hp
    · exact hd p hp
    · rw [List.mem_singleton.mp hp]; exact hv

theorem lookup_memV : ∀ {d : List (Str × MetaVal)} {k : Str} {v : MetaVal}, d.lookup k = some v → ∃ k', (k', v) ∈ d
  | [], _, _, h => by cases h
  | (k0, v0) :: d, k, v, h => by
    rw [List.lookup_cons] at h
    split at h
    · injection h with h; subst h; exact ⟨k0, List.mem_cons_self⟩
    · obtain ⟨k', h⟩ := lookup_memV h; exact ⟨k', List.mem_cons_of_mem _ h⟩

theorem clean_ingest {d : List (Str × MetaVal)} {n n' : NodeRec} (hd : ∀ p ∈ d, CleanVal p.2) (hn : CleanIn n)
    (h : ingest d n = .ok n') : CleanIn n' := by
  unfold ingest at h
  split at h
  · rename_i v hv
    obtain ⟨k', hk⟩ := lookup_memV hv
    exact clean_setAll (fun p hp => clean_dictSet hd (hd _ hk) p (List.mem_filter.mp hp).1) hn h
  · exact clean_setAll hd hn h

theorem clean_pair {key : Cst} {val : Option Cst} {k : Str} {v : MetaVal} (hv : ∀ c, val = some c → CleanCst c)
    (h : parseMetaPair key val = .ok (k, v)) : CleanVal v := by
  unfold parseMetaPair at h
  split at h
  · obtain ⟨a, -, h⟩ := bind_ok h
    split at h
    · cases h
    · cases h
      intro x hx
      obtain ⟨d, hd, rfl⟩ := List.mem_map.mp hx
      exact noAngle_strip ((hv _ rfl).named hd).self.1
  split at h
  · obtain ⟨a, -, h⟩ := bind_ok h
    split at h
    · cases h
    · cases h
      exact noAngle_strip (hv _ rfl).self.1
  split at h
  · obtain ⟨a, -, h⟩ := bind_ok h
    cases h
    trivial
  · cases h

theorem clean_metaLoop : ∀ {ps : List Cst} {d d' : List (Str × MetaVal)}, (∀ p ∈ ps, CleanCst p) →
    (∀ p ∈ d, CleanVal p.2) → metaLoop ps d = .ok d' → ∀ p ∈ d', CleanVal p.2
  | [], d, d', _, hd, h => by cases h; exact hd
  | p :: ps, d, d', hps, hd, h => by
    rw [metaLoop] at h
    obtain ⟨⟨k, v⟩, h1, h⟩ := bind_ok h
    obtain ⟨⟨key, val⟩, h2, h⟩ := bind_ok h
    refine clean_metaLoop (fun q hq => hps q (List.mem_cons_of_mem _ hq)) (clean_dictSet hd (clean_pair ?_ h2)) h
    intro c hc
    subst hc
    refine (hps p List.mem_cons_self).named ?_
    generalize p.namedChildren = l at h1
    unfold pairParts at h1
    split at h1
    · cases h1
    · cases h1; simp
    · cases h1

theorem clean_ingestMeta {c : Cst} {n n' : NodeRec} (hc : CleanCst c) (hn : CleanIn n) (h : ingestMeta c n = .ok n') :
    CleanIn n' := by
  unfold ingestMeta at h
  split at h
  · cases h; exact hn
  · rename_i m hm
    obtain ⟨d, h1, h⟩ := bind_ok h
    exact clean_ingest (clean_metaLoop (fun p hp => (hc.field hm).named (List.mem_filter.mp hp).1) (fun _ hp => by cases hp) h1) hn h

theorem clean_make {type : Str} {c : Cst} {n : NodeRec} (h : make type c = some n) : CleanIn n := by
  unfold make at h
  rw [Option.map_eq_some_iff] at h
  obtain ⟨cls, -, rfl⟩ := h
  exact { cleanIn_new cls with }

theorem clean_heading {c : Cst} {n : NodeRec} (hc : CleanCst c) (h : headingRecord c = .ok n) : CleanIn n := by
  unfold headingRecord at h
  split at h
  · cases h
  · rename_i m hm
    refine clean_ingestMeta hc ?_ h
    split
    · exact clean_make hm
    · rename_i t ht
      exact { clean_make hm with title := (hc.field ht).self.1 }

theorem clean_bibLoop : ∀ {ps : List Cst} {n n' : NodeRec}, (∀ p ∈ ps, CleanCst p) → CleanIn n →
    bibLoop ps n = .ok n' → CleanIn n'
  | [], n, n', _, hn, h => by cases h; exact hn
  | p :: ps, n, n', hps, hn, h => by
    rw [bibLoop] at h
    obtain ⟨⟨k, v⟩, h1, h⟩ := bind_ok h
    obtain ⟨m, h2, h⟩ := bind_ok h
    refine clean_bibLoop (fun q hq => hps q (List.mem_cons_of_mem _ hq)) (clean_setAttr hn ?_ h2) h
    have hp : ∀ d ∈ p.namedChildren, CleanCst d := fun d hd => (hps p List.mem_cons_self).named hd
    generalize p.namedChildren = l at h1 hp
    unfold bibPair at h1
    split at h1
    · cases h1; exact (hp _ (by simp)).self.1
    · cases h1

theorem clean_fieldText {c : Cst} {f s : Str} (hc : CleanCst c) (h : fieldText c f = .ok s) : NoAngle s := by
  unfold fieldText at h
  split at h
  · cases h
  · rename_i x hx
    cases h; exact (hc.field hx).self.1

theorem clean_bib {c : Cst} {n : NodeRec} (hc : CleanCst c) (h : bibRecord c = .ok n) : CleanIn n := by
  unfold bibRecord at h
  obtain ⟨kind, h1, h⟩ := bind_ok h
  obtain ⟨label, h2, h⟩ := bind_ok h
  refine clean_bibLoop (fun p hp => hc.named (List.mem_filter.mp hp).1) ?_ h
  exact { cleanIn_new .Bibitem with kind := clean_fieldText hc h1, label := clean_fieldText hc h2 }

theorem clean_role {c x : Cst} {type : Str} {skip} (hc : CleanCst c) (h : roleOf c = .ok (.as type x skip)) :
    NoAngle type ∧ CleanCst x := by
  unfold roleOf at h
  split at h
  · obtain ⟨y, hy, h⟩ := bind_ok h
    split at h
    · cases h
    · cases h; exact ⟨(hc.item hy).self.2, hc⟩
  split at h
  · cases h; exact ⟨hc.self.2, hc⟩
  split at h
  · obtain ⟨y, hy, h⟩ := bind_ok h
    cases h
  split at h
  · obtain ⟨y, hy, h⟩ := bind_ok h
    split at h
    · cases h; exact ⟨(hc.item hy).self.2, hc.item hy⟩
    · cases h; exact ⟨hc.self.2, hc⟩
  split at h
  · split at h
    · cases h
    · rename_i t ht
      cases h; exact ⟨(hc.field ht).self.2, hc⟩
  · cases h; exact ⟨hc.self.2, hc⟩

theorem noAngle_point (p : Int × Int) : NoAngle (pointStr p) :=
  noAngle_append.mpr ⟨noAngle_append.mpr ⟨noAngle_append.mpr ⟨noAngle_cons.mpr ⟨by decide, noAngle_int _⟩, by decide⟩,
    noAngle_int _⟩, by decide⟩

theorem clean_base {type : Str} {c : Cst} {n : NodeRec} (hc : CleanCst c) (h : baseRecord type c = .ok n) : CleanIn n := by
  unfold baseRecord at h
  split at h
  · rename_i m hm
    cases h
    split
    · exact { clean_make hm with text := hc.self.1 }
    · exact clean_make hm
  · split at h
    · cases h
      exact { cleanIn_new .Error with text := noAngle_append.mpr ⟨noAngle_append.mpr ⟨noAngle_append.mpr ⟨noAngle_append.mpr
        ⟨by decide, noAngle_point _⟩, by decide⟩, noAngle_point _⟩, by decide⟩ }
    · cases h

theorem clean_asis {type : Str} {c : Cst} {n : NodeRec} {a : Option NodeRec} (hc : CleanCst c) (hn : CleanIn n)
    (h : asisRecord type c n = .ok a) : ∀ m, a = some m → CleanIn m := by
  unfold asisRecord at h
  split at h
  · obtain ⟨x, hx, h⟩ := bind_ok h
    have hx : CleanCst x := by
      unfold lastItem at hx
      split at hx
      · rename_i e
        cases hx; exact hc.named (List.mem_of_getLast? e)
      · cases hx
    split at h
    · cases h
    have key1 : CleanIn { NodeRec.new .SourceCode with text := x.text, lang := n.lang } :=
      { cleanIn_new .SourceCode with text := hx.self.1, lang := hn.lang }
    have key2 : CleanIn { NodeRec.new .Text with text := x.text, asis := true } :=
      { cleanIn_new .Text with text := hx.self.1 }
    split at h
    · rw [← Except.ok.inj h]
      exact fun m hm => Option.some.inj hm ▸ key1
    · rw [← Except.ok.inj h]
      exact fun m hm => Option.some.inj hm ▸ key2
  · rw [← Except.ok.inj h]
    exact fun m hm => absurd hm (Option.some_ne_none m).symm

theorem noAngle_splitComma : ∀ {s : Str}, NoAngle s → ∀ x ∈ splitComma s, NoAngle x
  | [], _, x, hx => by rw [splitComma, List.mem_singleton] at hx; subst hx; exact NoAngle.nil
  | c :: s, h, x, hx => by
    have ih := noAngle_splitComma (noAngle_cons.mp h).2
    rw [splitComma] at hx
    split at hx
    · rcases List.mem_cons.mp hx with rfl | hx
      · exact NoAngle.nil
      · exact ih x hx
    · split at hx
      · rw [List.mem_singleton] at hx
        subst hx
        exact noAngle_cons.mpr ⟨(noAngle_cons.mp h).1, NoAngle.nil⟩
      · rename_i p ps e
        rcases List.mem_cons.mp hx with rfl | hx
        · exact noAngle_cons.mpr ⟨(noAngle_cons.mp h).1, ih p (by rw [e]; exact List.mem_cons_self)⟩
        · exact ih x (by rw [e]; exact List.mem_cons_of_mem _ hx)

theorem clean_target {type : Str} {c : Cst} {n n' : NodeRec} {ids} (hc : CleanCst c) (hn : CleanIn n)
    (h : setTarget type c n = .ok (n', ids)) : CleanIn n' := by
  unfold setTarget at h
  split at h
  · obtain ⟨t, ht, h⟩ := bind_ok h
    dsimp only at h
    have h1 := (hc.item ht).self.1
    split at h
    · cases h; exact { hn with target := h1 }
    · rename_i r hr
      cases h
      exact { hn with target := h1, overwriteReftext := (hc.named (List.mem_of_getElem? hr)).self.1 }
  · cases h; exact hn

theorem clean_cite {type : Str} {c : Cst} {n n' : NodeRec} {ids} (hc : CleanCst c) (hn : CleanIn n)
    (h : setCite type c n = .ok (n', ids)) : CleanIn n' := by
  unfold setCite at h
  split at h
  · obtain ⟨t, ht, h⟩ := bind_ok h
    cases h
    refine { hn with targetlabels := fun x hx => ?_ }
    obtain ⟨y, hy, rfl⟩ := List.mem_map.mp hx
    exact noAngle_strip (noAngle_splitComma (hc.item ht).self.1 y hy)
  · cases h; exact hn

theorem clean_prev {type : Str} {n : NodeRec} (hn : CleanIn n) : CleanIn (setPrev type n) := by
  have key : ∀ s : Str, NoAngle s → CleanIn { n with target := .str s } := fun s hs => { hn with target := hs }
  unfold setPrev
  split
  · exact key _ (by decide)
  split
  · exact key _ (by decide)
  split
  · exact key _ (by decide)
  · exact hn

theorem clean_kind {type : Str} {c : Cst} {n : NodeRec} (hc : CleanCst c) (hn : CleanIn n) : CleanIn (setKind type c n) := by
  unfold setKind
  split
  · split
    · exact hn
    · rename_i t ht
      exact { hn with kind := (hc.field ht).self.2 }
  · exact hn

theorem clean_pad {type : Str} {c : Cst} {prev next : Option Cst} {n : NodeRec} (hn : CleanIn n) :
    CleanIn (padText type c prev next n) := by
  unfold padText
  split
  · have key : ∀ b : Bool, NoAngle (if b then [' '] else []) := by decide
    exact { hn with text := noAngle_append.mpr ⟨noAngle_append.mpr ⟨key _, hn.text⟩, key _⟩ }
  · exact hn

theorem clean_node {type : Str} {c : Cst} {prev next : Option Cst} {n : NodeRec} {a : Option NodeRec} {ids}
    (hc : CleanCst c) (h : nodeRecord type c prev next = .ok (n, a, ids)) : CleanIn n ∧ ∀ m, a = some m → CleanIn m := by
  unfold nodeRecord at h
  obtain ⟨n1, h1, h⟩ := bind_ok h
  obtain ⟨n2, h2, h⟩ := bind_ok h
  obtain ⟨a', h3, h⟩ := bind_ok h
  obtain ⟨⟨n3, i3⟩, h4, h⟩ := bind_ok h
  obtain ⟨⟨n4, i4⟩, h5, h⟩ := bind_ok h
  cases h
  have c2 := clean_ingestMeta hc (clean_base hc h1) h2
  exact ⟨clean_pad (clean_cite hc (clean_prev (clean_target hc (clean_kind hc c2) h4)) h5), clean_asis hc c2 h3⟩

/-! ## The loop -/

/-- No text of a node has angle brackets. -/
def CleanP (s : PState) : Prop := AllClean s.heap

theorem holdsP_onHeap {α : Type} {m : HeapM α} (h : Holds AllClean m) : Holds CleanP (Parser.onHeap m) :=
  .zoom (fun _ h => h) (fun _ _ _ h => h) h

theorem holdsP_warn (w : PWarning) : Holds CleanP (Parser.warn w) := .modify fun _ h => h

theorem holdsP_attach (p : Option Ref) (x : Ref) : Holds CleanP (attach p x) := by
  unfold attach
  split
  · exact .pure ()
  · refine .get fun s _ => ?_
    split
    · exact holdsP_onHeap (holds_append clean_steady _ _)
    · exact .pure ()

theorem holdsP_appendTo (p : Option Ref) (x : Ref) : Holds CleanP (appendTo p x) := by
  unfold appendTo
  split
  · exact .throw _
  · exact holdsP_onHeap (holds_append clean_steady _ _)

theorem holdsP_lift {α β : Type} {e : Except PyErr α} {f : α → ParseM β} (h : ∀ a, e = .ok a → Holds CleanP (f a)) :
    Holds CleanP (Parser.lift e >>= f) := by
  cases e with
  | error x => exact fun s hs => hs
  | ok a => exact h a rfl

theorem holdsP_noteRoot (n : NodeRec) (x : Ref) : Holds CleanP (noteRoot n x) := by
  unfold noteRoot
  split
  · exact .modify fun _ h => h
  · exact .pure ()

theorem holdsP_new {n : NodeRec} (hn : CleanIn n) : Holds CleanP (Parser.onHeap (Nodes.new n)) :=
  holdsP_onHeap (holds_new fun _ => hn)

theorem holdsP_bibtex (c : Cst) : Holds CleanP (visitBibtex c) := by
  intro s hs
  unfold visitBibtex
  split
  · exact Holds.bind (holdsP_warn _) (fun _ => .pure _) s hs
  · exact Holds.bind (.forEach fun x _ => holdsP_warn _) (fun _ => .pure _) s hs

theorem holdsP_visit {e : Entry} (he : CleanCst e.cst) : Holds CleanP (visit e) := by
  unfold visit
  split
  · exact .pure _
  split
  · unfold visitBibliography
    exact .bind (holdsP_new (cleanIn_new _)) fun _ => .bind (.modify fun _ h => h) fun _ => .get fun _ _ =>
      .bind (holdsP_appendTo _ _) fun _ => .pure _
  split
  · exact holdsP_bibtex _
  split
  · exact holdsP_lift fun n hn => .bind (holdsP_new (clean_bib he hn)) fun _ => .bind (holdsP_appendTo _ _) fun _ => .pure _
  split
  · exact holdsP_lift fun n hn => .bind (holdsP_new (clean_heading he hn)) fun _ => .bind (holdsP_noteRoot _ _) fun _ =>
      .bind (holdsP_attach _ _) fun _ => .pure _
  · refine holdsP_lift fun r hr => ?_
    split
    · exact .pure _
    · rename_i type c skip
      obtain ⟨-, hc⟩ := clean_role he hr
      unfold visitNode
      refine .bind ?_ fun _ => holdsP_lift fun p hp => ?_
      · unfold warnError
        split
        · exact holdsP_warn _
        · exact .pure ()
      · obtain ⟨n, a, ids⟩ := p
        obtain ⟨h1, h2⟩ := clean_node hc hp
        refine .bind (holdsP_new h1) fun x => .bind (holdsP_noteRoot _ _) fun _ => .bind ?_ fun _ => .bind ?_ fun _ =>
          .bind (holdsP_attach _ _) fun _ => .pure _
        · unfold addAsis
          split
          · exact .pure ()
          · exact .bind (holdsP_new (h2 _ rfl)) fun _ => holdsP_onHeap (holds_append clean_steady _ _)
        · unfold wrapClaim
          split
          · exact .bind (holdsP_new { cleanIn_new .ClaimBlock with }) fun _ =>
              .bind (holdsP_onHeap (holds_append clean_steady _ _)) fun _ => .pure _
          · exact .pure _

theorem entries_children {p : Option Ref} {c : Cst} {cond} {e : Entry} (h : e ∈ entriesOf p c cond) : e.cst ∈ c.children := by
  obtain ⟨x, hx, rfl⟩ := List.mem_map.mp h
  exact neighbours_mem (List.mem_filter.mp hx).1

theorem liftBind_ok {α β : Type} {e : Except PyErr α} {f : α → ParseM β} {s s' : PState} {b : β}
    (h : (Parser.lift e >>= f) s = .ok b s') : ∃ a, e = .ok a ∧ f a s = .ok b s' := by
  cases e with
  | error x => cases h
  | ok a => exact ⟨a, rfl, h⟩

theorem runBind_ok {σ α β : Type} {m : PyM σ α} {f : α → PyM σ β} {s s' : σ} {b : β}
    (h : (m >>= f) s = .ok b s') : ∃ a s1, m s = .ok a s1 ∧ f a s1 = .ok b s' := by
  rw [bind_apply] at h
  cases hm : m s with
  | ok a s1 => rw [hm] at h; exact ⟨a, s1, rfl, h⟩
  | err e s1 => rw [hm] at h; cases h

theorem clean_src {n : NodeRec} {s : Str} (h : CleanIn n) (hs : NoAngle s) : CleanIn { n with src := s } :=
  { h with src := hs }

theorem clean_entries {e : Entry} (he : CleanCst e.cst) {l : List Entry} {s s' : PState} (h : visit e s = .ok l s') :
    ∀ d ∈ l, CleanCst d.cst := by
  have hE : ∀ {p cond} {c : Cst}, CleanCst c → ∀ d ∈ entriesOf p c cond, CleanCst d.cst :=
    fun hc d hd => hc.child (entries_children hd)
  unfold visit at h
  split at h
  · cases h; exact fun _ h => by cases h
  split at h
  · unfold visitBibliography at h
    obtain ⟨_, _, -, h⟩ := runBind_ok h
    obtain ⟨_, _, -, h⟩ := runBind_ok h
    obtain ⟨_, _, -, h⟩ := runBind_ok h
    obtain ⟨_, _, -, h⟩ := runBind_ok h
    cases h; exact fun _ h => by cases h
  split at h
  · unfold visitBibtex at h
    split at h
    · obtain ⟨_, _, -, h⟩ := runBind_ok h
      cases h; exact fun _ h => by cases h
    · obtain ⟨_, _, -, h⟩ := runBind_ok h
      cases h; exact hE he
  split at h
  · obtain ⟨_, -, h⟩ := liftBind_ok h
    obtain ⟨_, _, -, h⟩ := runBind_ok h
    obtain ⟨_, _, -, h⟩ := runBind_ok h
    cases h; exact fun _ h => by cases h
  split at h
  · obtain ⟨_, -, h⟩ := liftBind_ok h
    obtain ⟨_, _, -, h⟩ := runBind_ok h
    obtain ⟨_, _, -, h⟩ := runBind_ok h
    obtain ⟨_, _, -, h⟩ := runBind_ok h
    cases h; exact hE he
  · obtain ⟨r, hr, h⟩ := liftBind_ok h
    split at h
    · cases h; exact fun d hd => hE he d (List.mem_of_mem_take hd)
    · obtain ⟨-, hc⟩ := clean_role he hr
      unfold visitNode at h
      obtain ⟨_, _, -, h⟩ := runBind_ok h
      obtain ⟨⟨n, a, ids⟩, -, h⟩ := liftBind_ok h
      obtain ⟨_, _, -, h⟩ := runBind_ok h
      obtain ⟨_, _, -, h⟩ := runBind_ok h
      obtain ⟨_, _, -, h⟩ := runBind_ok h
      obtain ⟨_, _, -, h⟩ := runBind_ok h
      obtain ⟨_, _, -, h⟩ := runBind_ok h
      cases h; exact hE hc

theorem holdsP_buildLoop : ∀ (fuel : Nat) (stack : List Entry), (∀ e ∈ stack, CleanCst e.cst) →
    Holds CleanP (buildLoop fuel stack)
  | 0, _, _ => .throw _
  | _ + 1, [], _ => .pure ()
  | fuel + 1, e :: stack, he => by
    intro s hs
    have h1 := holdsP_visit (he e List.mem_cons_self) s hs
    rw [buildLoop, bind_apply]
    cases h : visit e s with
    | err x s' => rw [h] at h1; exact h1
    | ok l s' =>
      rw [h] at h1
      refine holdsP_buildLoop fuel (l ++ stack) (fun d hd => ?_) s' h1
      rcases List.mem_append.mp hd with hd | hd
      · exact clean_entries (he e List.mem_cons_self) h d hd
      · exact he d (List.mem_cons_of_mem _ hd)

theorem holdsP_abstractify (fuel : Nat) {c : Cst} (hc : CleanCst c) : Holds CleanP (abstractify fuel c) := by
  unfold abstractify
  refine .bind (.modify fun _ h => h) fun _ => .bind (holdsP_buildLoop fuel _ fun e he => ?_) fun _ => .get fun s _ => ?_
  · rw [List.mem_singleton.mp he]; exact hc
  · split
    · exact .pure _
    · exact .bind (holdsP_onHeap (holds_normalizeText fuel _)) fun _ => .pure _

/-- The parser brings no angle brackets into texts. -/
theorem parse_clean {fuel : Nat} {c : Cst} {s : ParserState} (hc : CleanCst c) (hs : AllClean s.heap) :
    AllClean (parse fuel c s).state.heap := by
  have key : Holds (fun s : ParserState => AllClean s.heap) (parse fuel c) := by
    unfold parse
    refine .bind (.modify fun _ h => h) fun _ => .bind ?_ fun r => .bind (.modify fun _ h => h) fun _ => ?_
    · intro s hs
      have h0 : Holds (fun s : ParserState => AllClean s.heap) (runAbstractify fuel c) := by
        unfold runAbstractify
        exact .zoom (P' := CleanP) (fun _ h => h) (fun _ _ _ h => h) (holdsP_abstractify fuel hc)
      have h1 := h0 s hs
      unfold guardAttribute
      split
      · rename_i h
        rw [h] at h1; exact h1
      · exact h1
    · split
      · exact .throw _
      · refine .bind (.modify fun s h => ?_) fun _ => .pure _
        show AllClean (s.heap.update _ fun n => { n with src := c.text })
        exact All.update h _ fun g => clean_src g hc.self.1
  exact key s hs

end Parser
end RSM
