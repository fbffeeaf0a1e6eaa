import Verif.Lemmas.ParserDone
import Verif.Lemmas.ParserLegal
import Verif.Spec.Pipeline

/-! Every node of a parsed manuscript is made of a part of the source (helper lemmas). -/

namespace RSM
namespace Parser
open PyM Nodes Heap

/-- A record that the parser makes, and the items below it. -/
inductive Origin (src : List Part) : NodeRec → List Item → Prop
  | part {kind c ps n ks} : .node kind c ps ∈ src → n.cls = classOf kind →
      lookR (Normalize.unescAttrs n) = lookOf kind c → (noted n = false ∧ n.cls ≠ .Node) ∧ kind ≠ "bibitem".toList ∧ Unset c n →
      (ps = [] → asisTypes.contains kind = false → ks = []) ∧
      (kind = "step".toList → (ks.map subI).Sublist (ps.map subP)) → Origin src n ks
  | claim (c ks) : Origin src (claimRec c) ks
  | asis {n} : n.cls = .Text → n.label = [] → n.reftextTemplate = Cls.classreftext .Text → Origin src n []
  | code {kind c ps n} : .node kind c ps ∈ src → kind = "code".toList ∨ kind = "codeblock".toList →
      n.cls = .SourceCode → n.reftextTemplate = Cls.classreftext .SourceCode ∧ n.label = [] → Origin src n []
  | entry {c n} : .node "bibitem".toList c [] ∈ src → bibRecord c = .ok n → Origin src n []

/-- The source has the entry in a bibliography. -/
def HasEntry (src : List Part) (c : Cst) : Prop := ∃ l ∈ src.foldl addPart [], c ∈ l

theorem lookup_known {type : Str} {cls : Cls} (h : astTypes.lookup type = some cls) : cls ≠ .Node := by
  have : ∀ p ∈ astTypes, p.2 ≠ .Node := by decide +kernel
  exact this _ (mem_of_lookup h)

theorem kind_known {type : Str} {cls : Cls}
    (h : astTypes.lookup type = some cls ∨ type = "ERROR".toList ∧ cls = .Error) : cls ≠ .Node := by
  rcases h with h | ⟨_, rfl⟩
  · exact lookup_known h
  · decide

mutual
/-- All records are made of parts and stand where they may. -/
def OriginI (src : List Part) (p : Cls) : Item → Prop
  | .node n ks => Origin src n ks ∧ mayHold p n.cls = true ∧ OriginL src n.cls ks
def OriginL (src : List Part) (p : Cls) : List Item → Prop
  | [] => True
  | i :: is => OriginI src p i ∧ OriginL src p is
end

theorem originL_append {src : List Part} {p : Cls} : ∀ {a b : List Item}, OriginL src p a → OriginL src p b →
    OriginL src p (a ++ b)
  | [], _, _, hb => hb
  | i :: a, b, ha, hb => by
    rw [OriginL] at ha
    rw [List.cons_append, OriginL]
    exact ⟨ha.1, originL_append ha.2 hb⟩

theorem mayHold_free {p c : Cls} (h : c.possibleParents = []) : mayHold p c = true := by
  unfold mayHold
  rw [h]
  simp

theorem origin_asis {src : List Part} {type : Str} {c : Cst} {m : NodeRec} {a : Option NodeRec} (p : Cls)
    {ps : List Part} (hs : .node type c ps ∈ src) (h : asisRecord type c m = .ok a) : OriginL src p (a.toList.map fun a => .node a []) := by
  unfold asisRecord at h
  split at h
  · obtain ⟨t, _, h⟩ := bind_ok h
    split at h
    · cases h
    split at h
    · rename_i hk
      cases h
      exact ⟨⟨.code hs hk rfl ⟨rfl, rfl⟩, mayHold_free rfl, trivial⟩, trivial⟩
    · cases h
      exact ⟨⟨.asis rfl rfl rfl, mayHold_free rfl, trivial⟩, trivial⟩
  · cases h
    exact trivial

theorem origin_kept {src : List Part} {p c : Cls} {is : List Item} (h : OriginL src p is) : OriginL src p (kept c is) := by
  unfold kept
  split
  · exact h
  · exact trivial

theorem asis_none {type : Str} {c : Cst} {m : NodeRec} {a : Option NodeRec} (h : asisRecord type c m = .ok a)
    (ht : asisTypes.contains type = false) : a = none := by
  unfold asisRecord at h
  rw [if_neg (by rw [ht]; simp)] at h
  cases h
  rfl

theorem origin_evs {src : List Part} {f : Cls → Bool → Sib → Except PyErr Out} {p : Cls} :
    ∀ {xs : List Sib} {b : Bool} {o : Out},
    (∀ x ∈ xs, ∀ b o, f p b x = .ok o → (∀ q ∈ walks (parts x.2.1), q ∈ src) → OriginL src p o.items) →
    (∀ q ∈ walks (xs.flatMap fun x => parts x.2.1), q ∈ src) → evs f p b xs = .ok o → OriginL src p o.items
  | [], b, o, _, _, h => by cases h; exact trivial
  | x :: xs, b, o, hf, hp, h => by
    rw [evs] at h
    obtain ⟨o1, h1, h⟩ := bind_ok h
    obtain ⟨o2, h2, h⟩ := bind_ok h
    cases h
    rw [List.flatMap_cons] at hp
    exact originL_append (hf x (by simp) _ _ h1 fun q hq => hp q (mem_walks_append.mpr (.inl hq)))
      (origin_evs (fun y hy => hf y (by simp [hy])) (fun q hq => hp q (mem_walks_append.mpr (.inr hq))) h2)

theorem mem_walks_node {kind : Str} {c : Cst} {ps : List Part} {q : Part} :
    q ∈ walks [.node kind c ps] ↔ q = .node kind c ps ∨ q ∈ walks ps := by
  rw [walks, walk, walks, List.append_nil, List.mem_cons]

theorem origin_ev {src : List Part} : ∀ (k : Nat) (p : Cls) (b : Bool) (x : Sib) (o : Out), ev k p b x = .ok o →
    (∀ q ∈ walks (parts x.2.1), q ∈ src) → OriginL src p o.items
  | 0, _, _, _, _, h, _ => by rw [ev] at h; cases h
  | k + 1, p, b, (prev, c, next), o, h, hs => by
    rw [ev] at h
    simp only at hs
    rw [parts_eq] at hs
    have K : ∀ (q : Cls) (b : Bool) (xs : List Sib) (o : Out), evs (ev k) q b xs = .ok o →
        (∀ z ∈ walks (xs.flatMap fun x => parts x.2.1), z ∈ src) → OriginL src q o.items :=
      fun q b xs o h hz => origin_evs (fun x _ b o h' hz' => origin_ev k q b x o h' hz') hz h
    have E : ∀ (q : Cls) (b : Bool) (xs : List Sib) (o : Out), evs (ev k) q b xs = .ok o →
        (xs.flatMap fun x => parts x.2.1) = [] → o.items = [] :=
      fun q b xs o h => (says_evs (fun x _ b o => says_ev k q b x o) h).empty
    have E2 : ∀ (q : Cls) (b : Bool) (xs : List Sib) (o : Out), evs (ev k) q b xs = .ok o →
        (o.items.map subI).Sublist ((xs.flatMap fun x => parts x.2.1).map subP) :=
      fun q b xs o h => (says_evs (fun x _ b o => says_ev k q b x o) h).subs
    by_cases h1 : c.type = "comment".toList
    · rw [if_pos h1] at h
      cases h
      exact trivial
    rw [if_neg h1] at h hs
    by_cases h2 : c.type = "specialblock".toList ∧ c.children.head?.map Cst.type = some "bibliography".toList
    · rw [if_pos h2] at h
      cases h
      exact trivial
    rw [if_neg h2] at h hs
    by_cases h3 : c.type = "bibtex".toList
    · rw [if_pos h3] at h
      split at h
      · obtain ⟨_, _, h⟩ := bind_ok h
        cases h
        exact trivial
      · cases h
        exact trivial
    rw [if_neg h3] at h hs
    by_cases h4 : c.type = "bibitem".toList
    · rw [if_pos h4] at h hs
      obtain ⟨n, hn, h⟩ := bind_ok h
      split at h
      · cases h
        exact ⟨⟨.entry (by rw [← h4]; exact hs _ (mem_walks_node.mpr (.inl rfl))) hn, mayHold_free (by rw [bibRecord_cls hn]; decide), trivial⟩, trivial⟩
      · cases h
    rw [if_neg h4] at h hs
    by_cases h5 : c.type = "source_file".toList ∨ endsWith c.type "section".toList = true
    · rw [if_pos h5] at h
      have hH : IsHeading c := (isHeading_iff c).mpr h5
      obtain ⟨k1, k2, t1, t2, t3, t4, t5, t6, t7, t8, t9, t10⟩ := heading_facts hH
      obtain ⟨n, hn, h⟩ := bind_ok h
      obtain ⟨_, ha, h⟩ := bind_ok h
      obtain ⟨o', ho, h⟩ := bind_ok h
      cases h
      rw [if_neg (by
        rintro (e | ⟨e | e, _⟩)
        · exact t9 e
        · exact t5 e
        · exact t6 e), if_neg (fun e => t10 e.1), k1] at hs
      have hcl := (lookup_class (headingRecord_ok hn).2).1
      refine ⟨⟨.part (hs _ (mem_walks_node.mpr (.inl rfl))) hcl.symm (headingRecord_look hn hH) ⟨⟨(headingRecord_all hn).2.2, lookup_known (headingRecord_ok hn).2⟩, (lookup_class (headingRecord_ok hn).2).2.2.1, headingRecord_number hn⟩ ⟨?_, fun hst => ?_⟩,
        (allowed_iff _ _).mp ha, origin_kept (K _ _ _ _ ho ?_)⟩, trivial⟩
      · intro hps _
        rw [← flatMap_push k2.symm] at hps
        rw [E _ _ _ _ ho hps]
        unfold kept
        split <;> rfl
      · rcases (isHeading_iff c).mp hH with e | e <;> rw [hst] at e <;> exact absurd e (by decide)
      · rw [flatMap_push k2.symm]
        exact fun q hq => hs q (mem_walks_node.mpr (.inr hq))
    rw [if_neg h5] at h
    have hH : ¬ IsHeading c := fun hh => h5 ((isHeading_iff c).mp hh)
    obtain ⟨r, hr, h⟩ := bind_ok h
    -- a node that is made
    have M : ∀ (type : Str) (y : Cst) (skip : List Nat) (hy : ¬ IsHeading y)
        (hsk : skip = if y.type = "block".toList ∨ y.type = "inline".toList then
          (y.byField "tag".toList).toList.map Cst.id else [])
        (hs : ∀ q ∈ walks [.node type y (partsWhere (partOf type y) y.children)], q ∈ src)
        (h : (do
          let (n, a, ids) ← nodeRecord type y prev next
          allowed p (topRec type y n).cls
          let o ← evs (ev k) (topRec type y n).cls b (pushSibs y (skip ++ ids))
          .ok ⟨[.node (topRec type y n) (firstItems type n a ++ kept (topRec type y n).cls o.items)],
            errorEvents type y ++ o.events⟩ : Except PyErr Out) = .ok o),
        OriginL src p o.items := by
      intro type y skip hy hsk hs h
      obtain ⟨⟨n, a, ids⟩, hn, h⟩ := bind_ok h
      obtain ⟨_, ha, h⟩ := bind_ok h
      obtain ⟨o', ho, h⟩ := bind_ok h
      cases h
      obtain ⟨hl, hi, hids⟩ := nodeRecord_look hn hy
      have hcl := (kind_made (nodeRecord_ok hn).2.1).1
      obtain ⟨m, hm⟩ := (nodeRecord_ok hn).2.2.2.2
      have hmc := And.intro (And.intro (nodeRecord_all hn).2.2.2.2.2 (kind_known (nodeRecord_ok hn).2.1)) (And.intro (kind_made (nodeRecord_ok hn).2.1).2.1 (nodeRecord_number hn))
      have hsk : skip ++ ids = hidden type y := by
        unfold hidden
        rw [if_neg hy, List.nil_append, hsk, hids, List.append_assoc]
      have hme := hs _ (mem_walks_node.mpr (.inl rfl))
      have hkids : OriginL src (topRec type y n).cls (kept (topRec type y n).cls o'.items) := by
        refine origin_kept (K _ _ _ _ ho ?_)
        rw [flatMap_push hsk]
        exact fun q hq => hs q (mem_walks_node.mpr (.inr hq))
      refine ⟨⟨?_, (allowed_iff _ _).mp ha, originL_append ?_ hkids⟩, trivial⟩
      · unfold topRec
        split
        · exact .claim _ _
        · rename_i hc
          refine .part hme hcl.symm hl hmc ⟨fun hps hv => ?_, fun hst => ?_⟩
          · rw [← flatMap_push hsk] at hps
            rw [E _ _ _ _ ho hps]
            unfold firstItems kept
            rw [if_neg hc, asis_none hm hv]
            simp
          · have := E2 _ _ _ _ ho
            rw [flatMap_push hsk] at this
            unfold firstItems kept
            rw [if_neg hc, asis_none hm (by rw [hst]; decide)]
            split
            · exact this
            · exact List.nil_sublist _
      · unfold firstItems
        by_cases hc : type = "mathblock".toList ∧ n.isclaim = true
        · rw [if_pos hc]
          refine ⟨⟨.part hme hcl.symm hl hmc ⟨fun _ hv => ?_, fun hst => ?_⟩, ?_, origin_asis _ hme hm⟩, trivial⟩
          · rw [hc.1] at hv
            exact absurd hv (by decide)
          · rw [hc.1] at hst
            exact absurd hst (by decide)
          · refine mayHold_free ?_
            rw [← hcl, hc.1]
            decide
        · rw [if_neg hc]
          exact origin_asis _ hme hm
    unfold roleOf at hr
    by_cases r1 : c.type = "specialblock".toList ∨ c.type = "specialinline".toList
    · rw [if_pos r1] at hr
      obtain ⟨y, hy, hr⟩ := bind_ok hr
      have hf := firstType_eq hy
      have ntd : c.type ≠ "td".toList := by rcases r1 with e | e <;> rw [e] <;> decide
      have npar : c.type ≠ "paragraph".toList := by rcases r1 with e | e <;> rw [e] <;> decide
      have nbl : ¬ (c.type = "block".toList ∨ c.type = "inline".toList) := by
        rcases r1 with e | e <;> rw [e] <;> decide
      by_cases r2 : y.type = "table".toList
      · rw [if_pos r2] at hr
        cases hr
        rw [if_pos (.inr ⟨r1, hf.trans r2⟩), ← flatMap_take] at hs
        exact K _ _ _ _ h hs
      · rw [if_neg r2] at hr
        cases hr
        rw [if_neg (by
          rintro (e | e)
          · exact ntd e
          · exact r2 (hf.symm.trans e.2)), if_neg (fun h => npar h.1)] at hs
        have hk : kindOf c = y.type := by unfold kindOf; rw [if_pos r1, hf]
        rw [hk] at hs
        exact M _ _ _ hH (by rw [if_neg nbl]) hs h
    rw [if_neg r1] at hr
    by_cases r3 : c.type = "mathblock".toList
    · rw [if_pos r3] at hr
      cases hr
      have nbl : ¬ (c.type = "block".toList ∨ c.type = "inline".toList) := by rw [r3]; decide
      rw [if_neg (show ¬ (c.type = "td".toList ∨ _) by
        rintro (e | e)
        · rw [r3] at e; exact absurd e (by decide)
        · exact r1 e.1), if_neg (fun h => by rw [r3] at h; exact absurd h.1 (by decide))] at hs
      have hk : kindOf c = c.type := by unfold kindOf; rw [if_neg r1, if_neg nbl]
      rw [hk] at hs
      exact M _ _ _ hH (by rw [if_neg nbl]) hs h
    rw [if_neg r3] at hr
    by_cases r4 : c.type = "td".toList
    · rw [if_pos r4] at hr
      obtain ⟨y, hy, hr⟩ := bind_ok hr
      cases hr
      rw [if_pos (.inl r4), ← flatMap_take] at hs
      exact K _ _ _ _ h hs
    rw [if_neg r4] at hr
    rw [if_neg (by
      rintro (e | e)
      · exact r4 e
      · exact r1 e.1)] at hs
    by_cases r5 : c.type = "paragraph".toList
    · rw [if_pos r5] at hr
      obtain ⟨y, hy, hr⟩ := bind_ok hr
      have hf := firstType_eq hy
      have nbl : ¬ (c.type = "block".toList ∨ c.type = "inline".toList) := by rw [r5]; decide
      by_cases r6 : y.type = "item".toList ∨ y.type = "caption".toList
      · rw [if_pos r6] at hr
        cases hr
        rw [if_pos ⟨r5, hf ▸ r6⟩, partsInstead_eq (item_ok hy)] at hs
        refine M _ _ _ ?_ ?_ hs h
        · rw [isHeading_iff]; rcases r6 with e | e <;> rw [e] <;> decide
        · rw [if_neg]; rcases r6 with e | e <;> rw [e] <;> decide
      · rw [if_neg r6] at hr
        cases hr
        rw [if_neg (fun e => r6 (hf ▸ e.2))] at hs
        have hk : kindOf c = c.type := by unfold kindOf; rw [if_neg r1, if_neg nbl]
        rw [hk] at hs
        exact M _ _ _ hH (by rw [if_neg nbl]) hs h
    rw [if_neg r5] at hr
    rw [if_neg (fun h => r5 h.1)] at hs
    by_cases r7 : c.type = "block".toList ∨ c.type = "inline".toList
    · rw [if_pos r7] at hr
      split at hr
      · cases hr
      · rename_i t ht
        cases hr
        have hk : kindOf c = t.type := by unfold kindOf; rw [if_neg r1, if_pos r7, ht]; rfl
        rw [hk] at hs
        exact M _ _ _ hH (by rw [if_pos r7, ht]; rfl) hs h
    · rw [if_neg r7] at hr
      cases hr
      have hk : kindOf c = c.type := by unfold kindOf; rw [if_neg r1, if_neg r7]
      rw [hk] at hs
      exact M _ _ _ hH (by rw [if_neg r7]) hs h

theorem origin_evRoot {c : Cst} (S : Source c) {n : NodeRec} {o : Out} (he : evRoot c = .ok (n, o))
    (hn : n.cls = .Manuscript) : OriginL (walks (sourceParts c)) .Manuscript o.items := by
  unfold evRoot at he
  obtain ⟨n', h1, he⟩ := bind_ok he
  obtain ⟨o', h2, he⟩ := bind_ok he
  cases he
  have hf := heading_facts (c := c) (.inl S.1)
  rw [hn] at h2
  refine origin_evs (fun x _ b o h' hz' => origin_ev _ _ b x o h' hz') ?_ h2
  rw [flatMap_push hf.2.1.symm]
  unfold sourceParts
  rw [hf.1]
  exact fun q hq => hq

/-! ## The heap after the loop -/

/-- The record of a node below a node of class `p`, as the source gives it. -/
inductive Below (src : List Part) (p : Cls) (a : NodeRec) : Prop
  | bibliography : Normalize.bare a = Normalize.bare (NodeRec.new .Bibliography) → p = .Manuscript → Below src p a
  | entry {c n} : p = .Bibliography → HasEntry src c → bibRecord c = .ok n → bare a = bare { n with parent := a.parent } → Below src p a
  | made {n ks} : p ≠ .Bibliography → p ≠ .Keyword → Origin src n ks → mayHold p n.cls = true ∧ n.cls ≠ .Bibliography →
      bare a = bare { n with parent := a.parent } → Below src p a

/-- The bibliographies among the trees have entries only, and are below the manuscript. -/
structure BibsFine (src : List Part) (h : Heap) (ts : List Tree) : Prop where
  entries : ∀ x ∈ Tree.preL ts, isBib h x = true → ∀ y ∈ h.children x, ∃ c n, HasEntry src c ∧ bibRecord c = .ok n ∧
    bare (h.get y) = bare { n with parent := (h.get y).parent }
  top : ∀ x ∈ Tree.preL ts, isBib h x = true → ∃ q, h.parent x = some q ∧ (h.get q).cls = .Manuscript
  bare : ∀ x ∈ Tree.preL ts, isBib h x = true → Normalize.bare (h.get x) = Normalize.bare (NodeRec.new .Bibliography)
  kw : ∀ x ∈ Tree.preL ts, (h.get x).cls ≠ .Keyword

theorem entries_pre {h : Heap} {p : Option Ref} {src : List Part} : ∀ {ks : List Tree}, IsForest h p ks →
    (∀ k ∈ ks, ∃ c n, HasEntry src c ∧ bibRecord c = .ok n ∧ bare (h.get k.root) = bare { n with parent := (h.get k.root).parent }) →
    (∀ q, p = some q → (h.get q).cls = .Bibliography) →
    ∀ x ∈ Tree.preL ks, ∀ q, h.parent x = some q → Below src (h.get q).cls (h.get x)
  | [], _, _, _, x, hx => by rw [Tree.preL] at hx; cases hx
  | .node y ls :: ks, T, hc, hp, x, hx => by
    rw [IsForest, IsTree] at T
    obtain ⟨c, n, hen, hn, e⟩ := hc (.node y ls) List.mem_cons_self
    rw [Tree.root] at e
    have hy : (h.get y).cls = .Bibitem := (bare_field NodeRec.cls (fun _ => rfl) e).trans (bibRecord_ok hn).2
    have hl : h.children y = [] := by
      unfold Heap.children Heap.isInst
      rw [hy]; rfl
    rw [hl] at T
    have : ls = [] := List.map_eq_nil_iff.mp T.1.2.1.symm
    subst this
    rw [Tree.preL, Tree.pre, Tree.preL] at hx
    rcases List.mem_cons.mp hx with rfl | hx
    · intro q hq
      rw [T.1.1] at hq
      exact .entry (hp q hq) hen hn e
    · exact entries_pre T.2 (fun k hk => hc k (List.mem_cons_of_mem _ hk)) hp x hx

theorem built_below {h : Heap} {lo hi : Nat} {src : List Part} : ∀ {ts : List Tree} {p : Ref} {items : List Item},
    IsForest h (some p) ts → BuiltL h lo hi (some p) items (rootsL h ts) → BibsFine src h ts →
    OriginL src (h.get p).cls items → (h.get p).cls ≠ .Bibliography → (h.get p).cls ≠ .Keyword →
    ∀ x ∈ Tree.preL ts, ∀ q, h.parent x = some q → Below src (h.get q).cls (h.get x)
  | [], p, items, _, B, _, _, _, _, x, hx => by rw [Tree.preL] at hx; cases hx
  | .node y ks :: ts, p, items, T, B, bl, U, hpb, hpk, x, hx => by
    rw [IsForest] at T
    have T1 := T.1
    rw [IsTree] at T1
    rw [rootsL_cons, Tree.root] at B
    have mt : ∀ z ∈ Tree.preL ts, z ∈ Tree.preL (.node y ks :: ts) := fun z hz => by
      rw [Tree.preL]; exact List.mem_append_right _ hz
    have mk : ∀ z ∈ Tree.preL ks, z ∈ Tree.preL (.node y ks :: ts) := fun z hz => by
      rw [Tree.preL, Tree.pre]; exact List.mem_append_left _ (List.mem_cons_of_mem _ hz)
    have my : y ∈ Tree.preL (.node y ks :: ts) := by
      rw [Tree.preL, Tree.pre]; exact List.mem_append_left _ List.mem_cons_self
    have bt : BibsFine src h ts := ⟨fun z hz => bl.entries z (mt z hz), fun z hz => bl.top z (mt z hz), fun z hz => bl.bare z (mt z hz),
      fun z hz => bl.kw z (mt z hz)⟩
    have bk : BibsFine src h ks := ⟨fun z hz => bl.entries z (mk z hz), fun z hz => bl.top z (mk z hz), fun z hz => bl.bare z (mk z hz),
      fun z hz => bl.kw z (mk z hz)⟩
    rw [Tree.preL, Tree.pre, List.mem_append, List.mem_cons] at hx
    cases hb : isBib h y with
    | true =>
      rw [hb, if_pos rfl] at B
      have hcls : (h.get y).cls = .Bibliography := of_decide_eq_true hb
      rcases hx with (rfl | hx) | hx
      · intro q hq
        obtain ⟨q', hq', hm⟩ := bl.top x my hb
        rw [hq] at hq'
        cases hq'
        exact .bibliography (bl.bare x my hb) hm
      · exact entries_pre T1.2.2 (fun k hk => bl.entries y my hb k.root (by rw [T1.2.1]; exact List.mem_map_of_mem hk))
          (fun q hq => by cases hq; exact hcls) x hx
      · exact built_below T.2 B bt U hpb hpk x hx
    | false =>
      rw [hb, if_neg (by simp)] at B
      obtain ⟨n, is, rest, rfl, _, _, e, _, B1, B2⟩ := builtL_cons B
      rw [skids_tree T.1 hb] at B1
      rw [OriginL, OriginI] at U
      rcases hx with (rfl | hx) | hx
      · intro q hq
        rw [T1.1] at hq
        cases hq
        have hpar : (h.get x).parent = some p := T1.1
        exact .made hpb hpk U.1.1 ⟨U.1.2.1, fun hn => of_decide_eq_false hb ((bare_field NodeRec.cls (fun _ => rfl) e).trans hn)⟩ (by rw [hpar]; exact e)
      · refine built_below T1.2.2 B1 bk ?_ (of_decide_eq_false hb) (bl.kw y my) x hx
        rw [bare_field NodeRec.cls (fun _ => rfl) e]
        exact U.1.2.2
      · exact built_below T.2 B2 bt U.2 hpb hpk x hx

/-- The kind of a table of contents. -/
theorem classOf_contents {kind : Str} (h : classOf kind = .Contents) : kind = "toc".toList := by
  unfold classOf at h
  split at h
  · cases h
  split at h
  · cases h
  cases hl : classTable.lookup kind with
  | none => rw [hl] at h; cases h
  | some c =>
    rw [hl] at h
    have h : c = .Contents := h
    subst h
    have : ∀ q ∈ classTable, q.2 = .Contents → q.1 = "toc".toList := by decide +kernel
    exact this _ (mem_of_lookup hl) rfl

theorem Origin.empty {src : List Part} (he : TocsEmpty src) {n : NodeRec} {ks : List Item} (o : Origin src n ks)
    (hn : n.cls = .Contents) : ks = [] := by
  cases o with
  | part hm hc _ _ hk =>
    rw [hn] at hc
    have := classOf_contents hc.symm
    refine hk.1 (he _ _ _ hm this) ?_
    rw [this]
    decide
  | claim c => cases hn
  | asis h _ _ => rfl
  | code => rfl
  | entry _ hb => rfl

theorem built_contents {h : Heap} {lo hi : Nat} {src : List Part} (he : TocsEmpty src) :
    ∀ {ts : List Tree} {p : Ref} {items : List Item},
    IsForest h (some p) ts → BuiltL h lo hi (some p) items (rootsL h ts) → BibsFine src h ts →
    OriginL src (h.get p).cls items → ∀ x ∈ Tree.preL ts, (h.get x).cls = .Contents → h.children x = []
  | [], p, items, _, B, _, _, x, hx => by rw [Tree.preL] at hx; cases hx
  | .node y ks :: ts, p, items, T, B, bl, U, x, hx => by
    rw [IsForest] at T
    have T1 := T.1
    rw [IsTree] at T1
    rw [rootsL_cons, Tree.root] at B
    have mt : ∀ z ∈ Tree.preL ts, z ∈ Tree.preL (.node y ks :: ts) := fun z hz => by
      rw [Tree.preL]; exact List.mem_append_right _ hz
    have mk : ∀ z ∈ Tree.preL ks, z ∈ Tree.preL (.node y ks :: ts) := fun z hz => by
      rw [Tree.preL, Tree.pre]; exact List.mem_append_left _ (List.mem_cons_of_mem _ hz)
    have my : y ∈ Tree.preL (.node y ks :: ts) := by
      rw [Tree.preL, Tree.pre]; exact List.mem_append_left _ List.mem_cons_self
    have bt : BibsFine src h ts := ⟨fun z hz => bl.entries z (mt z hz), fun z hz => bl.top z (mt z hz), fun z hz => bl.bare z (mt z hz),
      fun z hz => bl.kw z (mt z hz)⟩
    have bk : BibsFine src h ks := ⟨fun z hz => bl.entries z (mk z hz), fun z hz => bl.top z (mk z hz), fun z hz => bl.bare z (mk z hz),
      fun z hz => bl.kw z (mk z hz)⟩
    rw [Tree.preL, Tree.pre, List.mem_append, List.mem_cons] at hx
    cases hb : isBib h y with
    | true =>
      rw [hb, if_pos rfl] at B
      have hcls : (h.get y).cls = .Bibliography := of_decide_eq_true hb
      rcases hx with (rfl | hx) | hx
      · intro hc; rw [hcls] at hc; cases hc
      · intro hc
        rw [bibitems_pre T1.2.2 (fun k hk => by
          obtain ⟨c, n, _, hn, e⟩ := bl.entries y my hb k.root (by rw [T1.2.1]; exact List.mem_map_of_mem hk)
          exact (bare_field NodeRec.cls (fun _ => rfl) e).trans (bibRecord_ok hn).2) x hx] at hc
        cases hc
      · exact built_contents he T.2 B bt U x hx
    | false =>
      rw [hb, if_neg (by simp)] at B
      obtain ⟨n, is, rest, rfl, _, _, e, _, B1, B2⟩ := builtL_cons B
      rw [skids_tree T.1 hb] at B1
      rw [OriginL, OriginI] at U
      have hcl : (h.get y).cls = n.cls := bare_field NodeRec.cls (fun _ => rfl) e
      rcases hx with (rfl | hx) | hx
      · intro hc
        have := U.1.1.empty he (hcl.symm.trans hc)
        subst this
        rw [T1.2.1]
        cases ks with
        | nil => rfl
        | cons k ks =>
          have hkm : k.root ∈ Tree.preL (k :: ks) := by
            rw [Tree.preL]; exact List.mem_append_left _ (Tree.root_mem_pre _)
          cases hkb : isBib h k.root with
          | true =>
            obtain ⟨q, hq, hm⟩ := bk.top _ hkm hkb
            have T2 := T1.2.2
            obtain ⟨kr, kk⟩ := k
            rw [IsForest, IsTree] at T2
            rw [Tree.root] at hq
            rw [T2.1.1] at hq
            cases hq
            rw [hc] at hm
            cases hm
          | false =>
            rw [rootsL_cons, hkb, if_neg (by simp), BuiltL] at B1
            cases B1
      · refine built_contents he T1.2.2 B1 bk ?_ x hx
        rw [hcl]
        exact U.1.2.2
      · exact built_contents he T.2 B2 bt U.2 x hx

/-- How the heap before normalisation comes from the source. -/
theorem loop_built {c : Cst} (S : Source c) {s : ParserState} {n : NodeRec} {o : Out} {s1 : PState} {x0 : Ref}
    {ks : List Tree} (he : evRoot c = .ok (n, o)) (fr : Fresh n) (hcls : n.cls = .Manuscript)
    (D : Doc s1.heap s.heap.next (.node x0 ks)) (I : Inv s1 (o.events.foldl Event.apply []) s.heap.next)
    (P : Post s.heap.next (born s.heap n) s1.heap o.items) (N : Neat s.heap.next s.heap.next s1)
    (hnew : ∀ x ∈ (Tree.node x0 ks).pre, s.heap.next ≤ x) :
    x0 = s.heap.next ∧ IsForest s1.heap (some s.heap.next) ks ∧
    BuiltL s1.heap (s.heap.next + 1) s1.heap.next (some s.heap.next) o.items (rootsL s1.heap ks) ∧
    BibsFine (walks (sourceParts c)) s1.heap ks ∧
    OriginL (walks (sourceParts c)) (s1.heap.get s.heap.next).cls o.items := by
  obtain ⟨hlook, hsay⟩ := root_says S he
  have hroot : x0 = s.heap.next := D.root_eq
  subst hroot
  have T := D.tree
  rw [IsTree] at T
  have hbr : isBib s1.heap s.heap.next = false := by
    unfold isBib; rw [I.root_cls]; decide
  have hb : BuiltL s1.heap (s.heap.next + 1) s1.heap.next (some s.heap.next) o.items (rootsL s1.heap ks) := by
    obtain ⟨rs, sk, bl⟩ := P.skel
    have h1 := sk s.heap.next (by simp [born_next])
    rw [if_pos rfl, skids_tree D.tree hbr] at h1
    have h2 : skids (born s.heap n) s.heap.next = [] := by
      unfold skids Heap.children
      rw [born_get_self, fr.2]
      simp
    rw [h2, List.nil_append] at h1
    rw [if_pos (by unfold Heap.isInst; rw [born_get_self, hcls]; decide)] at bl
    rw [h1]
    exact bl
  have hB := hsay.bibs [] [] .nil rfl
  have hin : ∀ x ∈ Tree.preL ks, x ∈ (Tree.node s.heap.next ks).pre := fun x hx => by
    rw [Tree.pre]; exact List.mem_cons_of_mem _ hx
  have hE : BibsFine (walks (sourceParts c)) s1.heap ks := by
    refine ⟨fun x hx hxb y hy => ?_, fun x hx hxb => ?_, fun x hx hxb => ?_, fun x hx => ?_⟩
    · have hx' := hin x hx
      have h1 := (N.obj x (hnew x hx') (D.bound x hx')).2 hxb
      obtain ⟨l, hl, E⟩ := forall₂_mem_left I.bibs x (List.mem_filter.mpr ⟨(I.forest.agree x _).mp h1, hxb⟩)
      obtain ⟨m, hm, F⟩ := forall₂_mem_left hB l hl
      obtain ⟨r, hr, e⟩ := forall₂_mem_left E y hy
      obtain ⟨cc, hcc, ec⟩ := forall₂_mem_left F r hr
      refine ⟨cc, r, ⟨m, hm, hcc⟩, ec, ?_⟩
      have hp : (s1.heap.get y).parent = some x := congrArg NodeRec.parent e
      rw [hp]
      exact e
    · have hx' := hin x hx
      exact ⟨_, (N.obj x (hnew x hx') (D.bound x hx')).2 hxb, I.root_cls⟩
    · have hx' := hin x hx
      exact N.bare x (hnew x hx') (D.bound x hx') hxb
    · have hx' := hin x hx
      exact (N.obj x (hnew x hx') (D.bound x hx')).1
  have hO := origin_evRoot S he hcls
  rw [← I.root_cls] at hO
  exact ⟨rfl, T.2.2, hb, hE, hO⟩

/-- What is known of the heap before normalisation. -/
theorem loop_below {c : Cst} (S : Source c) {s : ParserState} {n : NodeRec} {o : Out} {s1 : PState} {t : Tree}
    (he : evRoot c = .ok (n, o)) (fr : Fresh n) (hcls : n.cls = .Manuscript)
    (D : Doc s1.heap s.heap.next t) (I : Inv s1 (o.events.foldl Event.apply []) s.heap.next)
    (P : Post s.heap.next (born s.heap n) s1.heap o.items) (N : Neat s.heap.next s.heap.next s1)
    (hnew : ∀ x ∈ t.pre, s.heap.next ≤ x) :
    (∀ x ∈ t.pre, ∀ q, s1.heap.parent x = some q →
      Below (walks (sourceParts c)) (s1.heap.get q).cls (s1.heap.get x)) ∧
    (TocsEmpty (walks (sourceParts c)) → ∀ x ∈ t.pre, (s1.heap.get x).cls = .Contents → s1.heap.children x = []) := by
  obtain ⟨x0, ks⟩ := t
  obtain ⟨rfl, T2, hb, hE, hO⟩ := loop_built S he fr hcls D I P N hnew
  have T := D.tree
  rw [IsTree] at T
  constructor
  · intro x hx q hq
    rw [Tree.pre] at hx
    rcases List.mem_cons.mp hx with rfl | hx
    · rw [T.1] at hq; cases hq
    · exact built_below T.2.2 hb hE hO (by rw [I.root_cls]; decide) (by rw [I.root_cls]; decide) x hx q hq
  · intro ht x hx hc
    rw [Tree.pre] at hx
    rcases List.mem_cons.mp hx with rfl | hx
    · rw [I.root_cls] at hc; cases hc
    · exact built_contents ht T.2.2 hb hE hO x hx hc

end Parser
end RSM
