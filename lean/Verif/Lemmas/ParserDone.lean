import Verif.Lemmas.ParserWords
import Verif.Lemmas.Resolve
import Verif.Lemmas.ResolveSpec

/-! What a successful parse returns (helper lemmas). -/

namespace RSM
namespace Parser
open PyM Nodes Heap

/-! ## The entries -/

theorem forall₂_mem_left {α β : Type} {R : α → β → Prop} : ∀ {l : List α} {m : List β}, List.Forall₂ R l m →
    ∀ a ∈ l, ∃ b ∈ m, R a b
  | _, _, .nil, a, ha => by cases ha
  | _, _, .cons (b := b) h t, a, ha => by
    rcases List.mem_cons.mp ha with rfl | ha
    · exact ⟨b, by simp, h⟩
    · obtain ⟨b, hb, r⟩ := forall₂_mem_left t a ha
      exact ⟨b, by simp [hb], r⟩

theorem forall₂_comp {α β γ : Type} {R : α → β → Prop} {S : β → γ → Prop} {T : α → γ → Prop}
    (h : ∀ a b c, R a b → S b c → T a c) : ∀ {l : List α} {m : List β} {k : List γ},
    List.Forall₂ R l m → List.Forall₂ S m k → List.Forall₂ T l k
  | _, _, _, .nil, .nil => .nil
  | _, _, _, .cons r rs, .cons s ss => .cons (h _ _ _ r s) (forall₂_comp h rs ss)

theorem forall₂_and_mem {α β : Type} {R : α → β → Prop} : ∀ {l : List α} {m : List β}, List.Forall₂ R l m →
    List.Forall₂ (fun a b => a ∈ l ∧ R a b) l m
  | _, _, .nil => .nil
  | _, _, .cons h t => .cons ⟨by simp, h⟩ (forall₂_map_left (forall₂_and_mem t) fun a ha b hb => ⟨by simp [ha], hb.2⟩)

theorem entries_bibitem {h : Heap} {b : Ref} {l : List NodeRec} {m : List Cst} (E : Entries h b l)
    (F : List.Forall₂ EntryOf l m) : ∀ y ∈ h.children b, (h.get y).cls = .Bibitem := by
  intro y hy
  obtain ⟨n, hn, e⟩ := forall₂_mem_left E y hy
  obtain ⟨c, _, ec⟩ := forall₂_mem_left F n hn
  exact (bare_field NodeRec.cls (fun _ => rfl) e).trans (bibRecord_ok ec).2

theorem read_bibitems {h : Heap} {p : Option Ref} : ∀ {ks : List Tree}, IsForest h p ks →
    (∀ k ∈ ks, (h.get k.root).cls = .Bibitem) → Normalize.readForest h none ks = []
  | [], _, _ => by rw [Normalize.readForest]
  | .node y ls :: ks, T, hc => by
    rw [IsForest, IsTree] at T
    have hy : (h.get y).cls = .Bibitem := hc (.node y ls) (by simp)
    have hl : h.children y = [] := by
      unfold Heap.children Heap.isInst
      rw [hy]; rfl
    rw [hl] at T
    have : ls = [] := List.map_eq_nil_iff.mp T.1.2.1.symm
    subst this
    rw [Normalize.readForest, if_neg (by unfold Heap.isInst; rw [hy]; decide),
      read_bibitems T.2 fun k hk => hc k (by simp [hk]), Normalize.readForest]
    rfl

/-! ## Assigning `src` -/

/-- The heap once `src` of the root is set. -/
def setSrc (h : Heap) (root : Ref) (v : Str) : Heap := h.update root fun n => { n with src := v }

section
variable {h : Heap} {root : Ref} {v : Str}

theorem src_field {β : Type} (g : NodeRec → β) (hg : ∀ n w, g { n with src := w } = g n) (x : Ref) :
    g ((setSrc h root v).get x) = g (h.get x) := by
  unfold setSrc
  by_cases hx : x = root
  · subst hx; rw [get_update_self, hg]
  · rw [get_update_of_ne _ _ hx]

theorem src_children (x : Ref) : (setSrc h root v).children x = h.children x :=
  children_update h root (fun n => { n with src := v }) (fun _ => rfl) (fun _ => rfl) x

theorem src_parent (x : Ref) : (setSrc h root v).parent x = h.parent x :=
  parent_update h root (fun n => { n with src := v }) (fun _ => rfl) x

mutual
theorem src_isTree : ∀ {t : Tree} {p : Option Ref}, IsTree h p t → IsTree (setSrc h root v) p t
  | .node i ks, p, T => by
    rw [IsTree] at T ⊢
    rw [src_parent, src_children]
    exact ⟨T.1, T.2.1, src_isForest T.2.2⟩
theorem src_isForest : ∀ {ts : List Tree} {p : Option Ref}, IsForest h p ts →
    IsForest (setSrc h root v) p ts
  | [], _, _ => by rw [IsForest]; trivial
  | t :: ts, p, T => by
    rw [IsForest] at T ⊢
    exact ⟨src_isTree T.1, src_isForest T.2⟩
end

theorem src_doc {t : Tree} (D : Doc h root t) : Doc (setSrc h root v) root t :=
  ⟨D.root_eq, src_isTree D.tree, D.nodup, D.bound⟩

theorem src_inst (x : Ref) (C : Cls) : (setSrc h root v).isInst x C = h.isInst x C := by
  unfold Heap.isInst
  rw [src_field NodeRec.cls fun _ _ => rfl]

mutual
theorem src_outline : ∀ t : Tree, outlineOf (setSrc h root v) t = outlineOf h t
  | .node i ks => by
    rw [outlineOf, outlineOf, src_outlines ks, src_inst, src_field NodeRec.cls fun _ _ => rfl]
    rw [show look (setSrc h root v) i = look h i from src_field lookR (fun _ _ => rfl) i]
theorem src_outlines : ∀ ts : List Tree, outlinesOf (setSrc h root v) ts = outlinesOf h ts
  | [] => by rw [outlinesOf, outlinesOf]
  | t :: ts => by rw [outlinesOf, outlinesOf, src_outline t, src_outlines ts]
end

theorem src_shown (t : Tree) : shownText (setSrc h root v) t = shownText h t := by
  unfold shownText
  refine List.flatMap_congr fun x _ => ?_
  unfold Normalize.shownInk
  rw [src_parent, src_inst, src_field NodeRec.text fun _ _ => rfl]
  have : (fun p => decide (((setSrc h root v).get p).cls = Cls.Keyword)) =
      fun p => decide ((h.get p).cls = Cls.Keyword) := by
    funext p
    rw [src_field NodeRec.cls fun _ _ => rfl]
  rw [this]

mutual
theorem src_flow : ∀ t : Tree, Normalize.shownFlow (setSrc h root v) t = Normalize.shownFlow h t
  | .node x ts => by
    rw [Normalize.shownFlow, Normalize.shownFlow, src_inst, src_field NodeRec.cls fun _ _ => rfl,
      src_field NodeRec.text fun _ _ => rfl, src_flows ts]
theorem src_flows : ∀ ts : List Tree, Normalize.shownFlows (setSrc h root v) ts = Normalize.shownFlows h ts
  | [] => by rw [Normalize.shownFlows, Normalize.shownFlows]
  | t :: ts => by rw [Normalize.shownFlows, Normalize.shownFlows, src_flow t, src_flows ts]
end

theorem src_content : ∀ t : Tree, contentOf (setSrc h root v) t = contentOf h t
  | .node _ ts => src_flows ts

theorem src_verbatims (t : Tree) : Normalize.verbatims (setSrc h root v) t = Normalize.verbatims h t := by
  unfold Normalize.verbatims
  congr 1
  funext x
  unfold Normalize.verbatimOf
  simp only [src_children, src_inst, src_field NodeRec.cls fun _ _ => rfl, src_field NodeRec.asis fun _ _ => rfl,
    src_field NodeRec.lang fun _ _ => rfl, src_field NodeRec.text fun _ _ => rfl]

theorem src_bibs : bibliographiesOf (setSrc h root v) root = bibliographiesOf h root := by
  unfold bibliographiesOf
  have : ∀ C, (fun p => decide (((setSrc h root v).get p).cls = C)) =
      fun p => decide ((h.get p).cls = C) := by
    intro C; funext p
    rw [src_field NodeRec.cls fun _ _ => rfl]
  simp only [src_children, this]

theorem src_entry (x : Ref) : entryOf (setSrc h root v) x = entryOf h x :=
  src_field entryR (fun _ _ => rfl) x
end

/-! ## The result -/

/-- What the heap says about the source. -/
structure Done (c : Cst) (h0 : Heap) (root : Ref) (h : Heap) (t : Tree) : Prop where
  doc : Doc h root t
  root_cls : (h.get root).cls = .Manuscript
  outl : outlineOf h t = [sourceOutline c]
  text : VerbatimAlone (sourceParts c) → shownText h t = readsL (sourceParts c)
  pieces : VerbatimAlone (sourceParts c) → pieces (contentOf h t) = pieces (sourceFlow c)
  words : VerbatimAlone (sourceParts c) → bibliographies c = [] →
    Normalize.words (contentOf h t) = Normalize.words (sourceFlow c)
  verbs : VerbatimAlone (sourceParts c) → Normalize.verbatims h t = verbsL (sourceParts c)
  bibs : List.Forall₂ (List.Forall₂ fun x e => entryOf h x = entryLook e) (bibliographiesOf h root) (bibliographies c)
  bibin : ∀ x ∈ t.pre, (h.get x).cls = .Bibliography → x ∈ h.children root
  new : ∀ x ∈ t.pre, h0.next ≤ x
  old : ∀ x < h0.next, Normalize.SameNode h0 h x

theorem Done.src {c : Cst} {h0 h : Heap} {root : Ref} {t : Tree} (D : Done c h0 root h t) (hr : h0.next ≤ root) (v : Str) :
    Done c h0 root (setSrc h root v) t where
  doc := src_doc D.doc
  root_cls := (src_field NodeRec.cls (fun _ _ => rfl) root).trans D.root_cls
  outl := (src_outline t).trans D.outl
  text hv := (src_shown t).trans (D.text hv)
  pieces hv := by rw [src_content]; exact D.pieces hv
  words hv hb := by rw [src_content]; exact D.words hv hb
  verbs hv := (src_verbatims t).trans (D.verbs hv)
  bibs := by
    rw [src_bibs]
    have : (fun x e => entryOf (setSrc h root v) x = entryLook e) =
        fun x e => entryOf h x = entryLook e := by
      funext x e; rw [src_entry]
    rw [this]
    exact D.bibs
  bibin x hx hb := by
    rw [src_field NodeRec.cls fun _ _ => rfl] at hb
    rw [src_children]
    exact D.bibin x hx hb
  new := D.new
  old x hx := (D.old x hx).trans (.of_get (get_update_of_ne _ _ (by have : x < root := Nat.lt_of_lt_of_le hx hr; omega)))

theorem flatMap_lt (n : Nat) (f : Ref → Str) : ∀ l : List Ref,
    (l.flatMap fun x => if x < n then f x else []) = (l.filter (· < n)).flatMap f
  | [] => rfl
  | x :: l => by
    rw [List.flatMap_cons, flatMap_lt n f l, List.filter_cons]
    by_cases h : x < n
    · rw [if_pos h, if_pos (decide_eq_true h), List.flatMap_cons]
    · rw [if_neg h, if_neg (by simpa using h), List.nil_append]

/-- The parts of the source are what comes of its tree. -/
theorem root_says {c : Cst} (S : Source c) {n : NodeRec} {o : Out} (he : evRoot c = .ok (n, o)) :
    lookR (Normalize.unescAttrs n) = lookOf "source_file".toList c ∧ Says false o (sourceParts c) := by
  unfold evRoot at he
  obtain ⟨n', h1, he⟩ := bind_ok he
  obtain ⟨o', h2, he⟩ := bind_ok he
  cases he
  have hc : IsHeading c := .inl S.1
  have hl := headingRecord_look h1 hc
  rw [S.1] at hl
  have hf := heading_facts hc
  have hs := says_evs (fun x _ b o => says_ev _ _ b x o) h2
  rw [flatMap_push hf.2.1.symm] at hs
  unfold sourceParts
  rw [hf.1]
  exact ⟨hl, hs⟩

theorem parse_done {c : Cst} (S : Source c) {s : ParserState} {n : NodeRec} {o : Out} {s1 : PState} {t : Tree}
    {fuel : Nat} {h' : Heap} (he : evRoot c = .ok (n, o)) (fr : Fresh n) (hcls : n.cls = .Manuscript)
    (D : Doc s1.heap s.heap.next t) (I : Inv s1 (o.events.foldl Event.apply []) s.heap.next)
    (P : Post s.heap.next (born s.heap n) s1.heap o.items) (N : Neat s.heap.next s.heap.next s1)
    (hfuel : 4 * t.size < fuel) (hnew : ∀ x ∈ t.pre, s.heap.next ≤ x)
    (hold : ∀ r < s.heap.next, s1.heap.get r = s.heap.get r)
    (hrun : Normalize.normalizeText fuel s.heap.next s1.heap = .ok () h') :
    ∃ t', Done c s.heap s.heap.next h' t' := by
  obtain ⟨hlook, hsay⟩ := root_says S he
  obtain ⟨t5, NM, H, D', F⟩ := Normalize.run_inv D hfuel hrun
  obtain ⟨t6, D6, hmem, -, hkept, -⟩ := Normalize.C57_nodes_kept D hfuel hrun
  obtain ⟨t7, D7, hmade⟩ := Normalize.C58_new_nodes D hfuel hrun
  obtain ⟨t8, D8, hink⟩ := Normalize.C52_ink_by_runs D hfuel hrun
  have e6 := D6.unique D'
  have e7 := D7.unique D'
  have e8 := D8.unique D'
  subst e6 e7 e8
  have hroot : t.root = s.heap.next := D.root_eq
  obtain ⟨x0, ks⟩ := t
  rw [Tree.root] at hroot
  subst hroot
  have T := D.tree
  rw [IsTree] at T
  have hbr : isBib s1.heap s.heap.next = false := by
    unfold isBib; rw [I.root_cls]; decide
  -- the items below the root
  have hb : BuiltL s1.heap (s.heap.next + 1) s1.heap.next (some s.heap.next) o.items (rootsL s1.heap ks) := by
    obtain ⟨rs, sk, bl⟩ := P.skel
    have h1 := sk s.heap.next (by simp [born_next])
    rw [if_pos rfl, skids_tree D.tree hbr] at h1
    have h2 : skids (born s.heap n) s.heap.next = [] := by
      unfold skids Heap.children
      rw [born_get_self, fr.2]
      simp
    rw [h2, List.nil_append] at h1
    rw [if_pos (by unfold Heap.isInst; rw [born_get_self, hcls]; decide)] at bl
    rw [h1]
    exact bl
  have hbare : bare (s1.heap.get s.heap.next) = bare { n with parent := none } := by
    have h1 := P.old s.heap.next (by simp [born_next])
    rw [born_get_self] at h1
    rw [h1]
    have := fr.1
    cases n
    simp only at this
    subst this
    rfl
  have hnt : ¬ ((s1.heap.get s.heap.next).cls.isSub .Text = true ∨ (s1.heap.get s.heap.next).cls = .Keyword) := by
    rw [I.root_cls]; decide
  -- the bibliographies
  have hB := hsay.bibs [] [] .nil rfl
  have hchild : ∀ x ∈ Tree.preL ks, isBib s1.heap x = true → x ∈ (s1.heap.children s.heap.next).filter (isBib s1.heap) := by
    intro x hx hxb
    have hx' : x ∈ (Tree.node s.heap.next ks).pre := by rw [Tree.pre]; simp [hx]
    have := (N.obj x (hnew x hx') (D.bound x hx')).2 hxb
    exact List.mem_filter.mpr ⟨(I.forest.agree x _).mp this, hxb⟩
  have hentries : ∀ x ∈ (s1.heap.children s.heap.next).filter (isBib s1.heap), ∀ y ∈ s1.heap.children x,
      (s1.heap.get y).cls = .Bibitem := by
    intro x hx
    obtain ⟨l, hl, E⟩ := forall₂_mem_left I.bibs x hx
    obtain ⟨m, _, F⟩ := forall₂_mem_left hB l hl
    exact entries_bibitem E F
  have hblind : Blind s1.heap ks := by
    intro x hx hxb ls T' hls
    refine read_bibitems T' fun k hk => hentries x (hchild x hx hxb) k.root ?_
    rw [hls]
    exact List.mem_map_of_mem hk
  -- the words below the root
  have hw : Normalize.words (contentOf h' t5.tree) = Normalize.words (Normalize.fL .other (Normalize.labelL s1.heap ks)) := by
    have hw := Normalize.norm_words NM H
    have hcls : (h'.get s.heap.next).cls = .Manuscript := by
      obtain ⟨_, _, _, _, e, _⟩ := hkept s.heap.next
        (by rw [← D'.root_eq]; exact Tree.root_mem_pre _) I.root_lt
      rw [e]
      exact I.root_cls
    have hr' := D'.root_eq
    generalize t5.tree = tt at hw hr' ⊢
    obtain ⟨y, ls⟩ := tt
    rw [Tree.root] at hr'
    subst hr'
    rw [Normalize.shownFlow, Normalize.flowOf] at hw
    unfold Heap.isInst at hw
    rw [hcls, I.root_cls, if_neg (by decide), if_neg (by decide), if_neg (by decide), if_neg (by decide)] at hw
    rw [Normalize.fL_label]
    simp only [List.cons.injEq, Option.some.injEq, Normalize.Piece.node.injEq, and_true, true_and] at hw
    exact hw
  refine ⟨t5.tree, D', ?_, ?_, ?_, ?_, ?_, ?_, ?_, ?_, ?_, ?_⟩
  · -- the class of the root
    obtain ⟨_, _, _, _, e, _⟩ := hkept s.heap.next
      (by rw [← D'.root_eq]; exact Tree.root_mem_pre _) I.root_lt
    rw [e]
    exact I.root_cls
  · -- the outline
    rw [outline_holds H]
    have := norm_out NM
    rw [outTL, outTL, outTL, outTL, List.append_nil, List.append_nil] at this
    rw [this, Normalize.label, outT, leftOut_cls (Normalize.cls_bare _), nbare_of_bare hbare,
      built_out T.2.2 hb, hsay.outl, if_neg]
    · unfold sourceOutline
      rw [← hlook]
      rfl
    · unfold leftOut
      rw [I.root_cls]
      decide
  · -- the text
    intro hv
    have hu := hsay.uni hv
    have hr : Normalize.readTree s1.heap (.node s.heap.next ks) = readsL (sourceParts c) := by
      rw [Normalize.readTree, built_read T.2.2 hb hblind hu.2 (.inr (.inl ⟨rfl, .inl hu.1⟩)), hsay.text]
      unfold Normalize.readInk Heap.isInst
      rw [I.root_cls]
      rfl
    rw [← hr, ← hink]
    unfold shownText
    have key : ∀ x ∈ t5.tree.pre, (if (h'.parent x).any fun p => (h'.get p).cls = .Keyword then [] else Normalize.shownInk h' x) =
        if x < s1.heap.next then Normalize.shownInk h' x else [] := by
      intro x hx
      by_cases hlt : x < s1.heap.next
      · rw [if_pos hlt, if_neg]
        obtain ⟨hp, _⟩ := hkept x hx hlt
        intro hk
        rw [Option.any_eq_true] at hk
        obtain ⟨p, hp1, hk⟩ := hk
        have hne : x ≠ s.heap.next := by
          rintro rfl
          rw [hp, T.1] at hp1
          cases hp1
        obtain ⟨q, hq, hq1, _⟩ := D'.parent_mem hx hne
        rw [hq1] at hp1
        cases hp1
        have hxt := ((hmem x).mp ⟨hx, hlt⟩).1
        obtain ⟨q', hq', hq2, _⟩ := D.parent_mem hxt hne
        rw [hp, hq2] at hq1
        cases hq1
        obtain ⟨_, _, _, _, e, _⟩ := hkept _ hq (D.bound _ hq')
        rw [e] at hk
        exact (N.obj _ (hnew _ hq') (D.bound _ hq')).1 (of_decide_eq_true hk)
      · rw [if_neg hlt]
        rcases hmade x hx (by omega) with ⟨h1, h2⟩ | h1 | ⟨_, k, h2, _, h3⟩
        · have : Normalize.shownInk h' x = [] := by
            unfold Normalize.shownInk
            rw [h2]
            split
            · decide
            · rfl
          rw [this, ite_self]
        · have : Normalize.shownInk h' x = [] := by
            unfold Normalize.shownInk Heap.isInst
            rw [h1]
            rfl
          rw [this, ite_self]
        · rw [h2, if_pos (by simp [h3])]
    rw [List.flatMap_congr key, flatMap_lt]
  · -- the pieces
    intro hv
    have F := root_flows S he hv
    rw [pieces_of_words hw]
    unfold sourceFlow
    rw [← F.flow .other rfl]
    refine built_pieces .other .other rfl rfl T.2.2 (clear_below D fun x hx hxb => ?_) F.asis hb
    have hx' : x ∈ (Tree.node s.heap.next ks).pre := by rw [Tree.pre]; simp [hx]
    exact (N.obj x (hnew x hx') (D.bound x hx')).2 hxb
  · -- the words
    intro hv hnob
    have F := root_flows S he hv
    rw [hw]
    unfold sourceFlow
    rw [← F.flow .other rfl]
    congr 1
    refine built_fL .other T.2.2 (fun x hx => ?_) hb
    cases hxb : isBib s1.heap x with
    | false => rfl
    | true =>
      obtain ⟨l, hl, _⟩ := forall₂_mem_left I.bibs x (hchild x hx hxb)
      obtain ⟨m, hm, _⟩ := forall₂_mem_left hB l hl
      rw [show (walks (sourceParts c)).foldl addPart [] = bibliographies c from rfl, hnob] at hm
      cases hm
  · -- what is verbatim
    intro hv
    have F := root_flows S he hv
    have hclear := clear_below D fun x hx hxb => by
      have hx' : x ∈ (Tree.node s.heap.next ks).pre := by rw [Tree.pre]; simp [hx]
      exact (N.obj x (hnew x hx') (D.bound x hx')).2 hxb
    obtain ⟨v1, v2⟩ := built_verbs T.2.2 hclear (fun x ls hm hxb k hk => by
      have T1 := forest_node T.2.2 hm
      rw [IsTree] at T1
      refine hentries x (hchild x (mem_preL_node hm (by rw [Tree.pre]; simp)) hxb) k.root ?_
      rw [T1.2.1]
      exact List.mem_map_of_mem hk) hb
    have hno := built_noV hb (toLL_noV F.asis)
    have hcl : ¬ (Normalize.bare (s1.heap.get s.heap.next)).cls.isSub .Text = true := by
      rw [Normalize.cls_bare, I.root_cls]; decide
    have e0 : Normalize.wT (Normalize.label s1.heap (.node s.heap.next ks)) = [] := by
      rw [Normalize.label, Normalize.wT, if_neg hcl, wrongOwn_noV hno, v2, F.lone]
      rfl
    have := Normalize.norm_verbatims NM (Normalize.holds_label D.tree) H e0
    rw [this]
    unfold Normalize.verbatims
    rw [Normalize.verbatims_holds (Normalize.holds_label D.tree), ← Normalize.vT_strip, Normalize.label, Normalize.vT, if_neg hcl,
      hno.vOwn, v1, F.vs]
    rfl
  · -- the bibliographies
    have e1 : bibliographiesOf h' s.heap.next = bibliographiesOf s1.heap s.heap.next := by
      have h1 := Normalize.holds_label D.tree
      rw [Normalize.label] at h1 NM
      obtain ⟨i5, a5, ks5⟩ := t5
      obtain ⟨h2, h3⟩ := norm_bibs NM (by rw [Normalize.cls_bare]; exact hnt)
      simp only [Normalize.LTree.root] at h2
      subst h2
      rw [bibs_holds H, bibs_holds h1]
      exact h3
    rw [e1]
    unfold bibliographiesOf
    rw [show (fun b => decide ((s1.heap.get b).cls = .Bibliography)) = isBib s1.heap from rfl,
      List.forall₂_map_left_iff]
    refine forall₂_comp (fun b l m hb F => ?_) (forall₂_and_mem I.bibs) hB
    obtain ⟨hb, E⟩ := hb
    have hf : (s1.heap.children b).filter (fun x => (s1.heap.get x).cls = .Bibitem) = s1.heap.children b :=
      List.filter_eq_self.mpr fun y hy => decide_eq_true (hentries b hb y hy)
    rw [hf]
    refine forall₂_comp (fun y n e hy he => ?_) (forall₂_and_mem E) F
    obtain ⟨hy, hn⟩ := hy
    have hbt := (D.children_mem (by rw [Tree.pre]; simp) (List.mem_filter.mp hb).1).1
    have hyt := (D.children_mem hbt hy).1
    have hyc := hentries b hb y hy
    have hy5 := ((hmem y).mpr ⟨hyt, by
      rintro ⟨_, _, _, _, _, ht⟩
      unfold Heap.isInst at ht
      rw [hyc] at ht
      cases ht⟩)
    obtain ⟨_, _, _, _, ek, _, et⟩ := hkept y hy5.1 hy5.2
    have e2 : entryOf h' y = entryR (s1.heap.get y) := by
      unfold entryOf entryR
      rw [ek]
      simp only
      rw [et, if_neg (by unfold Heap.isInst; rw [hyc]; decide)]
    rw [e2, bare_field entryR (fun _ => rfl) hn]
    exact bibRecord_entry he
  · intro x hx hxb
    have hlt : x < s1.heap.next := by
      by_contra hlt
      rcases hmade x hx (by omega) with ⟨h1, _⟩ | h1 | ⟨h1, _⟩ <;> rw [h1] at hxb <;> cases hxb
    obtain ⟨hp, _, _, _, e, _⟩ := hkept x hx hlt
    rw [e] at hxb
    have hxt := ((hmem x).mp ⟨hx, hlt⟩).1
    have hpar := (N.obj x (hnew x hxt) hlt).2 (decide_eq_true hxb)
    have hne : x ≠ s.heap.next := by
      rintro rfl
      rw [I.root_cls] at hxb
      cases hxb
    obtain ⟨q, _, hq1, hq2⟩ := D'.parent_mem hx hne
    rw [hp, hpar] at hq1
    cases hq1
    exact hq2
  · intro x hx
    by_cases hlt : x < s1.heap.next
    · exact hnew x ((hmem x).mp ⟨hx, hlt⟩).1
    · have := I.root_lt
      omega
  · intro x hx
    have h1 : x < s1.heap.next := by have := I.root_lt; omega
    refine (Normalize.SameNode.of_get (hold x hx)).trans (F.same x h1 ?_ (by simp))
    intro hm
    have := hnew x hm
    omega

end Parser
end RSM
