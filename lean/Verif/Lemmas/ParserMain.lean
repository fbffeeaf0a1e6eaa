import Verif.Lemmas.ParserEval

/-! The parser does what the function of the tree says (helper lemmas). -/

namespace RSM
namespace Parser
open PyM Nodes Heap

/-- The outcome of a part of the parser is the given one. -/
def Outcome (p root : Ref) (s : PState) (L : List (List NodeRec)) (r : Res PState Unit) :
    Except PyErr Out → Prop
  | .error e => ∃ s', r = .err e s'
  | .ok o => ∃ s', r = .ok () s' ∧ Inv s' (o.events.foldl Event.apply L) root ∧
      Post p s.heap s'.heap o.items ∧ s'.log = s.log ++ warningsOf o.events

theorem warningsOf_append (a b : List Event) : warningsOf (a ++ b) = warningsOf a ++ warningsOf b :=
  List.filterMap_append

theorem apply_nil {L : List (List NodeRec)} {e : Event} :
    (e.apply L).isEmpty = (L.isEmpty && !(match e with
      | .bibliography => true
      | _ => false)) := by
  cases e with
  | bibliography => simp [Event.apply]
  | warning w => simp [Event.apply]
  | entry n =>
    simp only [Event.apply]
    cases h : L.getLast? with
    | none => simp [List.getLast?_eq_none_iff.mp h]
    | some l =>
      have : L.isEmpty = false := by cases L with
        | nil => simp at h
        | cons _ _ => rfl
      rw [this]
      simp

theorem hasBib_eq : ∀ (es : List Event) (L : List (List NodeRec)),
    hasBib (!L.isEmpty) es = !(es.foldl Event.apply L).isEmpty
  | [], L => by simp [hasBib]
  | e :: es, L => by
    rw [List.foldl_cons, ← hasBib_eq es (e.apply L), apply_nil]
    simp only [hasBib, List.any_cons]
    cases L.isEmpty <;> cases e <;> simp

theorem forall₂_append {α β : Type} {R : α → β → Prop} {a b : List α} {c d : List β}
    (h1 : List.Forall₂ R a c) (h2 : List.Forall₂ R b d) : List.Forall₂ R (a ++ b) (c ++ d) := by
  induction h1 with
  | nil => exact h2
  | cons h _ ih => exact .cons h ih

theorem forall₂_last {α β : Type} {R : α → β → Prop} {as : List α} {bs : List β} {b : α}
    (h : List.Forall₂ R as bs) (hb : as.getLast? = some b) :
    ∃ as' bs' l, as = as' ++ [b] ∧ bs = bs' ++ [l] ∧ List.Forall₂ R as' bs' ∧ R b l := by
  induction h with
  | nil => cases hb
  | @cons a c as bs h1 h2 ih =>
    cases as with
    | nil =>
      cases h2
      cases hb
      exact ⟨[], [], c, rfl, rfl, .nil, h1⟩
    | cons x xs =>
      rw [List.getLast?_cons_cons] at hb
      obtain ⟨as', bs', l, e1, e2, h3, h4⟩ := ih hb
      exact ⟨a :: as', c :: bs', l, by rw [e1]; rfl, by rw [e2]; rfl, .cons h1 h3, h4⟩

/-! ## Closed forms -/

theorem onHeap_ok {α : Type} {m : HeapM α} {s : PState} {a : α} {h : Heap} (e : m s.heap = .ok a h) :
    onHeap m s = .ok a { s with heap := h } := by
  unfold onHeap zoom; rw [e]

theorem onHeap_err {α : Type} {m : HeapM α} {s : PState} {x : PyErr} {h : Heap} (e : m s.heap = .err x h) :
    onHeap m s = .err x { s with heap := h } := by
  unfold onHeap zoom; rw [e]

theorem onHeap_new (n : NodeRec) (s : PState) :
    onHeap (new n) s = .ok s.heap.next { s with heap := born s.heap n } := rfl

theorem lift_of_ok {α : Type} {x : Except PyErr α} {a : α} (h : x = .ok a) (s : PState) :
    lift x s = .ok a s := by rw [h]; rfl

theorem lift_of_error {α : Type} {x : Except PyErr α} {e : PyErr} (h : x = .error e) (s : PState) :
    lift x s = .err e s := by rw [h]; rfl

theorem run_succ (k : Nat) (e : Entry) (s : PState) : run (k + 1) e s = match visit e s with
    | .ok new s' => forEach (run k) new s'
    | .err e s' => .err e s' := by rw [run, bind_apply]; cases visit e s <;> rfl

/-! ## Attaching -/

theorem attach_made {s : PState} {L : List (List NodeRec)} {root p y : Ref} {h1 : Heap} {top : NodeRec}
    {items : List Item} (I : Inv s L root) (hp : p < s.heap.next) (hpb : isBib s.heap p = false)
    (M : Made s.heap h1 y top items) :
    match allowed (s.heap.get p).cls top.cls with
    | .error e => ∃ s', attach (some p) y { s with heap := h1 } = .err e s'
    | .ok _ => ∃ h2, attach (some p) y { s with heap := h1 } = .ok () { s with heap := h2 } ∧
        h2 = (if s.heap.isInst p .NodeWithChildren then grow h1 p y else h1) ∧
        Inv { s with heap := h2 } L root ∧ y < h2.next ∧ (h2.get y).cls = top.cls := by
  have hge := M.ge
  have hlt := M.lt
  have gp : h1.get p = s.heap.get p := M.old p hp
  have ip : h1.isInst p .NodeWithChildren = s.heap.isInst p .NodeWithChildren := by unfold isInst; rw [gp]
  have cy : (h1.get y).cls = top.cls := bare_cls M.rec_eq
  have hold1 : ∀ r < s.heap.next, h1.children r = s.heap.children r := by
    intro r hr; unfold children isInst; rw [M.old r hr]
  unfold allowed
  by_cases hn : s.heap.isInst p .NodeWithChildren = true
  · have hn' : (s.heap.get p).cls.isSub .NodeWithChildren = true := hn
    have al : h1.Allowed y p ↔ (top.cls.possibleParents = [] ∨ (s.heap.get p).cls ∈ top.cls.possibleParents) := by
      unfold Allowed; rw [cy, gp]
    rw [hn']
    by_cases ha : top.cls.possibleParents = [] ∨ (s.heap.get p).cls ∈ top.cls.possibleParents
    · simp only [Bool.true_eq_false, false_or, if_pos ha]
      obtain ⟨e, F2⟩ := append_fresh M.forest (p := p) (x := y) (by omega) hlt
        (by unfold Heap.parent; rw [bare_parent M.rec_eq]; exact M.fresh.1) (by rw [ip]; exact hn) (al.mpr ha)
        (not_anc_of_lt (lo := s.heap.next) (fun r hr q hq => by
          unfold Heap.parent at hq
          rw [M.old r hr] at hq
          exact (I.forest.bound _ _ hq).2) hp hge)
      refine ⟨grow h1 p y, ?_, by rw [if_pos hn], ?_, hlt, by rw [grow_cls, cy]⟩
      · unfold attach
        simp only [bind_apply, get_apply, ip, hn, if_true]
        exact onHeap_ok e
      · refine I.frame (new := if root = p then [y] else []) F2 (by rw [grow_next]; omega) rfl rfl ?_ ?_ ?_ ?_
        · intro r hr
          simp only
          rw [grow_get, M.old r hr, if_neg (by omega)]
          rfl
        · simp only
          rw [grow_children _ _ _ _ (by rw [ip]; exact hn), hold1 root I.root_lt]
          split <;> simp
        · intro z hz
          split at hz
          · rw [List.mem_singleton] at hz
            subst hz
            exact isBib_eq_false (n := top) (by simp only; rw [grow_cls, cy]) M.notBib
          · cases hz
        · intro r hr hb
          simp only
          rw [grow_children _ _ _ _ (by rw [ip]; exact hn), if_neg, hold1 r hr]
          rintro rfl
          rw [hpb] at hb
          cases hb
    · simp only [Bool.true_eq_false, false_or, if_neg ha]
      refine ⟨{ s with heap := h1.withKids p (· ++ [y]) }, ?_⟩
      unfold attach
      simp only [bind_apply, get_apply, ip, hn, if_true]
      refine onHeap_err ?_
      rw [append_apply, ip, hn, show h1.parent y = none by
        unfold Heap.parent; rw [bare_parent M.rec_eq]; exact M.fresh.1, if_neg (fun h => ha (al.mp h))]
      simp
  · have hn' : (s.heap.get p).cls.isSub .NodeWithChildren = false := by
      rw [← Bool.not_eq_true]; exact hn
    rw [hn']
    simp only [true_or, if_true]
    refine ⟨h1, ?_, by rw [if_neg hn], ?_, hlt, cy⟩
    · unfold attach
      simp only [bind_apply, get_apply, ip]
      rw [if_neg hn]
      rfl
    · refine I.frame (new := []) M.forest (by simp only; omega) rfl rfl ?_ ?_ ?_ ?_
      · intro r hr; simp only; rw [M.old r hr]
      · simp only; rw [hold1 root I.root_lt, List.append_nil]
      · intro z hz; cases hz
      · intro r hr _; simp only; rw [hold1 r hr]

/-! ## Bibliographies -/

theorem Inv.root_nwc {s : PState} {L : List (List NodeRec)} {root : Ref} (I : Inv s L root) :
    s.heap.isInst root .NodeWithChildren = true := by
  unfold isInst; rw [I.root_cls]; rfl

/-- A step that only touches bibliographies. -/
theorem post_aside {p q x : Ref} {h : Heap} {n : NodeRec} (F : Forest h) (hq : q < h.next)
    (hx : x = h.next) (hq2 : (born h n).isInst q .NodeWithChildren = true)
    (hb : isBib h q = true ∨ n.cls = .Bibliography) : Post p h (grow (born h n) q x) [] := by
  subst hx
  have old : ∀ r < h.next, bare ((grow (born h n) q h.next).get r) = bare (h.get r) := by
    intro r hr
    rw [grow_get, born_get_old _ _ hr, if_neg (by omega)]
    rfl
  refine ⟨by rw [grow_next, born_next]; omega, old, [], fun r hr => ?_, ?_⟩
  · rw [ite_self, List.append_nil]
    by_cases hrq : r = q
    · subst hrq
      rcases hb with hb | hb
      · unfold skids
        rw [isBib_of_bare (old r hr), hb]
        rfl
      · cases hr' : isBib h r with
        | true =>
          unfold skids
          rw [isBib_of_bare (old r hr), hr']
          rfl
        | false =>
          have hbib : isBib (grow (born h n) r h.next) h.next = true := by
            unfold isBib; rw [grow_cls, born_get_self, hb]; rfl
          rw [skids_of_children (new := [h.next]) (old r hr) (fun y hy => old y (F.child_lt hy)) (by
            rw [grow_children _ _ _ _ hq2, if_pos rfl, born_children_old _ _ hr]) hr']
          rw [List.filter_cons, hbib]
          simp
    · exact skids_same (old r hr) (fun y hy => old y (F.child_lt hy)) (by
        rw [grow_children _ _ _ _ hq2, if_neg hrq, born_children_old _ _ hr])
  · split
    · rw [BuiltL]
    · rfl

theorem visit_bibliography {s : PState} {L : List (List NodeRec)} {root p : Ref} (I : Inv s L root) :
    ∃ s', visitBibliography s = .ok [] s' ∧ Inv s' (L ++ [[]]) root ∧ Post p s.heap s'.heap [] ∧
      s'.log = s.log := by
  have hr := I.root_lt
  have hn : Fresh (NodeRec.new .Bibliography) := ⟨rfl, rfl⟩
  have F1 := born_forest I.forest hn
  have gr : (born s.heap (NodeRec.new .Bibliography)).get root = s.heap.get root := born_get_old _ _ hr
  have gb : (born s.heap (NodeRec.new .Bibliography)).get s.heap.next = NodeRec.new .Bibliography :=
    born_get_self _ _
  have nwc : (born s.heap (NodeRec.new .Bibliography)).isInst root .NodeWithChildren = true := by
    unfold isInst; rw [gr]; exact I.root_nwc
  obtain ⟨e, F2⟩ := append_fresh F1 (p := root) (x := s.heap.next) (by rw [born_next]; omega)
    (by rw [born_next]; omega) (by unfold Heap.parent; rw [gb]; rfl) nwc
    (by unfold Allowed; rw [gb]; exact .inl rfl)
    (not_anc_of_lt (lo := s.heap.next) (fun r hr q hq => by
      unfold Heap.parent at hq
      rw [born_get_old _ _ hr] at hq
      exact (I.forest.bound _ _ hq).2) hr (Nat.le_refl _))
  refine ⟨{ s with heap := grow (born s.heap (NodeRec.new .Bibliography)) root s.heap.next, bib := some s.heap.next },
    ?_, ?_, ?_, rfl⟩
  · unfold visitBibliography
    rw [bind_apply, onHeap_new]
    simp only [bind_apply, modify_apply, get_apply, I.root_eq, appendTo]
    rw [onHeap_ok (s := ⟨born s.heap (NodeRec.new .Bibliography), some root, some s.heap.next, s.log⟩) e]
    rfl
  · have old : ∀ r < s.heap.next, bare ((grow (born s.heap (NodeRec.new .Bibliography)) root s.heap.next).get r) =
        bare (s.heap.get r) := by
      intro r hr
      rw [grow_get, born_get_old _ _ hr, if_neg (by omega)]
      rfl
    have ch : ∀ r < s.heap.next, (grow (born s.heap (NodeRec.new .Bibliography)) root s.heap.next).children r =
        s.heap.children r ++ if r = root then [s.heap.next] else [] := by
      intro r hr
      rw [grow_children _ _ _ _ nwc, born_children_old _ _ hr]
      split <;> simp
    have hbib : isBib (grow (born s.heap (NodeRec.new .Bibliography)) root s.heap.next) s.heap.next = true := by
      unfold isBib; rw [grow_cls, gb]; rfl
    have fl : ((grow (born s.heap (NodeRec.new .Bibliography)) root s.heap.next).children root).filter
        (isBib (grow (born s.heap (NodeRec.new .Bibliography)) root s.heap.next)) =
        (s.heap.children root).filter (isBib s.heap) ++ [s.heap.next] := by
      rw [ch root hr, if_pos rfl, List.filter_append, List.filter_cons, hbib]
      congr 1
      exact List.filter_congr fun y hy => isBib_of_bare (old y (I.forest.child_lt hy))
    refine ⟨F2, I.root_eq, by simp only; rw [grow_next, born_next]; omega, ?_, ?_, ?_⟩
    · simp only; rw [grow_cls, gr, I.root_cls]
    · simp only; rw [fl]; simp
    · simp only; rw [fl]
      refine forall₂_append (forall₂_map_left I.bibs fun b hb l E => ?_) (.cons ?_ .nil)
      · obtain ⟨h1, h2⟩ := mem_bibs hb
        refine E.frame I.forest old ?_
        have hne : b ≠ root := by
          rintro rfl
          unfold isBib at h2
          rw [I.root_cls] at h2
          cases h2
        rw [ch b (I.forest.child_lt h1), if_neg hne, List.append_nil]
      · unfold Entries
        rw [grow_children _ _ _ _ nwc, if_neg (by omega), born_children_self _ hn]
        exact .nil
  · exact post_aside I.forest hr rfl nwc (.inr rfl)

theorem visit_entry {s : PState} {L : List (List NodeRec)} {root p b : Ref} {x : Sib} {n : NodeRec}
    (I : Inv s L root) (hb : s.bib = some b) (hn : bibRecord x.2.1 = .ok n) :
    ∃ s', visitBibitem (entry (some b) x) s = .ok [] s' ∧ Inv s' (Event.apply L (.entry n)) root ∧
      Post p s.heap s'.heap [] ∧ s'.log = s.log ∧ s'.bib = s.bib := by
  have hr := I.root_lt
  obtain ⟨hbm, hbb, hblt⟩ := I.bib_mem hb
  obtain ⟨fr, hcls⟩ := bibRecord_ok hn
  have F1 := born_forest I.forest fr
  have gr : (born s.heap n).get root = s.heap.get root := born_get_old _ _ hr
  have gb : (born s.heap n).get b = s.heap.get b := born_get_old _ _ hblt
  have gy : (born s.heap n).get s.heap.next = n := born_get_self _ _
  have cb : (s.heap.get b).cls = .Bibliography := by unfold isBib at hbb; simpa using hbb
  have hbr : root ≠ b := by
    rintro rfl
    rw [I.root_cls] at cb
    cases cb
  have nwc : (born s.heap n).isInst b .NodeWithChildren = true := by
    unfold isInst; rw [gb, cb]; rfl
  obtain ⟨e, F2⟩ := append_fresh F1 (p := b) (x := s.heap.next) (by rw [born_next]; omega)
    (by rw [born_next]; omega) (by unfold Heap.parent; rw [gy]; exact fr.1) nwc
    (by unfold Allowed; rw [gy, hcls]; exact .inl rfl)
    (not_anc_of_lt (lo := s.heap.next) (fun r hr q hq => by
      unfold Heap.parent at hq
      rw [born_get_old _ _ hr] at hq
      exact (I.forest.bound _ _ hq).2) hblt (Nat.le_refl _))
  refine ⟨{ s with heap := grow (born s.heap n) b s.heap.next }, ?_, ?_, ?_, rfl, rfl⟩
  · unfold visitBibitem
    rw [bind_apply, lift_of_ok (show bibRecord (entry (some b) x).cst = .ok n from hn)]
    simp only [bind_apply]
    rw [onHeap_new]
    simp only [entry, appendTo]
    rw [onHeap_ok (s := { s with heap := born s.heap n }) e]
    rfl
  · have old : ∀ r < s.heap.next, bare ((grow (born s.heap n) b s.heap.next).get r) = bare (s.heap.get r) := by
      intro r hr
      rw [grow_get, born_get_old _ _ hr, if_neg (by omega)]
      rfl
    have ch : ∀ r < s.heap.next, (grow (born s.heap n) b s.heap.next).children r =
        s.heap.children r ++ if r = b then [s.heap.next] else [] := by
      intro r hr
      rw [grow_children _ _ _ _ nwc, born_children_old _ _ hr]
      split <;> simp
    have fl := filter_bibs (h' := grow (born s.heap n) b s.heap.next) (new := []) I.forest old
      (r := root) (by rw [ch root hr, if_neg hbr]) (by intro y hy; cases hy)
    refine ⟨F2, I.root_eq, by simp only; rw [grow_next, born_next]; omega, ?_, ?_, ?_⟩
    · simp only; rw [grow_cls, gr, I.root_cls]
    · simp only; rw [fl, I.bib_eq]
    · simp only; rw [fl]
      have hlast := I.bib_eq
      rw [hb] at hlast
      obtain ⟨as', bs', l, e1, e2, h3, h4⟩ := forall₂_last I.bibs hlast.symm
      have hnd : (as' ++ [b]).Nodup := by rw [← e1]; exact (I.forest.nodup root).filter _
      have happ : Event.apply L (.entry n) = bs' ++ [l ++ [n]] := by
        rw [e2]; simp [Event.apply]
      rw [happ, e1]
      refine forall₂_append (forall₂_map_left h3 fun b' hb' l' E => ?_) (.cons ?_ .nil)
      · have hm : b' ∈ (s.heap.children root).filter (isBib s.heap) := by rw [e1]; simp [hb']
        obtain ⟨h1, h2⟩ := mem_bibs hm
        refine E.frame I.forest old ?_
        have hne : b' ≠ b := by
          rintro rfl
          rw [List.nodup_append] at hnd
          exact hnd.2.2 _ hb' _ (by simp) rfl
        rw [ch b' (I.forest.child_lt h1), if_neg hne, List.append_nil]
      · unfold Entries
        rw [ch b hblt, if_pos rfl]
        refine forall₂_append (forall₂_map_left h4 fun y hy m hm => ?_) (.cons ?_ .nil)
        · rw [old y (I.forest.child_lt hy), hm]
        · rw [grow_get, gy]
          simp only [if_true]
          rfl
  · exact post_aside I.forest hblt rfl nwc (.inl hbb)

end Parser
end RSM
