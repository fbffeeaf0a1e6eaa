import Verif.Lemmas.NormPhases

/-! Helper lemmas for text normalisation: the rest of the loop body. -/

namespace RSM
namespace Normalize
open PyM Nodes Heap LTree

theorem whenLast_eq {h : Heap} {i ks} (G : Good h (some i) [] ks) (c : Cls) (act : Ref → HeapM Unit) :
    whenLast (h.lastOfType i [c]) act h =
      match ks.getLast? with
      | none => .ok () h
      | some k => if k.attrs.cls.isSub c then act k.root h else .ok () h := by
  unfold Heap.lastOfType
  have hki := G.kids i rfl
  rw [List.nil_append] at hki
  rw [hki]
  cases hl : ks.getLast? with
  | none =>
    rw [List.getLast?_eq_none_iff] at hl
    subst hl; rfl
  | some k =>
    obtain ⟨a, rfl⟩ := List.getLast?_eq_some_iff.mp hl
    have hik : ∀ u ∈ a ++ [k], h.isInstAny u.root [c] = u.attrs.cls.isSub c := by
      intro u hu
      unfold Heap.isInstAny Cls.isSubAny
      rw [(G.holds u hu).cls]; simp
    have hrn := roots_nodup G.nodup
    rw [List.map_append, List.map_cons, List.map_nil, List.nodup_append] at hrn
    rw [List.map_append, List.map_cons, List.map_nil, List.reverse_append, List.reverse_singleton,
      List.singleton_append, List.zipIdx_cons, List.find?_cons]
    simp only [hik k (by simp)]
    by_cases hk : k.attrs.cls.isSub c = true
    · simp only [hk, if_true, Option.map_some]
      unfold whenLast
      simp only [bind_apply, get_apply]
      have : h.nextSibling k.root .any = .ok none := by
        unfold Heap.nextSibling
        rw [(G.holds k (by simp)).parent]
        simp only [hki, List.map_append, List.map_cons, List.map_nil]
        rw [Nodes.idxOf?_split.mpr ⟨a.map root, [], rfl, fun hm => hrn.2.2 _ hm _ (by simp) rfl, rfl⟩]
        have hd : List.drop ((a.map root).length + 1) (a.map root ++ [k.root]) = [] := by simp
        simp only [hd]
        simp
      rw [this]
      simp [liftSib, pure_apply]
    · simp only [hk, Bool.false_eq_true, if_false]
      cases hf : List.find? (fun ci => h.isInstAny ci.1 [c]) ((a.map root).reverse.zipIdx (0 + 1)) with
      | none => rfl
      | some ri =>
        obtain ⟨r, j⟩ := ri
        have hm := List.mem_of_find?_eq_some hf
        have hr : r ∈ a.map root := by
          have := List.mem_zipIdx hm
          rw [this.2.2]
          exact List.mem_reverse.mp (List.getElem_mem _)
        obtain ⟨u, hu, rfl⟩ := List.mem_map.mp hr
        unfold whenLast
        simp only [Option.map_some, bind_apply, get_apply]
        have : ∃ s, h.nextSibling u.root .any = .ok (some s) := by
          unfold Heap.nextSibling
          rw [(G.holds u (by simp [hu])).parent]
          simp only [hki, List.map_append, List.map_cons, List.map_nil]
          have h1 : ((a.map root ++ [k.root]).idxOf? u.root).isSome := by
            rw [List.isSome_idxOf?]; exact List.mem_append_left _ hr
          obtain ⟨m, hm⟩ := Option.isSome_iff_exists.mp h1
          rw [hm]
          obtain ⟨pre, post, e1, e2, e3⟩ := Nodes.idxOf?_split.mp hm
          have hpost : post ≠ [] := by
            rintro rfl
            have := congrArg List.getLast? e1
            simp at this
            exact hrn.2.2 _ hr k.root (by simp) this.symm
          obtain ⟨s, post', rfl⟩ := List.exists_cons_of_ne_nil hpost
          rw [e1]
          refine ⟨s, ?_⟩
          have hlt : m < (pre ++ u.root :: s :: post').length - 1 := by simp; omega
          simp only
          rw [if_pos hlt, ← e3]
          simp
        obtain ⟨s, hs⟩ := this
        rw [hs]
        simp [liftSib, pure_apply]

theorem isT_cls (k : LTree) : k.isT = k.attrs.cls.isSub .Text := rfl

theorem firstText_steps {h : Heap} {i ks} (f : Str → Str) (G : Good h (some i) [] ks) :
    ∃ h', whenFirst (h.firstOfType i [.Text]) (fun r => setText r f) h = .ok () h' ∧
      Steps h i ks h' (mapHead f ks) := by
  rw [whenFirst_eq G]
  cases ks with
  | nil => exact ⟨h, rfl, .refl G⟩
  | cons k ks =>
    simp only [mapHead, mapIfText, isT_cls]
    by_cases hk : k.attrs.cls.isSub .Text = true
    · simp only [hk, if_true]
      exact Steps.setText (a := []) f G hk
    · simp only [hk, Bool.false_eq_true, if_false]
      exact ⟨h, rfl, .refl G⟩

theorem lastText_steps {h : Heap} {i ks} (f : Str → Str) (G : Good h (some i) [] ks) :
    ∃ h', whenLast (h.lastOfType i [.Text]) (fun r => setText r f) h = .ok () h' ∧
      Steps h i ks h' (mapLast f ks) := by
  rw [whenLast_eq G]
  cases hl : ks.getLast? with
  | none =>
    rw [List.getLast?_eq_none_iff] at hl
    subst hl; exact ⟨h, rfl, .refl G⟩
  | some k =>
    obtain ⟨a, rfl⟩ := List.getLast?_eq_some_iff.mp hl
    rw [mapLast_append]
    simp only [mapIfText, isT_cls]
    by_cases hk : k.attrs.cls.isSub .Text = true
    · simp only [hk, if_true]
      exact Steps.setText (b := []) f G hk
    · simp only [hk, Bool.false_eq_true, if_false]
      exact ⟨h, rfl, .refl G⟩

/-- Exactly one of the two stripping steps applies, with the same effect. -/
theorem strip_steps {h : Heap} {i ks} (G : Good h (some i) [] ks) :
    ∃ h1 h', stripEnds i h = .ok () h1 ∧ stripParagraph i h1 = .ok () h' ∧
      Steps h i ks h' (stripL ks) := by
  have hki := G.kids i rfl
  rw [List.nil_append] at hki
  by_cases hp : h.isInst i .Paragraph = true
  · refine ⟨h, ?_⟩
    obtain ⟨h1, e1, s1⟩ := firstText_steps lstrip G
    obtain ⟨h2, e2, s2⟩ := lastText_steps rstrip s1.good
    refine ⟨h2, ?_, ?_, s1.trans G s2⟩
    · simp [stripEnds, bind_apply, get_apply, hp, pure_apply]
    · simp only [stripParagraph, bind_apply, get_apply, hp, if_true, e1, e2]
  · obtain ⟨h1, e1, s1⟩ := setHead_steps lstrip G
    obtain ⟨h2, e2, s2⟩ := setLast_steps rstrip s1.good
    rw [map_root_mapHead, ← hki] at e2
    rw [← hki] at e1
    have hs := s1.trans G s2
    have hne : i ∉ refsL ks := G.sep i rfl
    have hp' : h2.isInst i .Paragraph = false := by
      unfold Heap.isInst
      have := (hs.frame.par i rfl hne).1
      have : (h2.get i).cls = (h.get i).cls := by simpa using congrArg NodeRec.cls this
      rw [this]; simpa [Heap.isInst] using hp
    refine ⟨h2, h2, ?_, ?_, hs⟩
    · unfold stripEnds
      simp only [bind_apply, get_apply]
      by_cases hc : (h.children i).isEmpty = true
      · simp only [hc, Bool.not_true, Bool.and_false, Bool.false_eq_true, if_false, pure_apply]
        have : h.children i = [] := by simpa using hc
        rw [this] at e1 e2
        simp only [List.head?_nil, List.getLast?_nil, setIfText, bind_apply, get_apply, pure_apply] at e1 e2
        rw [Res.ok.injEq] at e1 e2
        rw [e1.2, e2.2]
      · simp only [hp, hc, Bool.not_false, Bool.and_self, if_true, bind_apply, e1, e2]
    · simp [stripParagraph, bind_apply, get_apply, hp', pure_apply]

/-- The children of a construct with keyword `w`; `n` is the first unused reference. -/
def openL (n : Nat) (w : Str) (ks : List LTree) : List LTree :=
  match ks with
  | [] => [kwTree n w]
  | k :: ks' =>
    if k.attrs.cls.isSub .Math then
      kwTree (n + 1) w :: .node n (textAttrs [' ']) [] :: mapHead (' ' :: ·) ks
    else kwTree n w :: mapHead (' ' :: ·) (k :: ks')

theorem attrs_of_frame {h h' : Heap} {i D} (F : Frame h h' (some i) D) (hi : i ∉ D) :
    bare (h'.get i) = bare (h.get i) := (F.par i rfl hi).1

theorem isInst_of_bare {h h' : Heap} {i} (e : bare (h'.get i) = bare (h.get i)) (c) :
    h'.isInst i c = h.isInst i c := by
  unfold Heap.isInst
  have : (h'.get i).cls = (h.get i).cls := by simpa using congrArg NodeRec.cls e
  rw [this]

theorem kind_of_bare {h h' : Heap} {i} (e : bare (h'.get i) = bare (h.get i)) :
    (h'.get i).kind = (h.get i).kind := by
  have h1 := congrArg NodeRec.kind e
  exact h1

theorem next_setText (r : Ref) (f) (h : Heap) : (setText r f h).state.next = h.next := rfl

theorem next_firstText {h : Heap} {i ks f h'} (G : Good h (some i) [] ks)
    (e : whenFirst (h.firstOfType i [.Text]) (fun r => setText r f) h = .ok () h') :
    h'.next = h.next := by
  rw [whenFirst_eq G] at e
  cases ks with
  | nil => simp only [Res.ok.injEq] at e; rw [e.2]
  | cons k ks =>
    simp only at e
    split at e
    · have := next_setText k.root f h
      rw [e] at this; exact this
    · simp only [Res.ok.injEq] at e; rw [e.2]

/-- The last two actions on a construct. -/
theorem openConstruct_run {h : Heap} {i ks} (G : Good h (some i) [] ks)
    (hc : h.isInst i .Construct = true) :
    (∀ w, keywordOf (h.get i).kind = some w → ∃ h', openConstruct i h = .ok () h' ∧
      Steps h i ks h' (openL h.next w ks)) ∧
    (keywordOf (h.get i).kind = none → ∃ h', openConstruct i h = .err .keyError h') := by
  obtain ⟨h1, e1, s1⟩ := firstText_steps (' ' :: ·) G
  have hn1 := next_firstText G e1
  have hb1 := attrs_of_frame s1.frame (G.sep i rfl)
  have hnw : h1.isInst i .NodeWithChildren = true := by
    rw [isInst_of_bare hb1]
    have : ∀ c : Cls, c.isSub .Construct = true → c.isSub .NodeWithChildren = true := by
      intro c; cases c <;> decide
    exact this _ hc
  have e2 : ∃ h2, whenFirst (h1.firstOfType i [.Math]) (fun _ => prependBlank i) h1 = .ok () h2 ∧
      Steps h1 i (mapHead (' ' :: ·) ks) h2
        (match ks with
          | [] => []
          | k :: ks' => if k.attrs.cls.isSub .Math then
              .node h.next (textAttrs [' ']) [] :: mapHead (' ' :: ·) ks
            else mapHead (' ' :: ·) (k :: ks')) ∧
      h2.next = (match ks with
          | [] => h.next
          | k :: _ => if k.attrs.cls.isSub .Math then h.next + 1 else h.next) := by
    rw [whenFirst_eq s1.good]
    cases ks with
    | nil => exact ⟨h1, rfl, .refl s1.good, hn1⟩
    | cons k ks =>
      simp only [mapHead, cls_mapIfText]
      split
      · obtain ⟨h2, e2, s2⟩ := prependBlank_steps s1.good hnw
        rw [hn1] at s2
        refine ⟨h2, e2, s2, ?_⟩
        have : h2 = (prependBlank i h1).state := by rw [e2]; rfl
        rw [this]
        unfold prependBlank newText
        rw [bind_apply, new_apply]
        simp only
        rw [prepend_apply]
        split
        · simp [Res.state, Heap.alloc, hn1]
        · split
          · simp [Res.state, Heap.alloc, hn1]
          · split <;> simp [Res.state, Heap.alloc, hn1]
      · exact ⟨h1, rfl, .refl s1.good, hn1⟩
  obtain ⟨h2, e2, s2, hn2⟩ := e2
  have s12 := s1.trans G s2
  have hb2 := attrs_of_frame s12.frame (G.sep i rfl)
  have hnw2 : h2.isInst i .NodeWithChildren = true := by
    rw [isInst_of_bare hb2, ← isInst_of_bare hb1]; exact hnw
  have hopen : openConstruct i h = prependKeyword i h2 := by
    unfold openConstruct
    simp only [bind_apply, get_apply, hc, if_true, e1, e2]
  constructor
  · intro w hw
    obtain ⟨h3, e3, s3⟩ := prependKeyword_steps (w := w) s2.good hnw2
      (by rw [kind_of_bare hb2]; exact hw)
    refine ⟨h3, hopen.trans e3, s12.trans G ?_⟩
    rw [hn2] at s3
    cases ks with
    | nil => exact s3
    | cons k ks =>
      simp only [openL] at s3 ⊢
      split
      · rename_i hm; simp only [hm, if_true] at s3 ⊢; exact s3
      · rename_i hm; simp only [hm, Bool.false_eq_true, if_false] at s3 ⊢; exact s3
  · intro hw
    obtain ⟨h3, e3⟩ := prependKeyword_fails (s2.good.old i rfl)
      (by rw [kind_of_bare hb2]; exact hw)
    exact ⟨h3, hopen.trans e3⟩

/-! ### Squeezing -/

def squeezeText (t : Str) : Str := subLeading (subTrailing t.length t)

theorem squeezeTexts_steps {h : Heap} {i ks} (G : Good h (some i) [] ks) :
    ∃ h', squeezeTexts i h = .ok () h' ∧ Steps h i ks h' (ks.map (mapIfText squeezeText)) := by
  have key : ∀ (todo : List LTree) (h : Heap) (a : List LTree), Good h (some i) [] (a ++ todo) →
      ∃ h', forEach squeeze (todo.map root) h = .ok () h' ∧
        Steps h i (a ++ todo) h' (a ++ todo.map (mapIfText squeezeText)) := by
    intro todo
    induction todo with
    | nil => intro h a G; exact ⟨h, rfl, by simpa using Steps.refl G⟩
    | cons k todo ih =>
      intro h a G
      have hi : h.isInst k.root .Text = k.isT := (G.holds k (by simp)).isInst .Text
      have e0 : ∀ k' : LTree, a ++ k' :: todo = (a ++ [k']) ++ todo := by intro k'; simp
      have : ∃ h1, squeeze k.root h = .ok () h1 ∧
          Steps h i (a ++ k :: todo) h1 (a ++ mapIfText squeezeText k :: todo) := by
        unfold squeeze mapIfText
        simp only [bind_apply, get_apply, hi]
        by_cases hk : k.isT = true
        · obtain ⟨h1, e1, s1⟩ := Steps.setText (fun t => subTrailing t.length t) G hk
          obtain ⟨h2, e2, s2⟩ := Steps.setText subLeading s1.good (by simpa using hk)
          refine ⟨h2, ?_, ?_⟩
          · simp only [hk, if_true, bind_apply, e1]
            rw [root_mapText] at e2; exact e2
          · rw [if_pos hk]
            have := s1.trans G s2
            rw [mapText_mapText] at this
            exact this
        · refine ⟨h, ?_, ?_⟩
          · rw [if_neg hk]; rfl
          · rw [if_neg hk]; exact .refl G
      obtain ⟨h1, e1, s1⟩ := this
      have G1 := s1.good
      rw [e0] at G1
      obtain ⟨h2, e2, s2⟩ := ih h1 _ G1
      refine ⟨h2, ?_, ?_⟩
      · rw [List.map_cons, forEach_cons, e1]; exact e2
      · rw [← e0] at s2
        have := s1.trans G s2
        simpa using this
  obtain ⟨h', e, s⟩ := key ks h [] G
  refine ⟨h', ?_, by simpa using s⟩
  unfold squeezeTexts
  simp only [bind_apply, get_apply, G.kids i rfl, List.nil_append]
  exact e

/-! ### The whole treatment of the children -/

/-- The children lists that the first five steps may leave. -/
inductive Shaped (n0 : Nat) (a : NodeRec) (ks : List LTree) : List LTree → Prop
  | plain : a.cls.isSub .Construct = false →
      Shaped n0 a ks ((stripL (mergeL ks)).map (mapIfText squeezeText))
  | construct {w n} : a.cls.isSub .Construct = true → keywordOf a.kind = some w → n0 ≤ n →
      Shaped n0 a ks ((openL n w (stripL (mergeL ks))).map (mapIfText squeezeText))

theorem shape_steps {h : Heap} {i a ks} {n0} (G : Good h (some i) [] ks) (ha : bare (h.get i) = a)
    (hn0 : n0 ≤ h.next) :
    ((a.cls.isSub .Construct = true → keywordOf a.kind ≠ none) →
      ∃ h' ks', Shaped n0 a ks ks' ∧ Steps h i ks h' ks' ∧ ∀ rest : HeapM Unit,
        (do mergeTexts i; stripEnds i; stripParagraph i; openConstruct i; squeezeTexts i; rest) h =
          rest h') ∧
    (a.cls.isSub .Construct = true → keywordOf a.kind = none → ∃ h', ∀ rest : HeapM Unit,
      (do mergeTexts i; stripEnds i; stripParagraph i; openConstruct i; squeezeTexts i; rest) h =
        .err .keyError h') := by
  obtain ⟨h1, e1, s1⟩ := mergeTexts_steps G
  obtain ⟨h2, h3, e2, e3, s3⟩ := strip_steps s1.good
  have s13 := s1.trans G s3
  have hb := attrs_of_frame s13.frame (G.sep i rfl)
  have hcls : h3.isInst i .Construct = a.cls.isSub .Construct := by
    rw [isInst_of_bare hb, ← ha]; rfl
  have hkind : (h3.get i).kind = a.kind := by rw [kind_of_bare hb, ← ha]; rfl
  constructor
  · intro hk
    by_cases hc : a.cls.isSub .Construct = true
    · obtain ⟨w, hw⟩ := Option.ne_none_iff_exists'.mp (hk hc)
      obtain ⟨h4, e4, s4⟩ := (openConstruct_run s3.good (hcls.trans hc)).1 w (by rw [hkind]; exact hw)
      obtain ⟨h5, e5, s5⟩ := squeezeTexts_steps s4.good
      refine ⟨h5, _, .construct hc hw (hn0.trans (s13.frame.next)), (s13.trans G s4).trans G s5, ?_⟩
      intro rest
      simp only [bind_apply, e1, e2, e3, e4, e5]
    · have hc' : a.cls.isSub .Construct = false := by simpa using hc
      obtain ⟨h5, e5, s5⟩ := squeezeTexts_steps s3.good
      refine ⟨h5, _, .plain hc', s13.trans G s5, ?_⟩
      intro rest
      have e4 : openConstruct i h3 = .ok () h3 := by
        unfold openConstruct
        simp [bind_apply, get_apply, hcls, hc', pure_apply]
      simp only [bind_apply, e1, e2, e3, e4, e5]
  · intro hc hk
    obtain ⟨h4, e4⟩ := (openConstruct_run s3.good (hcls.trans hc)).2 (by rw [hkind]; exact hk)
    refine ⟨h4, ?_⟩
    intro rest
    simp only [bind_apply, e1, e2, e3, e4]

end Normalize
end RSM
