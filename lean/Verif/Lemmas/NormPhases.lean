import Verif.Lemmas.NormNew

/-! Helper lemmas for text normalisation: the steps of the loop body, as functions on trees. -/

namespace RSM
namespace Normalize
open PyM Nodes Heap LTree

/-! ### Groups -/

theorem groupRuns_map {α β : Type} (f : α → β) (key : β → Bool) (key' : α → Bool) (xs : List α)
    (hk : ∀ x ∈ xs, key (f x) = key' x) :
    groupRuns key (xs.map f) = (groupRuns key' xs).map fun g => (g.1, g.2.map f) := by
  induction xs with
  | nil => rfl
  | cons x xs ih =>
    have ih := ih fun y hy => hk y (by simp [hy])
    simp only [List.map_cons, groupRuns, ih, hk x (by simp)]
    cases groupRuns key' xs with
    | nil => rfl
    | cons g gs => simp only [List.map_cons]; split <;> rfl

theorem groupRuns_flat {α : Type} (key : α → Bool) (xs : List α) :
    (groupRuns key xs).flatMap (·.2) = xs := by
  induction xs with
  | nil => rfl
  | cons x xs ih =>
    simp only [groupRuns]
    split
    · rename_i h; rw [h] at ih; simp at ih; simp [ih]
    · rename_i b run rest h
      rw [h] at ih
      split <;> simp at ih ⊢ <;> exact ih

theorem groupRuns_key {α : Type} (key : α → Bool) (xs : List α) :
    ∀ g ∈ groupRuns key xs, ∀ x ∈ g.2, key x = g.1 := by
  induction xs with
  | nil => simp [groupRuns]
  | cons x xs ih =>
    simp only [groupRuns]
    split
    · simp
    · rename_i b run rest h
      rw [h] at ih
      have h1 := ih (b, run) (by simp)
      have h2 : ∀ g ∈ rest, ∀ x ∈ g.2, key x = g.1 := fun g hg => ih g (by simp [hg])
      split
      · rename_i hb
        intro g hg
        rcases List.mem_cons.mp hg with rfl | hg
        · intro y hy
          rcases List.mem_cons.mp hy with rfl | hy
          · exact hb.symm
          · exact h1 y hy
        · exact h2 g hg
      · intro g hg
        rcases List.mem_cons.mp hg with rfl | hg
        · simp
        · exact ih g hg

theorem groupRuns_nonempty {α : Type} (key : α → Bool) (xs : List α) :
    ∀ g ∈ groupRuns key xs, g.2 ≠ [] := by
  induction xs with
  | nil => simp [groupRuns]
  | cons x xs ih =>
    simp only [groupRuns]
    split
    · simp
    · rename_i b run rest h
      rw [h] at ih
      split
      · intro g hg
        rcases List.mem_cons.mp hg with rfl | hg
        · simp
        · exact ih g (by simp [hg])
      · intro g hg
        rcases List.mem_cons.mp hg with rfl | hg
        · simp
        · exact ih g hg

theorem groupRuns_alternate {α : Type} (key : α → Bool) (xs : List α) :
    (groupRuns key xs).IsChain fun g g' => g.1 ≠ g'.1 := by
  induction xs with
  | nil => simp [groupRuns]
  | cons x xs ih =>
    simp only [groupRuns]
    split
    · simp
    · rename_i b run rest h
      rw [h] at ih
      split
      · cases rest with
        | nil => simp
        | cons g gs => simpa using ih
      · rename_i hb
        rw [List.isChain_cons_cons]
        exact ⟨fun e => hb e.symm, ih⟩

/-! ### Merging -/

/-- The text of a merged run. -/
def runText (a : Str) : List Str → Str
  | [] => a
  | [b] => rstrip a ++ ' ' :: lstrip b
  | b :: c :: cs => joinRun a (b :: c :: cs)

def mergeGroup : Bool × List LTree → List LTree
  | (true, k :: rest) => [k.mapText fun t => runText t (rest.map fun r => r.attrs.text)]
  | (_, run) => run

/-- The children after merging consecutive text nodes. -/
def mergeL (ks : List LTree) : List LTree := (groupRuns isT ks).flatMap mergeGroup

theorem mapText_id (t : LTree) : t.mapText (fun s => s) = t := by cases t; rfl

theorem removeAll_steps {h : Heap} {i a b} (run : List LTree) (G : Good h (some i) [] (a ++ run ++ b)) :
    ∃ h', forEach removeSelf (run.map root) h = .ok () h' ∧
      Steps h i (a ++ run ++ b) h' (a ++ b) := by
  induction run generalizing h with
  | nil => exact ⟨h, rfl, by simpa using Steps.refl G⟩
  | cons k run ih =>
    have e0 : a ++ (k :: run) ++ b = a ++ k :: (run ++ b) := by simp
    rw [e0] at G ⊢
    obtain ⟨h1, e1, s1⟩ := Steps.remove G
    obtain ⟨h2, e2, s2⟩ := ih (h := h1) (by simpa using s1.good)
    refine ⟨h2, ?_, s1.trans G (by simpa using s2)⟩
    rw [List.map_cons, forEach_cons, e1]
    exact e2

theorem text_of_holds {h : Heap} {p t} (H : Holds h p t) : (h.get t.root).text = t.attrs.text := by
  rw [← H.attrs]; rfl

theorem mergeRun_steps {h : Heap} {i a run b} (G : Good h (some i) [] (a ++ run ++ b))
    (hr : ∀ k ∈ run, k.isT = true) (hne : run ≠ []) :
    ∃ h', mergeRun (run.map root) h = .ok () h' ∧
      Steps h i (a ++ run ++ b) h' (a ++ mergeGroup (true, run) ++ b) := by
  match run with
  | [] => exact absurd rfl hne
  | [k] =>
    refine ⟨h, rfl, ?_⟩
    have : mergeGroup (true, [k]) = [k] := by simp [mergeGroup, runText, mapText_id]
    rw [this]; exact Steps.refl G
  | [k, l] =>
    have e0 : a ++ [k, l] ++ b = a ++ k :: (l :: b) := by simp
    have hl : (h.get l.root).text = l.attrs.text := text_of_holds (G.holds l (by simp))
    rw [e0] at G ⊢
    obtain ⟨h1, e1, s1⟩ := Steps.setText (fun t => rstrip t ++ ' ' :: lstrip (h.get l.root).text) G
      (hr k (by simp))
    have G1 := s1.good
    have e3 : ∀ k' : LTree, a ++ k' :: l :: b = (a ++ [k']) ++ l :: b := by intro k'; simp
    rw [e3] at G1
    obtain ⟨h2, e2, s2⟩ := Steps.remove G1
    refine ⟨h2, ?_, s1.trans G ?_⟩
    · simp only [mergeRun, List.map_cons, List.map_nil, bind_apply, get_apply, e1, e2]
    · rw [e3]
      simp only [mergeGroup, List.map_cons, List.map_nil, runText, ← hl]
      exact s2
  | k :: l :: m :: more =>
    have e0 : a ++ (k :: l :: m :: more) ++ b = a ++ k :: ((l :: m :: more) ++ b) := by simp
    have hl : (l :: m :: more).map (fun r => r.attrs.text) =
        ((l :: m :: more).map root).map fun r => (h.get r).text := by
      rw [List.map_map]
      apply List.map_congr_left
      intro r hr'
      exact (text_of_holds (G.holds r (by
        simp only [List.mem_append, List.mem_cons] at hr' ⊢; tauto))).symm
    rw [e0] at G ⊢
    obtain ⟨h1, e1, s1⟩ := Steps.setText
      (fun t => joinRun t (((l :: m :: more).map root).map fun r => (h.get r).text)) G (hr k (by simp))
    have G1 := s1.good
    have e3 : ∀ k' : LTree, a ++ k' :: ((l :: m :: more) ++ b) = (a ++ [k']) ++ (l :: m :: more) ++ b := by
      intro k'; simp
    rw [e3] at G1
    obtain ⟨h2, e2, s2⟩ := removeAll_steps (l :: m :: more) G1
    refine ⟨h2, ?_, s1.trans G ?_⟩
    · simp only [mergeRun, List.map_cons, bind_apply, get_apply]
      simp only [List.map_cons] at e1 e2
      rw [e1]; exact e2
    · rw [e3]
      simp only [mergeGroup]
      rw [hl]
      exact s2

theorem mergeTexts_steps {h : Heap} {i ks} (G : Good h (some i) [] ks) :
    ∃ h', mergeTexts i h = .ok () h' ∧ Steps h i ks h' (mergeL ks) := by
  have hg : groupRuns (fun c => h.isInst c .Text) (h.children i) =
      (groupRuns isT ks).map fun g => (g.1, g.2.map root) := by
    rw [G.kids i rfl, List.nil_append]
    exact groupRuns_map root _ isT ks fun k hk => (G.holds k hk).isInst _
  have key : ∀ (gs : List (Bool × List LTree)) (h : Heap) (a : List LTree),
      (∀ g ∈ gs, ∀ x ∈ g.2, isT x = g.1) → (∀ g ∈ gs, g.2 ≠ []) →
      Good h (some i) [] (a ++ gs.flatMap (·.2)) →
      ∃ h', forEach (fun g : Bool × List Ref => if g.1 then mergeRun g.2 else pure ())
          (gs.map fun g => (g.1, g.2.map root)) h = .ok () h' ∧
        Steps h i (a ++ gs.flatMap (·.2)) h' (a ++ gs.flatMap mergeGroup) := by
    intro gs
    induction gs with
    | nil => intro h a _ _ G; exact ⟨h, rfl, by simpa using Steps.refl G⟩
    | cons g gs ih =>
      intro h a hkey hne G
      obtain ⟨b, run⟩ := g
      have e0 : a ++ ((b, run) :: gs).flatMap (·.2) = a ++ run ++ gs.flatMap (·.2) := by simp
      have e1 : a ++ ((b, run) :: gs).flatMap mergeGroup =
        a ++ mergeGroup (b, run) ++ gs.flatMap mergeGroup := by simp
      rw [e0] at G ⊢
      rw [e1]
      cases b with
      | true =>
        obtain ⟨h1, x1, s1⟩ := mergeRun_steps G (hkey (true, run) (by simp)) (hne (true, run) (by simp))
        obtain ⟨h2, x2, s2⟩ := ih h1 _ (fun g hg => hkey g (by simp [hg]))
          (fun g hg => hne g (by simp [hg])) s1.good
        refine ⟨h2, ?_, s1.trans G s2⟩
        rw [List.map_cons, forEach_cons]
        simp only [if_true, x1]
        exact x2
      | false =>
        have hm : mergeGroup (false, run) = run := by simp [mergeGroup]
        rw [hm]
        obtain ⟨h2, x2, s2⟩ := ih h _ (fun g hg => hkey g (by simp [hg]))
          (fun g hg => hne g (by simp [hg])) G
        refine ⟨h2, ?_, s2⟩
        rw [List.map_cons, forEach_cons]
        simpa using x2
  have := key (groupRuns isT ks) h [] (groupRuns_key isT ks) (groupRuns_nonempty isT ks)
    (by rw [List.nil_append, groupRuns_flat]; exact G)
  rw [List.nil_append, List.nil_append, groupRuns_flat] at this
  obtain ⟨h', e, s⟩ := this
  refine ⟨h', ?_, s⟩
  unfold mergeTexts
  simp only [bind_apply, get_apply]
  rw [hg]; exact e

/-! ### Stripping -/

def mapIfText (f : Str → Str) (k : LTree) : LTree := if k.isT then k.mapText f else k

@[simp] theorem root_mapIfText (f k) : (mapIfText f k).root = k.root := by
  unfold mapIfText; split <;> simp
@[simp] theorem isT_mapIfText (f k) : (mapIfText f k).isT = k.isT := by
  unfold mapIfText; split <;> simp
@[simp] theorem cls_mapIfText (f k) : (mapIfText f k).attrs.cls = k.attrs.cls := by
  unfold mapIfText; split <;> simp

/-- Change the first child if it is a text. -/
def mapHead (f : Str → Str) : List LTree → List LTree
  | [] => []
  | k :: ks => mapIfText f k :: ks

/-- Change the last child if it is a text. -/
def mapLast (f : Str → Str) (ks : List LTree) : List LTree :=
  match ks.getLast? with
  | none => []
  | some k => ks.dropLast ++ [mapIfText f k]

theorem mapLast_append (f : Str → Str) (a : List LTree) (k : LTree) :
    mapLast f (a ++ [k]) = a ++ [mapIfText f k] := by
  simp [mapLast]

theorem setIfText_steps {h : Heap} {i a k b} (f : Str → Str) (G : Good h (some i) [] (a ++ k :: b)) :
    ∃ h', setIfText (some k.root) f h = .ok () h' ∧
      Steps h i (a ++ k :: b) h' (a ++ mapIfText f k :: b) := by
  have hi : h.isInst k.root .Text = k.isT := (G.holds k (by simp)).isInst .Text
  unfold setIfText mapIfText
  simp only [bind_apply, get_apply, hi]
  by_cases hk : k.isT = true
  · obtain ⟨h', e, s⟩ := Steps.setText f G hk
    refine ⟨h', ?_, ?_⟩
    · rw [if_pos hk]; exact e
    · rw [if_pos hk]; exact s
  · refine ⟨h, ?_, ?_⟩
    · rw [if_neg hk]; rfl
    · rw [if_neg hk]; exact Steps.refl G

theorem setHead_steps {h : Heap} {i ks} (f : Str → Str) (G : Good h (some i) [] ks) :
    ∃ h', setIfText (ks.map root).head? f h = .ok () h' ∧ Steps h i ks h' (mapHead f ks) := by
  cases ks with
  | nil => exact ⟨h, rfl, Steps.refl G⟩
  | cons k ks => exact setIfText_steps (a := []) f G

theorem setLast_steps {h : Heap} {i ks} (f : Str → Str) (G : Good h (some i) [] ks) :
    ∃ h', setIfText (ks.map root).getLast? f h = .ok () h' ∧ Steps h i ks h' (mapLast f ks) := by
  cases hk : ks.getLast? with
  | none =>
    rw [List.getLast?_eq_none_iff] at hk
    subst hk
    exact ⟨h, rfl, Steps.refl G⟩
  | some k =>
    obtain ⟨a, rfl⟩ := List.getLast?_eq_some_iff.mp hk
    rw [mapLast_append]
    simpa using setIfText_steps (b := []) f G

/-- The children after stripping both ends. -/
def stripL (ks : List LTree) : List LTree := mapLast rstrip (mapHead lstrip ks)

theorem map_root_mapHead (f ks) : (mapHead f ks).map root = ks.map root := by
  cases ks <;> simp [mapHead]

theorem whenFirst_eq {h : Heap} {i ks} (G : Good h (some i) [] ks) (c : Cls) (act : Ref → HeapM Unit) :
    whenFirst (h.firstOfType i [c]) act h =
      match ks with
      | [] => .ok () h
      | k :: _ => if k.attrs.cls.isSub c then act k.root h else .ok () h := by
  unfold Heap.firstOfType
  have hki := G.kids i rfl
  rw [List.nil_append] at hki
  rw [hki]
  cases ks with
  | nil => rfl
  | cons k ks =>
    have hik : ∀ u ∈ k :: ks, h.isInstAny u.root [c] = u.attrs.cls.isSub c := by
      intro u hu
      unfold Heap.isInstAny Cls.isSubAny
      rw [(G.holds u hu).cls]; simp
    rw [List.map_cons, List.zipIdx_cons, List.find?_cons]
    simp only [hik k (by simp)]
    by_cases hk : k.attrs.cls.isSub c = true
    · simp only [hk, if_true]
      unfold whenFirst
      simp only [bind_apply, get_apply]
      have : h.prevSibling k.root .any = .ok none := by
        unfold Heap.prevSibling
        rw [(G.holds k (by simp)).parent]
        simp only [hki, List.map_cons]
        rw [show (k.root :: ks.map root).idxOf? k.root = some 0 by simp [List.idxOf?_cons]]
        simp
      rw [this]
      simp [liftSib, pure_apply]
    · simp only [hk, Bool.false_eq_true, if_false]
      cases hf : List.find? (fun ci => h.isInstAny ci.1 [c]) ((ks.map root).zipIdx (0 + 1)) with
      | none => rfl
      | some ri =>
        obtain ⟨r, j⟩ := ri
        have hm := List.mem_of_find?_eq_some hf
        have hr : r ∈ ks.map root := by
          have := List.mem_zipIdx hm
          rw [this.2.2]; exact List.getElem_mem _
        obtain ⟨u, hu, rfl⟩ := List.mem_map.mp hr
        unfold whenFirst
        simp only [bind_apply, get_apply]
        have hne : u.root ≠ k.root := by
          have := roots_nodup G.nodup
          rw [List.map_cons, List.nodup_cons] at this
          exact fun e => this.1 (e ▸ hr)
        have : ∃ s, h.prevSibling u.root .any = .ok (some s) := by
          unfold Heap.prevSibling
          rw [(G.holds u (by simp [hu])).parent]
          simp only [hki, List.map_cons]
          obtain ⟨n, hn⟩ : ∃ n, (k.root :: ks.map root).idxOf? u.root = some (n + 1) := by
            have h1 : ((k.root :: ks.map root).idxOf? u.root).isSome := by
              rw [List.isSome_idxOf?]; simp; exact .inr ⟨u, hu, rfl⟩
            obtain ⟨m, hm⟩ := Option.isSome_iff_exists.mp h1
            cases m with
            | zero =>
              obtain ⟨pre, post, e1, e2, e3⟩ := Nodes.idxOf?_split.mp hm
              have : pre = [] := List.length_eq_zero_iff.mp e3
              subst this
              simp at e1
              exact absurd e1.1.symm hne
            | succ n => exact ⟨n, hm⟩
          rw [hn]
          simp only
          obtain ⟨pre, post, e1, e2, e3⟩ := Nodes.idxOf?_split.mp hn
          have hlt : n < (k.root :: ks.map root).length := by
            rw [e1]; simp; omega
          exact ⟨_, by rw [List.getElem?_eq_getElem hlt]⟩
        obtain ⟨s, hs⟩ := this
        rw [hs]
        simp [liftSib, pure_apply]

end Normalize
end RSM
