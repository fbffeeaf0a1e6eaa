import Verif.Lemmas.Sim
import Verif.Model.Normalize

/-!
# The operations on the tree, side by side

For C87.
-/

namespace RSM
namespace History
open PyM Nodes

section
variable {n N : Nat} {r : Ref}

theorem s_read {α : Type} {k : Kind α} {f0 f : Heap → HeapM α}
    (hf : ∀ h0 h, Twin n h0 h → N ≤ h0.next → Sim (heaps n) k h0.next (f0 h0) (f h)) :
    Sim (heaps n) k N (get >>= f0) (get >>= f) := s_get hf

theorem s_update {f0 f : NodeRec → NodeRec} (hr : r < N)
    (hf : ∀ M a, N ≤ M → Bd M a → f (shiftRec n a) = shiftRec n (f0 a) ∧ Bd M (f0 a)) :
    Sim (heaps n) plain N (modify (·.update r f0)) (modify (·.update (r + n) f)) := by
  refine s_modify fun h0 h T hm => ⟨?_, Nat.le_refl _⟩
  have T : Twin n h0 h := T
  exact T.update (Nat.lt_of_lt_of_le hr hm) fun a ha => hf _ a hm ha

/-- An assignment that concerns no objects. -/
theorem s_assign (f : NodeRec → NodeRec) (hr : r < N)
    (h1 : ∀ a, f (shiftRec n a) = shiftRec n (f a))
    (h2 : ∀ a, (f a).parent = a.parent ∧ (f a).kids = a.kids ∧ (f a).target = a.target ∧ (f a).targets = a.targets) :
    Sim (heaps n) plain N (modify (·.update r f)) (modify (·.update (r + n) f)) := by
  refine s_update hr fun M a hm ha => ⟨h1 a, ?_⟩
  obtain ⟨e1, e2, e3, e4⟩ := h2 a
  exact ⟨e1 ▸ ha.parent, e2 ▸ ha.kids, e3 ▸ ha.target, e4 ▸ ha.targets⟩

theorem s_new {a : NodeRec} (ha : Bd (N + 1) a) :
    Sim (heaps n) (ref n) N (Nodes.new a) (Nodes.new (shiftRec n a)) := by
  intro h0 h T hm
  have T : Twin n h0 h := T
  have hm : N ≤ h0.next := hm
  show Alike _ _ _ (Res.ok h0.next (h0.alloc a).2) (Res.ok h.next (h.alloc (shiftRec n a)).2)
  refine .ok (T.alloc (ha.mono (by omega))) ?_ ?_ T.next
  · exact Nat.le_succ _
  · exact Nat.lt_succ_self _

theorem bd_new (c : Cls) : Bd N (NodeRec.new c) :=
  ⟨fun _ h => (by cases h), fun _ h => (by cases h), fun _ h => (by cases h), fun _ h => (by cases h)⟩

theorem s_make {a : NodeRec} (h1 : a.parent = none) (h2 : a.kids = []) (h3 : ∀ x, a.target ≠ .node x)
    (h4 : a.targets = []) : Sim (heaps n) (ref n) N (Nodes.new a) (Nodes.new a) := by
  have : shiftRec n a = a := by
    unfold shiftRec
    cases a
    simp only [] at h1 h2 h3 h4
    subst h1 h2 h4
    rename_i t _ _ _ _ _ _ _ _ _ _ _ _ _ _ _
    cases t <;> first | rfl | exact absurd rfl (h3 _)
  have key := s_new (n := n) (N := N) (a := a) ⟨by simp [h1], by simp [h2], fun x hx => absurd hx (h3 x), by simp [h4]⟩
  rwa [this] at key

theorem s_makeNew (c : Cls) : Sim (heaps n) (ref n) N (Nodes.new (NodeRec.new c)) (Nodes.new (NodeRec.new c)) 
    := s_make rfl rfl (fun _ h => by cases h) rfl

theorem s_setKids {f0 f : List Ref → List Ref} (hr : r < N)
    (hf : ∀ M l, N ≤ M → (∀ x ∈ l, x < M) → f (l.map (· + n)) = (f0 l).map (· + n) ∧ ∀ x ∈ f0 l, x < M) :
    Sim (heaps n) plain N (setKids r f0) (setKids (r + n) f) := by
  refine s_update hr fun M a hm ha => ?_
  obtain ⟨h1, h2⟩ := hf M a.kids hm ha.kids
  refine ⟨?_, ha.parent, h2, ha.target, ha.targets⟩
  show ({ shiftRec n a with kids := f (a.kids.map (· + n)) } : NodeRec) = _
  rw [h1]; rfl

theorem s_setParent {p : Option Ref} (hr : r < N) (hp : ∀ q ∈ p, q < N) :
    Sim (heaps n) plain N (setParent r p) (setParent (r + n) (p.map (· + n))) := by
  cases p with
  | none =>
    exact s_update hr fun M a hm ha => ⟨rfl, fun _ h => (by cases h), ha.kids, ha.target, ha.targets⟩
  | some q =>
    have hq := hp q rfl
    have key : ∀ M, N ≤ M → Sim (heaps n) plain M (modify (·.update r fun n => { n with parent := some q }))
        (modify (·.update (r + n) fun m => { m with parent := some (q + n) })) := fun M hM =>
      s_update (Nat.lt_of_lt_of_le hr hM) fun K a hm ha =>
        ⟨rfl, fun x hx => by cases hx; exact Nat.lt_of_lt_of_le hq (Nat.le_trans hM hm), ha.kids, ha.target, ha.targets⟩
    unfold Nodes.setParent
    simp only [Option.map_some]
    refine s_read fun h0 h T hm => ?_
    rw [T.get r (by omega), T.get q (by omega)]
    refine s_ite Iff.rfl (fun _ => key _ hm) fun _ => s_ite Iff.rfl (fun _ => s_throw _) fun _ => key _ hm

theorem s_requireNWC (hr : r < N) : Sim (heaps n) plain N (requireNWC r) (requireNWC (r + n)) := by
  refine s_read fun h0 h T hm => ?_
  rw [T.isInst (by omega)]
  exact s_ite Iff.rfl (fun _ => s_unit) fun _ => s_throw _

theorem s_refs {b0 b : Ref → HeapM Unit} {l : List Ref}
    (hb : ∀ M a, N ≤ M → a < M → Sim (heaps n) plain M (b0 a) (b (a + n))) (hl : ∀ a ∈ l, a < N) :
    Sim (heaps n) plain N (forEach b0 l) (forEach b (l.map (· + n))) :=
  s_forEach (k := ref n) hb hl

theorem s_clear (hr : r < N) : Sim (heaps n) plain N (clear r) (clear (r + n)) := by
  refine s_then (s_requireNWC hr) fun M _ hm => s_read fun h0 h T hm1 => ?_
  rw [T.get r (by omega)]
  refine s_then (s_refs (fun K a hk ha => s_setParent (p := none) ha (fun _ h => by cases h)) (T.bd r (by omega)).kids)
    fun K _ hk => ?_
  exact s_setKids (by omega) fun _ _ _ _ => ⟨rfl, fun _ h => by cases h⟩

theorem s_append {c : Ref} (hr : r < N) (hc : c < N) : Sim (heaps n) plain N (append r c) (append (r + n) (c + n)) := by
  refine s_then (s_requireNWC hr) fun M _ hm => s_read fun h0 h T hm1 => ?_
  rw [T.parent (by omega)]
  refine s_ite (by cases h0.parent c <;> simp) (fun _ => s_throw _) fun _ => ?_
  refine s_then (s_setKids (by omega) fun K l hk hl => ⟨by simp, fun x hx => ?_⟩) fun K _ hk =>
    s_setParent (p := some r) (by omega) fun q hq => by cases hq; omega
  rcases List.mem_append.1 hx with hx | hx
  · exact hl x hx
  · cases List.mem_singleton.1 hx; omega

theorem s_appendAll {cs : List Ref} (hr : r < N) (hc : ∀ c ∈ cs, c < N) :
    Sim (heaps n) plain N (appendAll r cs) (appendAll (r + n) (cs.map (· + n))) := by
  refine s_then (s_requireNWC hr) fun M _ hm => ?_
  exact s_refs (fun K a hk ha => s_append (by omega) ha) fun a ha => Nat.lt_of_lt_of_le (hc a ha) hm

theorem some_add (p : Option Ref) (r : Ref) : (p.map (· + n) != some (r + n)) = (p != some r) := by
  cases p with
  | none => rfl
  | some q =>
    by_cases h : q = r
    · subst h; simp
    · have h1 : (some (q + n) != some (r + n)) = true := bne_iff_ne.2 fun e => h (by
        have := Option.some.inj e; omega)
      have h2 : (some q != some r) = true := bne_iff_ne.2 fun e => h (Option.some.inj e)
      exact h1.trans h2.symm

theorem s_prepend {c : Ref} (hr : r < N) (hc : c < N) : Sim (heaps n) plain N (prepend r c) (prepend (r + n) (c + n)) := by
  refine s_then (s_requireNWC hr) fun M _ hm => s_read fun h0 h T hm1 => ?_
  rw [T.parent (by omega), some_add]
  refine s_ite (by cases h0.parent c <;> simp) (fun _ => s_throw _) fun _ => ?_
  refine s_then (s_setKids (by omega) fun K l hk hl => ⟨by simp, fun x hx => ?_⟩) fun K _ hk =>
    s_setParent (p := some r) (by omega) fun q hq => by cases hq; omega
  rcases List.mem_cons.1 hx with rfl | hx
  · omega
  · exact hl x hx

theorem s_prependAll {cs : List Ref} (hr : r < N) (hc : ∀ c ∈ cs, c < N) :
    Sim (heaps n) plain N (prependAll r cs) (prependAll (r + n) (cs.map (· + n))) := by
  refine s_then (s_requireNWC hr) fun M _ hm => ?_
  rw [← List.map_reverse]
  exact s_refs (fun K a hk ha => s_prepend (by omega) ha) fun a ha =>
    Nat.lt_of_lt_of_le (hc a (List.mem_reverse.1 ha)) hm

theorem eraseIdx_shift (n : Nat) : ∀ (l : List Nat) (i : Nat), (l.map (· + n)).eraseIdx i = (l.eraseIdx i).map (· + n)
  | [], _ => rfl
  | _ :: _, 0 => rfl
  | x :: l, i + 1 => by simp [eraseIdx_shift n l i]

theorem s_remove {c : Ref} (hr : r < N) (hc : c < N) : Sim (heaps n) plain N (remove r c) (remove (r + n) (c + n)) := by
  refine s_then (s_requireNWC hr) fun M _ hm => s_read fun h0 h T hm1 => ?_
  rw [T.get r (by omega), show (shiftRec n (h0.get r)).kids = (h0.get r).kids.map (· + n) from rfl, idxOf_shift]
  cases (h0.get r).kids.idxOf? c with
  | none => exact s_throw _
  | some i =>
    refine s_then (s_setKids (by omega) fun K l hk hl => ⟨eraseIdx_shift n l i, fun x hx =>
      hl x (List.mem_of_mem_eraseIdx hx)⟩) fun K _ hk => s_setParent (p := none) (by omega) fun _ h => by cases h

theorem s_insertReplacements : ∀ {cs : List Ref} {N : Nat} {i : Nat}, r < N → (∀ c ∈ cs, c < N) →
    Sim (heaps n) plain N (insertReplacements r i cs) (insertReplacements (r + n) i (cs.map (· + n)))
  | [], _, _, _, _ => s_unit
  | c :: cs, N, i, hr, hc => by
    have h1 := hc c (by simp)
    refine s_then (s_setKids hr fun K l hk hl => ⟨by simp [pyInsert], fun x hx => ?_⟩) fun K _ hk =>
      s_then (s_setParent (p := some r) (by omega) fun q hq => by cases hq; omega) fun L _ hl =>
      s_insertReplacements (by omega) fun c h => Nat.lt_of_lt_of_le (hc c (by simp [h])) (by omega)
    rcases List.mem_append.1 hx with hx | hx
    · exact hl x (List.mem_of_mem_take hx)
    · rcases List.mem_cons.1 hx with rfl | hx
      · omega
      · exact hl x (List.mem_of_mem_drop hx)

theorem s_replaceSelf {cs : List Ref} (hr : r < N) (hc : ∀ c ∈ cs, c < N) :
    Sim (heaps n) plain N (replaceSelf r cs) (replaceSelf (r + n) (cs.map (· + n))) := by
  refine s_read fun h0 h T hm => ?_
  rw [T.parent (by omega)]
  cases e : h0.parent r with
  | none => exact s_throw _
  | some p =>
    have hp := T.par (by omega) p e
    simp only [Option.map_some]
    rw [T.children hp, idxOf_shift]
    cases (h0.children p).idxOf? r with
    | none => exact s_throw _
    | some i =>
      exact s_then (s_remove hp (by omega)) fun K _ hk =>
        s_insertReplacements (by omega) fun c h => Nat.lt_of_lt_of_le (hc c h) (by omega)

theorem s_removeSelf (hr : r < N) : Sim (heaps n) plain N (removeSelf r) (removeSelf (r + n)) := by
  refine s_read fun h0 h T hm => ?_
  rw [T.parent (by omega)]
  cases e : h0.parent r with
  | none => exact s_unit
  | some p =>
    have hp := T.par (by omega) p e
    exact s_then (s_remove hp (by omega)) fun K _ hk => s_setParent (p := none) (by omega) fun _ h => by cases h

/-! ## `_normalize_text` -/

open Normalize

theorem s_setText (f : Str → Str) (hr : r < N) : Sim (heaps n) plain N (setText r f) (setText (r + n) f) :=
  s_assign _ hr (fun _ => rfl) fun _ => ⟨rfl, rfl, rfl, rfl⟩

theorem s_mergeRun {run : List Ref} (hr : ∀ x ∈ run, x < N) :
    Sim (heaps n) plain N (mergeRun run) (mergeRun (run.map (· + n))) := by
  refine s_read fun h0 h T hm => ?_
  match run with
  | [] => exact s_unit
  | [_] => exact s_unit
  | [a, b] =>
    have ha := hr a (by simp)
    have hb := hr b (by simp)
    simp only [List.map_cons, List.map_nil]
    rw [T.get b (by omega)]
    exact s_then (s_setText _ (by omega)) fun K _ hk => s_removeSelf (by omega)
  | a :: b :: c :: l =>
    have ha := hr a (by simp)
    have e : ∀ l : List Ref, (∀ x ∈ l, x < h0.next) →
        (l.map (· + n)).map (fun r => (h.get r).text) = l.map (fun r => (h0.get r).text) := by
      intro l hl
      rw [List.map_map]
      refine List.map_congr_left fun x hx => ?_
      show (h.get (x + n)).text = _
      rw [T.get x (hl x hx)]; rfl
    have hl : ∀ x ∈ b :: c :: l, x < h0.next := fun x hx => Nat.lt_of_lt_of_le (hr x (List.mem_cons_of_mem _ hx)) hm
    have e := e (b :: c :: l) hl
    simp only [List.map_cons] at e ⊢
    rw [e]
    refine s_then (s_setText _ (by omega)) fun K _ hk => ?_
    exact s_refs (l := b :: c :: l) (fun L a _ ha => s_removeSelf ha) fun a ha => Nat.lt_of_lt_of_le (hl a ha) hk

theorem groupRuns_map {α β : Type} (p : β → Bool) (q : α → Bool) (f : α → β) : ∀ l : List α, (∀ x ∈ l, p (f x) = q x) →
    groupRuns p (l.map f) = (groupRuns q l).map fun g => (g.1, g.2.map f)
  | [], _ => rfl
  | x :: l, h => by
    have ih := groupRuns_map p q f l fun y hy => h y (by simp [hy])
    rw [List.map_cons, groupRuns, groupRuns, ih, h x (by simp)]
    cases groupRuns q l with
    | nil => rfl
    | cons g gs =>
      obtain ⟨b, run⟩ := g
      simp only [List.map_cons]
      by_cases e : b = q x
      · rw [if_pos e, if_pos e]; rfl
      · rw [if_neg e, if_neg e]; rfl

theorem groupRuns_sub {α : Type} (q : α → Bool) : ∀ l : List α, ∀ g ∈ groupRuns q l, ∀ x ∈ g.2, x ∈ l
  | [], _, hg, _, _ => by cases hg
  | a :: l, g, hg, x, hx => by
    have ih := groupRuns_sub q l
    rw [groupRuns] at hg
    cases e : groupRuns q l with
    | nil =>
      rw [e] at hg
      simp only [List.mem_singleton] at hg
      subst hg
      simp only [List.mem_singleton] at hx
      simp [hx]
    | cons g1 gs =>
      obtain ⟨b, run⟩ := g1
      rw [e] at hg ih
      simp only [] at hg
      split at hg
      · rcases List.mem_cons.1 hg with rfl | hg
        · rcases List.mem_cons.1 hx with rfl | hx
          · simp
          · exact List.mem_cons_of_mem _ (ih (b, run) (by simp) x hx)
        · exact List.mem_cons_of_mem _ (ih g (by simp [hg]) x hx)
      · rcases List.mem_cons.1 hg with rfl | hg
        · simp only [List.mem_singleton] at hx
          simp [hx]
        · exact List.mem_cons_of_mem _ (ih g hg x hx)

/-- The groups of `itertools.groupby`. -/
def runs (n : Nat) : Kind (Bool × List Ref) :=
  ⟨fun N g => ∀ x ∈ g.2, x < N, fun g => (g.1, g.2.map (· + n)), fun h1 h2 x hx => Nat.lt_of_lt_of_le (h2 x hx) h1⟩

theorem s_mergeTexts (hr : r < N) : Sim (heaps n) plain N (mergeTexts r) (mergeTexts (r + n)) := by
  refine s_read fun h0 h T hm => ?_
  have hr : r < h0.next := by omega
  rw [T.children hr, groupRuns_map _ (fun c => h0.isInst c .Text) (· + n) _ fun x hx => T.isInst (T.kid hr x hx) _]
  refine s_forEach (k := runs n) ?_ ?_
  · intro M g hM hg
    exact s_ite Iff.rfl (fun _ => s_mergeRun hg) fun _ => s_unit
  · exact fun g hg x hx => T.kid hr x (groupRuns_sub _ _ g hg x hx)

theorem s_setIfText {o : Option Ref} (f : Str → Str) (ho : ∀ x ∈ o, x < N) :
    Sim (heaps n) plain N (setIfText o f) (setIfText (o.map (· + n)) f) := by
  refine s_read fun h0 h T hm => ?_
  cases o with
  | none => exact s_unit
  | some x =>
    have hx := ho x rfl
    simp only [Option.map_some]
    rw [T.isInst (by omega)]
    exact s_ite Iff.rfl (fun _ => s_setText _ (by omega)) fun _ => s_unit

theorem s_stripEnds (hr : r < N) : Sim (heaps n) plain N (stripEnds r) (stripEnds (r + n)) := by
  refine s_read fun h0 h T hm => ?_
  have hr : r < h0.next := by omega
  rw [T.children hr, T.isInst hr, List.head?_map, List.getLast?_map]
  refine s_ite (by simp) (fun _ => ?_) fun _ => s_unit
  refine s_then (s_setIfText _ fun x hx => T.kid hr x (List.mem_of_mem_head? hx)) fun K _ hk => ?_
  exact s_setIfText _ fun x hx => Nat.lt_of_lt_of_le (T.kid hr x (List.mem_of_getLast? hx)) hk

theorem s_liftSib {e0 : Except PyErr (Option Ref)} (he : ∀ x, e0 = .ok (some x) → x < N) :
    Sim (heaps n) (opt (ref n)) N (liftSib e0) (liftSib (e0.map (Option.map (· + n)))) := by
  cases e0 with
  | error e => exact s_throw _
  | ok o => exact s_pure (fun a ha => he a (by rw [ha])) rfl

theorem s_whenFirst {o : Option (Ref × Nat)} {a0 a : Ref → HeapM Unit} (ho : ∀ x i, o = some (x, i) → x < N)
    (ha : ∀ M x, N ≤ M → x < M → Sim (heaps n) plain M (a0 x) (a (x + n))) :
    Sim (heaps n) plain N (whenFirst o a0) (whenFirst (o.map fun p => (p.1 + n, p.2)) a) := by
  match o with
  | none => exact s_unit
  | some (x, i) =>
    have hx := ho x i rfl
    refine s_read fun h0 h T hm => ?_
    rw [T.prevSibling (by omega)]
    refine s_bind (s_liftSib fun y hy => T.prev_lt (by omega) hy) fun K s hk _ => ?_
    exact s_ite (by cases s <;> simp [opt]) (fun _ => ha _ _ (by omega) (by omega)) fun _ => s_unit

theorem s_whenLast {o : Option (Ref × Nat)} {a0 a : Ref → HeapM Unit} (ho : ∀ x i, o = some (x, i) → x < N)
    (ha : ∀ M x, N ≤ M → x < M → Sim (heaps n) plain M (a0 x) (a (x + n))) :
    Sim (heaps n) plain N (whenLast o a0) (whenLast (o.map fun p => (p.1 + n, p.2)) a) := by
  match o with
  | none => exact s_unit
  | some (x, i) =>
    have hx := ho x i rfl
    refine s_read fun h0 h T hm => ?_
    rw [T.nextSibling (by omega)]
    refine s_bind (s_liftSib fun y hy => T.next_lt (by omega) hy) fun K s hk _ => ?_
    exact s_ite (by cases s <;> simp [opt]) (fun _ => ha _ _ (by omega) (by omega)) fun _ => s_unit

theorem s_stripParagraph (hr : r < N) : Sim (heaps n) plain N (stripParagraph r) (stripParagraph (r + n)) := by
  refine s_read fun h0 h T hm => ?_
  have hr : r < h0.next := by omega
  rw [T.isInst hr]
  refine s_ite Iff.rfl (fun _ => ?_) fun _ => s_unit
  rw [T.firstOfType hr]
  refine s_then (s_whenFirst (fun x i hx => T.first_lt hr hx) fun M x _ hx => s_setText _ hx) fun M _ hM => ?_
  refine s_read fun h1 h2 T2 hm2 => ?_
  rw [T2.lastOfType (by omega)]
  exact s_whenLast (fun x i hx => T2.last_lt (by omega) hx) fun M x _ hx => s_setText _ hx

theorem s_newText (s : Str) : Sim (heaps n) (ref n) N (newText s) (newText s) :=
  s_make rfl rfl (fun _ h => by cases h) rfl

theorem s_prependBlank (hr : r < N) : Sim (heaps n) plain N (prependBlank r) (prependBlank (r + n)) :=
  s_bind (s_newText _) fun K _ hk ht => s_prepend (by omega) ht

theorem s_prependKeyword (hr : r < N) : Sim (heaps n) plain N (prependKeyword r) (prependKeyword (r + n)) := by
  refine s_bind (s_makeNew _) fun K k hk ht => s_read fun h0 h T hm => ?_
  have hr : r < h0.next := by omega
  have ht : k < K := ht
  rw [T.get r hr, show (shiftRec n (h0.get r)).kind = (h0.get r).kind from rfl]
  cases keywordOf (h0.get r).kind with
  | none => exact s_throw _
  | some w =>
    refine s_bind (s_newText _) fun L t hL ht2 => ?_
    exact s_then (s_append (by omega) ht2) fun O _ ho => s_prepend (by omega) (by omega)

theorem s_openConstruct (hr : r < N) : Sim (heaps n) plain N (openConstruct r) (openConstruct (r + n)) := by
  refine s_read fun h0 h T hm => ?_
  have hr : r < h0.next := by omega
  rw [T.isInst hr]
  refine s_ite Iff.rfl (fun _ => ?_) fun _ => s_unit
  rw [T.firstOfType hr]
  refine s_then (s_whenFirst (fun x i hx => T.first_lt hr hx) fun M x _ hx => s_setText _ hx) fun M _ hM => ?_
  refine s_read fun h1 h2 T2 hm2 => ?_
  rw [T2.firstOfType (by omega)]
  refine s_then (s_whenFirst (fun x i hx => T2.first_lt (by omega) hx) fun M x _ hx => s_prependBlank (by omega)) fun K _ hk => ?_
  exact s_prependKeyword (by omega)

theorem s_squeeze (hr : r < N) : Sim (heaps n) plain N (squeeze r) (squeeze (r + n)) := by
  refine s_read fun h0 h T hm => ?_
  rw [T.isInst (by omega)]
  exact s_ite Iff.rfl (fun _ => s_then (s_setText _ (by omega)) fun K _ hk => s_setText _ (by omega)) fun _ => s_unit

theorem s_squeezeTexts (hr : r < N) : Sim (heaps n) plain N (squeezeTexts r) (squeezeTexts (r + n)) := by
  refine s_read fun h0 h T hm => ?_
  rw [T.children (by omega)]
  exact s_refs (fun M a _ ha => s_squeeze ha) (T.kid (by omega))

theorem s_spaceAfter (hr : r < N) : Sim (heaps n) plain N (spaceAfter r) (spaceAfter (r + n)) := by
  refine s_read fun h0 h T hm => ?_
  have hr : r < h0.next := by omega
  rw [T.nextSibling hr]
  cases e : h0.nextSibling r .any with
  | error x => exact s_throw x
  | ok o =>
    show Sim (heaps n) plain h0.next (if needsSpace h0 r o then _ else _) (if needsSpace h (r + n) (o.map (· + n)) then _ else _)
    refine s_ite ?_ (fun _ => ?_) fun _ => s_unit
    · cases o with
      | none => exact Iff.rfl
      | some x =>
        unfold needsSpace
        simp only [Option.map_some]
        rw [T.get r hr, T.get x (T.next_lt hr e)]
        exact Iff.rfl
    · refine s_bind (s_newText _) fun L t hL ht2 => ?_
      exact s_replaceSelf (cs := [r, t]) (by omega) fun c hc => by
        simp only [List.mem_cons, List.not_mem_nil, or_false] at hc
        rcases hc with rfl | rfl
        · omega
        · exact ht2

theorem s_unescapeNode (hr : r < N) : Sim (heaps n) plain N (unescapeNode r) (unescapeNode (r + n)) :=
  s_assign _ hr (fun _ => rfl) fun _ => ⟨rfl, rfl, rfl, rfl⟩

theorem s_normalizeNode (hr : r < N) : Sim (heaps n) plain N (normalizeNode r) (normalizeNode (r + n)) :=
  s_then (s_mergeTexts hr) fun _ _ _ => s_then (s_stripEnds (by omega)) fun _ _ _ =>
  s_then (s_stripParagraph (by omega)) fun _ _ _ => s_then (s_openConstruct (by omega)) fun _ _ _ =>
  s_then (s_squeezeTexts (by omega)) fun _ _ _ => s_then (s_spaceAfter (by omega)) fun _ _ _ =>
  s_unescapeNode (by omega)

end
end History
end RSM
