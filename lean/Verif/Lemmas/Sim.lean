import Verif.Model.Transformer
import Verif.Spec.History

/-!
# Two runs of one program side by side

For C87.  The first run starts where there are no objects, the second one where there are `n`: what is the
object `r` for the first is `r + n` for the second.  `Sim` says that two pieces of code behave alike in this
sense; the first may run out of fuel.
-/

namespace RSM
namespace History
open PyM

theorem Bd.mono {N M : Nat} {a : NodeRec} (h : Bd N a) (hn : N ≤ M) : Bd M a :=
  ⟨fun p hp => Nat.lt_of_lt_of_le (h.parent p hp) hn, fun p hp => Nat.lt_of_lt_of_le (h.kids p hp) hn,
    fun p hp => Nat.lt_of_lt_of_le (h.target p hp) hn, fun p hp => Nat.lt_of_lt_of_le (h.targets p hp) hn⟩

theorem zipIdx_shift (n : Nat) : ∀ (l : List Nat) (k : Nat), (l.map (· + n)).zipIdx k = (l.zipIdx k).map fun p => (p.1 + n, p.2)
  | [], _ => rfl
  | x :: l, k => by simp [List.zipIdx_cons, zipIdx_shift n l]

theorem find_map {α β : Type} (p : β → Bool) (q : α → Bool) (f : α → β) :
    ∀ l : List α, (∀ x ∈ l, p (f x) = q x) → (l.map f).find? p = (l.find? q).map f
  | [], _ => rfl
  | x :: l, h => by
    rw [List.map_cons, List.find?_cons, List.find?_cons, h x (by simp)]
    cases q x
    · exact find_map p q f l fun y hy => h y (by simp [hy])
    · rfl

theorem idxOf_shift (n : Nat) (r : Nat) : ∀ l : List Nat, (l.map (· + n)).idxOf? (r + n) = l.idxOf? r
  | [] => rfl
  | x :: l => by
    rw [List.map_cons, List.idxOf?_cons, List.idxOf?_cons, idxOf_shift n r l]
    by_cases h : x = r
    · subst h; simp
    · rw [if_neg (by simpa using h), if_neg (by simpa using h)]

section Twin
variable {n : Nat} {h0 h : Heap} (T : Twin n h0 h) {r : Ref}
include T

theorem Twin.isInst (hr : r < h0.next) (c : Cls) : h.isInst (r + n) c = h0.isInst r c := by
  unfold Heap.isInst; rw [T.get r hr]; rfl

theorem Twin.isInstAny (hr : r < h0.next) (cs : List Cls) : h.isInstAny (r + n) cs = h0.isInstAny r cs := by
  unfold Heap.isInstAny; rw [T.get r hr]; rfl

theorem Twin.children (hr : r < h0.next) : h.children (r + n) = (h0.children r).map (· + n) := by
  unfold Heap.children
  rw [T.isInst hr, T.get r hr]
  split <;> rfl

theorem Twin.kid (hr : r < h0.next) : ∀ x ∈ h0.children r, x < h0.next := by
  intro x hx
  unfold Heap.children at hx
  split at hx
  · exact (T.bd r hr).kids x hx
  · cases hx

theorem Twin.parent (hr : r < h0.next) : h.parent (r + n) = (h0.parent r).map (· + n) := by
  unfold Heap.parent; rw [T.get r hr]; rfl

theorem Twin.par (hr : r < h0.next) : ∀ p ∈ h0.parent r, p < h0.next := (T.bd r hr).parent

theorem Twin.update {f0 f : NodeRec → NodeRec} (hr : r < h0.next)
    (hf : ∀ a, Bd h0.next a → f (shiftRec n a) = shiftRec n (f0 a) ∧ Bd h0.next (f0 a)) :
    Twin n (h0.update r f0) (h.update (r + n) f) := by
  refine ⟨T.next, fun x hx => ?_, fun x hx => ?_⟩
  · have hx' : x < h0.next := hx
    rw [Heap.get_update, Heap.get_update]
    by_cases e : x = r
    · subst e
      rw [if_pos rfl, if_pos rfl, T.get x hx', (hf _ (T.bd x hx')).1]
    · rw [if_neg e, if_neg (by omega), T.get x hx']
  · have hx' : x < h0.next := hx
    rw [Heap.get_update]
    split
    · exact (hf _ (T.bd x hx')).2
    · exact T.bd x hx'

theorem Twin.alloc {a : NodeRec} (ha : Bd (h0.next + 1) a) :
    Twin n (h0.alloc a).2 (h.alloc (shiftRec n a)).2 := by
  refine ⟨?_, fun x hx => ?_, fun x hx => ?_⟩
  · show h.next + 1 = h0.next + 1 + n
    rw [T.next]; omega
  · have hx' : x < h0.next + 1 := hx
    show (if x + n = h.next then _ else h.get (x + n)) = shiftRec n (if x = h0.next then _ else h0.get x)
    by_cases e : x = h0.next
    · rw [if_pos e, if_pos (by rw [T.next, e])]
    · rw [if_neg e, if_neg (by rw [T.next]; omega), T.get x (by omega)]
  · have hx' : x < h0.next + 1 := hx
    show Bd (h0.next + 1) (if x = h0.next then _ else h0.get x)
    split
    · exact ha
    · exact (T.bd x (by omega)).mono (by omega)

theorem Twin.firstOfType (hr : r < h0.next) (cs : List Cls) :
    h.firstOfType (r + n) cs = (h0.firstOfType r cs).map fun p => (p.1 + n, p.2) := by
  unfold Heap.firstOfType
  rw [T.children hr, zipIdx_shift]
  refine find_map _ _ _ _ fun x hx => ?_
  exact T.isInstAny (T.kid hr _ (List.fst_mem_of_mem_zipIdx hx)) cs

theorem Twin.first_lt (hr : r < h0.next) {cs : List Cls} {x : Ref} {i : Nat}
    (hx : h0.firstOfType r cs = some (x, i)) : x < h0.next :=
  T.kid hr _ (List.fst_mem_of_mem_zipIdx (List.mem_of_find?_eq_some hx))

theorem Twin.lastOfType (hr : r < h0.next) (cs : List Cls) :
    h.lastOfType (r + n) cs = (h0.lastOfType r cs).map fun p => (p.1 + n, p.2) := by
  unfold Heap.lastOfType
  rw [T.children hr, ← List.map_reverse, zipIdx_shift, find_map _ (fun ci => h0.isInstAny ci.1 cs), List.length_map,
    Option.map_map, Option.map_map]
  · rfl
  · intro x hx
    exact T.isInstAny (T.kid hr _ (List.mem_reverse.1 (List.fst_mem_of_mem_zipIdx hx))) cs

theorem Twin.last_lt (hr : r < h0.next) {cs : List Cls} {x : Ref} {i : Nat}
    (hx : h0.lastOfType r cs = some (x, i)) : x < h0.next := by
  unfold Heap.lastOfType at hx
  rw [Option.map_eq_some_iff] at hx
  obtain ⟨⟨y, j⟩, h1, h2⟩ := hx
  cases h2
  exact T.kid hr _ (List.mem_reverse.1 (List.fst_mem_of_mem_zipIdx (List.mem_of_find?_eq_some h1)))

theorem Twin.sibTest (hr : r < h0.next) {x : Ref} (hx : x < h0.next) (a : Heap.SibArg) :
    h.sibTest (r + n) a (x + n) = h0.sibTest r a x := by
  cases a with
  | any => rfl
  | self =>
    show h.isInst (x + n) (h.get (r + n)).cls = h0.isInst x (h0.get r).cls
    rw [T.isInst hx, T.get r hr]; rfl
  | cls c => exact T.isInst hx c

/-- The siblings are alike, and they exist. -/
theorem Twin.prevSibling (hr : r < h0.next) (a : Heap.SibArg) :
    h.prevSibling (r + n) a = (h0.prevSibling r a).map (Option.map (· + n)) := by
  unfold Heap.prevSibling
  rw [T.parent hr]
  cases e : h0.parent r with
  | none => rfl
  | some p =>
    have hp := T.par hr p e
    simp only [Option.map_some]
    rw [T.children hp, idxOf_shift]
    cases h0.children p |>.idxOf? r with
    | none => rfl
    | some i =>
      have key : ((h0.children p).map (· + n) |>.take i).reverse.find? (h.sibTest (r + n) a) =
          (((h0.children p).take i).reverse.find? (h0.sibTest r a)).map (· + n) := by
        rw [← List.map_take, ← List.map_reverse]
        exact find_map _ _ _ _ fun x hx => T.sibTest hr (T.kid hp x (List.mem_of_mem_take (List.mem_reverse.1 hx))) a
      cases a <;> cases i <;> first | (simp only [key]; rfl) | (simp only [List.getElem?_map]; rfl)

theorem Twin.nextSibling (hr : r < h0.next) (a : Heap.SibArg) :
    h.nextSibling (r + n) a = (h0.nextSibling r a).map (Option.map (· + n)) := by
  unfold Heap.nextSibling
  rw [T.parent hr]
  cases e : h0.parent r with
  | none => rfl
  | some p =>
    have hp := T.par hr p e
    simp only [Option.map_some]
    rw [T.children hp, idxOf_shift]
    cases h0.children p |>.idxOf? r with
    | none => rfl
    | some i =>
      have key : (((h0.children p).map (· + n)).drop (i + 1)).find? (h.sibTest (r + n) a) =
          (((h0.children p).drop (i + 1)).find? (h0.sibTest r a)).map (· + n) := by
        rw [← List.map_drop]
        exact find_map _ _ _ _ fun x hx => T.sibTest hr (T.kid hp x (List.mem_of_mem_drop hx)) a
      cases a with
      | any =>
        simp only [List.length_map, List.getElem?_map]
        split
        · rfl
        · rw [key]; rfl
      | self => simp only [key]; rfl
      | cls c => simp only [key]; rfl

theorem Twin.prev_lt (hr : r < h0.next) {a : Heap.SibArg} {x : Ref} (hx : h0.prevSibling r a = .ok (some x)) :
    x < h0.next := by
  unfold Heap.prevSibling at hx
  split at hx
  · cases hx
  · rename_i p e
    have hp := T.par hr p e
    simp only [] at hx
    split at hx
    · cases hx
    · split at hx
      · exact T.kid hp x (List.mem_of_getElem? (Except.ok.inj hx))
      · exact T.kid hp x (List.mem_of_mem_take (List.mem_reverse.1 (List.mem_of_find?_eq_some (Except.ok.inj hx))))

theorem Twin.next_lt (hr : r < h0.next) {a : Heap.SibArg} {x : Ref} (hx : h0.nextSibling r a = .ok (some x)) :
    x < h0.next := by
  unfold Heap.nextSibling at hx
  split at hx
  · cases hx
  · rename_i p e
    have hp := T.par hr p e
    simp only [] at hx
    split at hx
    · cases hx
    · split at hx
      · split at hx
        · exact T.kid hp x (List.mem_of_getElem? (Except.ok.inj hx))
        · exact T.kid hp x (List.mem_of_mem_drop (List.mem_of_find?_eq_some (Except.ok.inj hx)))
      · exact T.kid hp x (List.mem_of_mem_drop (List.mem_of_find?_eq_some (Except.ok.inj hx)))

theorem Twin.firstAncestor (cs : List Cls) : ∀ {k k' : Nat} {r : Ref} {x : Option Ref}, k ≤ k' → r < h0.next →
    h0.firstAncestorOfType cs k r = some x →
    h.firstAncestorOfType cs k' (r + n) = some (x.map (· + n)) ∧ ∀ y ∈ x, y < h0.next
  | 0, _, _, _, _, _, hx => by cases hx
  | k + 1, 0, _, _, hk, _, _ => by omega
  | k + 1, k' + 1, r, x, hk, hr, hx => by
    unfold Heap.firstAncestorOfType at hx ⊢
    rw [T.parent hr]
    cases e : h0.parent r with
    | none =>
      rw [e] at hx
      cases hx
      exact ⟨rfl, fun _ h => by cases h⟩
    | some p =>
      have hp := T.par hr p e
      rw [e] at hx
      simp only [Option.map_some] at hx ⊢
      rw [show (h.get (p + n)).cls = (h0.get p).cls by rw [T.get p hp]; rfl]
      split at hx
      · rename_i hc
        rw [if_pos hc]
        cases hx
        exact ⟨rfl, fun y hy => by cases hy; exact hp⟩
      · rename_i hc
        rw [if_neg hc]
        exact Twin.firstAncestor cs (by omega) hp hx

theorem Twin.fullNumber : ∀ {k k' : Nat} {r : Ref} {x : Option Str}, k ≤ k' → r < h0.next →
    h0.fullNumber k r = some x → h.fullNumber k' (r + n) = some x
  | 0, _, _, _, _, _, hx => by cases hx
  | k + 1, 0, _, _, hk, _, _ => by omega
  | k + 1, k' + 1, r, x, hk, hr, hx => by
    unfold Heap.fullNumber at hx ⊢
    simp only [T.get r hr] at hx ⊢
    rw [show (shiftRec n (h0.get r)).cls = (h0.get r).cls from rfl,
      show (shiftRec n (h0.get r)).nonum = (h0.get r).nonum from rfl,
      show (shiftRec n (h0.get r)).number = (h0.get r).number from rfl]
    split at hx
    · rename_i hc; rw [if_pos hc]; exact hx
    rename_i hc
    rw [if_neg hc]
    split at hx
    · rename_i hc; rw [if_pos hc]; exact hx
    rename_i hc2
    rw [if_neg hc2]
    simp only [Option.bind_eq_bind] at hx ⊢
    rw [Option.bind_eq_some_iff] at hx ⊢
    obtain ⟨a1, h1, h2⟩ := hx
    obtain ⟨e1, b1⟩ := T.firstAncestor _ hk hr h1
    refine ⟨_, e1, ?_⟩
    cases a1 with
    | some a =>
      simp only [Option.map_some, Option.bind_some] at h2 ⊢
      rw [Option.bind_eq_some_iff] at h2 ⊢
      obtain ⟨fa, h4, h5⟩ := h2
      exact ⟨fa, Twin.fullNumber (by omega) (b1 a rfl) h4, h5⟩
    | none =>
      simp only [Option.map_none] at h2 ⊢
      rw [Option.bind_eq_some_iff] at h2 ⊢
      obtain ⟨a2, h3, h4⟩ := h2
      obtain ⟨e2, b2⟩ := T.firstAncestor _ hk hr h3
      refine ⟨_, e2, ?_⟩
      cases a2 with
      | none => exact h4
      | some a =>
        simp only [Option.map_some] at h4 ⊢
        rw [Option.bind_eq_some_iff] at h4 ⊢
        obtain ⟨fa, h4, h5⟩ := h4
        exact ⟨fa, Twin.fullNumber (by omega) (b2 a rfl) h4, h5⟩

theorem Twin.traverse {c0 c : Ref → Bool} (hc : ∀ r < h0.next, c (r + n) = c0 r) :
    ∀ {k k' : Nat} {st l : List Ref}, k ≤ k' → (∀ r ∈ st, r < h0.next) → h0.traverse c0 k st = some l →
      h.traverse c k' (st.map (· + n)) = some (l.map (· + n)) ∧ ∀ x ∈ l, x < h0.next
  | 0, _, _, _, _, _, hx => by cases hx
  | k + 1, 0, _, _, hk, _, _ => by omega
  | k + 1, k' + 1, [], l, hk, _, hx => by cases hx; exact ⟨rfl, fun _ h => by cases h⟩
  | k + 1, k' + 1, r :: st, l, hk, hs, hx => by
    have hr := hs r (by simp)
    rw [Heap.traverse] at hx
    rw [List.map_cons, Heap.traverse, T.children hr, ← List.map_append]
    cases e : h0.traverse c0 k (h0.children r ++ st) with
    | none => rw [e] at hx; cases hx
    | some rest =>
      rw [e] at hx
      obtain ⟨h1, h2⟩ := Twin.traverse hc (by omega : k ≤ k') (fun x hx => by
        rcases List.mem_append.1 hx with hx | hx
        · exact T.kid hr x hx
        · exact hs x (by simp [hx])) e
      rw [h1, hc r hr]
      cases hx
      simp only []
      split
      · refine ⟨rfl, fun x hx => ?_⟩
        rcases List.mem_cons.1 hx with rfl | hx
        · exact hr
        · exact h2 x hx
      · exact ⟨rfl, h2⟩

end Twin

/-! ## Code -/

/-- What a value looks like in the two runs, and which objects it may refer to. -/
structure Kind (α : Type) where
  ok : Nat → α → Prop
  map : α → α
  mono : ∀ {N M a}, N ≤ M → ok N a → ok M a

/-- Values without objects. -/
def plain {α : Type} : Kind α := ⟨fun _ _ => True, id, fun _ _ => trivial⟩

/-- Objects. -/
def ref (n : Nat) : Kind Ref := ⟨fun N r => r < N, (· + n), fun h1 h2 => Nat.lt_of_lt_of_le h2 h1⟩

/-- `None`, or something. -/
def opt {α : Type} (k : Kind α) : Kind (Option α) :=
  ⟨fun N o => ∀ a ∈ o, k.ok N a, Option.map k.map, fun h1 h2 a ha => k.mono h1 (h2 a ha)⟩

/-- Lists. -/
def list {α : Type} (k : Kind α) : Kind (List α) :=
  ⟨fun N o => ∀ a ∈ o, k.ok N a, List.map k.map, fun h1 h2 a ha => k.mono h1 (h2 a ha)⟩

/-- The attributes of a node. -/
def record (n : Nat) : Kind NodeRec := ⟨Bd, shiftRec n, fun h1 h2 => h2.mono h1⟩

/-- A relation between the states of the two runs; how many objects the first has made. -/
structure Pairing (σ : Type) where
  size : σ → Nat
  rel : σ → σ → Prop

/-- The two results are alike, and no objects have been lost. -/
inductive Alike {σ α : Type} (ρ : Pairing σ) (k : Kind α) (N : Nat) : Res σ α → Res σ α → Prop
  | ok {a b s0 s} : ρ.rel s0 s → N ≤ ρ.size s0 → k.ok (ρ.size s0) a → b = k.map a → Alike ρ k N (.ok a s0) (.ok b s)
  | err {e s0 s} : ρ.rel s0 s → N ≤ ρ.size s0 → Alike ρ k N (.err e s0) (.err e s)
  | fuel {s0 x} : Alike ρ k N (.err .outOfFuel s0) x

/-- Two pieces of code behave alike where at least `N` objects have been made. -/
def Sim {σ α : Type} (ρ : Pairing σ) (k : Kind α) (N : Nat) (m0 m : PyM σ α) : Prop :=
  ∀ s0 s, ρ.rel s0 s → N ≤ ρ.size s0 → Alike ρ k (ρ.size s0) (m0 s0) (m s)

section Sim
variable {σ τ α β : Type} {ρ : Pairing σ} {k : Kind α} {k' : Kind β} {N : Nat}

theorem Alike.mono {M : Nat} {x y : Res σ α} (h : Alike ρ k M x y) (hn : N ≤ M) : Alike ρ k N x y := by
  cases h with
  | ok a b c d => exact .ok a (Nat.le_trans hn b) c d
  | err a b => exact .err a (Nat.le_trans hn b)
  | fuel => exact .fuel

theorem s_mono {M : Nat} {m0 m : PyM σ α} (h : Sim ρ k N m0 m) (hn : N ≤ M) : Sim ρ k M m0 m :=
  fun s0 s hr hm => h s0 s hr (Nat.le_trans hn hm)

theorem s_pure {a b : α} (ha : k.ok N a) (hb : b = k.map a) : Sim ρ k N (pure a) (pure b) :=
  fun _ _ hr hm => .ok hr (Nat.le_refl _) (k.mono hm ha) hb

theorem s_unit : Sim ρ (plain (α := Unit)) N (Pure.pure ()) (Pure.pure ()) := s_pure trivial rfl

theorem s_val (a : α) : Sim ρ plain N (Pure.pure a) (Pure.pure a) := s_pure trivial rfl

theorem s_throw (e : PyErr) : Sim ρ k N (throw e) (throw e) := fun _ _ hr _ => .err hr (Nat.le_refl _)

theorem s_outOfFuel {m : PyM σ α} : Sim ρ k N (PyM.throw .outOfFuel) m := fun _ _ _ _ => .fuel

theorem s_bind {m0 m : PyM σ α} {f0 f : α → PyM σ β} (h : Sim ρ k N m0 m)
    (hf : ∀ M a, N ≤ M → k.ok M a → Sim ρ k' M (f0 a) (f (k.map a))) : Sim ρ k' N (m0 >>= f0) (m >>= f) := by
  intro s0 s hr hm
  rw [bind_apply, bind_apply]
  have := h s0 s hr hm
  generalize m0 s0 = x at this
  generalize m s = y at this
  cases this with
  | ok a b c d => rw [d]; exact (hf _ _ (Nat.le_trans hm b) c _ _ a (Nat.le_refl _)).mono b
  | err a b => exact .err a b
  | fuel => exact .fuel

theorem s_then {m0 m : PyM σ α} {f0 f : α → PyM σ β} (h : Sim ρ (plain (α := α)) N m0 m)
    (hf : ∀ M a, N ≤ M → Sim ρ k' M (f0 a) (f a)) : Sim ρ k' N (m0 >>= f0) (m >>= f) :=
  s_bind h fun M a hm _ => hf M a hm

theorem s_get {f0 f : σ → PyM σ β}
    (hf : ∀ s0 s, ρ.rel s0 s → N ≤ ρ.size s0 → Sim ρ k' (ρ.size s0) (f0 s0) (f s)) :
    Sim ρ k' N (PyM.get >>= f0) (PyM.get >>= f) := by
  intro s0 s hr hm
  exact hf s0 s hr hm s0 s hr (Nat.le_refl _)

theorem s_modify {f0 f : σ → σ} (hf : ∀ s0 s, ρ.rel s0 s → N ≤ ρ.size s0 → ρ.rel (f0 s0) (f s) ∧ ρ.size s0 ≤ ρ.size (f0 s0)) :
    Sim ρ (plain (α := Unit)) N (PyM.modify f0) (PyM.modify f) := by
  intro s0 s hr hm
  obtain ⟨h1, h2⟩ := hf s0 s hr hm
  exact .ok h1 h2 trivial rfl

theorem s_forEach {b0 b : α → PyM σ Unit}
    (hb : ∀ M a, N ≤ M → k.ok M a → Sim ρ plain M (b0 a) (b (k.map a))) : ∀ {l : List α}, (∀ a ∈ l, k.ok N a) →
    Sim ρ plain N (PyM.forEach b0 l) (PyM.forEach b (l.map k.map))
  | [], _ => s_unit
  | x :: l, hl => by
    refine s_then (hb N x (Nat.le_refl _) (hl x (by simp))) fun M _ hm => ?_
    exact s_mono (s_forEach hb fun a ha => hl a (by simp [ha])) hm

theorem s_each {b0 b : α → PyM σ Unit} (hb : ∀ M a, N ≤ M → Sim ρ plain M (b0 a) (b a)) (l : List α) :
    Sim ρ plain N (PyM.forEach b0 l) (PyM.forEach b l) := by
  have := s_forEach (k := plain (α := α)) (fun M a hm _ => hb M a hm) (l := l) fun _ _ => trivial
  rwa [show l.map (plain (α := α)).map = l from List.map_id l] at this

theorem s_ite {c c' : Prop} [Decidable c] [Decidable c'] {m0 m m0' m' : PyM σ α} (hc : c ↔ c')
    (h1 : c → Sim ρ k N m0 m) (h2 : ¬ c → Sim ρ k N m0' m') :
    Sim ρ k N (if c then m0 else m0') (if c' then m else m') := by
  by_cases h : c
  · rw [if_pos h, if_pos (hc.1 h)]; exact h1 h
  · rw [if_neg h, if_neg (fun h' => h (hc.2 h'))]; exact h2 h

/-- The parts of two states that are alike are alike. -/
structure Lens (ρ : Pairing σ) (ρ' : Pairing τ) (getter : σ → τ) (setter : τ → σ → σ) : Prop where
  get : ∀ s0 s, ρ.rel s0 s → ρ'.rel (getter s0) (getter s)
  size : ∀ s0, ρ'.size (getter s0) = ρ.size s0
  set : ∀ s0 s t0 t, ρ.rel s0 s → ρ'.rel t0 t → ρ.size s0 ≤ ρ'.size t0 → ρ.rel (setter t0 s0) (setter t s)
  resize : ∀ s0 t0, ρ.size (setter t0 s0) = ρ'.size t0

theorem s_zoom {ρ' : Pairing τ} {getter : σ → τ} {setter : τ → σ → σ} (L : Lens ρ ρ' getter setter)
    {m0 m : PyM τ α} (h : Sim ρ' k N m0 m) : Sim ρ k N (PyM.zoom getter setter m0) (PyM.zoom getter setter m) := by
  intro s0 s hr hm
  unfold PyM.zoom
  have := h _ _ (L.get s0 s hr) (by rw [L.size]; exact hm)
  rw [L.size] at this
  generalize m0 (getter s0) = x at this
  generalize m (getter s) = y at this
  cases this with
  | ok a b c d => exact .ok (L.set _ _ _ _ hr a b) (by rw [L.resize]; exact b) (by rw [L.resize]; exact c) d
  | err a b => exact .err (L.set _ _ _ _ hr a b) (by rw [L.resize]; exact b)
  | fuel => exact .fuel

end Sim

/-! ## Heaps -/

/-- Code over the objects. -/
def heaps (n : Nat) : Pairing Heap := ⟨Heap.next, Twin n⟩

end History
end RSM
