import Verif.Model.Parser

/-! The loop of the parser as a recursion (helper lemmas). -/

namespace RSM
namespace Parser
open PyM Nodes

/-- The nodes of several entries. -/
def weight : List Entry → Nat
  | [] => 0
  | e :: es => e.cst.size + weight es

theorem weight_append (a b : List Entry) : weight (a ++ b) = weight a + weight b := by
  induction a with
  | nil => simp [weight]
  | cons e a ih => simp only [List.cons_append, weight, ih]; omega

theorem weight_sublist {a b : List Entry} (h : a.Sublist b) : weight a ≤ weight b := by
  induction h with
  | slnil => simp
  | cons _ _ ih => simp only [weight]; omega
  | cons_cons _ _ ih => simp only [weight]; omega

theorem weight_neighbours (p : Option Ref) : ∀ (cs : List Cst) (prev : Option Cst),
    weight ((neighbours prev cs).map fun x => ⟨p, x.1, x.2.1, x.2.2⟩) = Cst.sizeL cs
  | [], _ => by simp [neighbours, weight, Cst.sizeL]
  | c :: cs, prev => by simp [neighbours, weight, Cst.sizeL, weight_neighbours p cs]

theorem Cst.size_eq (c : Cst) : c.size = Cst.sizeL c.children + 1 := by
  cases c; rw [Cst.size]; rfl

theorem weight_entriesOf (p : Option Ref) (c : Cst) (cond) : weight (entriesOf p c cond) < c.size := by
  have h1 := weight_neighbours p c.children none
  have h2 : (entriesOf p c cond).Sublist
      ((neighbours none c.children).map fun x => ⟨p, x.1, x.2.1, x.2.2⟩) :=
    List.filter_sublist.map _
  have := weight_sublist h2
  rw [Cst.size_eq]; omega

theorem size_le_sizeL : ∀ {cs : List Cst} {c : Cst}, c ∈ cs → c.size ≤ Cst.sizeL cs
  | d :: cs, c, h => by
    simp only [Cst.sizeL]
    rcases List.mem_cons.mp h with rfl | h
    · omega
    · have := size_le_sizeL h; omega

theorem size_lt_of_named {c x : Cst} (h : x ∈ c.namedChildren) : x.size < c.size := by
  have h1 : x ∈ c.children := (List.mem_filter.mp h).1
  have := size_le_sizeL h1
  rw [Cst.size_eq c]; omega

theorem item_ok {l : List Cst} {i : Nat} {c : Cst} (h : item l i = .ok c) : l[i]? = some c := by
  unfold item at h
  split at h
  · rename_i e; cases h; exact e
  · cases h

theorem roleOf_ok {c : Cst} {type : Str} {x : Cst} {skip} (h : roleOf c = .ok (.as type x skip)) :
    x = c ∨ x ∈ c.namedChildren := by
  unfold roleOf at h
  simp only [bind, Except.bind] at h
  repeat' split at h
  all_goals first
    | cases h; done
    | (cases h; exact .inl rfl)
    | (cases h; rename_i e _; exact .inr (List.mem_of_getElem? (item_ok e)))

theorem lift_ok {α : Type} {x : Except PyErr α} {s s' : PState} {a : α} (h : lift x s = .ok a s') :
    x = .ok a ∧ s' = s := by
  cases x with
  | error e => cases h
  | ok b => cases h; exact ⟨rfl, rfl⟩

/-- What is pushed is smaller than what was handled. -/
theorem visit_weight {e : Entry} {s s' : PState} {new : List Entry} (h : visit e s = .ok new s') :
    weight new < e.cst.size := by
  have hpos : 0 < e.cst.size := by rw [Cst.size_eq]; omega
  have bindE : ∀ {α β : Type} {m : ParseM α} {f : α → ParseM β} {s : PState} {b s'},
      (m >>= f) s = .ok b s' → ∃ a s1, m s = .ok a s1 ∧ f a s1 = .ok b s' := by
    intro α β m f s b s' h
    rw [bind_apply] at h
    split at h
    · exact ⟨_, _, by assumption, h⟩
    · cases h
  have pureE : ∀ {α : Type} {a b : α} {s s' : PState}, (pure a : ParseM α) s = .ok b s' → b = a := by
    intro α a b s s' h; rw [pure_apply] at h; cases h; rfl
  unfold visit at h
  split at h
  · rw [pureE h]; exact hpos
  split at h
  · unfold visitBibliography at h
    obtain ⟨_, _, _, h⟩ := bindE h
    obtain ⟨_, _, _, h⟩ := bindE h
    obtain ⟨_, _, _, h⟩ := bindE h
    obtain ⟨_, _, _, h⟩ := bindE h
    rw [pureE h]; exact hpos
  split at h
  · unfold visitBibtex at h
    split at h
    · obtain ⟨_, _, _, h⟩ := bindE h
      rw [pureE h]; exact hpos
    · obtain ⟨_, _, _, h⟩ := bindE h
      rw [pureE h]; exact weight_entriesOf _ _ _
  split at h
  · unfold visitBibitem at h
    obtain ⟨_, _, _, h⟩ := bindE h
    obtain ⟨_, _, _, h⟩ := bindE h
    obtain ⟨_, _, _, h⟩ := bindE h
    rw [pureE h]; exact hpos
  split at h
  · unfold visitHeading at h
    obtain ⟨_, _, _, h⟩ := bindE h
    obtain ⟨_, _, _, h⟩ := bindE h
    obtain ⟨_, _, _, h⟩ := bindE h
    obtain ⟨_, _, _, h⟩ := bindE h
    rw [pureE h]; exact weight_entriesOf _ _ _
  · obtain ⟨r, s1, hr, h⟩ := bindE h
    cases r with
    | through =>
      simp only at h
      rw [pureE h]
      have := weight_sublist (List.take_sublist 1 (entriesOf e.parent e.cst fun _ => true))
      have := weight_entriesOf e.parent e.cst fun _ => true
      omega
    | «as» type x skip =>
      simp only at h
      have hx : x = e.cst ∨ x ∈ e.cst.namedChildren := by
        apply roleOf_ok (type := type) (skip := skip)
        exact (lift_ok hr).1
      have hlt : x.size ≤ e.cst.size := by
        rcases hx with rfl | hx
        · exact Nat.le_refl _
        · exact Nat.le_of_lt (size_lt_of_named hx)
      unfold visitNode at h
      obtain ⟨_, _, _, h⟩ := bindE h
      obtain ⟨⟨_, _, _⟩, _, _, h⟩ := bindE h
      obtain ⟨_, _, _, h⟩ := bindE h
      obtain ⟨_, _, _, h⟩ := bindE h
      obtain ⟨_, _, _, h⟩ := bindE h
      obtain ⟨_, _, _, h⟩ := bindE h
      obtain ⟨_, _, _, h⟩ := bindE h
      rw [pureE h]
      exact Nat.lt_of_lt_of_le (weight_entriesOf _ _ _) hlt

/-- The loop as a recursion over the tree. -/
def run : Nat → Entry → ParseM Unit
  | 0, _ => throw .outOfFuel
  | k + 1, e => do
    let new ← visit e
    forEach (run k) new

theorem forEach_congr {α σ : Type} {f g : α → PyM σ Unit} : ∀ {l : List α}, (∀ x ∈ l, f x = g x) →
    forEach f l = forEach g l
  | [], _ => rfl
  | x :: l, h => by
    rw [forEach, forEach, h x (by simp), forEach_congr fun y hy => h y (by simp [hy])]

theorem size_le_weight : ∀ {es : List Entry} {e : Entry}, e ∈ es → e.cst.size ≤ weight es
  | d :: es, e, h => by
    simp only [weight]
    rcases List.mem_cons.mp h with rfl | h
    · omega
    · have := size_le_weight h; omega

/-- Beyond the size of the tree, fuel does not matter. -/
theorem run_fuel : ∀ {k j : Nat} {e : Entry}, e.cst.size ≤ k → e.cst.size ≤ j → run k e = run j e
  | 0, _, e, h, _ => by have := Cst.size_eq e.cst; omega
  | _, 0, e, _, h => by have := Cst.size_eq e.cst; omega
  | k + 1, j + 1, e, hk, hj => by
    funext s
    rw [run, run, bind_apply, bind_apply]
    cases h : visit e s with
    | err => rfl
    | ok new s' =>
      simp only
      have hw := visit_weight h
      rw [forEach_congr fun x hx => ?_]
      have := size_le_weight hx
      exact run_fuel (by omega) (by omega)

theorem forEach_append' {α σ : Type} (f : α → PyM σ Unit) : ∀ (a b : List α) (s : σ),
    forEach f (a ++ b) s = match forEach f a s with
      | .ok _ s' => forEach f b s'
      | .err e s' => .err e s'
  | [], b, s => rfl
  | x :: a, b, s => by
    simp only [List.cons_append, forEach_cons]
    cases f x s with
    | err => rfl
    | ok _ s' => exact forEach_append' f a b s'

theorem buildLoop_eq : ∀ (fuel k : Nat) (es : List Entry) (s : PState), weight es < fuel →
    (∀ e ∈ es, e.cst.size ≤ k) → buildLoop fuel es s = forEach (run k) es s
  | 0, _, _, _, h, _ => by omega
  | fuel + 1, k, [], s, _, _ => rfl
  | fuel + 1, k, e :: es, s, h, hk => by
    rw [buildLoop, bind_apply, forEach_cons]
    have hke := hk e (by simp)
    have hpos := Cst.size_eq e.cst
    obtain ⟨j, rfl⟩ : ∃ j, k = j + 1 := ⟨k - 1, by omega⟩
    rw [run, bind_apply]
    cases hv : visit e s with
    | err => rfl
    | ok new s' =>
      simp only
      have hw := visit_weight hv
      simp only [weight] at h
      rw [buildLoop_eq fuel (j + 1) (new ++ es) s' (by rw [weight_append]; omega), forEach_append']
      · have hf : forEach (run (j + 1)) new = forEach (run j) new := forEach_congr fun x hx => by
          have := size_le_weight hx
          exact run_fuel (by omega) (by omega)
        rw [hf]
        cases forEach (run j) new s' <;> rfl
      · intro x hx
        rcases List.mem_append.mp hx with hx | hx
        · have := size_le_weight hx; omega
        · exact hk x (by simp [hx])

end Parser
end RSM
