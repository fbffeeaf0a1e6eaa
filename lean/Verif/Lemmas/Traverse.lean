import Verif.Lemmas.Tree
import Verif.Lemmas.Reading
import Verif.Model.Transformer

/-! Rules for loops over a traversal. -/

namespace RSM
open PyM Tree Transformer

variable {σ : Type}

/-- The outcome satisfies `Q` if it is a return and `E` if it is an exception. -/
def Res.Sat {α : Type} (Q : α → σ → Prop) (E : PyErr → σ → Prop) : Res σ α → Prop
  | .ok a s => Q a s
  | .err e s => E e s

theorem Res.Sat.exists_ok {α : Type} {Q : α → σ → Prop} {r : Res σ α}
    (h : r.Sat Q fun _ _ => False) : ∃ a s, r = .ok a s ∧ Q a s := by
  cases r with
  | ok a s => exact ⟨a, s, rfl, h⟩
  | err e s => exact h.elim

theorem Res.Sat.mono {α : Type} {Q Q' : α → σ → Prop} {E E' : PyErr → σ → Prop} {r : Res σ α}
    (h : r.Sat Q E) (hQ : ∀ a s, Q a s → Q' a s) (hE : ∀ e s, E e s → E' e s) : r.Sat Q' E' := by
  cases r with
  | ok a s => exact hQ a s h
  | err e s => exact hE e s h

theorem PyM.bind_sat {α β : Type} {m : PyM σ α} {f : α → PyM σ β} {s : σ} {Q : α → σ → Prop}
    {R : β → σ → Prop} {E : PyErr → σ → Prop} (hm : (m s).Sat Q E)
    (hf : ∀ a s', Q a s' → (f a s').Sat R E) : ((m >>= f) s).Sat R E := by
  rw [bind_apply]
  cases h : m s with
  | ok a s' => rw [h] at hm; exact hf a s' hm
  | err e s' => rw [h] at hm; exact hm

/-- Assigning attributes other than the class and the children list. -/
theorem Heap.children_update (h : Heap) (r : Ref) (f : NodeRec → NodeRec)
    (hc : ∀ n, (f n).cls = n.cls) (hk : ∀ n, (f n).kids = n.kids) (x : Ref) :
    (h.update r f).children x = h.children x := by
  by_cases hx : x = r
  · subst hx; simp only [Heap.children, Heap.isInst, Heap.get_update_self, hc, hk]; rfl
  · simp only [Heap.children, Heap.isInst, Heap.get_update_of_ne _ _ hx]; rfl

theorem Heap.parent_update (h : Heap) (r : Ref) (f : NodeRec → NodeRec)
    (hc : ∀ n, (f n).parent = n.parent) (x : Ref) :
    (h.update r f).parent x = h.parent x := by
  by_cases hx : x = r
  · subst hx; simp only [Heap.parent, Heap.get_update_self, hc]
  · simp only [Heap.parent, Heap.get_update_of_ne _ _ hx]

/-- Loop over a traversal whose body leaves the children lists alone: it is a loop over the nodes in
document order. -/
theorem travLoop_forest (heapOf : σ → Heap) (cond : Heap → Ref → Bool) (body : Ref → PyM σ Unit)
    (hbody : ∀ r s x, (heapOf (body r s).state).children x = (heapOf s).children x)
    (C : Ref → List Ref) (ts : List Tree)
    (hC : ∀ t ∈ ts, ∀ i ks, Tree.node i ks ∈ t.subtrees → C i = ks.map root)
    (s : σ) (hs : ∀ x, (heapOf s).children x = C x) (fuel : Nat) (hfuel : sizeL ts < fuel) :
    travLoop heapOf cond body fuel (ts.map root) s =
      forEach (fun r s => if cond (heapOf s) r then body r s else .ok () s) (preL ts) s := by
  induction fuel generalizing ts s with
  | zero => omega
  | succ n ih =>
    cases ts with
    | nil => rfl
    | cons t ts =>
      obtain ⟨i, ks⟩ := t
      have hki := hC _ (List.mem_cons_self ..) i ks (self_mem_subtrees _)
      have hC' : ∀ t ∈ ks ++ ts, ∀ i ks, Tree.node i ks ∈ t.subtrees → C i = ks.map root := by
        intro t ht j js hj
        rcases List.mem_append.mp ht with h1 | h1
        · exact hC _ (List.mem_cons_self ..) j js (mem_subtrees_node.mpr (.inr ⟨t, h1, hj⟩))
        · exact hC t (by simp [h1]) j js hj
      have hf : sizeL (ks ++ ts) < n := by
        simp only [sizeL_cons, size_node] at hfuel
        rw [sizeL_append]; omega
      rw [List.map_cons, travLoop, root_node]
      simp only [preL_cons, pre_node, List.cons_append, forEach_cons]
      rw [← preL_append]
      split
      · cases hb : body i s with
        | err e s' => rfl
        | ok u s' =>
          have h' : ∀ x, (heapOf s').children x = C x := by
            intro x
            have := hbody i s x
            rw [hb] at this
            exact this.trans (hs x)
          simp only
          rw [h' i, hki, ← List.map_append, ih (ks ++ ts) hC' s' h' hf]
      · simp only
        rw [hs i, hki, ← List.map_append, ih (ks ++ ts) hC' s hs hf]

theorem IsTree.kids_of_subtree {h : Heap} {p t} (ht : IsTree h p t) {i ks}
    (hs : Tree.node i ks ∈ t.subtrees) : h.children i = ks.map root := by
  obtain ⟨q, hq⟩ := ht.subtree hs
  exact hq.children_root

/-- The same for the tree below the root. -/
theorem travLoop_tree (heapOf : σ → Heap) (cond : Heap → Ref → Bool) (body : Ref → PyM σ Unit)
    (hbody : ∀ r s x, (heapOf (body r s).state).children x = (heapOf s).children x)
    {p : Option Ref} {t : Tree} (s : σ) (ht : IsTree (heapOf s) p t) (fuel : Nat)
    (hfuel : t.size < fuel) :
    travLoop heapOf cond body fuel [t.root] s =
      forEach (fun r s => if cond (heapOf s) r then body r s else .ok () s) t.pre s := by
  have := travLoop_forest heapOf cond body hbody (heapOf s).children [t]
    (by
      intro t' ht' i ks hi
      simp only [List.mem_singleton] at ht'
      subst ht'
      exact ht.kids_of_subtree hi)
    s (fun _ => rfl) fuel (by simpa using hfuel)
  simpa using this

/-- Loop over a traversal whose body may change the tree elsewhere but, when it has run on a node,
leaves that node with the children it has in the tree `t`: an invariant indexed by the nodes
visited so far. -/
theorem travLoop_inv (heapOf : σ → Heap) (cond : Heap → Ref → Bool) (body : Ref → PyM σ Unit)
    (all : List Ref) (I : List Ref → σ → Prop) (E : PyErr → σ → Prop)
    (C : Ref → List Ref)
    (hbody : ∀ done r todo s, all = done ++ r :: todo → I done s → cond (heapOf s) r = true →
      (body r s).Sat (fun _ s' => I (done ++ [r]) s' ∧ (heapOf s').children r = C r) E)
    (hskip : ∀ done r todo s, all = done ++ r :: todo → I done s → cond (heapOf s) r = false →
      I (done ++ [r]) s ∧ (heapOf s).children r = C r)
    (ts : List Tree)
    (hC : ∀ t ∈ ts, ∀ i ks, Tree.node i ks ∈ t.subtrees → C i = ks.map root)
    (done : List Ref) (hall : all = done ++ preL ts)
    (s : σ) (hs : I done s) (fuel : Nat) (hfuel : sizeL ts < fuel) :
    (travLoop heapOf cond body fuel (ts.map root) s).Sat (fun _ s' => I all s') E := by
  induction fuel generalizing ts s done with
  | zero => omega
  | succ n ih =>
    cases ts with
    | nil =>
      simp only [preL_nil, List.append_nil] at hall
      subst hall
      exact hs
    | cons t ts =>
      obtain ⟨i, ks⟩ := t
      have hki := hC _ (List.mem_cons_self ..) i ks (self_mem_subtrees _)
      have hC' : ∀ t ∈ ks ++ ts, ∀ i ks, Tree.node i ks ∈ t.subtrees → C i = ks.map root := by
        intro t ht j js hj
        rcases List.mem_append.mp ht with h1 | h1
        · exact hC _ (List.mem_cons_self ..) j js (mem_subtrees_node.mpr (.inr ⟨t, h1, hj⟩))
        · exact hC t (by simp [h1]) j js hj
      have hf : sizeL (ks ++ ts) < n := by
        simp only [sizeL_cons, size_node] at hfuel
        rw [sizeL_append]; omega
      have hall1 : all = done ++ i :: preL (ks ++ ts) := by
        rw [hall]; simp
      have hall2 : all = (done ++ [i]) ++ preL (ks ++ ts) := by rw [hall1]; simp
      rw [List.map_cons, travLoop, root_node]
      by_cases hc : cond (heapOf s) i = true
      · have hb := hbody done i _ s hall1 hs hc
        rw [if_pos hc]
        cases hbd : body i s with
        | err e s' => rw [hbd] at hb; exact hb
        | ok u s' =>
          rw [hbd] at hb
          simp only
          rw [hb.2, hki, ← List.map_append]
          exact ih (ks ++ ts) hC' (done ++ [i]) hall2 s' hb.1 hf
      · rw [if_neg hc]
        have hb := hskip done i _ s hall1 hs (by simpa using hc)
        rw [hb.2, hki, ← List.map_append]
        exact ih (ks ++ ts) hC' (done ++ [i]) hall2 s hb.1 hf

/-- Invariant rule for a loop over a list, indexed by the elements visited so far. -/
theorem forEach_index {α : Type} (body : α → PyM σ Unit) (I : List α → σ → Prop)
    (E : PyErr → σ → Prop) (all : List α)
    (hbody : ∀ done r todo s, all = done ++ r :: todo → I done s →
      (body r s).Sat (fun _ s' => I (done ++ [r]) s') E)
    (l done : List α) (hall : all = done ++ l) (s : σ) (hs : I done s) :
    (forEach body l s).Sat (fun _ s' => I all s') E := by
  induction l generalizing done s with
  | nil =>
    simp only [List.append_nil] at hall
    subst hall
    exact hs
  | cons r l ih =>
    have hb := hbody done r l s hall hs
    rw [forEach_cons]
    cases hbd : body r s with
    | err e s' => rw [hbd] at hb; exact hb
    | ok u s' =>
      rw [hbd] at hb
      exact ih (done ++ [r]) (by rw [hall]; simp) s' hb

/-- Ancestors of a node of a tree. -/
theorem IsTree.ancestors {h : Heap} {p t} (ht : IsTree h p t) (lp : List Ref)
    (hlp : match p with
      | none => lp = []
      | some q => ∃ l, lp = q :: l ∧ Ancestors h q l)
    {r} (hr : r ∈ t.pre) :
    ∃ l, Ancestors h r (l ++ lp) ∧ l.length < t.size ∧ ∀ a ∈ l, a ∈ t.pre := by
  induction t using Tree.induct generalizing p lp with
  | _ i ks ih =>
    have hi : Ancestors h i lp := by
      have := ht.parent_root
      simp only [root_node] at this
      cases p with
      | none => simp only at hlp; subst hlp; exact this
      | some q => obtain ⟨l, rfl, hl⟩ := hlp; exact ⟨this, hl⟩
    simp only [pre_node, List.mem_cons, mem_preL] at hr
    rcases hr with rfl | ⟨k, hk, hr⟩
    · exact ⟨[], hi, by simp, by simp⟩
    · obtain ⟨l, h1, h2, h3⟩ := ih k hk ((isTree_node.mp ht).2.2 k hk) (i :: lp) ⟨lp, rfl, hi⟩ hr
      refine ⟨l ++ [i], by simpa using h1, ?_, ?_⟩
      · simp only [List.length_append, List.length_singleton, size_node]
        have : k.size ≤ sizeL ks := by
          obtain ⟨a, b, rfl⟩ := List.mem_iff_append.mp hk
          rw [sizeL_append]; simp; omega
        omega
      · intro a ha
        simp only [List.mem_append, List.mem_singleton] at ha
        simp only [pre_node, List.mem_cons, mem_preL]
        rcases ha with ha | rfl
        · exact .inr ⟨k, hk, h3 a ha⟩
        · exact .inl rfl

theorem Doc.ancestors {h : Heap} {root t} (D : Doc h root t) {r} (hr : r ∈ t.pre) :
    ∃ l, Ancestors h r l ∧ l.length < t.size ∧ ∀ a ∈ l, a ∈ t.pre := by
  obtain ⟨l, h1, h2⟩ := D.tree.ancestors [] rfl hr
  exact ⟨l, by simpa using h1, h2⟩

end RSM
