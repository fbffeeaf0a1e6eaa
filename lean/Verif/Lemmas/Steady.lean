import Verif.Model.Transformer

/-! # Lemmas: what holds for each node stays true through `transform`

If a condition on nodes is kept by each single change that the transformer makes, and holds for the nodes it
creates, then it is kept by every run of `transform`, also by those that raise. -/

namespace RSM
namespace Transformer
open PyM

/-- The code keeps what holds in its state. -/
def Holds {σ α : Type} (P : σ → Prop) (m : PyM σ α) : Prop := ∀ s, P s → P (m s).state

section
variable {σ τ α β : Type} {P : σ → Prop}

theorem Holds.pure (a : α) : Holds P (pure a : PyM σ α) := fun _ h => h
theorem Holds.throw (e : PyErr) : Holds P (throw e : PyM σ α) := fun _ h => h
theorem Holds.bind {m : PyM σ α} {f : α → PyM σ β} (hm : Holds P m) (hf : ∀ a, Holds P (f a)) : Holds P (m >>= f) := by
  intro s hs
  have h1 := hm s hs
  rw [bind_apply]
  cases e : m s with
  | ok a s' => rw [e] at h1; exact hf a s' h1
  | err x s' => rw [e] at h1; exact h1
theorem Holds.get {f : σ → PyM σ β} (hf : ∀ s, P s → Holds P (f s)) : Holds P (get >>= f) := fun s hs => hf s hs s hs
theorem Holds.modify {f : σ → σ} (hf : ∀ s, P s → P (f s)) : Holds P (modify f) := fun s hs => hf s hs
theorem Holds.modifyGet {f : σ → α × σ} (hf : ∀ s, P s → P (f s).2) : Holds P (modifyGet f) := fun s hs => hf s hs

theorem Holds.zoom {P' : τ → Prop} {getter : σ → τ} {setter : τ → σ → σ} {m : PyM τ α} (h1 : ∀ s, P s → P' (getter s))
    (h2 : ∀ t s, P s → P' t → P (setter t s)) (hm : Holds P' m) : Holds P (zoom getter setter m) := by
  intro s hs
  have := hm _ (h1 s hs)
  unfold PyM.zoom
  cases e : m (getter s) with
  | ok a t => rw [e] at this; exact h2 t s hs this
  | err a t => rw [e] at this; exact h2 t s hs this

theorem Holds.forEach {body : α → PyM σ Unit} {xs : List α} (h : ∀ x ∈ xs, Holds P (body x)) : Holds P (forEach body xs) := by
  induction xs with
  | nil => exact .pure ()
  | cons x xs ih =>
    rw [PyM.forEach]
    exact .bind (h x List.mem_cons_self) fun _ => ih fun y hy => h y (List.mem_cons_of_mem _ hy)

theorem Holds.mapM' {f : α → PyM σ β} {xs : List α} (h : ∀ x ∈ xs, Holds P (f x)) : Holds P (Transformer.mapM' f xs) := by
  induction xs with
  | nil => exact .pure _
  | cons x xs ih =>
    rw [Transformer.mapM']
    exact .bind (h x List.mem_cons_self) fun _ => .bind (ih fun y hy => h y (List.mem_cons_of_mem _ hy)) fun _ => .pure _

theorem Holds.travLoop {heapOf : σ → Heap} {cond : Heap → Ref → Bool} {body : Ref → PyM σ Unit}
    (h : ∀ r, Holds P (body r)) : ∀ fuel stack, Holds P (travLoop heapOf cond body fuel stack) := by
  intro fuel
  induction fuel with
  | zero => exact fun _ _ hs => hs
  | succ n ih =>
    intro stack s hs
    cases stack with
    | nil => exact hs
    | cons r stack =>
      rw [Transformer.travLoop]
      split
      · have h1 := h r s hs
        cases e : body r s with
        | ok a s' => rw [e] at h1; exact ih _ _ h1
        | err a s' => rw [e] at h1; exact h1
      · exact ih _ _ hs
end

/-- A condition on nodes that is kept by the changes that the transformer makes. -/
structure Steady (Q : Ref → NodeRec → Prop) : Prop where
  links : ∀ x n p ks, Q x n → Q x { n with parent := p, kids := ks }
  unlabel : ∀ x n, Q x n → Q x { n with label := [] }
  noTarget : ∀ x, Q x { NodeRec.new .Error with text := unknownLabelText "None".toList }
  error : ∀ x a l, Q x a → a.target = .str l → ∀ y, Q y { NodeRec.new .Error with text := unknownLabelText l }
  unknown : ∀ x a l, Q x a → l ∈ a.targetlabels → ∀ y,
    Q y { NodeRec.new .UnknownBibitem with number := .str (unknownLabelText l) }
  reference : ∀ x a z, Q x a → ∀ y,
    Q y { NodeRec.new .Reference with target := .node z, overwriteReftext := a.overwriteReftext }
  cite : ∀ ys k y, Q y { NodeRec.new .Cite with targets := ys, label := citeLabel k }
  backlink : ∀ x n k, Q x n → Q x { n with backlinks := n.backlinks ++ [citeLabel k] }
  made : ∀ c ∈ [Cls.Statement, .Subproof, .Item, .Itemize], ∀ y, Q y (NodeRec.new c)
  depth : ∀ x n k, Q x n → Q x { n with handrailDepth := k }
  number : ∀ x n k, Q x n → Q x { n with number := .int k }
  letter : ∀ x n c, c ∈ asciiUppercase → Q x n → Q x { n with number := .str [c] }
  template : ∀ x n, Q x n →
    Q x { n with reftextTemplate := pyReplace "{nodeclass}".toList "Appendix".toList n.reftextTemplate }
  entry : ∀ h : Heap, (∀ x, Q x (h.get x)) → ∀ fuel sec text, tocText fuel h sec = some text → ∀ y,
    Q y { NodeRec.new .Reference with target := .node sec, overwriteReftext := text }
  kind : ∀ x n, Q x n → Q x { n with types := n.types ++ [n.kind] }
  assumption : ∀ x n, Q x n → Q x { n with types := n.types ++ [assumptionType] }
  id : ∀ x n k, Q x n → Q x { n with nodeid := some k }

variable {Q : Ref → NodeRec → Prop}

/-- The condition holds for all nodes. -/
def All (Q : Ref → NodeRec → Prop) (h : Heap) : Prop := ∀ x, Q x (h.get x)

theorem All.update {h : Heap} (A : All Q h) (r : Ref) {f : NodeRec → NodeRec} (hf : Q r (h.get r) → Q r (f (h.get r))) :
    All Q (h.update r f) := by
  intro x
  unfold Heap.update
  dsimp only
  split
  · rename_i e; subst e; exact hf (A x)
  · exact A x

theorem All.alloc {h : Heap} (A : All Q h) {n : NodeRec} (hn : ∀ y, Q y n) : All Q (h.alloc n).2 := by
  intro x
  unfold Heap.alloc
  dsimp only
  split
  · exact hn x
  · exact A x

section
variable (S : Steady Q)
include S

theorem holds_setParent (r : Ref) (p : Option Ref) : Holds (All Q) (Nodes.setParent r p) := by
  unfold Nodes.setParent
  split
  · exact .modify fun h A => A.update r (S.links _ _ _ _)
  · refine .get fun h A => ?_
    dsimp only
    split
    · exact .modify fun h A => A.update r (S.links _ _ _ _)
    · split
      · exact .throw _
      · exact .modify fun h A => A.update r (S.links _ _ _ _)

theorem holds_setKids (r : Ref) (f : List Ref → List Ref) : Holds (All Q) (Nodes.setKids r f) :=
  .modify fun _ A => A.update r (S.links _ _ _ _)

omit S in
theorem holds_requireNWC (r : Ref) : Holds (All Q) (Nodes.requireNWC r) := by
  unfold Nodes.requireNWC
  refine .get fun h A => ?_
  split
  · exact .pure _
  · exact .throw _

theorem holds_clear (r : Ref) : Holds (All Q) (Nodes.clear r) :=
  .bind (holds_requireNWC r) fun _ => .get fun _ _ =>
    .bind (.forEach fun x _ => holds_setParent S x none) fun _ => holds_setKids S r _

theorem holds_append (r c : Ref) : Holds (All Q) (Nodes.append r c) := by
  refine .bind (holds_requireNWC r) fun _ => .get fun h _ => ?_
  split
  · exact .throw _
  · exact .bind (holds_setKids S r _) fun _ => holds_setParent S c _

theorem holds_appendAll (r : Ref) (cs : List Ref) : Holds (All Q) (Nodes.appendAll r cs) :=
  .bind (holds_requireNWC r) fun _ => .forEach fun x _ => holds_append S r x

theorem holds_remove (r c : Ref) : Holds (All Q) (Nodes.remove r c) := by
  refine .bind (holds_requireNWC r) fun _ => .get fun h _ => ?_
  split
  · exact .throw _
  · exact .bind (holds_setKids S r _) fun _ => holds_setParent S c _

theorem holds_insert (p : Ref) : ∀ (reps : List Ref) (i : Nat), Holds (All Q) (Nodes.insertReplacements p i reps)
  | [], _ => .pure ()
  | x :: reps, i => by
    rw [Nodes.insertReplacements]
    exact .bind (holds_setKids S p _) fun _ => .bind (holds_setParent S x _) fun _ => holds_insert p reps (i + 1)

theorem holds_replaceSelf (r : Ref) (reps : List Ref) : Holds (All Q) (Nodes.replaceSelf r reps) := by
  unfold Nodes.replaceSelf
  refine .get fun h _ => ?_
  split
  · exact .throw _
  · split
    · exact .throw _
    · exact .bind (holds_remove S _ r) fun _ => holds_insert S _ reps _

theorem holds_removeSelf (r : Ref) : Holds (All Q) (Nodes.removeSelf r) := by
  unfold Nodes.removeSelf
  refine .get fun h _ => ?_
  split
  · exact .pure _
  · exact .bind (holds_remove S _ r) fun _ => holds_setParent S r _
end

theorem holds_new {n : NodeRec} (hn : ∀ y, Q y n) : Holds (All Q) (Nodes.new n) := .modifyGet fun _ A => A.alloc hn

/-- The condition holds for all nodes of the transformer. -/
def AllT (Q : Ref → NodeRec → Prop) (s : TState) : Prop := All Q s.heap

theorem holds_onHeap {α : Type} {m : HeapM α} (h : Holds (All Q) m) : Holds (AllT Q) (onHeap m) :=
  .zoom (fun _ h => h) (fun _ _ _ h => h) h

theorem holds_warn (w : TWarning) : Holds (AllT Q) (warn w) := .modify fun _ h => h

theorem holds_assign (r : Ref) {f : NodeRec → NodeRec} (hf : ∀ n, Q r n → Q r (f n)) : Holds (AllT Q) (assign r f) :=
  .modify fun s h => All.update (h := s.heap) h r (hf _)

section
variable (S : Steady Q)
include S

theorem holds_collect (fuel : Nat) (root : Ref) : Holds (AllT Q) (collectLabels fuel root) := by
  refine .travLoop (fun r => ?_) _ _
  unfold collectBody
  refine .get fun s _ => ?_
  dsimp only
  split
  · exact .bind (holds_warn _) fun _ => holds_assign r (S.unlabel r)
  · exact .modify fun _ h => h

omit S in
theorem holds_labelToNode {l : Str} (hl : ∀ y, Q y { NodeRec.new .Error with text := unknownLabelText l }) :
    Holds (AllT Q) (labelToNode l) := by
  unfold labelToNode
  refine .get fun s _ => ?_
  split
  · exact .pure _
  · exact .bind (holds_warn _) fun _ => holds_onHeap (holds_new hl)

omit S in
theorem holds_labelToBibitem {l : Str}
    (hl : ∀ y, Q y { NodeRec.new .UnknownBibitem with number := .str (unknownLabelText l) }) :
    Holds (AllT Q) (labelToBibitem l) := by
  unfold labelToBibitem
  refine .get fun s _ => ?_
  split
  · exact .pure _
  · exact .bind (holds_warn _) fun _ => holds_onHeap (holds_new hl)

theorem holds_reference (r : Ref) : Holds (AllT Q) (resolveReference r) := by
  unfold resolveReference
  refine .get fun s A => ?_
  have key : ∀ l, (∀ y, Q y { NodeRec.new .Error with text := unknownLabelText l }) → Holds (AllT Q) (do
      let target ← labelToNode l
      let s ← get
      if s.heap.isInst target .Error then onHeap (Nodes.replaceSelf r [target])
      else do
        let ref ← onHeap (Nodes.new { NodeRec.new .Reference with
          target := .node target, overwriteReftext := (s.heap.get r).overwriteReftext })
        onHeap (Nodes.replaceSelf r [ref])) := by
    intro l hl
    refine .bind (holds_labelToNode hl) fun y => .get fun s2 A2 => ?_
    split
    · exact holds_onHeap (holds_replaceSelf S r _)
    · exact .bind (holds_onHeap (holds_new (S.reference _ _ y (A2 r)))) fun _ => holds_onHeap (holds_replaceSelf S r _)
  dsimp only
  split
  · rename_i l e
    exact key l (S.error _ _ l (A r) e)
  · exact key _ S.noTarget
  · exact .throw _

theorem holds_cite (k : Nat) (r : Ref) : Holds (AllT Q) (resolveCite k r) := by
  unfold resolveCite
  refine .get fun s A => .bind (.mapM' fun l hl => holds_labelToBibitem (S.unknown _ _ l (A r) hl)) fun ys =>
    .bind (holds_onHeap (holds_new (S.cite ys k))) fun c => .bind (holds_onHeap (holds_replaceSelf S r _)) fun _ =>
    .forEach fun y _ => ?_
  unfold appendBacklink
  refine .get fun s _ => ?_
  split
  · exact holds_assign y fun n hn => S.backlink y n k hn
  · exact .throw _

theorem holds_prev (fuel : Nat) (r : Ref) : Holds (AllT Q) (resolvePrev fuel r) := by
  unfold resolvePrev
  refine .get fun s A => ?_
  split
  · exact .throw _
  · exact .throw _
  · split
    · exact .throw _
    · split
      · exact .throw _
      · dsimp only
        split
        · exact .bind (holds_warn _) fun _ => .bind (holds_onHeap (holds_new (S.reference _ _ _ (A r)))) fun _ =>
            holds_onHeap (holds_replaceSelf S r _)
        · exact .bind (holds_onHeap (holds_new (S.reference _ _ _ (A r)))) fun _ => holds_onHeap (holds_replaceSelf S r _)

theorem holds_resolve (fuel : Nat) (root : Ref) : Holds (AllT Q) (resolvePendingReferences fuel root) := by
  unfold resolvePendingReferences
  refine .bind ?_ fun _ => .travLoop (fun _ => .throw _) _ _
  have key : Holds (fun s : ResolveState => AllT Q s.t) (travLoop (·.t.heap) isPending (resolveBody fuel) fuel [root]) := by
    refine .travLoop (fun r => ?_) _ _
    have onT : ∀ {m : TM Unit}, Holds (AllT Q) m → Holds (fun s : ResolveState => AllT Q s.t) (onT m) :=
      fun h => .zoom (fun _ h => h) (fun _ _ _ h => h) h
    unfold resolveBody
    refine .get fun s _ => ?_
    split
    · exact onT (holds_reference S r)
    · split
      · exact .bind (.modify fun _ h => h) fun _ => onT (holds_cite S _ r)
      · split
        · exact onT (holds_prev S fuel r)
        · exact .pure _
  intro s hs
  have := key { t := s } hs
  unfold runResolve
  cases e : travLoop (·.t.heap) isPending (resolveBody fuel) fuel [root] { t := s } with
  | ok a s' => rw [e] at this; exact this
  | err a s' => rw [e] at this; exact this

theorem holds_subproofs (fuel : Nat) (root : Ref) : Holds (AllT Q) (addNecessarySubproofs fuel root) := by
  refine .travLoop (fun r => ?_) _ _
  unfold subproofBody
  refine .get fun s _ => ?_
  split
  · exact .pure _
  · dsimp only
    refine .bind (holds_onHeap (holds_clear S r)) fun _ => .bind (holds_onHeap (holds_new (S.made _ (by decide)))) fun st =>
      .bind (holds_onHeap (holds_appendAll S st _)) fun _ => .bind (holds_assign st fun n hn => S.depth _ n _ hn) fun _ => ?_
    split
    · exact holds_onHeap (holds_append S r st)
    · refine .get fun s2 _ => ?_
      split
      · exact .bind (holds_onHeap (holds_new (S.made _ (by decide)))) fun sp =>
          .bind (holds_onHeap (holds_appendAll S sp _)) fun _ => holds_onHeap (holds_appendAll S r _)
      · split
        · have key : ∀ (c : Prop) [Decidable c] (xs : List Ref),
              Holds (AllT Q) (if c then onHeap (Nodes.appendAll r xs) else PyM.throw .assertionError) := by
            intro c _ xs
            split
            · exact holds_onHeap (holds_appendAll S r _)
            · exact .throw _
          exact key _ _
        · exact .throw _

theorem all_numberSteps {h : Heap} (A : All Q h) : ∀ (rs : List Ref) (i : Nat), All Q (numberSteps h i rs) := by
  intro rs
  induction rs generalizing h with
  | nil => exact fun _ => A
  | cons r rs ih => exact fun i => ih (A.update r (S.number _ _ _)) (i + 1)

omit S in
theorem value_cases {c : Counters} {m : Nat} {num : PyNum} (h : c.value m = some num) :
    (∃ ch ∈ asciiUppercase, num = .str [ch]) ∨ ∃ k : Int, num = .int k := by
  unfold Counters.value at h
  split at h
  · obtain ⟨c, hc, rfl⟩ := Option.map_eq_some_iff.mp h
    exact .inl ⟨c, List.mem_of_getElem? hc, rfl⟩
  · cases h
    exact .inr ⟨_, rfl⟩

theorem holds_number (fuel : Nat) (root : Ref) : Holds (AllT Q) (autonumberNodes fuel root) := by
  have key : Holds (fun s : NumberState => AllT Q s.t) (travLoop (·.t.heap) (fun _ _ => true) numberBody fuel [root]) := by
    refine .travLoop (fun r s hs => ?_) _ _
    unfold numberBody
    dsimp only
    split
    · exact hs
    · split
      · exact all_numberSteps S hs _ _
      · split
        · exact hs
        · split
          · split
            · exact hs
            · rename_i num hnum
              have hq : ∀ n, Q r n → Q r { n with number := num } := by
                intro n hn
                rcases value_cases hnum with ⟨c, hc, rfl⟩ | ⟨k, rfl⟩
                · exact S.letter r n c hc hn
                · exact S.number r n k hn
              have A1 : All Q (s.t.heap.update r fun n => { n with number := num }) := All.update hs r (hq _)
              show All Q (ite _ _ _)
              split
              · exact A1.update r (S.template _ _)
              · exact A1
          · exact hs
  intro s hs
  have := key { t := s } hs
  unfold autonumberNodes
  cases e : travLoop (·.t.heap) (fun _ _ => true) numberBody fuel [root] { t := s } with
  | ok a s' => rw [e] at this; exact this
  | err a s' => rw [e] at this; exact this

omit S in
theorem holds_tocHeap {α : Type} {m : HeapM α} (h : Holds (All Q) m) :
    Holds (fun s : TocState => AllT Q s.t) (tocHeap m) :=
  .zoom (fun _ h => h) (fun _ _ _ h => h) h

omit S in
theorem holds_parentOf (x : Option Ref) : Holds (fun s : TocState => AllT Q s.t) (parentOf x) := by
  unfold parentOf
  split
  · exact .throw _
  · exact .get fun _ _ => .pure _

omit S in
theorem holds_climb : Holds (fun s : TocState => AllT Q s.t) climb :=
  .get fun _ _ => .bind (holds_parentOf _) fun _ => .bind (holds_parentOf _) fun _ => .modify fun _ h => h

theorem holds_appendCurrent (x : Ref) : Holds (fun s : TocState => AllT Q s.t) (appendCurrent x) := by
  refine .get fun s _ => ?_
  split
  · exact .throw _
  · exact holds_tocHeap (holds_append S _ x)

omit S in
theorem holds_isLast (x : Ref) (c : Cls) : Holds (fun s : TocState => AllT Q s.t) (isLastInParent x c) := by
  refine .bind (holds_parentOf _) fun p => ?_
  split
  · exact .throw _
  · exact .get fun _ _ => .pure _

theorem holds_openList (x : Ref) : Holds (fun s : TocState => AllT Q s.t) (openList x) :=
  .bind (holds_tocHeap (holds_new (S.made _ (by decide)))) fun y => .bind (holds_tocHeap (holds_append S x y)) fun _ =>
    .modify fun _ h => h

theorem holds_tocBody (fuel : Nat) (toc sec : Ref) : Holds (fun s : TocState => AllT Q s.t) (tocBody fuel toc sec) := by
  unfold tocBody
  refine .bind (holds_tocHeap (holds_new (S.made _ (by decide)))) fun item => .get fun s A => ?_
  have climbs : ∀ b : Bool, Holds (fun s : TocState => AllT Q s.t) (if b then climb else pure ()) := by
    intro b
    split
    · exact holds_climb
    · exact .pure _
  split
  · exact .throw _
  · rename_i text ht
    refine .bind (holds_tocHeap (holds_new (S.entry _ A _ _ _ ht))) fun ref =>
      .bind (holds_tocHeap (holds_append S item ref)) fun _ => ?_
    split
    · exact .bind (holds_appendCurrent S item) fun _ => .bind (holds_isLast _ _) fun b => climbs b
    · split
      · refine .bind (holds_appendCurrent S item) fun _ => .get fun s2 _ => ?_
        split
        · exact holds_openList S item
        · exact .bind (holds_isLast _ _) fun b => climbs b
      · split
        · refine .bind (holds_tocHeap (holds_append S toc item)) fun _ => .get fun s2 _ => ?_
          split
          · exact holds_openList S item
          · exact .pure _
        · exact .throw _

theorem holds_toc (fuel : Nat) (root : Ref) : Holds (AllT Q) (makeToc fuel root) := by
  have key : Holds (fun s : TocState => AllT Q s.t)
      (travLoop (·.t.heap) (fun h r => h.isInst r .Contents) tocFindBody fuel [root]) := by
    refine .travLoop (fun r => .get fun s _ => ?_) _ _
    split
    · exact .modify fun _ h => h
    · exact .bind (.modify fun _ h => h) fun _ => holds_tocHeap (holds_removeSelf S r)
  intro s hs
  have h1 := key { t := s } hs
  unfold makeToc
  cases e : travLoop (·.t.heap) (fun h r => h.isInst r .Contents) tocFindBody fuel [root] { t := s } with
  | err a s' => rw [e] at h1; exact h1
  | ok a s1 =>
    rw [e] at h1
    dsimp only
    cases e1 : s1.toc with
    | none => exact h1
    | some toc =>
      dsimp only
      have h2 : AllT Q (travLoop (·.t.heap) (fun h r => h.isInst r .Section) (tocBody fuel toc) fuel [root]
        { s1 with current := some toc }).state.t :=
        Holds.travLoop (P := fun s : TocState => AllT Q s.t) (fun r => holds_tocBody S fuel toc r) fuel [root] _ h1
      split
      · rename_i e2; rw [e1, e2] at h2; exact h2
      · rename_i e2; rw [e1, e2] at h2; exact h2

theorem holds_keywords (fuel : Nat) (root : Ref) : Holds (AllT Q) (addKeywordsToConstructs fuel root) := by
  refine .travLoop (fun r s hs => ?_) _ _
  unfold keywordBody
  simp only [bind_apply, get_apply]
  split
  · exact hs
  · have A1 : AllT Q { s with heap := s.heap.update r fun n => { n with types := n.types ++ [(s.heap.get r).kind] } } :=
      All.update (h := s.heap) (f := fun n => { n with types := n.types ++ [(s.heap.get r).kind] }) hs r (S.kind _ _)
    have A2 : Holds (AllT Q) (if !nonAssumptionKinds.contains (s.heap.get r).kind then
        assign r fun n => { n with types := n.types ++ [assumptionType] } else pure ()) := by
      split
      · exact holds_assign r (S.assumption r)
      · exact .pure _
    exact A2 _ A1

theorem holds_depth (fuel : Nat) (root : Ref) : Holds (AllT Q) (addHandrailDepth fuel root) := by
  refine .forEach fun c _ => .travLoop (fun r => .travLoop (fun d => .get fun s _ => ?_) _ _) _ _
  split
  · exact .throw _
  · exact .pure _
  · exact holds_assign d fun n hn => S.depth _ n _ hn

theorem holds_ids (fuel : Nat) (root : Ref) : Holds (AllT Q) (assignNodeIds fuel root) := by
  have key : Holds (fun s : IdState => AllT Q s.t) (travLoop (·.t.heap) (fun _ _ => true) idBody fuel [root]) :=
    .travLoop (fun r s hs => All.update (h := s.t.heap) (f := fun n => { n with nodeid := some s.nodeid }) hs r
      (S.id _ _ _)) _ _
  intro s hs
  have := key { t := s } hs
  unfold assignNodeIds
  cases e : travLoop (·.t.heap) (fun _ _ => true) idBody fuel [root] { t := s } with
  | ok a s' => rw [e] at this; exact this
  | err a s' => rw [e] at this; exact this

/-- Such a condition is kept by `transform`. -/
theorem transform_steady (fuel : Nat) (root : Ref) {s : TState} (h : ∀ x, Q x (s.heap.get x)) :
    ∀ x, Q x ((transform fuel root s).state.heap.get x) := by
  have : Holds (AllT Q) (transform fuel root) :=
    .bind (holds_collect S fuel root) fun _ => .bind (holds_resolve S fuel root) fun _ =>
    .bind (holds_subproofs S fuel root) fun _ => .bind (holds_number S fuel root) fun _ =>
    .bind (holds_toc S fuel root) fun _ => .bind (holds_keywords S fuel root) fun _ =>
    .bind (holds_depth S fuel root) fun _ => holds_ids S fuel root
  exact this s h
end

end Transformer
end RSM
