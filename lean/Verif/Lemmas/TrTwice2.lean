import Verif.Lemmas.TrTwice

/-! # Lemmas: translating twice with the plain translator (the loop) -/

namespace RSM
namespace Tr
open PyM

variable {h0 : Heap} {G : Heap → Prop}

local notation "W" => Sim (Twin h0 G) Eq

/-- What is assumed about the targets of references. -/
def Plain (h0 : Heap) (r : Ref) : Prop :=
  (h0.get r).cls ∈ [.URL, .BaseReference, .PendingReference, .PendingPrev] → ∀ x, (h0.get r).target ≠ .node x

theorem repr_twice (k : Conf) {r : Ref} (hm : methodClass visitNames (h0.get r).cls = .ok .Node) (hp : Plain h0 r) {a b : Heap}
    (ha : SameFrame h0 a) (hb : SameFrame h0 b) (ht : (a.get r).types = (b.get r).types) : k.reprOf a r = k.reprOf b r := by
  obtain ⟨n1, n2⟩ := methodClass_node hm
  have e : ∀ x, frame (a.get x) = frame (b.get x) := fun x => (ha.2 x).trans (hb.2 x).symm
  have hc := hb.cls r
  have hf := hb.target r
  refine nodeRepr_congr k.repr (fun x => frame_cls (e x)) (congrArg NodeRec.kids (e r) :) (congrArg NodeRec.label (e r) :) ht
    (congrArg NodeRec.nonum (e r) :) (congrArg NodeRec.number (e r) :) (congrArg NodeRec.parent (e r) :)
    (congrArg NodeRec.target (e r) :) (congrArg NodeRec.overwriteReftext (e r) :) (by rw [hc]; exact n1) fun hb' x => ?_
  rw [hf]
  rw [hc] at hb'
  exact hp (List.mem_cons_of_mem _ (n2 hb')) x

theorem step_node (c : Cls) (h : c.isSubAny [.Step] = true) :
    methodClass visitNames c ≠ .ok .Node := by
  cases c <;> first | (exact absurd h (by decide)) | (intro h; cases h)

theorem visitWith_twin (hG : Lasts h0 G) (k o r) (hp : k.handrails = false) (hk : KidsOf h0 r)
    (hr : ∀ a, G a → Ready h0 r a) (hpl : Plain h0 r)
    (ho : methodClass visitNames (h0.get r).cls = .ok o) : W (visitWith k o r) (visitWith k o r) := by
  have hown : o ≠ .Section → o ≠ .Reference → o ≠ .Cite → Own h0 r := by
    intro h1 h2 h3
    rw [Own, ho]
    refine ⟨?_, ?_, ?_⟩ <;> intro h <;> cases h <;> contradiction
  obtain ⟨d, hd, hdu⟩ := methodClass_visit (h0.get r).cls
  rw [ho] at hd; cases hd
  have own : ∀ {f f' : NodeRec → TrM Cmd}, o ≠ .Section → o ≠ .Reference → o ≠ .Cite →
      (∀ nd ty cl, fromKeys ty = fromKeys nd.types → W (f nd)
        (f' { nd with types := ty, mustCloseP := cl })) →
      W (Tr.node r >>= f) (Tr.node r >>= f') := fun h1 h2 h3 h => Sim.nodeTwin (hown h1 h2 h3) hr h
  cases o
  all_goals simp only [visitWith, hp, Bool.false_eq_true, if_false, wrapIf]
  case Section =>
    exact Sim.next (sectionItems_twin hG k r ho) fun _ => Sim.next (Sim.pure rfl) fun _ => Sim.pure rfl
  case Reference =>
    unfold visitReference
    refine Sim.bind Sim.get fun t t' ht => ?_
    have hf := twinShape _ _ ht.heap
    rw [hf.target]
    simp only [hf.label]
    cases (t.heap.get r).target with
    | node x => exact Sim.next (ahref_twin hG _ _ _ _ _ _ (.inr (.inl ho))) fun _ => Sim.pure rfl
    | _ => exact Sim.throw _
  case URL =>
    unfold visitUrl
    refine Sim.bind Sim.get fun t t' ht => ?_
    have hf := twinShape _ _ ht.heap
    rw [hf.target, ht.heap.later.shape.target]
    cases e : (h0.get r).target with
    | none => exact Sim.throw _
    | str s => exact Sim.next (ahref_twin hG _ _ _ _ _ _ (.inl (hdu.mp rfl))) fun _ => Sim.pure rfl
    | node x => exact absurd e (hpl (by rw [hdu.mp rfl]; decide) x)
  case Cite =>
    unfold visitCite
    refine Sim.bind Sim.get fun t t' ht => ?_
    have hf := twinShape _ _ ht.heap
    dsimp only
    rw [hf.targets]
    simp only [hf.label, hf.isInst]
    split
    · exact Sim.next (ahref_twin hG _ _ _ _ _ _ (.inr (.inr ho))) fun _ => Sim.pure rfl
    · exact Sim.next (citeTags_twin hG k r ho _ _) fun _ => Sim.pure rfl
  case Proof => exact Sim.next (proofItems_twin hG r hk hr ho) fun _ => Sim.pure rfl
  case Paragraph =>
    refine Sim.bind Sim.get fun t t' ht => Sim.pure ?_
    have hf := twinShape _ _ ht.heap
    unfold paragraphItems
    rw [ht.heap.later.get r, hf.firstOfType]
    dsimp only
    rw [nodeTag_congr (ht.heap.later.fromKeys_types (hown (by simp) (by simp) (by simp))
      (hr _ ht.heap.good))]
  case MathBlock =>
    unfold visitMathBlock
    refine Sim.bind Sim.get fun t t' ht => ?_
    have hf := twinShape _ _ ht.heap
    rw [ht.heap.later.get r, hf.parent]
    simp only [hf.isInst]
    rw [nodeTag_congr (ht.heap.later.fromKeys_types (hown (by simp) (by simp) (by simp))
      (hr _ ht.heap.good))]
    simt
  case Caption =>
    unfold visitCaption
    refine Sim.bind Sim.get fun t t' ht => ?_
    have hf := twinShape _ _ ht.heap
    rw [hf.parent]
    simp only [hf.isInst, hf.cls]
    cases t.heap.parent r with
    | none => exact Sim.throw _
    | some p => exact Sim.next (fullNumber_sim twinShape ..) fun _ => Sim.pure rfl
  case Node =>
    unfold visitNode
    refine Sim.bind Sim.get fun t t' ht => ?_
    have hm : ¬ Marked h0 r := by
      rintro ⟨p, i, _, _, he⟩
      have := (lastOfType_spec he).2
      exact step_node _ this ho
    have ht' := ht.heap.later.types r
    have ho' := hown (by simp) (by simp) (by simp)
    rw [(norm_plain ho'.1 ho'.2.1 ho'.2.2 _).2 hm, (norm_plain ho'.1 ho'.2.1 ho'.2.2 _).2 hm] at ht'
    rw [repr_twice k ho hpl (ht.heap.later.shape.trans ht.heap.later.frame) ht.heap.later.shape ht']
    exact Sim.pure rfl
  all_goals first
    | (exact absurd (methodClass_mem ho) (by decide))
    | skip
  all_goals first
    | exact own (by simp) (by simp) (by simp) fun nd ty cl h => Sim.pure (by rw [nodeTag_congr h])
    | skip
  case Text => exact Sim.nodeAny fun nd ty cl => Sim.pure rfl
  case SourceCode => exact Sim.nodeAny fun nd ty cl => Sim.pure rfl
  case Algorithm => exact Sim.nodeAny fun nd ty cl => Sim.pure rfl
  case Appendix => exact Sim.pure rfl
  case Note => unfold visitNote; simt
  case Abstract =>
    exact own (by simp) (by simp) (by simp) fun nd ty cl h => Sim.next (Sim.pure (by
      simp only [abstractItems, nodeTag_congr h])) fun _ => Sim.pure rfl
  case Theorem =>
    refine Sim.next ?_ fun _ => Sim.pure rfl
    unfold theoremItems theoremNumber
    refine Sim.nodeTwin (hown (by simp) (by simp) (by simp)) hr fun nd ty cl h =>
      Sim.next (by simt) fun num => Sim.pure ?_
    simp only [nodeTag_congr h]
  case Bibitem =>
    refine own (by simp) (by simp) (by simp) fun nd ty cl h => Sim.next (bibitemText_twin r) fun _ =>
      Sim.pure ?_
    simp only [nodeTag_congr h]
  case Figure =>
    unfold visitFigure
    refine own (by simp) (by simp) (by simp) fun nd ty cl h => Sim.next (by simt) fun _ => Sim.pure ?_
    simp only [nodeTag_congr h]
  all_goals
    refine own (by simp) (by simp) (by simp) fun nd ty cl h => Sim.pure ?_
    simp only [spanCmd, manuscriptItems, authorCmd, authorParagraphs, mathItems, sketchItems,
      bibliographyItems, contentsItems, nodeTag_congr h]

theorem leaveMathBlock_twin (hG : Lasts h0 G) (r) (hpar : ParentOf h0 r)
    (ho : methodClass (leaveNames false) (h0.get r).cls = .ok .MathBlock) :
    W (leaveMathBlock r) (leaveMathBlock r) := by
  unfold leaveMathBlock
  refine Sim.next Sim.leaveNode fun c => Sim.bind Sim.get fun t t' ht => ?_
  have hf := twinShape _ _ ht.heap
  have hs := ht.heap.later.shape
  rw [hf.parent, hs.parent]
  cases hp : h0.parent r with
  | none => exact Sim.pure rfl
  | some p =>
    dsimp only
    rw [hf.isInst, hf.nextSibling, hs.isInst, hs.nextSibling]
    split
    · rename_i hi
      cases hn : h0.nextSibling r .any with
      | error e => exact ⟨fun s s' hs => .err _ _ _⟩
      | ok o =>
        cases o with
        | none => exact ⟨fun s s' hs => .ok hs rfl⟩
        | some y =>
          refine Sim.next (Sim.lift rfl) fun sib => ?_
          cases sib with
          | none => exact Sim.pure rfl
          | some z =>
            refine Sim.next (Sim.assign fun a b hab => ⟨hab.later.setClose₂ p, ?_⟩) fun _ => by simt
            exact hG a _ (Later.setClose hab.later.shape p ⟨r, hpar p hp, ho, hp, hi, y, hn⟩) hab.good
    · exact Sim.pure rfl

theorem leaveWith_twin (hG : Lasts h0 G) (k o r) (hp : k.handrails = false) (hpar : ParentOf h0 r)
    (hc : ∀ a, G a → CloseKnown h0 r a)
    (ho : methodClass (leaveNames false) (h0.get r).cls = .ok o) :
    W (leaveWith k o r) (leaveWith k o r) := by
  cases o
  all_goals simp only [leaveWith, hp, Bool.false_eq_true, if_false, leaveAbstract,
    leaveProof, infoBeforeLast, leaveInfo, hrLeaveStep]
  case MathBlock => exact leaveMathBlock_twin hG r hpar ho
  case Math => exact absurd (methodClass_mem ho) (by decide)
  case Paragraph =>
    refine Sim.next ?_ fun _ => Sim.pure rfl
    unfold leaveParagraph
    refine Sim.next Sim.leaveNode fun c => Sim.bind (Sim.node r) ?_
    rintro nd nd' ⟨h, h', hh, rfl, rfl⟩
    have : (h'.get r).mustCloseP = (h.get r).mustCloseP := by
      rcases hh.later.close r with e | ⟨e1, e2⟩
      · exact e
      · rw [e2, hc h hh.good e1]
    rw [this]
    simt
  all_goals simt

/-! ## Visiting and leaving -/

variable (k : Conf) (hp : k.handrails = false)

include hp in
theorem visit_traces {r} (hk : KidsOf h0 r) : Traces h0 (visit k r) := by
  obtain ⟨d, hd, _⟩ := methodClass_visit (h0.get r).cls
  unfold visit
  refine Traces.node fun s hs => ?_
  rw [hs.cls, hd]
  exact (visitWith_traces k d r hp hk hd).trace s hs

include hp in
theorem leave_traces {r} (hpar : ParentOf h0 r) : Traces h0 (leave k r) := by
  obtain ⟨d, hd⟩ := methodClass_leave false (h0.get r).cls
  unfold leave
  refine Traces.node fun s hs => ?_
  rw [hs.cls, hp, hd]
  exact (leaveWith_traces k d r hp hpar hd).trace s hs

include hp in
theorem visit_twin {r} (hk : KidsOf h0 r) (hpl : Plain h0 r) :
    Sim (Twin h0 (Ready h0 r)) Eq (visit k r) (visit k r) := by
  obtain ⟨d, hd, _⟩ := methodClass_visit (h0.get r).cls
  unfold visit
  refine Sim.bind (Sim.node r) ?_
  rintro nd nd' ⟨h, h', hh, rfl, rfl⟩
  rw [hh.later.frame.cls, hh.later.shape.cls, hd]
  exact visitWith_twin (ready_lasts r) k d r hp hk (fun _ h => h) hpl hd

include hp in
theorem leave_twin {r} (hpar : ParentOf h0 r) :
    Sim (Twin h0 (CloseKnown h0 r)) Eq (leave k r) (leave k r) := by
  obtain ⟨d, hd⟩ := methodClass_leave false (h0.get r).cls
  unfold leave
  refine Sim.bind (Sim.node r) ?_
  rintro nd nd' ⟨h, h', hh, rfl, rfl⟩
  rw [hh.later.frame.cls, hh.later.shape.cls, hp, hd]
  exact leaveWith_twin (closeKnown_lasts r) k d r hp hpar (fun _ h => h) hd

theorem execute_reads (c : Cmd) : Reads c.execute := ⟨fun s => by rw [Cmd.execute_eq]; rfl⟩

include hp in
theorem finish_traces {r} (hpar : ParentOf h0 r) (c) : Traces h0 (finish k r c) := by
  unfold finish
  split
  · exact Traces.bind (leave_traces k hp hpar) fun d => Traces.of_reads (execute_reads d)
  · exact Traces.of_reads (Reads.pure _)

/-- The parents and children of the nodes are those of the tree. -/
def Fits (h0 : Heap) (l : List Ref) : Prop := ∀ r ∈ l, KidsOf h0 r ∧ ParentOf h0 r

mutual
theorem fits_tree {h : Heap} : ∀ (t : Tree) {p} (_ : IsTree h p t)
    (_ : ∀ q, p = some q → t.root ∈ h.children q), Fits h t.pre
  | .node r ks, p, ⟨h1, h2, h3⟩, hq => by
    intro x hx
    simp only [Tree.pre_node, List.mem_cons] at hx
    rcases hx with rfl | hx
    · refine ⟨fun y hy => ?_, fun q hq' => hq q (h1 ▸ hq')⟩
      rw [h2] at hy
      obtain ⟨t, ht, rfl⟩ := List.mem_map.mp hy
      have := isForest_iff.mp h3 t ht
      cases t with
      | node c cs => exact this.1
    · exact fits_forest ks h3 (fun t ht q hq' => by
        cases hq'; rw [h2]; exact List.mem_map_of_mem ht) x hx
theorem fits_forest {h : Heap} : ∀ (ts : List Tree) {p} (_ : IsForest h p ts)
    (_ : ∀ t ∈ ts, ∀ q, p = some q → t.root ∈ h.children q), Fits h (Tree.preL ts)
  | [], _, _, _ => by intro x hx; simp at hx
  | t :: ts, p, hf, hq => by
    intro x hx
    simp only [Tree.preL_cons, List.mem_append] at hx
    rcases hx with hx | hx
    · exact fits_tree t hf.1 (hq t (by simp)) x hx
    · exact fits_forest ts hf.2 (fun t ht => hq t (by simp [ht])) x hx
end

mutual
theorem evalTree_traces (hp : k.handrails = false) (t : Tree) (hf : Fits h0 t.pre) :
    Traces h0 (evalTree k t) := by
  match t with
  | .node r ks =>
    rw [evalTree_node]
    exact Traces.bind (visit_traces k hp (hf r (by simp)).1) fun c => Traces.bind
      (Traces.of_reads (execute_reads c)) fun _ => Traces.bind
        (evalForest_traces hp ks fun x hx => hf x (by simp [hx])) fun _ =>
          finish_traces k hp (hf r (by simp)).2 c
theorem evalForest_traces (hp : k.handrails = false) (ts : List Tree)
    (hf : Fits h0 (Tree.preL ts)) : Traces h0 (evalForest k ts) := by
  match ts with
  | [] => rw [evalForest_nil]; exact Traces.of_reads (Reads.pure _)
  | t :: ts =>
    rw [evalForest_cons]
    exact Traces.bind (evalTree_traces hp t fun x hx => hf x (by simp [hx])) fun _ =>
      evalForest_traces hp ts fun x hx => hf x (by simp [hx])
end

/-! ## What is known after a visit and after a subtree -/

include hp in
/-- After the visit of a proof its last step is marked. -/
theorem ready_post {r x : Ref} {s s1 : TrState} {c} (hs : SameFrame h0 s.heap)
    (hpx : h0.parent x = some r) (ev : visit k r s = .ok c s1) : Ready h0 x s1.heap := by
  rintro ⟨p, i, h1, h2, h3⟩
  rw [hpx] at h1; cases h1
  have he : s.heap.lastOfType r [.Step] = some (x, i) := by rw [hs.lastOfType]; exact h3
  have hv : visit k r s = visitWith k .Proof r s := by
    simp only [visit, bind_apply, node, gets_apply, hs.cls, h2, lift, pure_apply]
  rw [hv] at ev
  simp only [visitWith, proofItems, markLast, bind_apply, get_apply, he, hp, Bool.false_eq_true,
    if_false] at ev
  simp only [assign, modify_apply, node, gets_apply, pure_apply, Res.ok.injEq] at ev
  rw [← ev.2]
  show "last".toList ∈ ((s.heap.update x fun nd =>
      { nd with types := nd.types ++ ["last".toList] }).get x).types
  rw [Heap.get_update, if_pos rfl]; simp

/-- A display formula with a next sibling in a paragraph. -/
def ClosesAt (h : Heap) (p m : Ref) : Prop :=
  methodClass (leaveNames false) (h.get m).cls = .ok .MathBlock ∧
    h.parent m = some p ∧ h.isInst p .BaseParagraph = true ∧ ∃ y, h.nextSibling m .any = .ok (some y)

theorem mathBlock_methods (c : Cls) (h : methodClass (leaveNames false) c = .ok .MathBlock) :
    methodClass visitNames c = .ok .MathBlock := by
  cases c <;> first | rfl | (exfalso; have h := congrArg Except.toOption h; revert h; decide)

include hp in
theorem leave_close {p m : Ref} {s s1 : TrState} {c} (hs : SameFrame h0 s.heap)
    (hm : ClosesAt h0 p m) (ev : leave k m s = .ok c s1) : (s1.heap.get p).mustCloseP = true := by
  obtain ⟨h1, h2, h3, y, h4⟩ := hm
  have hv : leave k m s = leaveMathBlock m s := by
    simp only [leave, bind_apply, node, gets_apply, hs.cls, hp, h1, lift, pure_apply, leaveWith,
      Bool.false_eq_true, if_false]
  rw [hv] at ev
  unfold leaveMathBlock at ev
  cases hd : s.deferred with
  | nil =>
    simp only [bind_apply, leaveNode, get_apply, hd] at ev
    cases ev
  | cons c0 ds =>
    rw [leaveNode_bind hd] at ev
    have e1 : s.heap.parent m = some p := by rw [hs.parent]; exact h2
    have e2 : s.heap.isInst p .BaseParagraph = true := by rw [hs.isInst]; exact h3
    have e3 : s.heap.nextSibling m .any = .ok (some y) := by rw [hs.nextSibling]; exact h4
    simp only [bind_apply, get_apply, e1, e2, e3, if_true, lift, pure_apply, assign, modify_apply] at ev
    cases hi : itemsOf c0 { s with deferred := ds, heap := s.heap.update p fun nd => { nd with mustCloseP := true } } with
    | err e s2 => rw [hi] at ev; cases ev
    | ok l s2 =>
      rw [hi] at ev
      cases ev
      have := (itemsOf_reads c0).ok hi
      rw [this]
      dsimp only
      rw [Heap.get_update, if_pos rfl]

include hp in
/-- After a display formula that is not the last child the paragraph is known to be open. -/
theorem evalTree_close {p : Ref} {t : Tree} {s s1 : TrState} (hf : Fits h0 t.pre)
    (hs : SameFrame h0 s.heap) (hm : ClosesAt h0 p t.root) (ev : evalTree k t s = .ok () s1) :
    (s1.heap.get p).mustCloseP = true := by
  cases t with
  | node m ks =>
    have hv : visit k m s = visitMathBlock m s := by
      simp only [visit, bind_apply, node, gets_apply, hs.cls, hp, lift, pure_apply,
        visitWith, Bool.false_eq_true, if_false,
        show methodClass visitNames (h0.get m).cls = .ok .MathBlock from mathBlock_methods _ hm.1]
    have tv := (visit_traces k hp (hf m (by simp)).1).trace s hs
    rw [evalTree_node, bind_apply] at ev
    cases e1 : visit k m s with
    | err e s2 => rw [e1] at ev; cases ev
    | ok c s2 =>
      rw [e1] at ev tv
      have hc : c.defers = true := by
        rw [hv] at e1
        have e0 : s.heap.parent m = some p := by rw [hs.parent]; exact hm.2.1
        simp only [visitMathBlock, bind_apply, get_apply, e0] at e1
        cases hb : s.heap.isInst p .Paragraph
        · simp only [hb, Bool.false_eq_true, if_false] at e1; cases e1
        · simp only [hb, if_true] at e1; cases e1; rfl
      dsimp only at ev
      rw [bind_apply, Cmd.execute_eq] at ev
      dsimp only at ev
      rw [bind_apply] at ev
      generalize hs3 : ({ s2 with body := s2.body ++ c.text, deferred := c.pushed ++ s2.deferred } : TrState) = s3 at ev
      have f3 : SameFrame h0 s3.heap := by rw [← hs3]; exact tv.shape.trans tv.frame
      have tf := (evalForest_traces k hp ks fun x hx => hf x (by simp [hx])).trace s3 f3
      cases e2 : evalForest k ks s3 with
      | err e s4 => rw [e2] at ev; cases ev
      | ok u s4 =>
        rw [e2] at ev tf
        simp only [finish, hc, if_true, bind_apply] at ev
        cases e3 : leave k m s4 with
        | err e s5 => rw [e3] at ev; cases ev
        | ok d s5 =>
          rw [e3] at ev
          have := leave_close k hp (tf.shape.trans tf.frame) hm e3
          dsimp only at ev
          rw [Cmd.execute_eq] at ev
          cases ev
          exact this

theorem close_lasts {p : Ref} {a b : Heap} (h : Later h0 a b) (hc : (a.get p).mustCloseP = true) :
    (b.get p).mustCloseP = true := by
  rcases h.close p with h | h
  · rw [h, hc]
  · exact h.2

include hp in
theorem evalForest_close {p m : Ref} : ∀ (ts : List Tree) {s s1 : TrState} (_ : Fits h0 (Tree.preL ts))
    (_ : SameFrame h0 s.heap) (_ : m ∈ ts.map Tree.root) (_ : ClosesAt h0 p m)
    (_ : evalForest k ts s = .ok () s1), (s1.heap.get p).mustCloseP = true
  | [], _, _, _, _, hm, _, _ => by simp at hm
  | t :: ts, s, s1, hf, hs, hm, hc, ev => by
    rw [evalForest_cons, bind_apply] at ev
    have tt := (evalTree_traces k hp t fun x hx => hf x (by simp [hx])).trace s hs
    cases e1 : evalTree k t s with
    | err e s2 => rw [e1] at ev; cases ev
    | ok u s2 =>
      rw [e1] at ev tt
      have f2 : SameFrame h0 s2.heap := tt.shape.trans tt.frame
      have hf2 : Fits h0 (Tree.preL ts) := fun x hx => hf x (by simp [hx])
      simp only [List.map_cons, List.mem_cons] at hm
      rcases hm with rfl | hm
      · have := evalTree_close k hp (fun x hx => hf x (by simp [hx])) hs hc e1
        have tf := (evalForest_traces k hp ts hf2).trace s2 f2
        dsimp only at ev
        rw [ev] at tf
        exact close_lasts tf this
      · exact evalForest_close ts hf2 f2 hm hc ev

/-! ## The second run -/

/-- What the program did from `s` to `s1` it does again from later states. -/
def Redo (h0 : Heap) (m : TrM Unit) (s s1 : TrState) : Prop :=
  ∀ s', Rel (Later h0) s s' → ∃ s1' out, m s' = .ok () s1' ∧ Rel (Later h0) s1 s1' ∧
    s1.body = s.body ++ out ∧ s1'.body = s'.body ++ out

theorem Redo.seq {m m2 : TrM Unit} {s s1 s2} (h : Redo h0 m s s1) (h2 : Redo h0 m2 s1 s2) :
    Redo h0 (m >>= fun _ => m2) s s2 := by
  intro s' hs
  obtain ⟨s1', o1, e1, r1, b1, b1'⟩ := h s' hs
  obtain ⟨s2', o2, e2, r2, b2, b2'⟩ := h2 s1' r1
  refine ⟨s2', o1 ++ o2, by rw [bind_apply, e1]; exact e2, r2, ?_, ?_⟩
  · rw [b2, b1, List.append_assoc]
  · rw [b2', b1', List.append_assoc]

theorem Redo.after {α : Type} {G : Heap → Prop} {m : TrM α} {f : α → TrM Unit} {s s1 s2 a}
    (hm : Sim (Twin h0 G) Eq m m) (hmute : Mute m) (hg : G s.heap) (e : m s = .ok a s1)
    (h2 : Redo h0 (f a) s1 s2) : Redo h0 (m >>= f) s s2 := by
  intro s' hs
  have := hm.sim s s' ⟨⟨hs.heap, hg⟩, hs.deferred, hs.tree⟩
  have hb := hmute.mute s
  have hb' := hmute.mute s'
  rw [e] at this hb
  generalize e' : m s' = y at this hb'
  cases this with
  | ok r1 hab =>
    subst hab
    obtain ⟨s2', o, e2, r2, b2, b2'⟩ := h2 _ ⟨r1.heap.later, r1.deferred, r1.tree⟩
    refine ⟨s2', o, by rw [bind_apply, e']; exact e2, r2, ?_, ?_⟩
    · rw [b2]; exact congrArg (· ++ o) hb
    · rw [b2']; exact congrArg (· ++ o) hb'

theorem Redo.execute (c : Cmd) {s s1} (e : c.execute s = .ok () s1) : Redo h0 c.execute s s1 := by
  rw [Cmd.execute_eq] at e; cases e
  intro s' hs
  exact ⟨_, c.text, Cmd.execute_eq c s', ⟨hs.heap, by simp [hs.deferred], hs.tree⟩, rfl, rfl⟩

theorem Redo.pure (s) : Redo h0 (pure ()) s s := fun s' hs => ⟨s', [], rfl, hs, by simp, by simp⟩

include hp in
theorem Redo.finish {r} (hpar : ParentOf h0 r) {c s s1} (hc : CloseKnown h0 r s.heap)
    (e : Tr.finish k r c s = .ok () s1) : Redo h0 (Tr.finish k r c) s s1 := by
  unfold Tr.finish at e ⊢
  split at e
  · rename_i hd
    rw [if_pos hd]
    rw [bind_apply] at e
    cases e1 : leave k r s with
    | err x s2 => rw [e1] at e; cases e
    | ok d s2 =>
      rw [e1] at e
      exact Redo.after (leave_twin k hp hpar) (leave_mute k r) hc e1 (Redo.execute d e)
  · rename_i hd
    rw [if_neg hd]
    cases e
    exact Redo.pure s

mutual
theorem redo_tree (hp : k.handrails = false) (t : Tree) {p} (hT : IsTree h0 p t) (hf : Fits h0 t.pre)
    (hpl : ∀ r ∈ t.pre, Plain h0 r) {s s1 : TrState} (hs : SameFrame h0 s.heap)
    (hr : Ready h0 t.root s.heap) (ev : evalTree k t s = .ok () s1) :
    Redo h0 (evalTree k t) s s1 := by
  match t, hT with
  | .node r ks, ⟨_, hk, hF⟩ =>
    have hfr := hf r (by simp)
    have hfk : Fits h0 (Tree.preL ks) := fun x hx => hf x (by simp [hx])
    have tv := (visit_traces k hp hfr.1).trace s hs
    rw [evalTree_node] at ev ⊢
    rw [bind_apply] at ev
    cases e1 : visit k r s with
    | err e s2 => rw [e1] at ev; cases ev
    | ok c s2 =>
      rw [e1] at ev tv
      refine Redo.after (visit_twin k hp hfr.1 (hpl r (by simp))) (visit_mute k r) hr e1 ?_
      dsimp only at ev
      rw [bind_apply] at ev
      cases e2 : c.execute s2 with
      | err e s3 => rw [e2] at ev; cases ev
      | ok u s3 =>
        rw [e2] at ev
        have h3 : s3.heap = s2.heap := (execute_reads c).ok e2
        have f3 : SameFrame h0 s3.heap := by rw [h3]; exact tv.shape.trans tv.frame
        refine Redo.seq (Redo.execute c e2) ?_
        dsimp only at ev
        rw [bind_apply] at ev
        have tf := (evalForest_traces k hp ks hfk).trace s3 f3
        cases e3 : evalForest k ks s3 with
        | err e s4 => rw [e3] at ev; cases ev
        | ok u s4 =>
          rw [e3] at ev tf
          refine Redo.seq (redo_forest hp ks hF hfk (fun x hx => hpl x (by simp [hx])) f3 ?_ e3) ?_
          · intro t ht
            have hpt : h0.parent t.root = some r := hfr.1 _ (by rw [hk]; exact List.mem_map_of_mem ht)
            rw [h3]
            exact ready_post k hp hs hpt e1
          · refine Redo.finish k hp hfr.2 ?_ ev
            rintro ⟨m, hm, hm'⟩
            rw [hk] at hm
            exact evalForest_close k hp ks hfk f3 hm hm' e3
theorem redo_forest (hp : k.handrails = false) (ts : List Tree) {p} (hT : IsForest h0 p ts)
    (hf : Fits h0 (Tree.preL ts)) (hpl : ∀ r ∈ Tree.preL ts, Plain h0 r) {s s1 : TrState}
    (hs : SameFrame h0 s.heap) (hr : ∀ t ∈ ts, Ready h0 t.root s.heap)
    (ev : evalForest k ts s = .ok () s1) : Redo h0 (evalForest k ts) s s1 := by
  match ts, hT with
  | [], _ => rw [evalForest_nil] at ev ⊢; cases ev; exact Redo.pure s
  | t :: ts, ⟨hT1, hT2⟩ =>
    have hf1 : Fits h0 t.pre := fun x hx => hf x (by simp [hx])
    rw [evalForest_cons] at ev ⊢
    rw [bind_apply] at ev
    have tt := (evalTree_traces k hp t hf1).trace s hs
    cases e1 : evalTree k t s with
    | err e s2 => rw [e1] at ev; cases ev
    | ok u s2 =>
      rw [e1] at ev tt
      refine Redo.seq (redo_tree hp t hT1 hf1 (fun x hx => hpl x (by simp [hx])) hs
        (hr t (by simp)) e1) ?_
      exact redo_forest hp ts hT2 (fun x hx => hf x (by simp [hx])) (fun x hx => hpl x (by simp [hx]))
        (tt.shape.trans tt.frame) (fun t' ht => ready_lasts _ _ _ tt (hr t' (by simp [ht]))) ev
end

end Tr
end RSM
