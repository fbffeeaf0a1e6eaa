import Verif.Lemmas.RenderVisit3

/-! # Lemmas: what is written after the children of each node -/

namespace RSM
namespace Tr
open PyM

variable {k : Conf} {h0 : Heap} {num : Ref → Option Str} {ref : Ref → Str}

/-- Whose method leaves nodes of a class. -/
def leaver : Cls → Cls
  | .Abstract => .Abstract
  | .MathBlock => .MathBlock
  | .Paragraph | .Step | .Caption => .Paragraph
  | .Proof => .Proof
  | _ => .Node

theorem leaver_eq (c : Cls) : methodClass (leaveNames false) c = .ok (leaver c) := by
  cases c <;> rfl

theorem closing_flat {h : Heap} {x : Ref} (hc : (h.get x).cls ∉ [.Abstract, .Paragraph, .MathBlock, .Proof, .Caption]) :
    Render.closing h x = (shut h x).flatten := by
  unfold Render.closing shut
  dsimp only
  revert hc
  cases (h.get x).cls <;> intro hc <;>
    first
      | rfl
      | exact absurd hc (by decide)
      | simp [List.flatMap]

theorem text_flat {c : Cmd} : c.text = (c.allItems.map Item.makeText).flatten := by
  cases c <;> simp [Cmd.text, Cmd.allItems, List.flatMap]

theorem closing_paragraph {h : Heap} {x : Ref} (hc : (h.get x).cls = .Paragraph) :
    Render.closing h x = (if Render.interrupted h x then "</p>".toList else []) ++ (shut h x).flatten := by
  unfold Render.closing shut
  dsimp only
  rw [hc]
  dsimp only
  have : (h.children x).any (fun c => decide ((h.get c).cls = .MathBlock)) = false → Render.interrupted h x = false := by
    intro h1
    unfold Render.interrupted
    rw [List.any_eq_false] at h1 ⊢
    exact fun y hy => h1 y (List.dropLast_subset _ hy)
  cases h1 : (h.children x).any (fun c => decide ((h.get c).cls = .MathBlock)) with
  | true => simp
  | false => simp [this h1]

theorem closing_caption {h : Heap} {x : Ref} (hc : (h.get x).cls = .Caption) :
    Render.closing h x = (if Render.interrupted h x then "</p>".toList else []) ++ (shut h x).flatten := by
  unfold Render.closing shut
  dsimp only
  rw [hc]
  dsimp only
  cases h.parent x with
  | none => rfl
  | some p => simp only [List.flatten_cons, List.flatten_nil, List.append_nil]

theorem abstractParagraphs_eq (nd : NodeRec) : (abstractParagraphs nd).flatMap Item.makeText =
    (if nd.keywords = [] then [] else Render.line (Render.element "p" ["keywords"]
        ("Keywords: ".toList ++ List.intercalate ", ".toList nd.keywords)))
      ++ (if nd.msc = [] then [] else Render.line (Render.element "p" ["msc"]
        ("MSC: ".toList ++ List.intercalate ", ".toList nd.msc))) := by
  unfold abstractParagraphs
  rw [List.flatMap_append]
  congr 1
  · by_cases h : nd.keywords = []
    · rw [if_pos h, if_neg (fun e => e h)]; rfl
    · rw [if_neg h, if_pos h, List.flatMap_cons, List.flatMap_nil, List.append_nil, paragraphTag_text, join_eq]
  · by_cases h : nd.msc = []
    · rw [if_pos h, if_neg (fun e => e h)]; rfl
    · rw [if_neg h, if_pos h, List.flatMap_cons, List.flatMap_nil, List.append_nil, paragraphTag_text, join_eq]

/-- What leaving a node does. -/
structure Gone (h0 : Heap) (r : Ref) (d : Cmd) (s s' : TrState) : Prop where
  text : d.text = Render.closing h0 r
  next : s'.heap.next = s.heap.next
  heap : ∀ x, s'.heap.get x = { s.heap.get x with mustCloseP := (s.heap.get x).mustCloseP ||
    (decide ((h0.get r).cls = .MathBlock) && (decide (h0.parent r = some x) && Render.followed h0 r)) }

theorem Gone.same {r d s s'} (ht : d.text = Render.closing h0 r) (hc : (h0.get r).cls ≠ .MathBlock)
    (h : s'.heap = s.heap) : Gone h0 r d s s' :=
  ⟨ht, by rw [h], fun x => by rw [h]; simp [hc]⟩

theorem leave_written {r s s' c0 ds d} (hk : k.handrails = false) (hf : SameFrame h0 s.heap)
    (hd : s.deferred = c0 :: ds) (hC : c0.Closer) (hc0 : c0.allItems.map Item.makeText = shut h0 r)
    (hint : (h0.get r).cls.isSub .Paragraph = true → (s.heap.get r).mustCloseP = Render.interrupted h0 r)
    (hmath : (h0.get r).cls = .MathBlock → hasNext h0 r = Render.followed h0 r ∧
      ∃ p, h0.parent r = some p ∧ h0.isInst p .Paragraph = true)
    (hstep : (h0.get r).cls = .Step → ∃ t, c0 = .item (.text t))
    (h : leave k r s = .ok d s') : Gone h0 r d s s' := by
  have hcls : (s.heap.get r).cls = (h0.get r).cls := hf.cls r
  have e : leave k r s = leaveWith k (leaver (h0.get r).cls) r s := by
    simp only [leave, bind_apply, node, gets_apply, hk, leaver_eq, lift, pure_apply, hcls]
  rw [e] at h
  clear e
  have plain : ∀ {s1 : TrState}, s1 = { s with deferred := ds } → (h0.get r).cls ∉ [.Abstract, .Paragraph, .MathBlock, .Proof, .Caption] →
      Gone h0 r c0 s s1 := by
    intro s1 hs1 hc
    refine Gone.same ?_ (fun e => hc (by rw [e]; decide)) (by rw [hs1])
    rw [text_flat, hc0, closing_flat hc]
  have hleave : leaveNode s = .ok c0 { s with deferred := ds } := by
    simp only [leaveNode, bind_apply, get_apply, hd]; rfl
  have para : (h0.get r).cls ∈ [.Paragraph, .Step, .Caption] → leaveParagraph r s = .ok d s' → Gone h0 r d s s' := by
    intro hc h
    have hne : (h0.get r).cls ≠ .MathBlock := fun e => by rw [e] at hc; revert hc; decide
    unfold leaveParagraph at h
    rw [bind_apply, hleave] at h
    simp only [node, bind_apply, gets_apply] at h
    rw [hint (by revert hc; generalize (h0.get r).cls = cl; cases cl <;> decide)] at h
    have hclose : (h0.get r).cls ≠ .Step → Render.closing h0 r =
        (if Render.interrupted h0 r then "</p>".toList else []) ++ (shut h0 r).flatten := by
      intro hs
      simp only [List.mem_cons, List.not_mem_nil, or_false] at hc
      rcases hc with hc | hc | hc
      · exact closing_paragraph hc
      · exact absurd hc hs
      · exact closing_caption hc
    cases hi : Render.interrupted h0 r with
    | false =>
      simp only [hi] at h
      cases h
      by_cases hs : (h0.get r).cls = .Step
      · exact plain rfl (by rw [hs]; decide)
      · refine Gone.same ?_ hne rfl
        rw [text_flat, hc0, hclose hs, hi]
        rfl
    | true =>
      simp only [hi, if_true] at h
      obtain ⟨l, s2, h1, h2⟩ := bindOk h
      cases h2
      unfold itemsOf at h1
      rcases hC with ⟨t, rfl⟩ | ⟨l', rfl⟩
      · cases h1
      · cases h1
        refine Gone.same ?_ hne rfl
        by_cases hs : (h0.get r).cls = .Step
        · obtain ⟨t, ht⟩ := hstep hs
          cases ht
        · rw [hclose hs, hi, ← hc0, text_flat]
          rfl
  by_cases hp : (h0.get r).cls ∈ [.Paragraph, .Step, .Caption]
  · refine para hp ?_
    have : leaver (h0.get r).cls = .Paragraph := by
      revert hp; cases (h0.get r).cls <;> decide
    rw [this] at h
    simp only [leaveWith, hk, Bool.false_eq_true, if_false] at h
    obtain ⟨c, s1, h1, h2⟩ := bindOk h
    cases h2
    exact h1
  by_cases ha : (h0.get r).cls = .Abstract
  · rw [ha] at h
    have h : leaveAbstract r s = .ok d s' := h
    unfold leaveAbstract at h
    simp only [bind_apply, node, gets_apply, hleave] at h
    have e1 : (s.heap.get r).keywords = (h0.get r).keywords := (congrArg NodeRec.keywords (hf.2 r) :)
    have e2 : (s.heap.get r).msc = (h0.get r).msc := (congrArg NodeRec.msc (hf.2 r) :)
    have e3 : d.allItems = abstractParagraphs (s.heap.get r) ++ c0.allItems := by
      clear para plain
      cases c0 <;> cases h <;> rfl
    refine Gone.same ?_ (by rw [ha]; decide) (by cases h; rfl)
    clear para
    rw [text_flat]
    rw [e3, List.map_append, List.flatten_append, hc0, ← List.flatMap_def, abstractParagraphs_eq, e1, e2]
    unfold Render.closing shut
    dsimp only
    rw [ha]
    simp only [List.flatten_cons, List.flatten_nil, List.append_nil, List.append_assoc]
  by_cases hpr : (h0.get r).cls = .Proof
  · rw [hpr] at h
    have h : leaveWith k .Proof r s = .ok d s' := h
    simp only [leaveWith, hk, Bool.false_eq_true, if_false] at h
    unfold leaveProof at h
    rw [bind_apply, hleave] at h
    dsimp only at h
    obtain ⟨l, s2, h1, h2⟩ := bindOk h
    cases h2
    unfold itemsOf at h1
    rcases hC with ⟨t, rfl⟩ | ⟨l', rfl⟩
    · cases h1
    · cases h1
      refine Gone.same ?_ (by rw [hpr]; decide) rfl
      have e1 : shut h0 r = [Render.line (Render.endTag "div")] := by unfold shut; dsimp only; rw [hpr]
      rw [e1] at hc0
      have e2 : l'.length = 1 := by simpa [Cmd.allItems] using congrArg List.length hc0
      obtain ⟨t, rfl⟩ := List.length_eq_one_iff.mp e2
      have e3 : t = Render.line (Render.endTag "div") := by
        have := List.head_eq_of_cons_eq hc0
        exact this
      subst e3
      unfold Render.closing
      dsimp only
      rw [hpr]
      rfl
  by_cases hm : (h0.get r).cls = .MathBlock
  · rw [hm] at h
    have h : leaveWith k .MathBlock r s = .ok d s' := h
    simp only [leaveWith, hk, Bool.false_eq_true, if_false] at h
    unfold leaveMathBlock at h
    obtain ⟨hnext, p, hp, hpi⟩ := hmath hm
    rw [bind_apply, hleave] at h
    have hpi' : h0.isInst p .BaseParagraph = true := by
      revert hpi; unfold Heap.isInst; cases (h0.get p).cls <;> decide
    have hclose : Render.closing h0 r = (shut h0 r).flatten ++ if Render.followed h0 r then "<p>".toList else [] := by
      unfold Render.closing shut
      dsimp only
      rw [hm]
      simp only [List.flatten_cons, List.flatten_nil, List.append_nil, List.append_assoc]
    simp only [bind_apply, get_apply, hf.parent, hp, hf.isInst, hpi', if_true, hf.nextSibling] at h
    cases hsib : h0.nextSibling r .any with
    | error e => rw [hsib] at h; cases h
    | ok o =>
      rw [hsib] at h
      simp only [lift, pure_apply] at h
      cases o with
      | none =>
        cases h
        have hfo : Render.followed h0 r = false := by rw [← hnext]; unfold hasNext; rw [hsib]
        refine ⟨?_, rfl, fun x => by simp [hfo]⟩
        rw [text_flat, hc0, hclose, hfo]
        simp only [Bool.false_eq_true, if_false, List.append_nil]
      | some y =>
        have hfo : Render.followed h0 r = true := by rw [← hnext]; unfold hasNext; rw [hsib]
        simp only [bind_apply, assign, modify_apply] at h
        unfold itemsOf at h
        rcases hC with ⟨t, rfl⟩ | ⟨l', rfl⟩
        · cases h
        · cases h
          refine ⟨?_, rfl, fun x => ?_⟩
          · rw [hclose, hfo, ← hc0, text_flat]
            simp only [Cmd.allItems, List.map_append, List.flatten_append, if_true]
            rfl
          · dsimp only
            rw [Heap.get_update]
            by_cases e : x = p
            · subst e
              rw [if_pos rfl]
              simp [hm, hp, hfo]
            · rw [if_neg e]
              have : h0.parent r ≠ some x := by rw [hp]; exact fun e' => e (Option.some.inj e').symm
              simp [this]
  · have : leaver (h0.get r).cls = .Node := by
      revert hp ha hpr hm; cases (h0.get r).cls <;> decide
    rw [this] at h
    have h : leaveNode s = .ok d s' := h
    rw [hleave] at h
    cases h
    refine plain rfl ?_
    simp only [List.mem_cons, List.not_mem_nil, or_false, not_or] at hp ⊢
    exact ⟨ha, hp.1, hm, hpr, hp.2.2⟩

end Tr
end RSM
