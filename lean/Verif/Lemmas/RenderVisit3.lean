import Verif.Lemmas.RenderVisit2

/-! # Lemmas: what is written for notes, formulas, figures, captions, links and entries -/

namespace RSM
namespace Tr
open PyM

variable {k : Conf} {h0 : Heap} {num : Ref → Option Str} {ref : Ref → Str}

theorem visit_note {r b s s' c} (hf : SameFrame h0 s.heap) (N : Named k h0 num ref r)
    (hn : s.heap.get r = record h0 r b) (hc : (h0.get r).cls = .Note) (hv : visit k r s = .ok c s') :
    Seen k h0 num ref r c s s' := by
  have hc' : (s.heap.get r).cls = (h0.get r).cls := by rw [hn]; rfl
  rw [visit_eq (by rw [hc', hc]; rfl)] at hv
  simp only [visitWith, visitNote, node, bind_apply, gets_apply, hn] at hv
  cases hh : fullNumber k r s with
  | err e s2 => rw [hh] at hv; cases hv
  | ok o s2 =>
    rw [hh] at hv
    obtain ⟨rfl, rfl⟩ := fullNumber_named N hf hh
    cases hv
    refine ⟨?_, ?_, Retyped.same rfl (by rw [hc]; decide)⟩
    · have e1 : "<a class=\"note__link\">".toList = Render.tag "a" [] ["note__link"] := by decide +kernel
      have e2 : "</a>".toList = Render.endTag "a" := by decide +kernel
      texts hc
      rw [e1, e2, fmtOpt_eq]
      simp only [Render.line, Render.element, List.append_assoc, List.cons_append]
      rfl
    · closers hc

theorem visit_mathblock {r b s s' c} (hk : k.handrails = false)
    (hn : s.heap.get r = record h0 r b) (hc : (h0.get r).cls = .MathBlock) (hv : visit k r s = .ok c s') :
    Seen k h0 num ref r c s s' ∧ ∃ p, s.heap.parent r = some p ∧ s.heap.isInst p .Paragraph = true := by
  have hc' : (s.heap.get r).cls = (h0.get r).cls := by rw [hn]; rfl
  rw [visit_eq (by rw [hc', hc]; rfl)] at hv
  simp only [visitWith, hk, Bool.false_eq_true, if_false, visitMathBlock, bind_apply, get_apply, hn] at hv
  cases hp : s.heap.parent r with
  | none => rw [hp] at hv; cases hv
  | some p =>
    rw [hp] at hv
    cases hi : s.heap.isInst p .Paragraph with
    | false => simp only [hi] at hv; cases hv
    | true =>
      simp only [hi] at hv
      cases hv
      refine ⟨⟨?_, ?_, Retyped.same rfl (by rw [hc]; decide)⟩, p, rfl, hi⟩
      · texts hc
      · closers hc

theorem visit_figure {r b s s' c} (hf : SameFrame h0 s.heap) (N : Named k h0 num ref r)
    (hn : s.heap.get r = record h0 r b) (hc : (h0.get r).cls = .Figure) (hv : visit k r s = .ok c s') :
    Seen k h0 num ref r c s s' := by
  have hc' : (s.heap.get r).cls = (h0.get r).cls := by rw [hn]; rfl
  rw [visit_eq (by rw [hc', hc]; rfl)] at hv
  simp only [visitWith, visitFigure, node, bind_apply, gets_apply, hn] at hv
  cases hh : fullNumber k r s with
  | err e s2 => rw [hh] at hv; cases hv
  | ok o s2 =>
    rw [hh] at hv
    obtain ⟨rfl, rfl⟩ := fullNumber_named N hf hh
    cases hv
    refine ⟨?_, ?_, Retyped.same rfl (by rw [hc]; decide)⟩
    · have e1 : (record h0 r b).cls.name ++ ' ' :: fmtOpt (num r) =
          "Figure ".toList ++ Render.shown (num r) := by
        rw [fmtOpt_eq, show (record h0 r b).cls = (h0.get r).cls from rfl, hc,
          show "Figure ".toList = Cls.Figure.name ++ [' '] by decide]
        simp
      texts hc
      rw [← List.append_assoc (record h0 r b).cls.name, e1, List.append_assoc, makeTag_eq]
      rfl
    · closers hc

theorem visit_caption {r b s s' c} (hf : SameFrame h0 s.heap)
    (N : ∀ p, h0.parent r = some p → Named k h0 num ref p)
    (hn : s.heap.get r = record h0 r b) (hc : (h0.get r).cls = .Caption) (hv : visit k r s = .ok c s') :
    Seen k h0 num ref r c s s' := by
  have hc' : (s.heap.get r).cls = (h0.get r).cls := by rw [hn]; rfl
  rw [visit_eq (by rw [hc', hc]; rfl)] at hv
  simp only [visitWith, visitCaption, bind_apply, get_apply, hf.parent] at hv
  cases hp : h0.parent r with
  | none => rw [hp] at hv; cases hv
  | some p =>
    rw [hp] at hv
    simp only [bind_apply] at hv
    cases hh : fullNumber k p s with
    | err e s2 => rw [hh] at hv; cases hv
    | ok o s2 =>
      rw [hh] at hv
      obtain ⟨rfl, rfl⟩ := fullNumber_named (N p hp) hf hh
      cases hv
      have e1 : (s'.heap.get p).cls = (h0.get p).cls := hf.cls p
      have e2 : (if s'.heap.isInst p .Figure = true then "figcaption".toList else "caption".toList) =
          if (h0.get p).cls = .Figure then "figcaption".toList else "caption".toList := by
        unfold Heap.isInst
        rw [e1]
        cases (h0.get p).cls <;> rfl
      refine ⟨?_, ?_, Retyped.same rfl (by rw [hc]; decide)⟩
      · texts hc
        simp only [hp, e1, e2, fmtOpt_eq, Render.element, List.append_assoc, List.cons_append]
      · closers hc
        simp only [hp, e2]

/-! ## Links -/

/-- The types of a link. -/
def ensure (ty : List Str) : List Str := (if "reference".toList ∈ ty then [] else ["reference".toList]) ++ ty

theorem ensure_ensure (ty : List Str) : ensure (ensure ty) = ensure ty := by
  have h : "reference".toList ∈ ensure ty := by
    unfold ensure
    by_cases h : "reference".toList ∈ ty
    · exact List.mem_append.mpr (.inr h)
    · rw [if_neg h]; exact List.mem_append.mpr (.inl (List.mem_singleton.mpr rfl))
  show (if "reference".toList ∈ ensure ty then [] else ["reference".toList]) ++ ensure ty = ensure ty
  rw [if_pos h]; rfl

/-- The heap after the types of `r` were changed. -/
def TypesSet (r : Ref) (ty : List Str) (s s' : TrState) : Prop := s'.heap.next = s.heap.next ∧
  (∀ x, x ≠ r → s'.heap.get x = s.heap.get x) ∧ s'.heap.get r = { s.heap.get r with types := ty }

theorem addReferenceType_set {r s s'} (hu : ((s.heap.get r).cls.isSub .URL) = false)
    (h : addReferenceType r s = .ok () s') : TypesSet r (ensure (s.heap.get r).types) s s' := by
  simp only [addReferenceType, node, bind_apply, gets_apply, hu] at h
  by_cases hm : "reference".toList ∈ (s.heap.get r).types
  · rw [if_neg (by simp only [not_and, not_not]; exact fun _ => hm)] at h
    cases h
    refine ⟨rfl, fun _ _ => rfl, ?_⟩
    unfold ensure
    rw [if_pos hm]; rfl
  · rw [if_pos ⟨by simp, hm⟩] at h
    cases h
    refine ⟨rfl, fun x hx => ?_, ?_⟩
    · dsimp only
      rw [Heap.get_update, if_neg hx]
    · dsimp only
      rw [Heap.get_update, if_pos rfl]
      unfold ensure
      rw [if_neg hm]; rfl

theorem TypesSet.frame {r ty s s'} (h : TypesSet r ty s s') : SameFrame s.heap s'.heap := by
  refine ⟨h.1, fun x => ?_⟩
  by_cases e : x = r
  · rw [e, h.2.2]; rfl
  · rw [h.2.1 x e]

theorem ahref_set {r x href id more s s' out} (hf : SameFrame h0 s.heap) (N : Named k h0 num ref x)
    (hu : (h0.get r).cls.isSub .URL = false) (h : ahref k r (.node x) href id more s = .ok out s') :
    TypesSet r (ensure (s.heap.get r).types) s s' ∧
    out = Render.tag "a" id (ensure (s.heap.get r).types ++ more) [("href", href)]
      ++ (if (h0.get r).cls.isSub .BaseReference ∧ (h0.get r).overwriteReftext ≠ [] then (h0.get r).overwriteReftext
          else ref x) ++ Render.endTag "a" := by
  have e0 : (s.heap.get r).cls = (h0.get r).cls := hf.cls r
  have e1 : (s.heap.get r).overwriteReftext = (h0.get r).overwriteReftext :=
    (congrArg NodeRec.overwriteReftext (hf.2 r) :)
  unfold ahref at h
  obtain ⟨_, s1, h1, ha⟩ := bindOk h
  clear h
  cases h1
  obtain ⟨text, s2, h2, hb⟩ := bindOk ha
  clear ha
  have ht : s2 = s ∧ text = if (h0.get r).cls.isSub .BaseReference ∧ (h0.get r).overwriteReftext ≠ [] then
      (h0.get r).overwriteReftext else ref x := by
    simp only [linkText, node, bind_apply, gets_apply, e0, e1] at h2
    split at h2
    · rename_i hh; cases h2; exact ⟨rfl, by rw [if_pos hh]⟩
    · rename_i hh
      obtain ⟨a, b⟩ := reftext_named N hf h2
      exact ⟨a, by rw [if_neg hh]; exact b⟩
  obtain ⟨rfl, ht⟩ := ht
  obtain ⟨_, s3, h3, hd⟩ := bindOk hb
  clear hb
  have hset := addReferenceType_set (by rw [e0]; exact hu) h3
  simp only [node, bind_apply, gets_apply] at hd
  cases hd
  refine ⟨hset, ?_⟩
  rw [hset.2.2, makeTag_eq, ht]
  rfl

theorem TypesSet.retyped {r ty s s'} (h : TypesSet r ty s s') (hc : (h0.get r).cls ≠ .Proof) :
    Retyped h0 r s s' := by
  refine ⟨h.1, fun x => ?_⟩
  by_cases e : x = r
  · subst e; exact ⟨ty, h.2.2, fun hn => absurd rfl hn⟩
  · exact ⟨_, h.2.1 x e, fun _ => by simp [lastOf, hc]⟩

theorem label_eq {s : TrState} (hf : SameFrame h0 s.heap) (x : Ref) : (s.heap.get x).label = (h0.get x).label :=
  (congrArg NodeRec.label (hf.2 x) :)

theorem opening_reference {r y} (hc : (h0.get r).cls = .Reference) (ht : (h0.get r).target = .node y) (hi : Str → Str → Str) :
    Render.opening h0 num ref hi r = Render.tag "a" [] (ensure (Render.types h0 r) ++ [])
      [("href", '#' :: (h0.get y).label)] ++ (if (h0.get r).overwriteReftext = [] then ref y
        else (h0.get r).overwriteReftext) ++ Render.endTag "a" := by
  unfold Render.opening
  dsimp only
  rw [hc]
  dsimp only
  rw [ht]
  simp only [Render.linkTo, Render.link, ensure, List.append_nil, List.append_assoc]

theorem opening_url {r u} (hc : (h0.get r).cls = .URL) (ht : (h0.get r).target = .str u) (hi : Str → Str → Str) :
    Render.opening h0 num ref hi r = Render.tag "a" [] (Render.types h0 r) [("href", u)]
      ++ (if (h0.get r).overwriteReftext = [] then u else (h0.get r).overwriteReftext) ++ Render.endTag "a" := by
  unfold Render.opening
  dsimp only
  rw [hc]
  dsimp only
  rw [ht]

theorem opening_cite {r} (hc : (h0.get r).cls = .Cite) (hi : Str → Str → Str) :
    Render.opening h0 num ref hi r = Render.citation h0 ref r := by
  unfold Render.opening
  dsimp only
  rw [hc]

theorem citation_several {r} (hne : ∀ y, (h0.get r).targets ≠ [y]) :
    Render.citation h0 ref r = "[<span id=\"".toList ++ (h0.get r).label ++ "\">".toList
      ++ List.intercalate ", ".toList ((h0.get r).targets.zipIdx.map fun p =>
          Render.linkTo h0 r p.1 ((h0.get r).label ++ '-' :: natStr p.2) ["cite".toList] (ref p.1))
      ++ "</span>]".toList := by
  unfold Render.citation
  split
  · rename_i y hy; exact absurd hy (hne y)
  · rfl

theorem citation_one {r y} (hy : (h0.get r).targets = [y]) :
    Render.citation h0 ref r = "[".toList ++ Render.linkTo h0 r y (h0.get r).label
      ("cite".toList :: if (h0.get y).cls = .UnknownBibitem then ["unknown".toList] else []) (ref y)
      ++ "]".toList := by
  unfold Render.citation
  rw [hy]

theorem visit_reference {r b s s' c} (hf : SameFrame h0 s.heap)
    (N : ∀ x, LeadsTo h0 r x → Named k h0 num ref x)
    (hn : s.heap.get r = record h0 r b) (hc : (h0.get r).cls = .Reference) (hv : visit k r s = .ok c s') :
    Seen k h0 num ref r c s s' := by
  have hc' : (s.heap.get r).cls = (h0.get r).cls := by rw [hn]; rfl
  rw [visit_eq (by rw [hc', hc]; rfl)] at hv
  simp only [visitWith, visitReference, bind_apply, get_apply, hn] at hv
  rw [show (record h0 r b).target = (h0.get r).target from rfl] at hv
  cases ht : (h0.get r).target with
  | none => rw [ht] at hv; cases hv
  | str u => rw [ht] at hv; cases hv
  | node x =>
    rw [ht] at hv
    obtain ⟨out, s1, h1, h2⟩ := bindOk hv
    obtain ⟨hset, hout⟩ := ahref_set hf (N x (.inl ⟨by rw [hc]; decide, ht⟩)) (by rw [hc]; decide) h1
    cases h2
    refine ⟨?_, by simp only [shut, hc]; rfl, hset.retyped (by rw [hc]; decide)⟩
    rw [hn] at hout
    show out = _
    rw [hout, label_eq hf, opening_reference hc ht]
    rw [show (record h0 r b).types = Render.types h0 r from rfl]
    by_cases ho : (h0.get r).overwriteReftext = []
    · rw [if_neg (fun h => h.2 ho), if_pos ho]
    · rw [if_pos ⟨by rw [hc]; decide, ho⟩, if_neg ho]

theorem visit_url {r b s s' c} (hu : ∀ y, (h0.get r).target ≠ .node y)
    (hn : s.heap.get r = record h0 r b) (hc : (h0.get r).cls = .URL) (hv : visit k r s = .ok c s') :
    Seen k h0 num ref r c s s' := by
  have hc' : (s.heap.get r).cls = (h0.get r).cls := by rw [hn]; rfl
  rw [visit_eq (by rw [hc', hc]; rfl)] at hv
  simp only [visitWith, visitUrl, bind_apply, get_apply, hn] at hv
  rw [show (record h0 r b).target = (h0.get r).target from rfl] at hv
  cases ht : (h0.get r).target with
  | none => rw [ht] at hv; cases hv
  | node x => exact absurd ht (hu x)
  | str u =>
    rw [ht] at hv
    obtain ⟨out, s1, h1, h2⟩ := bindOk hv
    cases h2
    unfold ahref at h1
    obtain ⟨_, s2, h3, ha⟩ := bindOk h1
    clear h1
    have e3 : s2 = s := by
      cases u <;> cases h3; rfl
    subst e3
    obtain ⟨text, s3, h4, hb⟩ := bindOk ha
    clear ha
    simp only [linkText, node, bind_apply, gets_apply, hn] at h4
    have h4' : s3 = s2 ∧ text = if (h0.get r).overwriteReftext = [] then u else (h0.get r).overwriteReftext := by
      rw [show (record h0 r b).cls = (h0.get r).cls from rfl, hc,
        show (record h0 r b).overwriteReftext = (h0.get r).overwriteReftext from rfl] at h4
      by_cases ho : (h0.get r).overwriteReftext = []
      · rw [if_neg (by simp [ho])] at h4; cases h4; exact ⟨rfl, by rw [if_pos ho]⟩
      · rw [if_pos ⟨by decide, ho⟩] at h4; cases h4; exact ⟨rfl, by rw [if_neg ho]⟩
    obtain ⟨rfl, rfl⟩ := h4'
    obtain ⟨_, s4, h5, hd⟩ := bindOk hb
    clear hb
    have e4 : s4 = s3 := by
      simp only [addReferenceType, node, bind_apply, gets_apply, hn] at h5
      rw [if_neg (by
        rw [show (record h0 r b).cls = (h0.get r).cls from rfl, hc]
        exact fun h => h.1 (by decide))] at h5
      cases h5; rfl
    subst e4
    simp only [node, bind_apply, gets_apply, hn] at hd
    cases hd
    refine ⟨?_, by simp only [shut, hc]; rfl, Retyped.same rfl (by rw [hc]; decide)⟩
    rw [opening_url hc ht, makeTag_eq, List.append_nil]
    rfl

theorem citeTags_set {r} (hc : (h0.get r).cls = .Cite) : ∀ (i : Nat) (xs : List Ref) {s s' out}
    (_ : SameFrame h0 s.heap) (_ : ∀ x ∈ xs, Named k h0 num ref x)
    (_ : ensure (s.heap.get r).types = ensure (Render.types h0 r))
    (_ : citeTags k r i xs s = .ok out s'),
    (TypesSet r (s'.heap.get r).types s s') ∧
    out = (xs.zipIdx i).map fun p =>
          Render.linkTo h0 r p.1 ((h0.get r).label ++ '-' :: natStr p.2) ["cite".toList] (ref p.1)
  | i, [], s, s', out, hf, N, hty, h => by
    cases h
    exact ⟨⟨rfl, fun _ _ => rfl, rfl⟩, rfl⟩
  | i, x :: xs, s, s', out, hf, N, hty, h => by
    simp only [citeTags] at h
    obtain ⟨t, s1, h1, h⟩ := bindOk h
    cases h1
    obtain ⟨a, s2, h2, h⟩ := bindOk h
    obtain ⟨hset, ha⟩ := ahref_set hf (N x (by simp)) (by rw [hc]; decide) h2
    obtain ⟨as, s3, h3, h⟩ := bindOk h
    cases h
    have hty2 : ensure (s2.heap.get r).types = ensure (Render.types h0 r) := by
      rw [hset.2.2]
      show ensure (ensure (s.heap.get r).types) = _
      rw [ensure_ensure, hty]
    obtain ⟨hset3, has⟩ := citeTags_set hc (i + 1) xs (hf.trans hset.frame) (fun y hy => N y (by simp [hy])) hty2 h3
    refine ⟨⟨hset3.1.trans hset.1, fun y hy => (hset3.2.1 y hy).trans (hset.2.1 y hy), ?_⟩, ?_⟩
    · rw [hset3.2.2, hset.2.2]
    · rw [List.zipIdx_cons, List.map_cons, ← has, ha, hty, label_eq hf, label_eq hf]
      rw [if_neg (by rw [hc]; exact fun h => absurd h.1 (by decide))]
      congr 1

theorem visit_cite {r b s s' c} (hf : SameFrame h0 s.heap)
    (N : ∀ x, LeadsTo h0 r x → Named k h0 num ref x)
    (hn : s.heap.get r = record h0 r b) (hc : (h0.get r).cls = .Cite) (hv : visit k r s = .ok c s') :
    Seen k h0 num ref r c s s' := by
  have hc' : (s.heap.get r).cls = (h0.get r).cls := by rw [hn]; rfl
  have hp : (h0.get r).cls ≠ .Proof := by rw [hc]; decide
  have N' : ∀ x ∈ (h0.get r).targets, Named k h0 num ref x := fun x hx => N x (.inr ⟨hc, hx⟩)
  have hty : (s.heap.get r).types = Render.types h0 r := by rw [hn]; rfl
  rw [visit_eq (by rw [hc', hc]; rfl)] at hv
  simp only [visitWith, visitCite, bind_apply, get_apply, hn] at hv
  rw [show (record h0 r b).targets = (h0.get r).targets from rfl] at hv
  have several : ∀ xs, (h0.get r).targets = xs → (∀ y, xs ≠ [y]) →
      ((citeTags k r 0 xs >>= fun ss => pure (Cmd.item (.text ("[<span id=\"".toList ++ (record h0 r b).label ++ "\">".toList
        ++ join ", ".toList ss ++ "</span>]".toList)))) s : Res TrState Cmd) = .ok c s' → Seen k h0 num ref r c s s' := by
    intro xs hxs hne h
    obtain ⟨ss, s1, h1, h2⟩ := bindOk h
    obtain ⟨hset, hss⟩ := citeTags_set hc 0 xs hf (fun x hx => N' x (hxs ▸ hx)) (by rw [hty]) h1
    cases h2
    refine ⟨?_, by simp only [shut, hc]; rfl, hset.retyped hp⟩
    rw [opening_cite hc, citation_several (hxs ▸ hne), hxs, ← hss, ← join_eq]
    rfl
  match hxs : (h0.get r).targets with
  | [] => rw [hxs] at hv; exact several [] hxs (by simp) hv
  | [x] =>
    rw [hxs] at hv
    obtain ⟨a, s1, h1, h2⟩ := bindOk hv
    obtain ⟨hset, ha⟩ := ahref_set hf (N' x (by rw [hxs]; simp)) (by rw [hc]; decide) h1
    cases h2
    refine ⟨?_, by simp only [shut, hc]; rfl, hset.retyped hp⟩
    rw [opening_cite hc, citation_one hxs]
    show '[' :: a ++ "]".toList = _
    rw [ha, hty, label_eq hf]
    have e2 : (if s.heap.isInst x .UnknownBibitem = true then ["cite".toList, "unknown".toList] else ["cite".toList]) =
        "cite".toList :: if (h0.get x).cls = .UnknownBibitem then ["unknown".toList] else [] := by
      unfold Heap.isInst
      rw [hf.cls x]
      cases (h0.get x).cls <;> rfl
    have e3 : (if (h0.get r).cls.isSub .BaseReference = true ∧ (h0.get r).overwriteReftext ≠ [] then
        (h0.get r).overwriteReftext else ref x) = ref x :=
      if_neg (by rw [hc]; exact fun h => absurd h.1 (by decide))
    rw [e2, e3]
    simp only [Render.linkTo, Render.link, ensure, List.append_assoc, List.cons_append]
    rfl
  | x :: y :: xs => rw [hxs] at hv; exact several _ hxs (by simp) hv

/-! ## Entries of the bibliography -/

theorem backlinks_eq : ∀ i ls, backlinkTags i ls = Render.backlinks i ls
  | _, [] => rfl
  | i, l :: ls => by
    unfold backlinkTags Render.backlinks
    rw [backlinks_eq (i + 1) ls, makeTag_eq]
    rfl

theorem parts_eq (nd : NodeRec) : (bibitemParts nd).1 =
    (if nd.number.truthy then [nd.number.fmt ++ ".".toList] else [])
      ++ [nd.author, "\"".toList ++ nd.title ++ "\"".toList]
      ++ (if nd.kind = "article".toList ∧ nd.journal ≠ [] then [nd.journal] else [])
      ++ (if nd.kind = "book".toList ∧ nd.publisher ≠ [] then [nd.publisher] else []) := by
  have hne : "article".toList ≠ "book".toList := by decide +kernel
  unfold bibitemParts
  generalize ((if nd.number.truthy then [nd.number.fmt ++ ".".toList] else [])
      ++ [nd.author, "\"".toList ++ nd.title ++ "\"".toList]) = base
  dsimp only
  generalize "article".toList = w1 at *
  generalize "book".toList = w2 at *
  by_cases h1 : nd.kind = w1
  · have h2 : nd.kind ≠ w2 := fun e => hne (h1.symm.trans e)
    by_cases h3 : nd.journal = [] <;> simp [h1, hne, h3]
  · by_cases h2 : nd.kind = w2
    · have h1' : w2 ≠ w1 := fun e => h1 (h2.trans e)
      by_cases h3 : nd.publisher = [] <;> simp [h2, h1', h3]
    · simp [h1, h2]

theorem year_eq {nd s l s'} (h : bibitemYear nd s = .ok l s') : l = match nd.year with
    | .str y => if y = [] then [] else [y]
    | _ => [] := by
  unfold bibitemYear at h
  cases hy : nd.year with
  | none =>
    rw [hy] at h
    rw [if_neg (by decide)] at h
    cases h; rfl
  | int n =>
    rw [hy] at h
    by_cases ht : (PyNum.int n).truthy = true
    · rw [if_pos ht] at h; cases h
    · rw [if_neg ht] at h; cases h; rfl
  | str y =>
    rw [hy] at h
    by_cases ht : y = []
    · subst ht
      rw [if_neg (by decide)] at h
      cases h; rfl
    · rw [if_pos (by cases y with | nil => exact absurd rfl ht | cons => rfl)] at h
      cases h
      exact (if_neg ht).symm

theorem doi_eq {nd s l s'} (h : bibitemDoi nd s = .ok l s') : l = if nd.doi = [] then [] else
      ' ' :: Render.tag "a" (nd.label ++ "-doi".toList) ["bibitem-doi"]
        [("href", "https://doi.org/".toList ++ nd.doi), ("target", "_blank")] ++ "[link]".toList ++ Render.endTag "a" := by
  unfold bibitemDoi at h
  by_cases hd : nd.doi = []
  · rw [if_neg (fun e => e hd)] at h
    cases h
    rw [if_pos hd]
  · rw [if_pos hd] at h
    cases h
    rw [if_neg hd, makeTag_eq, show "[link]</a>".toList = "[link]".toList ++ Render.endTag "a" by decide +kernel,
      ← List.append_assoc]
    rfl

theorem stripDots_eq : stripDots = Render.undotted := rfl

theorem entry_eq {r s out s'} (h : bibitemText r s = .ok out s') :
    s'.heap = s.heap ∧ out = Render.entry (s.heap.get r) := by
  have hh := (bibitemText_reads r).ok h
  refine ⟨hh, ?_⟩
  unfold bibitemText at h
  obtain ⟨nd, s1, h1, ha⟩ := bindOk h
  clear h
  cases h1
  obtain ⟨_, s2, h2, hb⟩ := bindOk ha
  obtain ⟨year, s3, h3, hc⟩ := bindOk hb
  obtain ⟨doi, s4, h4, hd⟩ := bindOk hc
  cases hd
  have hy := year_eq h3
  have hdoi := doi_eq h4
  have e : ∀ b : Str, (if (s.heap.get r).backlinks ≠ [] then b else []) =
      if (s.heap.get r).backlinks = [] then [] else b := by
    intro b; by_cases h : (s.heap.get r).backlinks = [] <;> simp [h]
  unfold Render.entry
  rw [e, backlinks_eq, join_eq, join_eq, parts_eq, stripDots_eq, hy, hdoi]
  clear hy hdoi h2 h3 h4 ha hb hc
  dsimp only
  cases (s.heap.get r).year <;> rfl

theorem entry_record (b : Bool) (r : Ref) : Render.entry (record h0 r b) = Render.entry (h0.get r) := rfl

theorem visit_entry {r b s s' c} (hk : k.handrails = false)
    (hn : s.heap.get r = record h0 r b) (hc : (h0.get r).cls = .Bibitem ∨ (h0.get r).cls = .UnknownBibitem)
    (hv : visit k r s = .ok c s') : Seen k h0 num ref r c s s' := by
  have hc' : (s.heap.get r).cls = (h0.get r).cls := by rw [hn]; rfl
  rcases hc with hc | hc <;>
  · rw [visit_eq (by rw [hc', hc]; rfl)] at hv
    simp only [visitWith, hk, Bool.false_eq_true, if_false, node, bind_apply, gets_apply, hn] at hv
    cases hh : bibitemText r s with
    | err e s2 => rw [hh] at hv; cases hv
    | ok out s2 =>
      rw [hh] at hv
      obtain ⟨he, rfl⟩ := entry_eq hh
      rw [hn, entry_record] at hv
      cases hv
      refine ⟨?_, ?_, Retyped.same he (by rw [hc]; decide)⟩
      · texts hc
      · closers hc

/-! ## Proofs -/

theorem find?_zipIdx {α : Type} (p : α → Bool) : ∀ (l : List α) (i : Nat),
    ((l.zipIdx i).find? fun q => p q.1).map Prod.fst = l.find? p
  | [], _ => rfl
  | a :: l, i => by
    rw [List.zipIdx_cons, List.find?_cons, List.find?_cons]
    cases p a
    · exact find?_zipIdx p l (i + 1)
    · rfl

theorem lastOfType_step (h : Heap) (r : Ref) : (h.lastOfType r [.Step]).map Prod.fst =
    ((h.children r).filter fun c => (h.get c).cls = .Step).getLast? := by
  unfold Heap.lastOfType
  rw [Option.map_map]
  have e : (Prod.fst ∘ fun ci : Ref × Nat => (ci.1, (h.children r).length - ci.2 - 1)) = Prod.fst := rfl
  rw [e, find?_zipIdx (fun c => h.isInstAny c [.Step])]
  have ep : (fun c => h.isInstAny c [.Step]) = fun c => decide ((h.get c).cls = .Step) := by
    funext c
    unfold Heap.isInstAny
    cases (h.get c).cls <;> rfl
  rw [ep]
  rw [← List.head?_filter, List.filter_reverse, List.head?_reverse]

theorem visit_proof {r b s s' c} (hk : k.handrails = false) (hf : SameFrame h0 s.heap)
    (hown : r ∉ h0.children r)
    (hn : s.heap.get r = record h0 r b) (hc : (h0.get r).cls = .Proof) (hv : visit k r s = .ok c s') :
    Seen k h0 num ref r c s s' := by
  have hc' : (s.heap.get r).cls = (h0.get r).cls := by rw [hn]; rfl
  rw [visit_eq (by rw [hc', hc]; rfl)] at hv
  simp only [visitWith, hk, Bool.false_eq_true, if_false, proofItems, bind_apply] at hv
  have hlast : (s.heap.lastOfType r [.Step]).map Prod.fst =
      ((h0.children r).filter fun c => (h0.get c).cls = .Step).getLast? := by
    rw [lastOfType_step, hf.children]
    simp only [hf.cls]
  have key : ∃ s1, markLast r s = .ok () s1 ∧ s1.heap.get r = record h0 r b ∧ Retyped h0 r s s1 := by
    unfold markLast
    simp only [bind_apply, get_apply]
    cases hl : s.heap.lastOfType r [.Step] with
    | none =>
      rw [hl] at hlast
      refine ⟨s, rfl, hn, rfl, fun x => ⟨_, rfl, fun _ => ?_⟩⟩
      unfold lastOf
      rw [← hlast]
      simp
    | some p =>
      obtain ⟨x, i⟩ := p
      rw [hl] at hlast
      have hx : x ∈ h0.children r := by
        have := List.mem_of_getLast? hlast.symm
        exact (List.mem_filter.mp this).1
      have hxr : x ≠ r := fun e => hown (e ▸ hx)
      refine ⟨_, rfl, ?_, rfl, fun y => ?_⟩
      · dsimp only
        rw [Heap.get_update, if_neg (fun e => hxr e.symm), hn]
      · dsimp only
        rw [Heap.get_update]
        by_cases e : y = x
        · subst e
          rw [if_pos rfl]
          refine ⟨_, rfl, fun _ => ?_⟩
          unfold lastOf
          rw [← hlast]
          simp [hc]
        · rw [if_neg e]
          refine ⟨_, rfl, fun _ => ?_⟩
          unfold lastOf
          rw [← hlast]
          have hxy : x ≠ y := fun e' => e e'.symm
          simp only [Option.map_some, Option.some_beq_some, beq_false_of_ne hxy, Bool.and_false,
            Bool.false_eq_true, if_false, List.append_nil]
  obtain ⟨s1, hm, hn1, hR⟩ := key
  rw [hm] at hv
  simp only [node, gets_apply, hn1] at hv
  cases hv
  refine ⟨?_, ?_, hR⟩
  · have e1 : capitalize (lower (record h0 r b).cls.name) ++ ".".toList = "Proof.".toList := by
      rw [show (record h0 r b).cls = (h0.get r).cls from rfl, hc]
      decide +kernel
    texts hc
    rw [e1, titleText_eq]
  · closers hc

end Tr
end RSM
