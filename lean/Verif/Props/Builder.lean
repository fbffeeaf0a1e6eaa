import Verif.Lemmas.Builder
import Verif.Lemmas.TrWeave
import Verif.Lemmas.Html
import Verif.Lemmas.TrTags
import Verif.Props.Translator

/-!
# Properties of the builder (C54, C55)
-/

namespace RSM
open PyM Build Html

/-! ## C54: the title of the page -/

/-- The title that the page has to have: what is inside the first `<h1>…</h1>` of the body that is on
one line, and nothing if there is none. -/
inductive TitleOf (body : Str) : Str → Prop
  | found {b t a} : FirstBetween "<h1>".toList "</h1>".toList body b t a → TitleOf body t
  | none : (∀ b t a, ¬Between "<h1>".toList "</h1>".toList body b t a) → TitleOf body []

/-- **C54.** The title is found. -/
theorem C54_title (body t : Str) : extractTitle body = t ↔ TitleOf body t := by
  have hw : "</h1>".toList ≠ [] := by decide
  have h1 : TitleOf body (extractTitle body) := by
    unfold extractTitle
    cases e : searchBetween "<h1>".toList "</h1>".toList body with
    | none => exact .none (searchBetween_none hw e)
    | some g =>
      obtain ⟨b, a, h⟩ := searchBetween_some hw e
      exact .found h
  constructor
  · rintro rfl; exact h1
  · intro h
    cases h with
    | found hf =>
      generalize extractTitle body = x at h1
      cases h1 with
      | found hf' => exact (hf'.unique hf).2.1
      | none hn => exact absurd hf.toBetween (hn _ _ _)
    | none hn =>
      generalize extractTitle body = x at h1
      cases h1 with
      | found hf' => exact absurd hf'.toBetween (hn _ _ _)
      | none => rfl

/-- The part of the page before its title. -/
def pageStart : Str := "<html>\n\n".toList ++ headerTemplate.take (headerTemplate.length - 45)

/-- **C54.** The page is fixed but for its title and its body; the title is put between the title
tags, and the body is put after the header without the white space around it. -/
theorem C54_page (body t : Str) (h : TitleOf body t) :
    page body = pageStart ++ "<title>".toList ++ t ++ "</title>\n</head>\n\n".toList ++ strip body ++
      "\n\n</html>\n".toList := by
  rw [← C54_title] at h
  have hm : replaceMark "__TITLE_PLACEHOLDER__".toList 0 headerTemplate =
      (headerTemplate.take (headerTemplate.length - 45)).map some ++ ("<title>".toList.map some ++
        (none :: "</title>\n</head>\n".toList.map some)) := by
    decide +kernel
  have hh : htmlHeader body = headerTemplate.take (headerTemplate.length - 45) ++ ("<title>".toList ++
      (t ++ "</title>\n</head>\n".toList)) := by
    unfold htmlHeader pyReplace
    rw [h, replaceScan_mark, hm]
    simp only [List.flatMap_append, List.flatMap_cons]
    rw [flatMap_some _ fun _ => rfl, flatMap_some _ fun _ => rfl, flatMap_some _ fun _ => rfl]
  unfold page htmlFooter pageStart
  rw [hh]
  simp only [List.append_assoc, List.nil_append]
  have e1 : ∀ x : Str, "</title>\n</head>\n".toList ++ ("\n".toList ++ x) = "</title>\n</head>\n\n".toList ++ x :=
    fun _ => rfl
  have e2 : "\n\n".toList ++ "</html>\n".toList = "\n\n</html>\n".toList := rfl
  rw [e1, e2]

/-! ### The title of the manuscript -/

/-- A text that begins with `<` and has no other one cannot overlap with itself. -/
theorem occurs_before {w' pre rest b a : Str} (hw : '<' ∉ w')
    (h : pre ++ ('<' :: w') ++ rest = b ++ ('<' :: w') ++ a) (hb : b.length < pre.length) :
    ('<' :: w') <:+: pre := by
  simp only [List.append_assoc] at h
  rcases List.append_eq_append_iff.1 h with ⟨x, hx, -⟩ | ⟨x, hx, h2⟩
  · have := congrArg List.length hx
    simp only [List.length_append] at this
    omega
  · have hxn : x ≠ [] := by
      rintro rfl
      rw [hx, List.append_nil] at hb
      exact Nat.lt_irrefl _ hb
    rcases List.append_eq_append_iff.1 h2 with ⟨y, hy, -⟩ | ⟨y, hy, h3⟩
    · exact ⟨b, y, by rw [hx, hy, List.append_assoc]⟩
    · cases x with
      | nil => exact absurd rfl hxn
      | cons c x =>
        simp only [List.cons_append, List.cons.injEq] at hy
        cases y with
        | nil =>
          refine ⟨b, [], ?_⟩
          rw [hx, ← hy.1, hy.2]
          simp
        | cons d y =>
          simp only [List.cons_append, List.cons.injEq] at h3
          refine absurd ?_ hw
          rw [hy.2, h3.1]
          simp

/-- The first heading of a text that has none before. -/
theorem title_found {pre t rest : Str} (h1 : ¬"<h1>".toList <:+: pre) (h2 : ¬"</h1>".toList <:+: t)
    (h3 : '\n' ∉ t) : TitleOf (pre ++ ("<h1>".toList ++ (t ++ ("</h1>".toList ++ rest)))) t := by
  have e : ∀ x : Str, pre ++ ("<h1>".toList ++ (t ++ ("</h1>".toList ++ rest)))
      = pre ++ "<h1>".toList ++ t ++ "</h1>".toList ++ rest := by
    intro _; simp only [List.append_assoc]
  refine .found (b := pre) (a := rest) ⟨⟨e [], h3⟩, ?_⟩
  intro b i a hb
  have hs := hb.split
  rcases Nat.lt_trichotomy pre.length b.length with hlt | heq | hgt
  · exact .inl hlt
  · refine .inr ⟨heq, ?_⟩
    simp only [List.append_assoc] at hs
    have hs2 := List.append_cancel_left (List.append_inj hs heq).2
    refine Decidable.byContradiction fun hn => h2 ?_
    exact occurs_before (w' := "/h1>".toList) (pre := t) (rest := rest) (b := i) (a := a) (by decide)
      (by simpa using hs2) (by omega)
  · refine absurd ?_ h1
    refine occurs_before (w' := "h1>".toList) (pre := pre) (rest := t ++ ("</h1>".toList ++ rest)) (b := b)
      (a := i ++ ("</h1>".toList ++ a)) (by decide) ?_ hgt
    simpa using hs

/-- The text begins, and not with an `h`. -/
def startsOther : Str → Bool
  | [] => false
  | d :: _ => d != 'h'

/-- No `<` of the text is at its end or before an `h`. -/
def NoH : Str → Bool
  | [] => true
  | c :: s => (c != '<' || startsOther s) && NoH s

theorem NoH.append {a b : Str} (ha : NoH a = true) (hb : NoH b = true) : NoH (a ++ b) = true := by
  induction a with
  | nil => exact hb
  | cons c a ih =>
    simp only [NoH, Bool.and_eq_true] at ha
    rw [List.cons_append, NoH, ih ha.2, Bool.and_true]
    cases a with
    | nil =>
      have := ha.1
      simp only [startsOther, Bool.or_false] at this
      rw [this]; rfl
    | cons d a => exact ha.1

theorem NoH.noAngle {a : Str} (h : NoAngle a) : NoH a = true := by
  induction a with
  | nil => rfl
  | cons c a ih =>
    rw [noAngle_cons] at h
    rw [NoH, ih h.2, Bool.and_true]
    simp [h.1.1]

theorem NoH.not_infix {a : Str} (h : NoH a = true) : ¬"<h1>".toList <:+: a := by
  rintro ⟨p, q, e⟩
  subst e
  induction p with
  | nil => revert h; simp [NoH, startsOther]
  | cons c p ih =>
    apply ih
    have e : (c :: p ++ "<h1>".toList ++ q : Str) = c :: (p ++ "<h1>".toList ++ q) := rfl
    rw [e, NoH, Bool.and_eq_true] at h
    exact h.2

/-- The opening tag of a `div`. -/
theorem NoH.nodeTag {nd : NodeRec} (hl : NoAngle nd.label) (ht : ∀ x ∈ nd.types, NoAngle x) :
    NoH (Tr.Item.openTag (Tr.nodeTag nd)).makeText = true := by
  have hc : NoAngle (Tr.lower nd.cls.name) := by cases nd.cls <;> decide
  obtain ⟨at', e, ha⟩ : ∃ at', (Tr.nodeTag nd).opening = "<div".toList ++ (at' ++ ">".toList) ∧ NoAngle at' := by
    obtain ⟨at', ha, e⟩ := makeTag_eq (tag := "div".toList) (id := nd.label)
      (classes := Tr.fromKeys (Tr.lower nd.cls.name :: nd.types ++ [])) (sel := false) (nodeid := nd.nodeid)
      (kw := []) hl (by
        intro x hx
        rw [Tr.mem_fromKeys] at hx
        simp only [List.append_nil, List.mem_cons] at hx
        rcases hx with rfl | hx
        · exact hc
        · exact ht x hx) (by intro x hx; cases hx)
    refine ⟨at', ?_, ha.1⟩
    show Tr.makeTag "div".toList nd.label (Tr.fromKeys (Tr.lower nd.cls.name :: nd.types ++ [])) false nd.nodeid
      [] = _
    rw [e]
    simp
  have e2 : (Tr.Item.openTag (Tr.nodeTag nd)).makeText =
      "\n<div".toList ++ (at' ++ ">\n".toList) := by
    show Tr.nl true ++ (Tr.nodeTag nd).opening ++ Tr.nl true = _
    rw [e]
    simp [Tr.nl]
  rw [e2]
  refine NoH.append (by decide) (NoH.append (NoH.noAngle ha) (by decide))

/-- The output of a translator begins with what it writes for the root. -/
theorem translate_starts {k : Tr.Conf} {root : Ref} {t : Tree} {s s' : Tr.TrState} {body : Str}
    (hd : Doc s.heap root t) (hfuel : 2 * t.size ≤ k.fuel) (h : Tr.translate k root s = .ok body s') :
    ∃ c s1 rest, Tr.visit k root (Tr.started root s) = .ok c s1 ∧ body = c.text ++ rest := by
  rw [Tr.translate_eq k hd hfuel] at h
  split at h
  · cases h
  cases t with
  | node r ks =>
    have hr : r = root := hd.root_eq
    subst hr
    have hm := (Tr.visit_mute k r).mute (Tr.started r s)
    rw [Tr.evalTree_node, bind_apply] at h
    cases e : Tr.visit k r (Tr.started r s) with
    | err x s1 => rw [e] at h; cases h
    | ok c s1 =>
      rw [e] at h hm
      simp only [bind_apply, Tr.Cmd.execute_eq] at h
      have ho := Tr.evalForest_outcome k ks { s1 with body := s1.body ++ c.text, deferred := c.pushed ++ s1.deferred }
      cases e2 : Tr.evalForest k ks { s1 with body := s1.body ++ c.text, deferred := c.pushed ++ s1.deferred } with
      | err x s2 => rw [e2] at h; cases h
      | ok u s2 =>
        rw [e2] at h ho
        simp only [] at h
        obtain ⟨-, -, -, out, ho⟩ := ho
        have hb : s1.body = [] := hm
        rw [hb, List.nil_append] at ho
        have hf : ∀ s3, Tr.finish k r c s2 = .ok () s3 → ∃ o, s3.body = s2.body ++ o := by
          intro s3 e3
          unfold Tr.finish at e3
          split at e3
          · rw [bind_apply] at e3
            have hm := (Tr.leave_mute k r).mute s2
            cases e4 : Tr.leave k r s2 with
            | err x s4 => rw [e4] at e3; cases e3
            | ok d s4 =>
              rw [e4] at e3 hm
              simp only [Tr.Cmd.execute_eq] at e3
              cases e3
              exact ⟨d.text, by rw [← show s4.body = s2.body from hm]⟩
          · cases e3; exact ⟨[], by simp⟩
        cases e3 : Tr.finish k r c s2 with
        | err x s3 => rw [e3] at h; cases h
        | ok u s3 =>
          rw [e3] at h
          cases h
          obtain ⟨o, ho2⟩ := hf _ e3
          exact ⟨c, s1, out ++ o, rfl, by rw [ho2, ho]; simp⟩

/-- The heading of the manuscript. -/
theorem heading_text (t : Str) : (Tr.heading 1 t).makeText =
    "\n".toList ++ ("<h1>".toList ++ (t ++ ("</h1>".toList ++ "\n".toList))) := by
  have e : (Tr.heading 1 t).makeText = Tr.nl true ++ "<h1>".toList ++ Tr.nl false ++ t ++ Tr.nl false
      ++ "</h1>".toList ++ Tr.nl true := rfl
  rw [e]
  simp [Tr.nl]

/-- What comes before the tag of the manuscript. -/
def msOpen : Str := chars! "\n<body>\n\n<div class=\"manuscriptwrapper\">\n"

/-- What comes after it. -/
def msSection : Str := chars! "\n<section class=\"level-1\">\n"

/-- **C54.** The page of a manuscript with a title, written by the plain translator, has that title:
for a title on one line without a closing `h1` tag in it, and a label and types without angle
brackets. -/
theorem C54_manuscript_title {k : Tr.Conf} {root : Ref} {t : Tree} {s s' : Tr.TrState} {body : Str}
    (hk : k.handrails = false) (hd : Doc s.heap root t) (hfuel : 2 * t.size ≤ k.fuel)
    (hm : (s.heap.get root).cls = .Manuscript) (hl : NoAngle (s.heap.get root).label)
    (ht : ∀ x ∈ (s.heap.get root).types, NoAngle x) (hne : (s.heap.get root).title ≠ [])
    (hnl : '\n' ∉ (s.heap.get root).title) (hh : ¬"</h1>".toList <:+: (s.heap.get root).title)
    (h : Tr.translate k root s = .ok body s') : TitleOf body (s.heap.get root).title := by
  obtain ⟨c, s1, rest, hv, rfl⟩ := translate_starts hd hfuel h
  have hv2 : c = .batchDefer (Tr.manuscriptItems (s.heap.get root)) := by
    have e : Tr.methodClass Tr.visitNames .Manuscript = .ok .Manuscript := rfl
    have e0 : (Tr.started root s).heap.get root = s.heap.get root := rfl
    simp only [Tr.visit, bind_apply, Tr.node, e0, hm, e, Tr.lift, Tr.visitWith, hk, pure_apply,
      Bool.false_eq_true, if_false, gets_apply] at hv
    cases hv
    rfl
  subst hv2
  have e : (Tr.Cmd.batchDefer (Tr.manuscriptItems (s.heap.get root))).text =
      (msOpen ++
        ((Tr.Item.openTag (Tr.nodeTag (s.heap.get root))).makeText ++ (msSection ++ chars! "\n"))) ++
      ("<h1>".toList ++ ((s.heap.get root).title ++ ("</h1>".toList ++ "\n".toList))) := by
    have h2 : ∀ x : Str, (Tr.Cmd.batchDefer (Tr.manuscriptItems (s.heap.get root))).text =
      msOpen ++
        ((Tr.Item.openTag (Tr.nodeTag (s.heap.get root))).makeText ++ (msSection ++
          (Tr.heading 1 (s.heap.get root).title).makeText)) := by
      intro _
      unfold Tr.manuscriptItems
      rw [if_pos hne]
      simp only [Tr.Cmd.text, List.cons_append, List.nil_append, List.flatMap_cons, List.flatMap_nil, List.append_nil]
      have e1 : (Tr.Item.openTag { tag := "body" }).makeText ++ ((Tr.Item.openTag { classes := ["manuscriptwrapper".toList] }).makeText) =
        msOpen := by decide +kernel
      have e2 : (Tr.Item.openTag { tag := "section", classes := ["level-1".toList] }).makeText =
        msSection := by decide +kernel
      rw [← e1, e2, List.append_assoc]
    rw [h2 [], heading_text]
    simp only [List.append_assoc]
    rfl
  rw [e]
  simp only [List.append_assoc _ _ rest]
  refine title_found (NoH.not_infix ?_) hh hnl
  refine NoH.append (by decide +kernel) (NoH.append (NoH.nodeTag hl ht) (by decide +kernel))

/-- What the handrails translator puts before a heading. -/
def wrapStart : Str :=
  [Tr.Item.openManual { classes := Tr.fromKeys (["heading".toList] ++ ["hr".toList]), selectable := true },
    Tr.hrCollapseZone true, Tr.hrMenuZone "Title".toList .off .off .on, Tr.hrBorderZone, Tr.hrSpacerZone,
    .openManual { classes := ["hr-content-zone".toList] }].flatMap Tr.Item.makeText

/-- The source, if it is wanted in the output. -/
def sourceText (k : Tr.Conf) (src : Str) : Str :=
  if k.addSource then "<div class=\"rsm-source hide\">".toList ++ (src ++ "</div>".toList) else []

/-- How the output of the handrails translator begins, for a manuscript with a title and without a
table of contents. -/
theorem rails_starts {k : Tr.Conf} {root : Ref} {t : Tree} {s s' : Tr.TrState} {body : Str}
    (hk : k.handrails = true) (hd : Doc s.heap root t) (hfuel : 2 * t.size ≤ k.fuel)
    (hm : (s.heap.get root).cls = .Manuscript) (hc : s.heap.firstOfType root [.Contents] = none)
    (hne : (s.heap.get root).title ≠ []) (h : Tr.translate k root s = .ok body s') :
    ∃ rest, body = msOpen ++ (sourceText k (s.heap.get root).src ++
      ((Tr.Item.openTag (Tr.nodeTag (s.heap.get root))).makeText ++ (msSection ++ (wrapStart ++ ("\n".toList ++
        ("<h1>".toList ++ ((s.heap.get root).title ++ ("</h1>".toList ++ rest)))))))) := by
  obtain ⟨c, s1, rest, hv, rfl⟩ := translate_starts hd hfuel h
  have hv2 : c = .batchDefer (if k.addSource then Tr.insertAt 2 (Tr.sourceDiv s.heap root)
      (Tr.wrapItem 4 (Tr.manuscriptItems (s.heap.get root)) ["heading".toList] "Title".toList .on)
      else Tr.wrapItem 4 (Tr.manuscriptItems (s.heap.get root)) ["heading".toList] "Title".toList .on) := by
    have e : Tr.methodClass Tr.visitNames .Manuscript = .ok .Manuscript := rfl
    have e0 : (Tr.started root s).heap = s.heap := rfl
    have e1 : (Tr.started root s).tree = root := rfl
    simp only [Tr.visit, bind_apply, Tr.node, e0, hm, e, Tr.lift, Tr.visitWith, hk, pure_apply,
      if_true, gets_apply, Tr.hrVisitManuscript, get_apply, hc, e1] at hv
    rw [if_pos hne] at hv
    cases hv
    rfl
  subst hv2
  have e1 : (Tr.Item.openTag { tag := "body" }).makeText ++ ((Tr.Item.openTag { classes := ["manuscriptwrapper".toList] }).makeText) =
        msOpen := by decide +kernel
  have e2 : (Tr.Item.openTag { tag := "section", classes := ["level-1".toList] }).makeText = msSection := by
    decide +kernel
  have key : ∃ l, Tr.wrapItem 4 (Tr.manuscriptItems (s.heap.get root)) ["heading".toList] "Title".toList .on =
      [Tr.Item.openTag { tag := "body" }, .openTag { classes := ["manuscriptwrapper".toList] },
       .openTag (Tr.nodeTag (s.heap.get root)), .openTag { tag := "section", classes := ["level-1".toList] }] ++
      ([Tr.Item.openManual { classes := Tr.fromKeys (["heading".toList] ++ ["hr".toList]), selectable := true },
        Tr.hrCollapseZone true, Tr.hrMenuZone "Title".toList .off .off .on, Tr.hrBorderZone, Tr.hrSpacerZone,
        .openManual { classes := ["hr-content-zone".toList] }] ++
      (Tr.heading 1 (s.heap.get root).title :: l)) := by
    unfold Tr.manuscriptItems
    rw [if_pos hne]
    exact ⟨_, rfl⟩
  obtain ⟨l, hl⟩ := key
  rw [hl]
  refine ⟨"\n".toList ++ (l.flatMap Tr.Item.makeText ++ rest), ?_⟩
  have hsrc : (Tr.sourceDiv s.heap root).makeText = "<div class=\"rsm-source hide\">".toList ++ ((s.heap.get root).src ++
      "</div>".toList) := by
    show "<div class=\"rsm-source hide\">".toList ++ (s.heap.get root).src ++ "</div>".toList = _
    rw [List.append_assoc]
  have hw : ([Tr.Item.openManual { classes := Tr.fromKeys (["heading".toList] ++ ["hr".toList]), selectable := true },
        Tr.hrCollapseZone true, Tr.hrMenuZone "Title".toList .off .off .on, Tr.hrBorderZone, Tr.hrSpacerZone,
        .openManual { classes := ["hr-content-zone".toList] }] ++
        (Tr.heading 1 (s.heap.get root).title :: l)).flatMap Tr.Item.makeText =
      wrapStart ++ (Tr.heading 1 (s.heap.get root).title :: l).flatMap Tr.Item.makeText := List.flatMap_append
  rw [List.flatMap_cons, heading_text] at hw
  generalize ([Tr.Item.openManual { classes := Tr.fromKeys (["heading".toList] ++ ["hr".toList]), selectable := true },
        Tr.hrCollapseZone true, Tr.hrMenuZone "Title".toList .off .off .on, Tr.hrBorderZone, Tr.hrSpacerZone,
        .openManual { classes := ["hr-content-zone".toList] }] ++
        (Tr.heading 1 (s.heap.get root).title :: l)) = x at hw
  unfold sourceText
  cases k.addSource
  · simp only [Bool.false_eq_true, if_false, Tr.Cmd.text, List.cons_append, List.flatMap_cons,
      List.nil_append, hw]
    rw [← e1, ← e2]
    simp only [List.append_assoc]
  · simp only [if_true, Tr.Cmd.text, Tr.insertAt, List.cons_append, List.take_succ_cons, List.take_zero,
      List.drop_succ_cons, List.drop_zero, List.nil_append, List.flatMap_cons, hw, hsrc]
    rw [← e1, ← e2]
    simp only [List.append_assoc]

theorem noH_source {k : Tr.Conf} {src : Str} (h : NoH src = true) : NoH (sourceText k src) = true := by
  unfold sourceText
  split
  · exact NoH.append (by decide +kernel) (NoH.append h (by decide +kernel))
  · rfl

theorem noH_wrapStart : NoH wrapStart = true := by decide +kernel

/-- **C54.** The same for the handrails translator, for a manuscript without a table of contents, if
the source is not shown or has no angle brackets. -/
theorem C54_manuscript_title_handrails {k : Tr.Conf} {root : Ref} {t : Tree} {s s' : Tr.TrState} {body : Str}
    (hk : k.handrails = true) (hd : Doc s.heap root t) (hfuel : 2 * t.size ≤ k.fuel)
    (hm : (s.heap.get root).cls = .Manuscript) (hc : s.heap.firstOfType root [.Contents] = none)
    (hl : NoAngle (s.heap.get root).label) (ht : ∀ x ∈ (s.heap.get root).types, NoAngle x)
    (hsrc : k.addSource = true → NoAngle (s.heap.get root).src) (hne : (s.heap.get root).title ≠ [])
    (hnl : '\n' ∉ (s.heap.get root).title) (hh : ¬"</h1>".toList <:+: (s.heap.get root).title)
    (h : Tr.translate k root s = .ok body s') : TitleOf body (s.heap.get root).title := by
  obtain ⟨rest, e⟩ := rails_starts hk hd hfuel hm hc hne h
  have hs : NoH (sourceText k (s.heap.get root).src) = true := by
    cases e : k.addSource with
    | true => exact noH_source (NoH.noAngle (hsrc e))
    | false => unfold sourceText; rw [e]; rfl
  have e' : body = (msOpen ++ (sourceText k (s.heap.get root).src ++
      ((Tr.Item.openTag (Tr.nodeTag (s.heap.get root))).makeText ++ (msSection ++ (wrapStart ++ "\n".toList))))) ++
        ("<h1>".toList ++ ((s.heap.get root).title ++ ("</h1>".toList ++ rest))) := by
    rw [e]; simp only [List.append_assoc]
  rw [e']
  refine title_found (NoH.not_infix ?_) hh hnl
  exact NoH.append (by decide +kernel) (NoH.append hs (NoH.append (NoH.nodeTag hl ht)
    (NoH.append (by decide +kernel) (NoH.append noH_wrapStart (by decide)))))

/-- Otherwise the title is wrong: the source is put before the heading as it is, so that the first
heading in the source, say in a piece of code, becomes the title of the page. -/
theorem C54_source_takes_over {k : Tr.Conf} {root : Ref} {t : Tree} {s s' : Tr.TrState} {body p x q : Str}
    (hk : k.handrails = true) (ha : k.addSource = true) (hd : Doc s.heap root t) (hfuel : 2 * t.size ≤ k.fuel)
    (hm : (s.heap.get root).cls = .Manuscript) (hc : s.heap.firstOfType root [.Contents] = none)
    (hsrc : (s.heap.get root).src = p ++ "<h1>".toList ++ x ++ "</h1>".toList ++ q) (hp : NoAngle p)
    (hx : NoAngle x) (hnl : '\n' ∉ x) (hne : (s.heap.get root).title ≠ [])
    (h : Tr.translate k root s = .ok body s') : TitleOf body x := by
  obtain ⟨rest, e⟩ := rails_starts hk hd hfuel hm hc hne h
  generalize ((Tr.Item.openTag (Tr.nodeTag (s.heap.get root))).makeText ++ (msSection ++ (wrapStart ++ ("\n".toList ++
        ("<h1>".toList ++ ((s.heap.get root).title ++ ("</h1>".toList ++ rest))))))) = z at e
  have e' : body = (msOpen ++ ("<div class=\"rsm-source hide\">".toList ++ p)) ++
      ("<h1>".toList ++ (x ++ ("</h1>".toList ++ (q ++ ("</div>".toList ++ z))))) := by
    rw [e, hsrc]
    unfold sourceText
    rw [if_pos ha]
    simp only [List.append_assoc]
  rw [e']
  refine title_found (NoH.not_infix ?_) ?_ hnl
  · exact NoH.append (by decide +kernel) (NoH.append (by decide +kernel) (NoH.noAngle hp))
  · rintro ⟨a, b, hab⟩
    refine hx.1 ?_
    rw [← hab]
    simp

/-! ## The hypotheses can be met -/

/-- A manuscript with a title and a source. -/
def titledHeap (src : Str) : Heap :=
  { next := 2
    get := fun r => match r with
      | 0 => { NodeRec.new .Manuscript with kids := [1], title := "On x > y", src := src }
      | 1 => { NodeRec.new .Abstract with parent := some 0 }
      | _ => NodeRec.new .Node }

def titledTree : Tree := .node 0 [.node 1 []]

theorem titledDoc (src : Str) : Doc (titledHeap src) 0 titledTree where
  root_eq := rfl
  tree := by simp only [titledTree, IsTree, IsForest]; exact ⟨rfl, rfl, ⟨rfl, rfl, trivial⟩, trivial⟩
  nodup := by decide
  bound := by
    show ∀ r ∈ titledTree.pre, r < 2
    decide

example (src : Str) (body : Str) (s' : Tr.TrState)
    (h : Tr.translate plainConf 0 { heap := titledHeap src } = .ok body s') : TitleOf body "On x > y".toList :=
  C54_manuscript_title (t := titledTree) rfl (titledDoc src) (by decide) rfl (show NoAngle [] by decide)
    (by intro x hx; cases hx) (show "On x > y".toList ≠ [] by decide) (show '\n' ∉ "On x > y".toList by decide)
    (by rintro ⟨a, b, e⟩; exact absurd (show '<' ∈ "On x > y".toList by
      have : '<' ∈ a ++ "</h1>".toList ++ b := by simp
      rw [e] at this; exact this) (by decide)) h

example : (Tr.translate plainConf 0 { heap := titledHeap [] }).value.map extractTitle = some "On x > y".toList := by
  decide +kernel

/-- The source shown by the handrails translator, and the title of its page. -/
theorem C54_example_wrong_title :
    (Tr.translate railsConf 0 { heap := titledHeap ":code: <h1>Hello</h1> ::".toList }).value.map extractTitle =
      some "Hello".toList := by
  decide +kernel

end RSM
