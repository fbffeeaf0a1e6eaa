import Verif.Lemmas.BalHr2

/-! # Lemmas: the bibliography entries of the handrails translator -/

namespace RSM
namespace Tr
open PyM Html

variable {h0 : Heap}

/-! ## The search -/

theorem not_prefix {p q u v : Str} {b c : Char} (hp : '"' ∉ p) (hu : '"' ∉ u) (h : b ≠ c) :
    (p ++ '"' :: b :: q).isPrefixOf (u ++ '"' :: c :: v) = false := by
  induction p generalizing u with
  | nil =>
    cases u with
    | nil => simp [List.isPrefixOf, h]
    | cons x u =>
      have : '"' ≠ x := fun e => hu (List.mem_cons.mpr (.inl e))
      simp [List.isPrefixOf, this]
  | cons a p ih =>
    simp only [List.mem_cons, not_or] at hp
    cases u with
    | nil =>
      have : a ≠ '"' := fun e => hp.1 e.symm
      simp [List.isPrefixOf, this]
    | cons x u =>
      simp only [List.mem_cons, not_or] at hu
      have := ih hp.2 hu.2
      simp only [List.cons_append, List.isPrefixOf, this, Bool.and_false]

/-- The first place where a fixed text occurs. -/
theorem lazyThen_first {α : Type} {w : Str} {p : Str → Option α} {v : Str} {a : α} (hw : w ≠ [])
    (hp : p v = some a) : ∀ (u : Str), '\n' ∉ u →
    (∀ x y, u = x ++ y → y ≠ [] → w.isPrefixOf (y ++ (w ++ v)) = false) →
    lazyThen w p (u ++ (w ++ v)) = some (u ++ w, a) := by
  intro u
  induction u with
  | nil =>
    intro _ _
    cases w with
    | nil => exact absurd rfl hw
    | cons c w =>
      have : (c :: w).isPrefixOf (c :: (w ++ v)) = true := by
        simp
      simp only [List.nil_append, List.cons_append, lazyThen]
      rw [this]
      simp [hp]
  | cons c u ih =>
    intro hn hpre
    simp only [List.mem_cons, not_or] at hn
    have h1 := hpre [] (c :: u) rfl (by simp)
    simp only [List.cons_append] at h1
    simp only [List.cons_append, lazyThen]
    rw [h1]
    simp only [Bool.false_eq_true, if_false]
    rw [if_neg (fun e => hn.1 e.symm), ih hn.2 (fun x y e hy => hpre (c :: x) y (by simp [e]) hy)]
    rfl

theorem lazyThen_none {α : Type} {w : Str} {p : Str → Option α} (hw : w ≠ []) : ∀ (s : Str),
    (∀ x y, s = x ++ y → w.isPrefixOf y = false) → lazyThen w p s = none := by
  intro s
  induction s with
  | nil => intro _; simp [lazyThen, hw]
  | cons c s ih =>
    intro h
    have h1 := h [] (c :: s) rfl
    simp only [lazyThen]
    rw [h1]
    simp only [Bool.false_eq_true, if_false]
    rw [ih fun x y e => h (c :: x) y (by simp [e])]
    simp

theorem searchDoi_skip : ∀ (a s : Str), '<' ∉ a →
    searchDoi (a ++ s) = (searchDoi s).map fun x => (a ++ x.1, x.2)
  | [], s, _ => by
    rw [List.nil_append]
    cases searchDoi s <;> rfl
  | c :: a, s, h => by
    simp only [List.mem_cons, not_or] at h
    have hm : matchDoi (c :: (a ++ s)) = none := by
      unfold matchDoi
      have : "<a".toList.isPrefixOf (c :: (a ++ s)) = false := by
        show ('<' :: ['a']).isPrefixOf (c :: (a ++ s)) = false
        rw [List.isPrefixOf, beq_eq_false_iff_ne.mpr h.1]
        rfl
      rw [this]; rfl
    simp only [List.cons_append, searchDoi, hm, searchDoi_skip a s h.2]
    cases searchDoi s <;> rfl

/-- The class of the link of an entry, as it is searched for. -/
def doiClass : Str := "class=\"bibitem-doi\""

theorem doiClass_eq : doiClass = "class=".toList ++ '"' :: 'b' :: "ibitem-doi\"".toList := by decide +kernel

theorem searchDoi_none : ∀ (s : Str), (∀ x y, s = x ++ y → doiClass.isPrefixOf y = false) →
    searchDoi s = none
  | [], _ => rfl
  | c :: s, h => by
    have ih := searchDoi_none s fun x y e => h (c :: x) y (by simp [e])
    have hm : matchDoi (c :: s) = none := by
      unfold matchDoi
      split
      · have := lazyThen_none (w := doiClass) (p := lazyThen ">" (lazyThen "</a>" some)) (by decide)
          ((c :: s).drop 2) fun x y e => h ((c :: s).take 2 ++ x) y (by
            rw [List.append_assoc, ← e, List.take_append_drop])
        unfold doiClass at this
        rw [this]; rfl
      · rfl
    rw [searchDoi, hm]
    simp only [ih]
    rfl

/-- No quote is followed by `b`, and the text does not end in a quote. -/
def nq : Str → Bool
  | [] => true
  | [c] => c ≠ '"'
  | c :: d :: s => !(c = '"' && d = 'b') && nq (d :: s)

theorem nq_append : ∀ {a b : Str}, nq a = true → nq b = true → nq (a ++ b) = true
  | [], b, _, hb => hb
  | [c], [], ha, _ => ha
  | [c], d :: b, ha, hb => by
    have hc : c ≠ '"' := by simpa [nq] using ha
    simp [nq, hc, hb]
  | c :: d :: a, b, ha, hb => by
    simp only [nq, Bool.and_eq_true] at ha
    have := nq_append ha.2 hb
    simp only [List.cons_append] at this ⊢
    rw [nq, this, ha.1]; rfl

theorem nq_noQuote : ∀ {a : Str}, '"' ∉ a → nq a = true
  | [], _ => rfl
  | [c], h => by
    simp only [List.mem_singleton] at h
    simp [nq, Ne.symm h]
  | c :: d :: a, h => by
    have hc : c ≠ '"' := fun e => h (by simp [e])
    have := nq_noQuote (a := d :: a) fun e => h (List.mem_cons_of_mem _ e)
    simp [nq, hc, this]

theorem nq_suffix : ∀ (x : Str) {y : Str}, nq (x ++ y) = true → nq y = true
  | [], _, h => h
  | c :: x, y, h => by
    refine nq_suffix x ?_
    cases e : x ++ y with
    | nil => rfl
    | cons d s =>
      rw [List.cons_append, e] at h
      simp only [nq, Bool.and_eq_true] at h
      exact h.2

theorem nq_prefix {y : Str} (h : nq y = true) : doiClass.isPrefixOf y = false := by
  by_cases hp : doiClass.isPrefixOf y = true
  · obtain ⟨z, rfl⟩ := List.isPrefixOf_iff_prefix.mp hp
    rw [doiClass_eq, List.append_assoc] at h
    have := nq_suffix _ h
    simp [nq] at this
  · exact Bool.eq_false_iff.mpr hp

theorem nq_join : ∀ {l : List Str}, (∀ x ∈ l, nq x = true) → nq (join "," l) = true
  | [], _ => rfl
  | [x], h => h x (by simp)
  | x :: y :: xs, h => by
    rw [join]
    exact nq_append (nq_append (h x (by simp)) (by decide)) (nq_join fun z hz => h z (by simp at hz ⊢; tauto))

theorem digit_noQuote (n : Nat) : '"' ∉ natStr n := by
  intro hc
  unfold natStr at hc
  exact absurd (Nat.isDigit_of_mem_toDigits (by decide) (by decide) hc) (by decide)

theorem nq_backlinks : ∀ (i : Nat) {l : List Str}, (∀ x ∈ l, '"' ∉ x) →
    ∀ x ∈ backlinkTags i l, nq x = true
  | _, [], _ => by simp [backlinkTags]
  | i, y :: l, h => by
    intro x hx
    simp only [backlinkTags, List.mem_cons] at hx
    rcases hx with rfl | hx
    · have e : makeTag "a" [] ["reference", "backlink"] (kwargs := [("href", '#' :: y)])
          = "<a class=\"reference backlink\" href=\"#".toList ++ y ++ "\">".toList := by
        simp [makeTag, join]
      rw [e]
      refine nq_append (nq_append (nq_append (nq_append (by decide +kernel) (nq_noQuote (h y (by simp))))
        (by decide)) (nq_noQuote ?_)) (by decide)
      intro hc
      simp only [List.mem_cons] at hc
      rcases hc with hc | hc
      · cases hc
      · exact digit_noQuote i hc
    · exact nq_backlinks (i + 1) (fun z hz => h z (by simp [hz])) x hx

theorem search_backText {nd : NodeRec} (h : LinkSafe nd) : searchDoi (backText nd) = none := by
  refine searchDoi_none _ fun x y e => nq_prefix (nq_suffix x ?_)
  rw [← e]
  unfold backText
  split
  · exact nq_append (nq_append (by decide) (nq_join (nq_backlinks 1 h.backlinks))) (by decide)
  · rfl

theorem doiTag_eq (nd : NodeRec) : doiTag nd = "<a".toList ++ ((" id=\"".toList ++ (nd.label ++
    "-doi\" ".toList)) ++ (doiClass ++ ((" href=\"https://doi.org/".toList ++ nd.doi
      ++ "\" target=\"_blank\"".toList) ++ (">".toList)))) := by
  have e1 : nd.label ++ "-doi".toList ≠ [] := by simp
  have e2 : "https://doi.org/".toList ++ nd.doi ≠ [] := by simp
  have e3 : "_blank".toList ≠ [] := by decide
  have l1 : "-doi\" ".toList = "-doi".toList ++ ("\"".toList ++ " ".toList) := by decide
  have l2 : doiClass = "class=\"".toList ++ ("bibitem-doi".toList ++ "\"".toList) := by decide
  have l3 : " class=\"".toList = " ".toList ++ "class=\"".toList := by decide
  have l4 : " href=\"https://doi.org/".toList = " ".toList ++ ("href".toList ++ ("=\"".toList
    ++ "https://doi.org/".toList)) := by decide
  have l5 : "\" target=\"_blank\"".toList = "\"".toList ++ (" ".toList ++ ("target".toList ++
    ("=\"".toList ++ ("_blank".toList ++ "\"".toList)))) := by decide
  have l6 : "<a".toList = "<".toList ++ "a".toList := by decide
  rw [l1, l2, l4, l5, l6]
  unfold doiTag makeTag
  rw [if_pos e1, l3]
  simp only [List.filter_cons, List.filter_nil, e2, e3, ne_eq, not_false_eq_true, decide_true, if_true,
    List.map_cons, List.map_nil, Bool.false_eq_true, if_false, List.append_nil, join, List.cons_ne_nil,
    List.append_assoc]

theorem search_doi {nd : NodeRec} (hn : '>' ∉ nd.doi) (h : LinkSafe nd) (b : Str) :
    searchDoi (doiTag nd ++ "[link]</a>".toList ++ b) = some ([], doiTag nd, b) := by
  have h3 : lazyThen "</a>" some ("[link]".toList ++ ("</a>".toList ++ b)) =
      some ("[link]".toList ++ "</a>".toList, b) := by
    refine lazyThen_first (by decide) rfl _ (by decide) ?_
    intro x y e hy
    cases y with
    | nil => exact absurd rfl hy
    | cons c y =>
      have : c ∈ "[link]".toList := by rw [e]; simp
      have : c ≠ '<' := fun e => absurd (e ▸ this) (by decide)
      show ('<' :: _).isPrefixOf (c :: _) = false
      rw [List.isPrefixOf, beq_eq_false_iff_ne.mpr (Ne.symm this)]; rfl
  have h2 : lazyThen ">" (lazyThen "</a>" some) ((" href=\"https://doi.org/".toList ++ nd.doi
      ++ "\" target=\"_blank\"".toList) ++ (">".toList ++ ("[link]".toList ++ ("</a>".toList ++ b)))) =
      some ((" href=\"https://doi.org/".toList ++ nd.doi ++ "\" target=\"_blank\"".toList) ++ ">".toList,
        ("[link]".toList ++ "</a>".toList, b)) := by
    have hna : '>' ∉ " href=\"https://doi.org/".toList ++ nd.doi ++ "\" target=\"_blank\"".toList := by
      simp only [List.mem_append, not_or]
      exact ⟨⟨by decide, hn⟩, by decide⟩
    refine lazyThen_first (by decide) h3 _ ?_ ?_
    · simp only [List.mem_append, not_or]
      exact ⟨⟨by decide, h.doi⟩, by decide⟩
    · intro x y e hy
      cases y with
      | nil => exact absurd rfl hy
      | cons c y =>
        have : c ≠ '>' := fun hc => hna (by rw [e, hc]; simp)
        show ('>' :: _).isPrefixOf (c :: _) = false
        rw [List.isPrefixOf, beq_eq_false_iff_ne.mpr (Ne.symm this)]; rfl
  have h1 := lazyThen_first (w := doiClass) (by decide) h2 (" id=\"".toList ++ (nd.label ++ "-doi\" ".toList))
    (by simp only [List.mem_append, not_or]; exact ⟨by decide, h.line, by decide⟩) (by
      intro x y e hy
      have head : ∀ {c : Char} {z : Str}, c ≠ 'c' → doiClass.isPrefixOf (c :: z) = false := by
        intro c z hc
        rw [doiClass_eq]
        show ('c' :: _).isPrefixOf (c :: _) = false
        rw [List.isPrefixOf, beq_eq_false_iff_ne.mpr (Ne.symm hc)]; rfl
      have case2 : ∀ c' y : Str, nd.label ++ "-doi\" ".toList = c' ++ y → y ≠ [] → ∀ v,
          doiClass.isPrefixOf (y ++ v) = false := by
        intro c' y e hy v
        rcases List.append_eq_append_iff.mp e with ⟨d', rfl, e'⟩ | ⟨d, e', rfl⟩
        · cases y with
          | nil => exact absurd rfl hy
          | cons c y =>
            refine head fun hc => ?_
            have : c ∈ "-doi\" ".toList := by rw [e']; simp
            exact absurd (hc ▸ this) (by decide)
        · have hd : '"' ∉ d ++ "-doi".toList := by
            simp only [List.mem_append, not_or]
            exact ⟨fun hc => h.quote (by rw [e']; simp [hc]), by decide⟩
          rw [doiClass_eq, show d ++ "-doi\" ".toList ++ v = (d ++ "-doi".toList) ++ '"' :: ' ' :: v by simp]
          exact not_prefix (by decide) hd (by decide)
      rcases List.append_eq_append_iff.mp e with ⟨c', _, e'⟩ | ⟨d, e', rfl⟩
      · exact case2 c' y e' hy _
      · cases d with
        | nil =>
          rw [List.nil_append] at hy ⊢
          exact case2 [] _ rfl hy _
        | cons c d =>
          refine head fun hc => ?_
          have : c ∈ " id=\"".toList := by rw [e']; simp
          exact absurd (hc ▸ this) (by decide))
  have hm : matchDoi (doiTag nd ++ "[link]</a>".toList ++ b) = some (doiTag nd, b) := by
    have e : doiTag nd ++ "[link]</a>".toList ++ b = "<a".toList ++ ((" id=\"".toList ++ (nd.label ++
      "-doi\" ".toList)) ++ (doiClass ++ ((" href=\"https://doi.org/".toList ++ nd.doi
      ++ "\" target=\"_blank\"".toList) ++ (">".toList ++ ("[link]".toList ++ ("</a>".toList ++ b)))))) := by
      rw [doiTag_eq]
      have : "[link]</a>".toList = "[link]".toList ++ "</a>".toList := by decide
      rw [this]
      simp only [List.append_assoc]
    unfold doiClass at h1
    rw [e]
    unfold matchDoi
    have hp : "<a".toList.isPrefixOf ("<a".toList ++ ((" id=\"".toList ++ (nd.label ++
      "-doi\" ".toList)) ++ (doiClass ++ ((" href=\"https://doi.org/".toList ++ nd.doi
      ++ "\" target=\"_blank\"".toList) ++ (">".toList ++ ("[link]".toList ++ ("</a>".toList ++ b))))))) = true :=
      List.isPrefixOf_iff_prefix.mpr (List.prefix_append _ _)
    rw [if_pos hp, List.drop_append_of_le_length (by decide)]
    unfold doiClass
    rw [show "<a".toList.drop 2 = [] from rfl, List.nil_append, h1]
    simp only [Option.map_some]
    rw [doiTag_eq]
    unfold doiClass
    simp only [List.append_assoc]
  cases e : doiTag nd ++ "[link]</a>".toList ++ b with
  | nil => rw [doiTag_eq] at e; simp at e
  | cons c s =>
    rw [e] at hm
    rw [searchDoi, hm]

theorem LinkSafe.frame {a b : NodeRec} (e : frame a = frame b) (h : LinkSafe b) : LinkSafe a := by
  have h1 : a.label = b.label := by have := congrArg NodeRec.label e; exact this
  have h2 : a.doi = b.doi := by have := congrArg NodeRec.doi e; exact this
  have h3 : a.backlinks = b.backlinks := by have := congrArg NodeRec.backlinks e; exact this
  exact ⟨h1 ▸ h.quote, h1 ▸ h.line, h2 ▸ h.doi, h3 ▸ h.backlinks⟩

theorem hrVisitBibitem_good (r) (hl : LinkSafe (h0.get r)) :
    Gives (Good h0) FairC (hrVisitBibitem r) := by
  unfold hrVisitBibitem
  refine Gives.bind (node_good r) fun nd hn => Gives.bind (bibitemText_good r) ?_
  rintro text ⟨nd', hn', hfr, htext⟩
  have hls := LinkSafe.frame hfr hl
  have hin := htext.inert hn'
  obtain ⟨a, ha, rfl⟩ := htext
  have htag : Fair [.openTag (nodeTag nd)] [] [] := fair_nodeTag hn (by decide) (by decide) ..
  by_cases hdoi : nd'.doi = []
  · rw [if_neg (by simp [hdoi]), List.nil_append] at hin ⊢
    rw [searchDoi_skip _ _ ha.1, search_backText hls]
    refine Gives.bind (warn_good _) fun _ _ => Gives.pure ?_
    show Fair (wrapItem 1 _ _ _ _ _ _) [] []
    rw [wrapItem_one]
    exact htag.append ((block_wrap (still_text hin) (by decide) NoAngle.nil _ _ still_infoExt).append
      Block.nil).fair
  · rw [if_pos hdoi] at hin ⊢
    have e : a ++ (" ".toList ++ doiTag nd' ++ "[link]</a>".toList ++ backText nd') =
        (a ++ " ".toList) ++ (doiTag nd' ++ "[link]</a>".toList ++ backText nd') := by
      simp only [List.append_assoc]
    have ha' : NoAngle (a ++ " ".toList) := noAngle_append.mpr ⟨ha, by decide⟩
    rw [e, searchDoi_skip _ _ ha'.1, search_doi hn'.doi.2 hls]
    simp only [Option.map_some, List.append_nil]
    refine Gives.pure ?_
    have hbody : Inert (a ++ " ".toList ++ backText nd') := ha'.inert.append (inert_backText hn')
    have hinfo : Still (.openClose
        { content := "<div class=\"hr-info\">\n".toList ++ doiTag nd' ++ "\n".toList
            ++ strip (pySlice (infoIconContent (some "ext".toList)) 22 (-6)) ++ "</a>\n</div>".toList,
          classes := ["hr-info-zone".toList] }) := by
      refine still_div ?_ (by decide)
      have h1 : Nets "<div class=\"hr-info\">\n".toList [] ["div".toList] := nets_decide (by decide +kernel)
      have h2 : Inert (strip (pySlice (infoIconContent (some "ext".toList)) 22 (-6))) :=
        nets_decide (by decide +kernel)
      have h3 : Nets "</a>\n</div>".toList ["a".toList, "div".toList] [] := nets_decide (by decide +kernel)
      exact (((h1.append ((nets_doiTag hn').frame ["div".toList])).append
        ((NoAngle.inert (by decide)).any _)).append (h2.any _)).append h3
    generalize Item.openClose _ = info at hinfo ⊢
    generalize a ++ " ".toList ++ backText nd' = text at hbody ⊢
    rw [wrapItem_one]
    have hp := Block.between nets_openP (Block.still (still_text hbody)) nets_closeP
    have hh : TagOk { classes := fromKeys (["hr-hidden".toList] ++ ["hr".toList]), selectable := true } :=
      ⟨(by decide : GoodTag "div".toList), NoAngle.nil, (by decide), Nets.nil _⟩
    have hc : TagOk { classes := ["hr-content-zone".toList] } :=
      ⟨(by decide : GoodTag "div".toList), NoAngle.nil, (by decide), Nets.nil _⟩
    have hin := Block.manual hc hp (closing_nets (a := { classes := ["hr-content-zone".toList] })
      (by decide : GoodTag "div".toList))
    have hzones : Block [hrCollapseZone false, hrMenuZone [] .off .off .off, hrBorderZone, hrSpacerZone] :=
      Block.cons (still_collapse _) (Block.cons (still_menu NoAngle.nil ..) (Block.cons still_border
        (Block.still still_spacer)))
    have hall := Block.manual hh ((hzones.append hin).append (Block.still hinfo)) (closing_nets (a :=
      { classes := fromKeys (["hr-hidden".toList] ++ ["hr".toList]), selectable := true })
      (by decide : GoodTag "div".toList))
    exact htag.append hall.fair

end Tr
end RSM
