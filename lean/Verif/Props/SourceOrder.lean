import Verif.Spec.SourceOrder
import Verif.Lemmas.OrderPage
import Verif.Props.SourceContents

/-!
# C94: what a page shows is in the order of the source
-/

namespace RSM
namespace Parser
open PyM Tr Html Transformer

mutual
theorem seen_sublist {h : Heap} : ∀ t : Tree, (seen h t).Sublist t.pre
  | .node x ts => by
    rw [seen, Tree.pre_node]
    split
    · exact List.nil_sublist _
    · exact (seenL_sublist ts).cons_cons _
theorem seenL_sublist {h : Heap} : ∀ ts : List Tree, (seenL h ts).Sublist (Tree.preL ts)
  | [] => by rw [seenL]; exact List.nil_sublist _
  | t :: ts => by
    rw [seenL, Tree.preL_cons]
    exact (seen_sublist t).append (seenL_sublist ts)
end

theorem filterMap_of {α β : Type} {f : α → Option β} : ∀ {as : List α} {bs : List β},
    List.Forall₂ (fun a b => f a = some b) as bs → as.filterMap f = bs
  | _, _, .nil => rfl
  | _, _, .cons h1 h2 => by rw [List.filterMap_cons_some h1, filterMap_of h2]

theorem filterMap_filter {α β : Type} (f : α → Option β) : ∀ as : List α,
    (as.filter fun a => (f a).isSome).filterMap f = as.filterMap f
  | [] => rfl
  | a :: as => by
    cases e : f a with
    | none => rw [List.filter_cons_of_neg (by simp [e]), List.filterMap_cons_none e, filterMap_filter f as]
    | some b => rw [List.filter_cons_of_pos (by simp [e]), List.filterMap_cons_some e, List.filterMap_cons_some e, filterMap_filter f as]

theorem shownBeside_cls {p : Place} {piece : Str} (h : shownBeside p = some piece) :
    (p.look.cls = .Manuscript ∧ p.look.title ≠ [] ∧ piece = headed "1".toList p.look.title) ∨
    (p.look.cls = .Abstract ∧ piece = headed "3".toList "Abstract".toList) ∨
    (p.look.cls = .Bibliography ∧ piece = headed "2".toList "References".toList) ∨
    (p.look.cls = .Caption ∧ ∃ a b rest, p.around = (a, b) :: rest ∧ a.cls ∈ withNumber ∧
      piece = "<span class=\"label\">".toList ++ (a.cls.name ++ ' ' :: (⟨a, b, rest⟩ : Place).shown ++ ". ".toList)
        ++ "</span>".toList) := by
  unfold shownBeside at h
  split at h
  · rename_i e
    split at h
    · rename_i ht; cases h; exact .inl ⟨e, ht, rfl⟩
    · cases h
  · rename_i e; cases h; exact .inr (.inl ⟨e, rfl⟩)
  · rename_i e; cases h; exact .inr (.inr (.inl ⟨e, rfl⟩))
  · rename_i e e2
    split at h
    · rename_i ht; cases h; exact .inr (.inr (.inr ⟨e, _, _, _, e2, ht, rfl⟩))
    · cases h
  · cases h

theorem shownAs_cls {p : Place} {piece : Str} (h : shownAs p = some piece) :
    p.look.cls ∈ withNumber ∨ shownBeside p = some piece := by
  have : ∀ c l, headingLevel c = some l → c ∈ withNumber := by
    intro c l hc
    cases c <;> first
      | decide
      | exact absurd hc (by simp [headingLevel])
  unfold shownAs at h
  cases e : headingLevel p.look.cls with
  | some l => exact .inl (this _ _ e)
  | none =>
    rw [e] at h
    dsimp only at h
    split at h
    · rename_i h1
      exact .inl (List.mem_append_right _ h1)
    · split at h
      · rename_i h2
        rw [h2.1]; exact .inl (by decide)
      · exact .inr h

theorem shownAs_not {p : Place} (h : (shownAs p).isSome = true) :
    p.look.cls ≠ .PendingReference ∧ p.look.cls ≠ .PendingCite ∧ p.look.cls ≠ .PendingPrev ∧ p.look.cls ≠ .Contents := by
  obtain ⟨piece, h⟩ := Option.isSome_iff_exists.mp h
  have hw : ∀ c ∈ withNumber, c ≠ .PendingReference ∧ c ≠ .PendingCite ∧ c ≠ .PendingPrev ∧ c ≠ .Contents := by decide
  rcases shownAs_cls h with h | h
  · exact hw _ h
  · rcases shownBeside_cls h with ⟨e, -⟩ | ⟨e, -⟩ | ⟨e, -⟩ | ⟨e, -⟩ <;> rw [e] <;> decide

theorem seat_eq {h : Heap} {l : List Ref} {x y : Ref} {p : Look × List Look} (hx : Seat h l x p) (hy : Seat h l y p) : x = y := by
  obtain ⟨-, B, A, e, hB⟩ := hx
  obtain ⟨-, B', A', e', hB'⟩ := hy
  have h1 := congrArg List.length hB
  have h2 := congrArg List.length hB'
  rw [List.length_map] at h1 h2
  have h3 : l[B.length]? = some x := by rw [e]; simp
  have h4 : l[B'.length]? = some y := by rw [e']; simp
  rw [← h1, h2, h4] at h3
  exact (Option.some.inj h3).symm

variable {c : Cst} {fuel fuel' : Nat} {s s1 : ParserState} {r : Ref} {t : Tree} {log : List TWarning} {s2 : TState}
  {k : Conf} {s3 : TrState} {page : Str}

/-- What is written for a node when it is visited. -/
theorem piece_shown {p : Place} {piece : Str} {x : Ref} {s s' : TrState} {cmd : Cmd} (hp : shownAs p = some piece)
    (hw : p.look.cls ∈ withNumber)
    (h1 : (s.heap.get x).cls = p.look.cls) (h2 : (s.heap.get x).nonum = p.look.nonum) (h3 : (s.heap.get x).title = p.look.title)
    (h4 : (s.heap.get x).path = p.look.path)
    (h5 : p.look.nonum = false → s.heap.fullNumber k.fuel x = some (some p.number) ∧ (s.heap.get x).number.truthy = true)
    (h6 : p.look.nonum = true → s.heap.fullNumber k.fuel x = some none) (h : Tr.visit k x s = .ok cmd s') :
    piece <:+: cmd.text := by
  have hh : ∀ c l, headingLevel c = some l → methodClass visitNames c = .ok .Section ∧ ∃ n, c.level = some n ∧ natStr n = l := by
    intro c l hc
    cases c <;> first
      | (cases hc; exact ⟨rfl, _, rfl, by decide⟩)
      | exact absurd hc (by simp [headingLevel])
  have ht : ∀ c ∈ titled, methodClass visitNames c = .ok .Theorem ∧ capitalize (lower c.name) = c.name := by
    intro c hc
    cases c <;> first
      | exact absurd hc (by decide)
      | exact ⟨rfl, by decide⟩
  unfold shownAs at hp
  cases e : headingLevel p.look.cls with
  | some l =>
    rw [e] at hp
    cases hp
    obtain ⟨w2, n, w3, w4⟩ := hh _ _ e
    have := section_shows (l := n) (n := p.number) (by rw [h1]; exact w2) (by rw [h1]; exact w3)
      (fun e => (h5 (h2 ▸ e)).1) h
    rw [h2, h3, w4] at this
    exact this
  | none =>
    rw [e] at hp
    dsimp only at hp
    split at hp
    · rename_i hc
      cases hp
      obtain ⟨w2, w3⟩ := ht _ hc
      have := theorem_shows (n := p.number) (by rw [h1]; exact w2) (fun e => h5 (h2 ▸ e)) h
      rw [h1, h2, h3, w3] at this
      exact this
    · split at hp
      · rename_i hc
        cases hp
        have := figure_shows (o := if p.look.nonum then none else some p.number) (h1.trans hc.1) (by
          cases hn : p.look.nonum
          · exact (h5 hn).1
          · exact h6 hn) (by rw [h4]; exact hc.2) h
        rw [h4] at this
        have e2 : fmtOpt (if p.look.nonum then none else some p.number) = p.shown := by
          unfold Place.shown
          cases p.look.nonum <;> rfl
        rw [e2] at this
        exact this
      · exfalso
        rcases shownBeside_cls hp with ⟨e, -⟩ | ⟨e, -⟩ | ⟨e, -⟩ | ⟨e, -⟩ <;> rw [e] at hw <;> revert hw <;> decide

/-- The same for titles. -/
theorem title_shown {p : Place} {piece : Str} {x : Ref} {s s' : TrState} {cmd : Cmd} (hp : shownBeside p = some piece)
    (h1 : (s.heap.get x).cls = p.look.cls) (h2 : (s.heap.get x).title = p.look.title)
    (h3 : p.look.cls = .Caption → ∀ a b rest, p.around = (a, b) :: rest → a.cls ∈ withNumber → ∃ y o, s.heap.parent x = some y ∧
      (s.heap.get y).cls = a.cls ∧ s.heap.fullNumber k.fuel y = some o ∧ fmtOpt o = (⟨a, b, rest⟩ : Place).shown)
    (h : Tr.visit k x s = .ok cmd s') : piece <:+: cmd.text := by
  rcases shownBeside_cls hp with ⟨e, ht, rfl⟩ | ⟨e, rfl⟩ | ⟨e, rfl⟩ | ⟨e, a, b, rest, hq, hc, rfl⟩
  · have := manuscript_shows (h1.trans e) (by rw [h2]; exact ht) h
    rw [h2] at this
    exact this
  · exact abstract_shows (h1.trans e) h
  · exact bibliography_shows (h1.trans e) h
  · obtain ⟨y, o, g1, g2, g3, g4⟩ := h3 e a b rest hq hc
    have := caption_shows (h1.trans e) g1 g3 h
    rw [g2, g4] at this
    exact this

/-- What is shown stands on the page in the order of the source. -/
theorem stage_order (S : Source c) (F : Forest s.heap) (hf : 12 * c.size < fuel) (h : parse fuel c s = .ok r s1)
    (hU : ErrorsUnlabelled c) (hT : TocFine c) (D : Doc s1.heap r t) (hf' : 12 * t.size < fuel')
    (h2 : transform fuel' r { heap := s1.heap, log := log } = .ok () s2)
    (hk : ∀ t', Doc s2.heap r t' → 2 * t'.size ≤ k.fuel) (h3 : translate k r { heap := s2.heap } = .ok page s3) :
    InOrder ((sourcePlaces c).filterMap shownAs) page := by
  obtain ⟨hS, -, -, hR, hI⟩ := C76_input S F hf h D
  have N := numbers_run (hR hU) hS (hI hT) hf' h2
  obtain ⟨t', D', hold, hau, -⟩ := C31_author_nodes s1.heap r t fuel' log s2 (hR hU) hS (hI hT) hf' h2
  obtain ⟨texts, hv, ord⟩ := translate_ordered (s := { heap := s2.heap }) D' (hk t' D') h3
  obtain ⟨xs, hxs, hpl⟩ := exists_sublist (List.filter_sublist (p := fun p => (shownAs p).isSome))
    (placed_all S F hf h hU hT D hf' h2)
  have hpl := (List.forall₂_and_left (p := fun p : Place => p ∈ sourcePlaces c ∧ (shownAs p).isSome = true) _ _).mpr
    ⟨fun p hp => List.mem_filter.mp hp, hpl⟩
  have hsub : xs.Sublist t'.pre := by
    have e : xs.filter (fun x => ¬ Pending s1.heap x ∧ x ∉ laterContents s1.heap t) = xs := by
      rw [List.filter_eq_self]
      intro x hx
      obtain ⟨p, -, ⟨-, hp⟩, -, hs, -⟩ := Parser.forall₂_right hpl x hx
      obtain ⟨o1, o2, o3, o4⟩ := shownAs_not hp
      have hs1 : p.look = look s1.heap x := hs.1
      rw [hs1] at o1 o2 o3 o4
      refine decide_eq_true ⟨?_, fun H => o4 (by
        show (s1.heap.get x).cls = _
        simpa using (List.mem_filter.mp (List.mem_of_mem_tail H)).2)⟩
      rintro (e | e | e)
      · exact o1 e
      · exact o2 e
      · exact o3 e
    rw [← e]
    refine ((hxs.trans (seen_sublist t)).filter _).trans ?_
    rw [← hold]
    exact List.filter_sublist
  have hpl := (List.forall₂_and_left (p := fun x => x ∈ t'.pre) _ _).mpr ⟨fun x hx => hsub.subset hx, hpl.flip⟩ |>.flip
  obtain ⟨texts', hsub', hv'⟩ := exists_sublist hsub hv
  have hall := rel_comp hpl hv'
  obtain ⟨pieces, g1, g2⟩ := rel_choose (R := fun p q => shownAs p = some q) (S := fun a b => a <:+: b) (hall.imp (by
    rintro p text ⟨x, ⟨hx', ⟨hpm, hp⟩, hx, hs, hnum⟩, s5, cmd, s6, w1, w2, rfl⟩
    obtain ⟨piece, hp⟩ := Option.isSome_iff_exists.mp hp
    refine ⟨piece, hp, ?_⟩
    have hs1 : p.look = look s1.heap x := hs.1
    obtain ⟨k1, k2, k3⟩ := N.same x (D.bound x hx)
    have q1 : (s2.heap.get x).cls = p.look.cls := by rw [k1, hs1]; rfl
    have q2 : (s2.heap.get x).nonum = p.look.nonum := by rw [k2, hs1]; rfl
    have q3 : (s5.heap.get x).title = p.look.title := by
      rw [w1.title]
      show (s2.heap.get x).title = _
      rw [k3, hs1]; rfl
    rcases shownAs_cls hp with hw | hb
    swap
    · refine title_shown (k := k) hb (by rw [w1.cls]; exact q1) q3 ?_ w2
      intro hcap a b rest hq hqc
      obtain ⟨t4, x', R, -, hs', -, -, -, hn⟩ := stage_place S F hf h hU hT D hf' h2 hpm (by rw [hcap]; decide)
      have := seat_eq hs hs'
      subst this
      obtain ⟨y, o, hpar, hy, e3, ho, hsh⟩ := hn _ _ _ hq hqc
      exact ⟨y, o, by rw [w1.parent]; exact hpar, by rw [w1.cls]; exact e3,
        by rw [w1.fullNumber]; exact number_read R hy (hk t4 R) ho, hsh⟩
    refine piece_shown (k := k) hp hw ?_ ?_ q3 ?_ ?_ ?_ w2
    · rw [w1.cls]; exact q1
    · rw [w1.nonum]; exact q2
    · rw [w1.path]
      have := congrArg NodeRec.path (hau x (D.bound x hx))
      show (s2.heap.get x).path = _
      rw [hs1]
      exact this
    · intro hn
      obtain ⟨g1, g2⟩ := counted_of hw hn
      obtain ⟨g3, g4⟩ := hnum g1 g2
      refine ⟨?_, by rw [w1.number]; exact g4⟩
      rw [w1.fullNumber]
      exact number_read D' hx' (hk t' D') g3
    · intro hn
      rw [w1.fullNumber]
      refine number_read D' hx' (hk t' D') (.nonum (fun e => ?_) (q2.trans hn))
      rw [q1] at e
      rw [e] at hw
      revert hw; decide))
  rw [← filterMap_filter, filterMap_of g1]
  exact (ord.sublist hsub').parts g2

end Parser

namespace Html

theorem headed_ends (level text : Str) : headed level text ≠ [] ∧
    (∀ c ∈ (headed level text).head?, isSpace c = false) ∧ ∀ c ∈ (headed level text).getLast?, isSpace c = false := by
  refine ⟨List.append_ne_nil_of_right_ne_nil _ (by decide), ?_, ?_⟩
  · intro c hc; cases hc; rfl
  · intro c hc
    unfold headed at hc
    rw [List.getLast?_append] at hc
    cases hc; rfl

theorem shownAs_ends {p : Parser.Place} {piece : Str} (hp : shownAs p = some piece) : piece ≠ [] ∧
    (∀ c ∈ piece.head?, isSpace c = false) ∧ ∀ c ∈ piece.getLast?, isSpace c = false := by
  unfold shownAs at hp
  cases e : headingLevel p.look.cls with
  | some l =>
    rw [e] at hp
    cases hp
    exact headed_ends _ _
  | none =>
    rw [e] at hp
    dsimp only at hp
    split at hp
    · cases hp
      refine ⟨List.append_ne_nil_of_right_ne_nil _ (by decide), ?_, ?_⟩
      · intro c hc; cases hc; rfl
      · intro c hc
        rw [List.getLast?_append] at hc
        cases hc; rfl
    · split at hp
      · cases hp
        refine ⟨List.append_ne_nil_of_right_ne_nil _ (by decide), ?_, ?_⟩
        · intro c hc; cases hc; rfl
        · intro c hc
          rw [List.getLast?_append] at hc
          cases hc; rfl
      · rcases Parser.shownBeside_cls hp with ⟨-, -, rfl⟩ | ⟨-, rfl⟩ | ⟨-, rfl⟩ | ⟨-, _, _, _, -, -, rfl⟩
        · exact headed_ends _ _
        · exact headed_ends _ _
        · exact headed_ends _ _
        · refine ⟨List.append_ne_nil_of_right_ne_nil _ (by decide), ?_, ?_⟩
          · intro c hc; cases hc; rfl
          · intro c hc
            rw [List.getLast?_append] at hc
            cases hc; rfl

end Html

namespace Program
open PyM LogState Transformer Tree RSM.Parser Tr Html History

variable {o : Outer} {src page : Str} {hr : Bool}

/-- **C94.** The title, the headings of the abstract, of sections and of bibliographies, the labels of theorems and the like,
the images of figures and the labels of captions stand on the page in the order of the source. -/
theorem C94_order (S : Source (o.sitter src)) (hU : ErrorsUnlabelled (o.sitter src)) (hT : TocFine (o.sitter src))
    (P : Published o src hr page) : InOrder ((sourcePlaces (o.sitter src)).filterMap shownAs) page := by
  obtain ⟨body, ⟨r, s1, s2, s3, as, p1, p2, p3⟩, hb⟩ := published_staged S hU hT P
  obtain ⟨t, D, hf, hk⟩ := stage (s2 := s2) (hr := hr) (as := as) S p1
  have h := stage_order (s := { heap := Heap.empty }) S Forest.empty (Nat.lt_succ_self _) p1 hU hT D hf p2 hk p3
  rcases hb with rfl | rfl
  · exact h
  · refine inOrder_page (fun q hq => ?_) h
    obtain ⟨p, -, e⟩ := List.mem_filterMap.mp hq
    exact shownAs_ends e

/-- Not vacuous: what stands on a page, in this order. -/
example (hr : Bool) : ∃ page, Published { sampleOuter with sitter := fun _ => chapters } "source".toList hr page ∧
    InOrder ["<h1>Title</h1>".toList, "<h2>1. One</h2>".toList, "<h2>2. Two</h2>".toList, "<h3>2.1. Inner</h3>".toList,
      "<span class=\"span label\">Theorem 2.1.</span>".toList, "<span class=\"span label\">Lemma.</span>".toList,
      "<h2>A. More</h2>".toList, "<h3>A.1. Last</h3>".toList] page := by
  obtain ⟨page, hb, -, H⟩ := C87_page (o := { sampleOuter with sitter := fun _ => chapters }) (src := "source".toList) (hr := hr)
    (as := false) chapters_wellFormed chapters_texts.errors chapters_tocFine chapters_structured (chapters_page hr)
  obtain ⟨w1, h1, -⟩ := H _ _ {} sampleWorld (by decide) sampleText
  have P := published_of_page (o := { sampleOuter with sitter := fun _ => chapters }) (hr := hr) sampleText hb ⟨w1, h1⟩
  have := C94_order (o := { sampleOuter with sitter := fun _ => chapters }) chapters_wellFormed.source chapters_texts.errors
    chapters_tocFine P
  have e : (sourcePlaces chapters).filterMap shownAs = ["<h1>Title</h1>".toList, "<h2>1. One</h2>".toList, "<h2>2. Two</h2>".toList, "<h3>2.1. Inner</h3>".toList,
      "<span class=\"span label\">Theorem 2.1.</span>".toList, "<span class=\"span label\">Lemma.</span>".toList,
      "<h2>A. More</h2>".toList, "<h3>A.1. Last</h3>".toList] := by decide +kernel
  exact ⟨page, P, e ▸ this⟩

/-- The same for a figure with a caption. -/
example (hr : Bool) : ∃ page, Published { sampleOuter with sitter := fun _ => gallery } "source".toList hr page ∧
    InOrder ["<h1>Title</h1>".toList, "<h2>1. One</h2>".toList, "src=\"a.png\" alt=\"Figure 1.1.\"".toList,
      "<span class=\"label\">Figure 1.1. </span>".toList, "<span class=\"span label\">Theorem.</span>".toList] page := by
  obtain ⟨page, hb, -, H⟩ := C87_page (o := { sampleOuter with sitter := fun _ => gallery }) (src := "source".toList) (hr := hr)
    (as := false) gallery_wellFormed gallery_texts.errors gallery_tocFine gallery_structured (gallery_page hr)
  obtain ⟨w1, h1, -⟩ := H _ _ {} sampleWorld (by decide) sampleText
  have P := published_of_page (o := { sampleOuter with sitter := fun _ => gallery }) (hr := hr) sampleText hb ⟨w1, h1⟩
  have := C94_order (o := { sampleOuter with sitter := fun _ => gallery }) gallery_wellFormed.source gallery_texts.errors
    gallery_tocFine P
  have e : (sourcePlaces gallery).filterMap shownAs = ["<h1>Title</h1>".toList, "<h2>1. One</h2>".toList, "src=\"a.png\" alt=\"Figure 1.1.\"".toList,
      "<span class=\"label\">Figure 1.1. </span>".toList, "<span class=\"span label\">Theorem.</span>".toList] := by decide +kernel
  exact ⟨page, P, e ▸ this⟩

end Program
end RSM
