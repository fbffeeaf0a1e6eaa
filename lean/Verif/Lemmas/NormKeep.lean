import Verif.Lemmas.NormShape

/-! Helper lemmas for text normalisation: what is kept and what is new. -/

namespace RSM
namespace Normalize
open PyM Nodes Heap LTree Transformer

/-! ### The nodes that stay -/

/-- Forget the text of a text node. -/
def dropText (a : NodeRec) : NodeRec := { a with text := if a.cls.isSub .Text then [] else a.text }

/-- A node with its parent and its attributes. -/
abbrev Rec := Ref × Option Ref × NodeRec

mutual
/-- The nodes of a tree. -/
def recs (p : Option Ref) : LTree → List Rec
  | .node i a ks => (i, p, dropText a) :: recsL (some i) ks
def recsL (p : Option Ref) : List LTree → List Rec
  | [] => []
  | t :: ts => recs p t ++ recsL p ts
end

mutual
/-- The nodes of a tree that are not texts directly after a text, titles unescaped. -/
def kept (p : Option Ref) : LTree → List Rec
  | .node i a ks => (i, p, dropText (unescAttrs a)) :: keptL (some i) false ks
def keptL (p : Option Ref) (prev : Bool) : List LTree → List Rec
  | [] => []
  | .node i a ks :: ts =>
    if prev && a.cls.isSub .Text then keptL p true ts
    else (i, p, dropText (unescAttrs a)) :: keptL (some i) false ks ++ keptL p (a.cls.isSub .Text) ts
end

theorem keptL_cons (p prev k ts) : keptL p prev (k :: ts) =
    if prev && k.isT then keptL p true ts else kept p k ++ keptL p k.isT ts := by
  cases k with
  | node i a ks => rw [keptL]; rfl

@[simp] theorem recsL_append (p) (a b : List LTree) : recsL p (a ++ b) = recsL p a ++ recsL p b := by
  induction a with
  | nil => rfl
  | cons t a ih => simp [recsL, ih]

/-- Keep the old ones. -/
abbrev old (n0 : Nat) (l : List Rec) : List Rec := l.filter fun r => r.1 < n0

theorem old_append (n0 a b) : old n0 (a ++ b) = old n0 a ++ old n0 b := by simp [old]

theorem kept_mapText {p f k} (hk : k.isT = true) : kept p (mapText f k) = kept p k := by
  cases k with
  | node i a ks =>
    have ha : a.cls.isSub .Text = true := hk
    have : dropText (unescAttrs { a with text := f a.text }) = dropText (unescAttrs a) := by
      unfold dropText unescAttrs
      simp [ha]
    simp only [mapText, kept, this]

theorem kept_mapIfText (p f k) : kept p (mapIfText f k) = kept p k := by
  unfold mapIfText
  split
  · rename_i h; exact kept_mapText h
  · rfl

theorem kept_mapHead (p f ks) : (mapHead f ks).flatMap (kept p) = ks.flatMap (kept p) := by
  cases ks <;> simp [mapHead, kept_mapIfText]
theorem kept_mapLast (p f ks) : (mapLast f ks).flatMap (kept p) = ks.flatMap (kept p) := by
  cases hl : ks.getLast? with
  | none => rw [List.getLast?_eq_none_iff] at hl; subst hl; rfl
  | some k =>
    obtain ⟨a, rfl⟩ := List.getLast?_eq_some_iff.mp hl
    rw [mapLast_append]; simp [kept_mapIfText]
theorem kept_map (p f) (ks : List LTree) : (ks.map (mapIfText f)).flatMap (kept p) = ks.flatMap (kept p) := by
  rw [List.flatMap_map]; simp [kept_mapIfText]

theorem keptL_run {p} {run : List LTree} (hrun : ∀ r ∈ run, r.isT = true) (rest : List LTree) :
    keptL p true (run ++ rest) = keptL p true rest := by
  induction run with
  | nil => rfl
  | cons r run ih =>
    rw [List.cons_append, keptL_cons, hrun r (by simp)]
    simpa using ih fun x hx => hrun x (by simp [hx])

theorem keptL_true {p} {rest : List LTree} (h : ∀ y ∈ rest.head?, y.isT = false) :
    keptL p true rest = keptL p false rest := by
  cases rest with
  | nil => rw [keptL, keptL]
  | cons k ks => rw [keptL_cons, keptL_cons, h k rfl]; rfl

theorem kept_mergeL (p ks) : (mergeL ks).flatMap (kept p) = keptL p false ks := by
  refine runs_induction (P := fun ks => (mergeL ks).flatMap (kept p) = keptL p false ks)
    (by rw [keptL]; rfl) ?_ ?_ ks
  · intro k ks hk ih
    rw [mergeL_other hk, List.flatMap_cons, ih, keptL_cons, hk]; rfl
  · intro k run rest hk hrun hrest ih
    rw [mergeL_run hk _ _ hrun hrest, List.flatMap_cons, ih, keptL_cons, hk, kept_mapText hk]
    simp only [Bool.false_and]
    rw [keptL_run hrun, keptL_true hrest]
    rfl

theorem old_kwTree {n0 n w} (p) (h : n0 ≤ n) : old n0 (kept p (kwTree n w)) = [] := by
  simp only [kwTree, kept, keptL, old, Bool.false_and]
  simp; omega

theorem old_blank {n0 n a} (p) (h : n0 ≤ n) : old n0 (kept p (.node n a [])) = [] := by
  simp only [kept, keptL, old]
  simp; omega

theorem Shaped.kept {n0 a ks ks4} (S : Shaped n0 a ks ks4) (p) :
    old n0 (ks4.flatMap (Normalize.kept p)) = old n0 (keptL p false ks) := by
  have hst : (stripL (mergeL ks)).flatMap (Normalize.kept p) = keptL p false ks := by
    unfold stripL
    rw [kept_mapLast, kept_mapHead, kept_mergeL]
  cases S with
  | plain hc => rw [kept_map, hst]
  | @construct w n hc hw hn =>
    rw [kept_map, ← hst]
    generalize stripL (mergeL ks) = l
    cases l with
    | nil => simp only [openL, List.flatMap_cons, List.flatMap_nil, old_append, old_kwTree p hn]; rfl
    | cons k l =>
      simp only [openL]
      split
      · rw [List.flatMap_cons, List.flatMap_cons, old_append, old_append, kept_mapHead,
          old_kwTree p (by omega), old_blank p hn]; rfl
      · rw [List.flatMap_cons, old_append, kept_mapHead, old_kwTree p hn]; rfl

theorem Norm.kept {n0 ts ts'} (N : Norm n0 ts ts') (p : Option Ref) :
    old n0 (recsL p ts') = old n0 (ts.flatMap (Normalize.kept p)) := by
  induction N generalizing p with
  | nil => rfl
  | @cons i a ks ts ks4 ks5 ts' ex sh _ _ sp _ ih4 iht =>
    have hex : old n0 (recsL p ex) = [] := by
      rcases sp with ⟨_, e, he, rfl⟩ | ⟨_, rfl⟩
      · simp [recsL, recs, old]; omega
      · rfl
    rw [List.flatMap_cons, recsL, recsL_append, Normalize.kept, recs]
    simp only [old_append, hex, iht, List.nil_append]
    congr 1
    have := (ih4 (some i)).trans (sh.kept (some i))
    simp only [old, List.filter_cons] at this ⊢
    rw [this]

/-! ### The non-blank characters -/

/-- How the texts of a run are read, given its first node. -/
def reader (n0 : Nat) (i : Ref) (a : NodeRec) : Str → Str := if i < n0 then R a.asis else fun _ => []

mutual
/-- The non-blank characters of the old text nodes of a tree, each run read as its first node. -/
def readT (n0 : Nat) : LTree → Str
  | .node i a ks => (if a.cls.isSub .Text then reader n0 i a a.text else []) ++ readL n0 none ks
def readL (n0 : Nat) (run : Option (Str → Str)) : List LTree → Str
  | [] => []
  | .node i a ks :: ts =>
    if a.cls.isSub .Text then
      run.getD (reader n0 i a) a.text ++ readL n0 none ks ++ readL n0 (some (run.getD (reader n0 i a))) ts
    else readL n0 none ks ++ readL n0 none ts
end

theorem readL_other {n0 run k} (hk : k.isT = false) (ts) :
    readL n0 run (k :: ts) = readT n0 k ++ readL n0 none ts := by
  cases k with
  | node i a ks =>
    have ha : a.cls.isSub .Text = false := hk
    rw [readL, readT, ha]; rfl

theorem readL_text {n0 run k} (hk : k.isT = true) (hl : k.kids = []) (ts) :
    readL n0 run (k :: ts) = run.getD (reader n0 k.root k.attrs) k.attrs.text ++
      readL n0 (some (run.getD (reader n0 k.root k.attrs))) ts := by
  cases k with
  | node i a ks =>
    simp only [kids_mk] at hl
    subst hl
    have ha : a.cls.isSub .Text = true := hk
    rw [readL, if_pos ha]; simp [readL]

mutual
/-- The non-blank characters that the old text nodes of a tree show. -/
def shownT (n0 : Nat) : LTree → Str
  | .node i a ks => (if a.cls.isSub .Text && i < n0 then ink a.text else []) ++ shownL n0 ks
def shownL (n0 : Nat) : List LTree → Str
  | [] => []
  | t :: ts => shownT n0 t ++ shownL n0 ts
end

@[simp] theorem shownL_append (n0) (a b : List LTree) : shownL n0 (a ++ b) = shownL n0 a ++ shownL n0 b := by
  induction a with
  | nil => rfl
  | cons t a ih => simp [shownL, ih]

/-- A change of text that touches white space only. -/
def Soft (f : Str → Str) : Prop := ∀ v s, R v (f s) = R v s

theorem reader_mapText {n0 i a f} (hf : Soft f) :
    reader n0 i { a with text := f a.text } (f a.text) = reader n0 i a a.text := by
  unfold reader
  split
  · exact hf _ _
  · rfl

theorem readT_mapIfText {f} (hf : Soft f) (n0 k) : readT n0 (mapIfText f k) = readT n0 k := by
  unfold mapIfText
  split
  · cases k with
    | node i a ks =>
      simp only [mapText, readT]
      rw [reader_mapText hf]
  · rfl

theorem read_mapHead {f} (hf : Soft f) (n0 ks) : (mapHead f ks).flatMap (readT n0) = ks.flatMap (readT n0) := by
  cases ks <;> simp [mapHead, readT_mapIfText hf]
theorem read_mapLast {f} (hf : Soft f) (n0 ks) : (mapLast f ks).flatMap (readT n0) = ks.flatMap (readT n0) := by
  cases hl : ks.getLast? with
  | none => rw [List.getLast?_eq_none_iff] at hl; subst hl; rfl
  | some k =>
    obtain ⟨a, rfl⟩ := List.getLast?_eq_some_iff.mp hl
    rw [mapLast_append]; simp [readT_mapIfText hf]
theorem read_map {f} (hf : Soft f) (n0) (ks : List LTree) :
    (ks.map (mapIfText f)).flatMap (readT n0) = ks.flatMap (readT n0) := by
  rw [List.flatMap_map]; simp [readT_mapIfText hf]

theorem readL_run {n0 f} {run : List LTree} (hrun : ∀ r ∈ run, r.isT = true)
    (hleaf : ∀ r ∈ run, r.kids = []) (rest : List LTree) :
    readL n0 (some f) (run ++ rest) = run.flatMap (fun r => f r.attrs.text) ++ readL n0 (some f) rest := by
  induction run with
  | nil => rfl
  | cons r run ih =>
    rw [List.cons_append, readL_text (hrun r (by simp)) (hleaf r (by simp))]
    simp only [Option.getD_some]
    rw [ih (fun x hx => hrun x (by simp [hx])) (fun x hx => hleaf x (by simp [hx]))]
    simp

theorem readL_some {n0 f} {rest : List LTree} (h : ∀ y ∈ rest.head?, y.isT = false) :
    readL n0 (some f) rest = readL n0 none rest := by
  cases rest with
  | nil => rw [readL, readL]
  | cons k ks => rw [readL_other (h k rfl), readL_other (h k rfl)]

theorem reader_runText (n0 i a) (t : Str) (bs : List Str) :
    reader n0 i a (runText t bs) = reader n0 i a t ++ bs.flatMap (reader n0 i a) := by
  unfold reader
  split
  · exact R_runText _ _ _
  · simp

theorem read_mergeL (n0 ks) (hl : TextLeaf ks) : (mergeL ks).flatMap (readT n0) = readL n0 none ks := by
  revert hl
  refine runs_induction (P := fun ks => TextLeaf ks → (mergeL ks).flatMap (readT n0) = readL n0 none ks)
    (fun _ => by rw [readL]; rfl) ?_ ?_ ks
  · intro k ks hk ih hl
    rw [mergeL_other hk, List.flatMap_cons, ih fun x hx => hl x (by simp [hx]), readL_other hk]
  · intro k run rest hk hrun hrest ih hl
    have hkl := hl k (by simp) hk
    rw [mergeL_run hk _ _ hrun hrest, List.flatMap_cons, ih fun x hx => hl x (by simp [hx]),
      readL_text hk hkl]
    simp only [Option.getD_none]
    rw [readL_run hrun (fun r hr => hl r (by simp [hr]) (hrun r hr)), readL_some hrest,
      ← List.append_assoc]
    congr 1
    cases k with
    | node i a kk =>
      simp only [kids_mk] at hkl
      subst hkl
      have ha : a.cls.isSub .Text = true := hk
      simp only [mapText, readT, ha, if_true, root_mk, attrs_mk]
      have e : ∀ s t, reader n0 i { a with text := s } t = reader n0 i a t := by
        intro s t; rfl
      rw [e, reader_runText, List.flatMap_map]
      simp [readL]

theorem read_kwTree {n0 n w} (h : n0 ≤ n) : readT n0 (kwTree n w) = [] := by
  have h1 : Cls.isSub .Keyword .Text = false := by decide
  have h2 : Cls.isSub .Text .Text = true := by decide
  simp only [kwTree, readT, readL, NodeRec.new, textAttrs, h1, h2, reader]
  rw [if_neg (show ¬ n + 1 < n0 by omega)]; simp

theorem read_new {n0 n a} (h : n0 ≤ n) : readT n0 (.node n a []) = [] := by
  simp only [readT, readL, reader]
  rw [if_neg (show ¬ n < n0 by omega)]; simp

theorem Shaped.read {n0 a ks ks4} (S : Shaped n0 a ks ks4) (hl : TextLeaf ks) :
    ks4.flatMap (readT n0) = readL n0 none ks := by
  have hst : (stripL (mergeL ks)).flatMap (readT n0) = readL n0 none ks := by
    unfold stripL
    rw [read_mapLast R_rstrip, read_mapHead R_lstrip, read_mergeL n0 ks hl]
  cases S with
  | plain hc => rw [read_map R_squeeze, hst]
  | @construct w n hc hw hn =>
    rw [read_map R_squeeze, ← hst]
    generalize stripL (mergeL ks) = l
    cases l with
    | nil => simp only [openL, List.flatMap_cons, List.flatMap_nil, read_kwTree hn]; rfl
    | cons k l =>
      simp only [openL]
      split
      · rw [List.flatMap_cons, List.flatMap_cons, read_mapHead R_blank, read_kwTree (by omega),
          read_new hn]; rfl
      · rw [List.flatMap_cons, read_mapHead R_blank, read_kwTree hn]; rfl

theorem Norm.read {n0 ts ts'} (N : Norm n0 ts ts') : shownL n0 ts' = ts.flatMap (readT n0) := by
  induction N with
  | nil => rfl
  | @cons i a ks ts ks4 ks5 ts' ex sh _ _ sp hl ih4 iht =>
    have hex : shownL n0 ex = [] := by
      rcases sp with ⟨_, e, he, rfl⟩ | ⟨_, rfl⟩
      · have : ¬ e < n0 := by omega
        simp [shownL, shownT, this]
      · rfl
    rw [List.flatMap_cons, shownL, shownL_append, hex, iht, List.nil_append]
    congr 1
    rw [shownT, readT, ih4, sh.read hl]
    congr 1
    have hcl : (unescAttrs a).cls = a.cls := rfl
    rw [hcl]
    by_cases ha : a.cls.isSub .Text = true
    · rw [text_unescAttrs ha]
      unfold reader
      by_cases hi : i < n0 <;> simp [ha, hi]
    · simp [ha]

/-! ### The opening of a construct -/

theorem lookup_mem {k w : Str} {l : List (Str × Str)} (h : l.lookup k = some w) : ∃ k', (k', w) ∈ l := by
  induction l with
  | nil => cases h
  | cons a l ih =>
    obtain ⟨k0, w0⟩ := a
    rw [List.lookup_cons] at h
    split at h
    · cases h; exact ⟨k0, by simp⟩
    · obtain ⟨k', h'⟩ := ih h; exact ⟨k', by simp [h']⟩

/-- No backslash, and no white space at the ends. -/
def plainWord (w : Str) : Bool :=
  !w.contains '\\' && w.head?.all (fun c => !isSpace c) && w.getLast?.all (fun c => !isSpace c)

theorem keyword_plain {k w : Str} (h : keywordOf k = some w) : plainWord w = true := by
  unfold keywordOf at h
  obtain ⟨k', h'⟩ := lookup_mem h
  revert h'
  generalize hl : [("let".toList, "LET".toList), _, _, _, _, _, _, _, _, _, _, _, _, _] = l
  have key : ∀ p ∈ l, plainWord p.2 = true := by subst hl; decide
  exact key (k', w)

theorem U_noBackslash {s : Str} (h : '\\' ∉ s) : U s = s := by
  induction s with
  | nil => rfl
  | cons c s ih =>
    rw [show U (c :: s) = _ from unescape_cons_of_ne (fun e => h (by simp [e])) s]
    exact congrArg _ (ih fun hm => h (by simp [hm]))

theorem plainWord_spec {w : Str} (h : plainWord w = true) : '\\' ∉ w ∧ NoLead w ∧ NoTrail w := by
  unfold plainWord at h
  simp only [Bool.and_eq_true] at h
  refine ⟨by simpa using h.1.1, ?_, ?_⟩
  · intro c hc
    have h1 := h.1.2
    rw [hc] at h1
    simpa using h1
  · intro c hc
    have h1 := h.2
    rw [hc] at h1
    simpa using h1

theorem squeeze_plain {w : Str} (h1 : NoLead w) (h2 : NoTrail w) : squeezeText w = w := by
  unfold squeezeText
  rw [subTrailing_eq _ _ le_rfl, if_pos (rstrip_of_noTrail h2), subLeading_eq,
    if_pos (lstrip_of_noLead h1)]

theorem text_isT (n s ks) : (LTree.node n (textAttrs s) ks).isT = true := by
  show Cls.isSub .Text .Text = true; decide

theorem Shaped.nil {n0 a ks4} (hc : a.cls.isSub .Construct = false) (S : Shaped n0 a [] ks4) : ks4 = [] := by
  cases S with
  | plain _ => rfl
  | construct hc' _ _ => rw [hc] at hc'; cases hc'

theorem unescAttrs_textAttrs {w : Str} (h : '\\' ∉ w) : unescAttrs (textAttrs w) = textAttrs w := by
  have h1 : Cls.isSub .Text .Text = true := by decide
  have h2 : Cls.isSub .Text .Section = false := by decide
  have h3 : Cls.isSub .Text .Manuscript = false := by decide
  have e : unesc w = w := by rw [unesc_eq, U_noBackslash h]
  simp [unescAttrs, textAttrs, NodeRec.new, h1, h2, h3, e]

theorem unescAttrs_keyword : unescAttrs (NodeRec.new .Keyword) = NodeRec.new .Keyword := by
  have h1 : Cls.isSub .Keyword .Text = false := by decide
  have h2 : Cls.isSub .Keyword .Section = false := by decide
  have h3 : Cls.isSub .Keyword .Manuscript = false := by decide
  simp [unescAttrs, NodeRec.new, h1, h2, h3]

/-- A text that is already normal stays as it is. -/
theorem Norm.text {n0 m w ts'} (hw : '\\' ∉ w) (N : Norm n0 [.node m (textAttrs w) []] ts') :
    ts' = [.node m (textAttrs w) []] := by
  cases N with
  | cons sh N4 N sp _ =>
    have hT : (textAttrs w).cls.isSub .Construct = false := by
      show Cls.isSub .Text .Construct = false; decide
    have h4 := sh.nil hT
    subst h4
    rw [N4.nil_iff, N.nil_iff, unescAttrs_textAttrs hw]
    rcases sp with ⟨h, _⟩ | ⟨_, rfl⟩
    · simp [spacedPair] at h
    · rfl

theorem stripL_text {m w} (h1 : NoLead w) (h2 : NoTrail w) :
    (stripL (mergeL [.node m (textAttrs w) []])).map (mapIfText squeezeText) =
      [.node m (textAttrs w) []] := by
  have e : mergeL [LTree.node m (textAttrs w) []] = [.node m (textAttrs w) []] := by
    have := mergeL_run (text_isT m w []) [] [] (by simp) (by simp)
    rw [List.append_nil] at this
    rw [this]; rfl
  have hm : ∀ f : Str → Str, f w = w →
      mapIfText f (.node m (textAttrs w) []) = .node m (textAttrs w) [] := by
    intro f hf
    unfold mapIfText
    rw [if_pos (text_isT m w [])]
    simp only [mapText]
    rw [show (textAttrs w).text = w from rfl, hf]; rfl
  rw [e]
  unfold stripL
  rw [mapHead, hm _ (lstrip_of_noLead h1)]
  rw [show [LTree.node m (textAttrs w) []] = [] ++ [LTree.node m (textAttrs w) []] from rfl,
    mapLast_append, hm _ (rstrip_of_noTrail h2)]
  simp [hm _ (squeeze_plain h1 h2)]

theorem Norm.keyword {n0 n w ts ts'} (hw : plainWord w = true) (N : Norm n0 (kwTree n w :: ts) ts') :
    ∃ rest, ts' = kwTree n w :: rest ∧ Norm n0 ts rest := by
  obtain ⟨w1, w2, w3⟩ := plainWord_spec hw
  unfold kwTree at N
  cases N with
  | @cons _ _ _ _ ks4 ks5 ts1 ex sh N4 N sp _ =>
    have hK : (NodeRec.new .Keyword).cls.isSub .Construct = false := by
      show Cls.isSub .Keyword .Construct = false; decide
    have h4 : ks4 = [.node (n + 1) (textAttrs w) []] := by
      cases sh with
      | plain _ => exact stripL_text w2 w3
      | construct hc' _ _ => rw [hK] at hc'; cases hc'
    subst h4
    have h5 := N4.text w1
    subst h5
    rcases sp with ⟨h, _⟩ | ⟨_, rfl⟩
    · exfalso
      have : spacedClasses.contains Cls.Keyword = false := by decide
      cases ts with
      | nil => simp [spacedPair] at h
      | cons t ts =>
        simp only [spacedPair, Bool.and_eq_true] at h
        rw [show (NodeRec.new .Keyword).cls = .Keyword from rfl, this] at h
        exact absurd h.1 (by simp)
    · exact ⟨ts1, by rw [unescAttrs_keyword]; rfl, N⟩

theorem kw_not_text (n w) : (kwTree n w).isT = false := by
  show Cls.isSub .Keyword .Text = false; decide

theorem mapIfText_kw (f n w) : mapIfText f (kwTree n w) = kwTree n w := by
  unfold mapIfText; rw [kw_not_text]; rfl

theorem squeeze_blank (s : Str) : (squeezeText (' ' :: s)).head? = some ' ' := by
  unfold squeezeText
  rw [subTrailing_eq _ _ le_rfl]
  obtain ⟨r, hr⟩ : ∃ r, (if rstrip (' ' :: s) = ' ' :: s then ' ' :: s else rstrip (' ' :: s) ++ [' ']) =
      ' ' :: r := by
    split
    · exact ⟨s, rfl⟩
    · by_cases h : AllSp (' ' :: s)
      · exact ⟨[], by rw [rstrip_allSp h]; rfl⟩
      · exact ⟨rstrip s ++ [' '], by rw [rstrip_cons h]; rfl⟩
  rw [hr, subLeading_eq]
  split <;> rfl

theorem read_blank {v : Bool} {s : Str} (h : s.head? = some ' ') : (readAs v s).head? = some ' ' := by
  cases s with
  | nil => cases h
  | cons c s =>
    cases h
    unfold readAs
    split
    · rfl
    · rw [show unescape (· ∈ special) (' ' :: s) = _ from U_space (by decide) s]; rfl

/-- The children of a construct after normalisation. -/
theorem Norm.construct {n0 a ks ks4 ks5} (hc : a.cls.isSub .Construct = true) (S : Shaped n0 a ks ks4)
    (N : Norm n0 ks4 ks5) : ∃ w n rest, keywordOf a.kind = some w ∧ n0 ≤ n ∧ ks5 = kwTree n w :: rest ∧
      ∀ k ∈ rest.head?, k.isT = true → k.attrs.text.head? = some ' ' := by
  cases S with
  | plain hc' => rw [hc] at hc'; cases hc'
  | @construct w n _ hw hn =>
    have hpl := keyword_plain hw
    have hrest : ∀ (l : List LTree) (rest : List LTree),
        (∀ k ∈ l.head?, k.isT = true → ∃ s, k.attrs.text = ' ' :: s) →
        Norm n0 (l.map (mapIfText squeezeText)) rest →
        ∀ k ∈ rest.head?, k.isT = true → k.attrs.text.head? = some ' ' := by
      intro l rest hl Nr k hk ht
      obtain ⟨i, b, kk, kk5, h1, rfl⟩ := Nr.head hk
      have hb : b.cls.isSub .Text = true := ht
      rw [attrs_mk, text_unescAttrs hb]
      cases l with
      | nil => cases h1
      | cons k0 l =>
        simp only [List.map_cons, List.head?_cons, Option.some.injEq] at h1
        have ht0 : k0.isT = true := by rw [← isT_mapIfText squeezeText k0, h1]; exact hb
        obtain ⟨s, hs⟩ := hl k0 rfl ht0
        have := text_mapIfText (f := squeezeText) ht0
        rw [h1, attrs_mk, hs] at this
        rw [this]
        exact read_blank (squeeze_blank s)
    have hhead : ∀ (l : List LTree), ∀ k ∈ (mapHead (' ' :: ·) l).head?, k.isT = true →
        ∃ s, k.attrs.text = ' ' :: s := by
      intro l k hk ht
      cases l with
      | nil => cases hk
      | cons k0 l =>
        simp only [mapHead, List.head?_cons, Option.mem_def, Option.some.injEq] at hk
        subst hk
        rw [isT_mapIfText] at ht
        exact ⟨_, text_mapIfText ht⟩
    generalize stripL (mergeL ks) = l at N
    cases l with
    | nil =>
      simp only [openL, List.map_cons, mapIfText_kw, List.map_nil] at N
      obtain ⟨rest, h1, h2⟩ := N.keyword hpl
      exact ⟨w, n, rest, hw, hn, h1, hrest [] rest (by simp) h2⟩
    | cons k l =>
      simp only [openL] at N
      split at N
      · simp only [List.map_cons, mapIfText_kw] at N
        obtain ⟨rest, h1, h2⟩ := N.keyword hpl
        refine ⟨w, n + 1, rest, hw, by omega, h1,
          hrest (.node n (textAttrs [' ']) [] :: mapHead (' ' :: ·) (k :: l)) rest ?_
            (by simpa using h2)⟩
        intro k hk _
        cases hk
        exact ⟨[], rfl⟩
      · rw [List.map_cons, mapIfText_kw] at N
        obtain ⟨rest, h1, h2⟩ := N.keyword hpl
        exact ⟨w, n, rest, hw, hn, h1, hrest _ rest (hhead _) h2⟩

/-! ### New nodes -/

/-- All nodes are old, or this is one of the new trees. -/
inductive In (n0 : Nat) : LTree → Prop
  | old {t} : (∀ x ∈ t.refs, x < n0) → In n0 t
  | blank {n} : n0 ≤ n → In n0 (.node n (textAttrs [' ']) [])
  | kw {n w} : n0 ≤ n → plainWord w = true → In n0 (kwTree n w)

/-- The root is old and all children are so, or this is one of the new trees. -/
inductive Out (n0 : Nat) : LTree → Prop
  | old {i a ks} : i < n0 → (∀ k ∈ ks, Out n0 k) → Out n0 (.node i a ks)
  | blank {n} : n0 ≤ n → Out n0 (.node n (textAttrs [' ']) [])
  | kw {n w} : n0 ≤ n → Out n0 (kwTree n w)

theorem In.mapIfText_old {n0 t} (f) (h : ∀ x ∈ t.refs, x < n0) : In n0 (mapIfText f t) := by
  refine .old fun x hx => h x ?_
  unfold mapIfText at hx
  split at hx
  · simpa using hx
  · exact hx

theorem refs_mapIfText (f t) : (mapIfText f t).refs = t.refs := by
  unfold mapIfText; split <;> simp

theorem refsL_mapHead (f ks) : refsL (mapHead f ks) = refsL ks := by
  cases ks <;> simp [mapHead, refs_mapIfText]
theorem refsL_mapLast (f ks) : refsL (mapLast f ks) = refsL ks := by
  cases hl : ks.getLast? with
  | none => rw [List.getLast?_eq_none_iff] at hl; subst hl; rfl
  | some k =>
    obtain ⟨a, rfl⟩ := List.getLast?_eq_some_iff.mp hl
    rw [mapLast_append]; simp [refs_mapIfText]

theorem refsL_mergeL (ks : List LTree) : ∀ x ∈ refsL (mergeL ks), x ∈ refsL ks := by
  refine runs_induction (P := fun ks => ∀ x ∈ refsL (mergeL ks), x ∈ refsL ks) (fun _ h => h) ?_ ?_ ks
  · intro k ks hk ih x hx
    rw [mergeL_other hk] at hx
    simp only [refsL_cons, List.mem_append] at hx ⊢
    exact hx.imp_right (ih x)
  · intro k run rest hk hrun hrest ih x hx
    rw [mergeL_run hk _ _ hrun hrest] at hx
    simp only [refsL_cons, refs_mapText, List.mem_append, refsL_append] at hx ⊢
    rcases hx with hx | hx
    · exact .inl hx
    · exact .inr (.inr (ih x hx))

theorem Shaped.allIn {n0 a ks ks4} (S : Shaped n0 a ks ks4) (h : ∀ x ∈ refsL ks, x < n0) :
    ∀ k ∈ ks4, In n0 k := by
  have hst : ∀ x ∈ refsL (stripL (mergeL ks)), x < n0 := by
    intro x hx
    unfold stripL at hx
    rw [refsL_mapLast, refsL_mapHead] at hx
    exact h x (refsL_mergeL ks x hx)
  have key : ∀ l : List LTree, (∀ x ∈ refsL l, x < n0) → ∀ k ∈ l.map (mapIfText squeezeText), In n0 k := by
    intro l hl k hk
    obtain ⟨k0, hk0, rfl⟩ := List.mem_map.mp hk
    exact .mapIfText_old _ fun x hx => hl x (mem_refsL.mpr ⟨k0, hk0, hx⟩)
  cases S with
  | plain hc => exact key _ hst
  | @construct w n hc hw hn =>
    have hpl := keyword_plain hw
    generalize stripL (mergeL ks) = l at hst
    have hmh : ∀ x ∈ refsL (mapHead (' ' :: ·) l), x < n0 := by rw [refsL_mapHead]; exact hst
    cases l with
    | nil =>
      intro k hk
      simp only [openL, List.map_cons, mapIfText_kw, List.map_nil, List.mem_singleton] at hk
      subst hk; exact .kw hn hpl
    | cons k0 l =>
      intro k hk
      simp only [openL] at hk
      split at hk
      · rw [List.map_cons, mapIfText_kw, List.map_cons] at hk
        rcases List.mem_cons.mp hk with rfl | hk
        · exact .kw (by omega) hpl
        · rcases List.mem_cons.mp hk with rfl | hk
          · have : mapIfText squeezeText (.node n (textAttrs [' ']) []) = .node n (textAttrs [' ']) [] := by
              unfold mapIfText
              rw [if_pos (text_isT n _ [])]
              simp only [mapText]
              have hsq : squeezeText [' '] = [' '] := by decide +kernel
              rw [show (textAttrs [' ']).text = [' '] from rfl, hsq]; rfl
            rw [this]; exact .blank hn
          · exact key _ hmh k hk
      · rw [List.map_cons, mapIfText_kw] at hk
        rcases List.mem_cons.mp hk with rfl | hk
        · exact .kw hn hpl
        · exact key _ hmh k hk

theorem Norm.allOut {n0 ts ts'} (N : Norm n0 ts ts') (h : ∀ t ∈ ts, In n0 t) : ∀ t ∈ ts', Out n0 t := by
  induction N with
  | nil => intro t ht; cases ht
  | @cons i a ks ts ks4 ks5 ts' ex sh N4 _ sp hl ih4 iht =>
    intro t ht
    have hhead := h (.node i a ks) (by simp)
    rcases List.mem_cons.mp ht with rfl | ht
    · generalize hs : LTree.node i a ks = s at hhead
      cases hhead with
      | old ho =>
        subst hs
        exact .old (ho i (by simp)) (ih4 (sh.allIn fun x hx => ho x (by simp [hx])))
      | blank hn =>
        cases hs
        have hT : (textAttrs [' ']).cls.isSub .Construct = false := by
          show Cls.isSub .Text .Construct = false; decide
        have h4 := sh.nil hT
        subst h4
        rw [N4.nil_iff, unescAttrs_textAttrs (by decide)]
        exact .blank hn
      | @kw n w hn hw =>
        have N' : Norm n0 [kwTree n w] [.node i (unescAttrs a) ks5] := by
          rw [← hs]
          exact .cons (ex := []) (ts' := []) sh N4 .nil (.inr ⟨rfl, rfl⟩) hl
        obtain ⟨rest, h1, h2⟩ := N'.keyword hw
        simp only [List.cons.injEq] at h1
        rw [h1.1]
        exact .kw hn
    · rcases List.mem_append.mp ht with ht | ht
      · rcases sp with ⟨_, e, he, rfl⟩ | ⟨_, rfl⟩
        · simp only [List.mem_singleton] at ht
          subst ht; exact .blank he
        · cases ht
      · exact iht (fun t ht => h t (by simp [ht])) t ht

end Normalize
end RSM
