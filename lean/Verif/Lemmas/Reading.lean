import Verif.Spec.Reading
import Verif.Lemmas.Tree
import Verif.Lemmas.Forest

/-! Helper lemmas for C06 – C12. -/

namespace RSM
open Heap Tree

/-! ### Descendants -/

theorem mem_pre_iff_descendant {h : Heap} {p t} (ht : IsTree h p t) (d : Ref) :
    d ∈ t.pre ↔ DescendantOrSelf h t.root d := by
  constructor
  · induction t using Tree.induct generalizing p with
    | _ i ks ih =>
      have ht' := isTree_node.mp ht
      intro hd
      simp only [pre_node, List.mem_cons, mem_preL] at hd
      rcases hd with rfl | ⟨k, hk, hd⟩
      · exact .refl
      · refine Relation.ReflTransGen.head ?_ (ih k hk (ht'.2.2 k hk) hd)
        simp only [root_node, ht'.2.1]
        exact List.mem_map_of_mem hk
  · intro hd
    have key : ∀ x y, y ∈ h.children x → x ∈ t.pre → y ∈ t.pre := by
      clear hd
      intro x y hy
      induction t using Tree.induct generalizing p with
      | _ i ks ih =>
        have ht' := isTree_node.mp ht
        intro hx
        simp only [pre_node, List.mem_cons, mem_preL] at hx ⊢
        rcases hx with rfl | ⟨k, hk, hx⟩
        · rw [ht'.2.1] at hy
          obtain ⟨k, hk, rfl⟩ := List.mem_map.mp hy
          exact .inr ⟨k, hk, root_mem_pre k⟩
        · exact .inr ⟨k, hk, ih k hk (ht'.2.2 k hk) hx⟩
    unfold DescendantOrSelf at hd
    induction hd with
    | refl => exact root_mem_pre t
    | tail _ h2 ih => exact key _ _ h2 ih

/-! ### Ancestors -/

theorem Ancestors.unique {h : Heap} {r l l'} (h1 : Ancestors h r l) (h2 : Ancestors h r l') :
    l = l' := by
  induction l generalizing r l' with
  | nil =>
    cases l' with
    | nil => rfl
    | cons q l' => simp only [Ancestors] at h1 h2; rw [h1] at h2; simp at h2
  | cons p l ih =>
    cases l' with
    | nil => simp only [Ancestors] at h1 h2; rw [h2] at h1; simp at h1
    | cons q l' =>
      simp only [Ancestors] at h1 h2
      obtain rfl : p = q := by rw [h1.1] at h2; simpa using h2.1
      rw [ih h1.2 h2.2]

theorem Ancestors.suffix {h : Heap} {r l} (ha : Ancestors h r l) {b a s}
    (hl : l = b ++ s :: a) : Ancestors h s a := by
  induction b generalizing r l with
  | nil => subst hl; exact ha.2
  | cons x b ih => subst hl; exact ih ha.2 rfl

theorem Ancestors.mem {h : Heap} {r l} (ha : Ancestors h r l) {a} (hm : a ∈ l) :
    Relation.TransGen (fun y p => h.parent y = some p) r a := by
  induction l generalizing r with
  | nil => simp at hm
  | cons p l ih =>
    rcases List.mem_cons.mp hm with rfl | hm
    · exact .single ha.1
    · exact Relation.TransGen.head ha.1 (ih ha.2 hm)

theorem Forest.ancestors {h : Heap} (F : Forest h) (r : Ref) :
    ∃ l, Ancestors h r l ∧ l.length ≤ h.next := by
  have h1 : ∃ l, Ancestors h r l := by
    induction r using F.acyclic.induction with
    | _ r ih =>
      cases hp : h.parent r with
      | none => exact ⟨[], hp⟩
      | some p => obtain ⟨l, hl⟩ := ih p hp; exact ⟨p :: l, hp, hl⟩
  obtain ⟨l, hl⟩ := h1
  refine ⟨l, hl, ?_⟩
  have hnd : l.Nodup := by
    induction l generalizing r with
    | nil => simp
    | cons p l ih =>
      refine List.nodup_cons.mpr ⟨fun hm => ?_, ih p hl.2⟩
      have := hl.2.mem hm
      exact F.acyclic.transGen.irrefl.irrefl p this.swap
  have hb : l ⊆ List.range h.next := by
    intro a ha
    obtain ⟨y, _, hy⟩ := Relation.TransGen.tail'_iff.mp (hl.mem ha)
    simpa using (F.bound _ _ hy).2
  have := (List.subperm_of_subset hnd hb).length_le
  simpa using this

theorem firstAncestorOfType_eq {h : Heap} {cs : List Cls} {r l} (ha : Ancestors h r l) {fuel : Nat}
    (hf : l.length < fuel) :
    h.firstAncestorOfType cs fuel r = some (l.find? fun a => cs.contains (h.get a).cls) := by
  induction l generalizing r fuel with
  | nil =>
    cases fuel with
    | zero => simp at hf
    | succ n => simp only [Ancestors] at ha; simp [firstAncestorOfType, ha]
  | cons p l ih =>
    cases fuel with
    | zero => simp at hf
    | succ n =>
      rw [firstAncestorOfType, ha.1]
      dsimp only
      rw [List.find?_cons]
      by_cases hc : (h.get p).cls ∈ cs
      · simp [hc]
      · simp only [List.contains_eq_mem, hc, decide_false, Bool.false_eq_true, if_false]
        have := ih ha.2 (fuel := n) (by simpa using hf)
        simpa [List.contains_eq_mem] using this

theorem isFirstWith_find? (P : Ref → Bool) (l : List Ref) :
    IsFirstWith (fun a => P a = true) l (l.find? P) := by
  cases hf : l.find? P with
  | none => simpa [IsFirstWith] using hf
  | some s =>
    rw [List.find?_eq_some_iff_append] at hf
    obtain ⟨h1, b, a, h2, h3⟩ := hf
    exact ⟨h1, b, a, h2, fun x hx => by simpa using h3 x hx⟩

theorem isLastWith_find? (P : Ref → Bool) (l : List Ref) :
    IsLastWith (fun a => P a = true) l (l.reverse.find? P) := by
  cases hf : l.reverse.find? P with
  | none => simpa [IsLastWith] using hf
  | some s =>
    rw [List.find?_eq_some_iff_append] at hf
    obtain ⟨h1, b, a, h2, h3⟩ := hf
    refine ⟨h1, a.reverse, b.reverse, ?_, fun x hx => by simpa using h3 x (by simpa using hx)⟩
    have := congrArg List.reverse h2
    simpa using this

theorem IsFirstWith.unique {P : Ref → Prop} {l o o'} (h1 : IsFirstWith P l o)
    (h2 : IsFirstWith P l o') : o = o' := by
  cases o with
  | none =>
    cases o' with
    | none => rfl
    | some s => obtain ⟨hs, b, a, rfl, _⟩ := h2; exact absurd hs (h1 s (by simp))
  | some s =>
    cases o' with
    | none => obtain ⟨hs, b, a, rfl, _⟩ := h1; exact absurd hs (h2 s (by simp))
    | some s' =>
      obtain ⟨hs, b, a, rfl, hb⟩ := h1
      obtain ⟨hs', b', a', he, hb'⟩ := h2
      rcases List.append_eq_append_iff.mp he with ⟨c, h3, h4⟩ | ⟨c, h3, h4⟩
      · cases c with
        | nil => simp at h4; rw [h4.1]
        | cons x c =>
          simp only [List.cons_append, List.cons.injEq] at h4
          subst h3
          exact absurd hs (hb' s (by simp [h4.1]))
      · cases c with
        | nil => simp at h4; rw [h4.1]
        | cons x c =>
          simp only [List.cons_append, List.cons.injEq] at h4
          subst h3
          exact absurd hs' (hb s' (by simp [h4.1]))

theorem fullNumber_spec {h : Heap} {r l} (ha : Ancestors h r l) {fuel : Nat}
    (hf : l.length < fuel) : ∃ o, h.fullNumber fuel r = some o ∧ FullNumber h r o := by
  induction hn : l.length using Nat.strongRecOn generalizing r l fuel with
  | _ n ih =>
    cases fuel with
    | zero => simp at hf
    | succ m =>
      rw [fullNumber]
      by_cases h1 : (h.get r).cls = .Manuscript
      · exact ⟨some [], by simp [h1], .manuscript h1⟩
      by_cases h2 : (h.get r).nonum = true
      · exact ⟨none, by simp [h1, h2], .nonum h1 h2⟩
      have h2' : (h.get r).nonum = false := by simpa using h2
      simp only [h1, if_false, h2, Bool.false_eq_true]
      have scopeCase : ∀ scope, 
          (IsFirstWith (fun a => (h.get a).cls ∈ (h.get r).cls.numberWithin) l (some scope) ∨
            (∀ a ∈ l, (h.get a).cls ∉ (h.get r).cls.numberWithin) ∧
              IsFirstWith (fun a => (h.get a).cls = .Manuscript) l (some scope)) →
          ∃ o, (do
            let fa ← h.fullNumber m scope
            match fa with
            | .some (c :: s) => .some (.some ((c :: s) ++ '.' :: (h.get r).number.fmt))
            | _ => .some (.some (if (h.get r).number.truthy then (h.get r).number.fmt else [])))
            = some o ∧ FullNumber h r o := by
        intro scope hs
        have hsplit : ∃ b a, l = b ++ scope :: a := by
          rcases hs with ⟨_, b, a, hl, _⟩ | ⟨_, _, b, a, hl, _⟩ <;> exact ⟨b, a, hl⟩
        obtain ⟨b, a, hl⟩ := hsplit
        have hlen : l.length = b.length + a.length + 1 := by simp [hl]; omega
        obtain ⟨o, ho, ho2⟩ := ih a.length (by omega) (ha.suffix hl) (fuel := m) (by omega) rfl
        rw [ho]
        match o, ho2 with
        | none, ho2 => exact ⟨_, rfl, .unnumberedScope h1 h2' ha hs ho2 (.inl rfl)⟩
        | some [], ho2 => exact ⟨_, rfl, .unnumberedScope h1 h2' ha hs ho2 (.inr rfl)⟩
        | some (c :: s), ho2 => exact ⟨_, rfl, .inScope h1 h2' ha hs ho2 (by simp)⟩
      rw [firstAncestorOfType_eq ha hf]
      have hfirst := isFirstWith_find? (fun a => (h.get r).cls.numberWithin.contains (h.get a).cls) l
      simp only [List.contains_eq_mem, decide_eq_true_eq] at hfirst ⊢
      cases hA : l.find? fun a => decide ((h.get a).cls ∈ (h.get r).cls.numberWithin) with
      | some scope =>
        rw [hA] at hfirst
        exact scopeCase scope (.inl hfirst)
      | none =>
        rw [hA] at hfirst
        simp only [Option.bind_eq_bind, Option.bind_some]
        rw [firstAncestorOfType_eq ha hf]
        have hms := isFirstWith_find? (fun a => [Cls.Manuscript].contains (h.get a).cls) l
        simp only [List.contains_eq_mem, List.mem_singleton, decide_eq_true_eq] at hms ⊢
        cases hB : l.find? fun a => decide ((h.get a).cls = .Manuscript) with
        | some scope =>
          rw [hB] at hms
          exact scopeCase scope (.inr ⟨hfirst, hms⟩)
        | none =>
          rw [hB] at hms
          exact ⟨_, rfl, .noScope h1 h2' ha fun a hm => ⟨hfirst a hm, hms a hm⟩⟩

/-! ### s-expressions -/

/-- The printed form, by recursion. -/
def printSexp (h : Heap) (tab : Nat) : Nat → Tree → Str
  | indent, .node i ks =>
    '\n' :: List.replicate indent ' ' ++ '(' :: (h.get i).cls.name
      ++ printL h tab (indent + tab) ks ++ [')']
where
  printL (h : Heap) (tab : Nat) : Nat → List Tree → Str
    | _, [] => []
    | indent, t :: ts => printSexp h tab indent t ++ printL h tab indent ts

/-- What is left on the stack of `sexp`, as trees. -/
inductive PrintItem
  | tree (indent : Nat) (t : Tree)
  | close

def PrintItem.item : PrintItem → SexpItem
  | .tree i t => .node i t.root
  | .close => .close

def PrintItem.text (h : Heap) (tab : Nat) : PrintItem → Str
  | .tree i t => printSexp h tab i t
  | .close => [')']

def PrintItem.cost : PrintItem → Nat
  | .tree _ t => 2 * t.size
  | .close => 1

theorem printL_eq (h : Heap) (tab indent : Nat) (ks : List Tree) :
    printSexp.printL h tab indent ks = ks.flatMap (printSexp h tab indent) := by
  induction ks with
  | nil => rfl
  | cons k ks ih => simp [printSexp.printL, ih]

theorem sexpLoop_eq (h : Heap) (tab : Nat) (items : List PrintItem) (fuel : Nat) (acc : Str)
    (ht : ∀ i t, .tree i t ∈ items → ∃ p, IsTree h p t)
    (hf : (items.map PrintItem.cost).sum < fuel) :
    h.sexpLoop tab fuel (items.map PrintItem.item) acc =
      some (acc ++ items.flatMap (PrintItem.text h tab)) := by
  induction fuel generalizing items acc with
  | zero => omega
  | succ n ih =>
    cases items with
    | nil => simp [sexpLoop]
    | cons it items =>
      cases it with
      | close =>
        simp only [List.map_cons, PrintItem.item, sexpLoop]
        rw [ih items _ (fun i t hm => ht i t (by simp [hm])) (by
          simp [PrintItem.cost] at hf; omega)]
        simp [PrintItem.text]
      | tree i t =>
        obtain ⟨r, ks⟩ := t
        obtain ⟨p, htr⟩ := ht i _ (List.mem_cons_self ..)
        have ht' := isTree_node.mp htr
        simp only [List.map_cons, PrintItem.item, sexpLoop, root_node]
        have hstack : List.map (fun c => SexpItem.node (i + tab) c) (h.children r) ++
              SexpItem.close :: items.map PrintItem.item =
            (ks.map (PrintItem.tree (i + tab)) ++ PrintItem.close :: items).map
              PrintItem.item := by
          simp [ht'.2.1, PrintItem.item]
        rw [hstack, ih]
        · simp only [List.flatMap_cons, List.flatMap_append, PrintItem.text]
          rw [printSexp, printL_eq, List.flatMap_map]
          simp [PrintItem.text]
        · intro j t hm
          simp only [List.mem_append, List.mem_map, List.mem_cons] at hm
          rcases hm with ⟨k, hk, hk2⟩ | hm | hm
          · simp at hk2; obtain ⟨rfl, rfl⟩ := hk2
            exact ⟨_, ht'.2.2 k hk⟩
          · simp at hm
          · exact ht j t (by simp [hm])
        · have : ((ks.map (PrintItem.tree (i + tab))).map PrintItem.cost).sum = 2 * sizeL ks := by
            clear hf ht htr ht' hstack
            induction ks with
            | nil => rfl
            | cons k ks ihk => simp [PrintItem.cost] at ihk ⊢; omega
          simp only [List.map_append, List.sum_append, this]
          simp [PrintItem.cost] at hf ⊢
          omega

/-- The tokens of the printed form. -/
def sexpTokens (h : Heap) : Tree → List SexpTok
  | .node i ks => .opn (h.get i).cls.name :: tokensL h ks ++ [.cls]
where
  tokensL (h : Heap) : List Tree → List SexpTok
    | [] => []
    | t :: ts => sexpTokens h t ++ tokensL h ts

theorem lex_spaces (n : Nat) (s : Str) : sexpLex none (List.replicate n ' ' ++ s) = sexpLex none s := by
  induction n with
  | zero => rfl
  | succ n ih => simp [List.replicate_succ, sexpLex, ih]

theorem lex_name (nm : Str) (hnm : ∀ c ∈ nm, sexpDelim c = false) (acc : Str) (s : Str) :
    sexpLex (some acc) (nm ++ s) = sexpLex (some (nm.reverse ++ acc)) s := by
  induction nm generalizing acc with
  | nil => rfl
  | cons c nm ih =>
    have hc := hnm c (by simp)
    simp only [List.cons_append, sexpLex, hc, Bool.false_eq_true, if_false]
    rw [ih (fun d hd => hnm d (by simp [hd]))]
    simp

theorem name_no_delim (c : Cls) : ∀ x ∈ c.name, sexpDelim x = false := by
  cases c <;> decide

/-- After a name, a text that starts with a delimiter lexes as if the name had been finished. -/
theorem lex_finish (acc : Str) (s : Str) (hs : ∃ c s', s = c :: s' ∧ sexpDelim c = true) :
    sexpLex (some acc) s = (sexpLex none s).map (.opn acc.reverse :: ·) := by
  obtain ⟨c, s', rfl, hc⟩ := hs
  simp only [sexpLex, hc, if_true]
  simp only [sexpDelim, Bool.or_eq_true, beq_iff_eq] at hc
  congr 1
  by_cases h1 : c = '('
  · simp [h1]
  · by_cases h2 : c = ')'
    · simp [h2]
    · have : c = ' ' ∨ c = '\n' := by
        rcases hc with ((hc | hc) | hc) | hc
        · exact absurd hc h1
        · exact absurd hc h2
        · exact .inl hc
        · exact .inr hc
      simp [h1, h2, this]

theorem lex_print (h : Heap) (tab : Nat) (t : Tree) :
    ∀ indent s, sexpLex none (printSexp h tab indent t ++ s) =
      (sexpLex none s).map (sexpTokens h t ++ ·) := by
  induction t using Tree.induct with
  | _ i ks ih =>
    intro indent s
    have hL : ∀ ind s, sexpLex none (printSexp.printL h tab ind ks ++ s) =
        (sexpLex none s).map (sexpTokens.tokensL h ks ++ ·) := by
      intro ind
      clear indent
      induction ks with
      | nil => intro s; simp [printSexp.printL, sexpTokens.tokensL]
      | cons k ks ih2 =>
        intro s
        simp only [printSexp.printL, sexpTokens.tokensL, List.append_assoc]
        rw [ih k (by simp), ih2 (fun k' hk' => ih k' (by simp [hk']))]
        simp [Function.comp_def]
    simp only [printSexp, List.append_assoc, List.cons_append]
    rw [show ∀ x : Str, sexpLex none ('\n' :: x) = sexpLex none x from fun x => by simp [sexpLex]]
    rw [lex_spaces]
    rw [show ∀ x : Str, sexpLex none ('(' :: x) = sexpLex (some []) x from fun x => by
      simp [sexpLex]]
    rw [lex_name _ (name_no_delim _), lex_finish]
    · rw [hL]
      simp only [List.nil_append]
      rw [show ∀ x : Str, sexpLex none (')' :: x) = (sexpLex none x).map (.cls :: ·) from fun x => by
        simp [sexpLex]]
      simp [sexpTokens, Function.comp_def]
    · cases ks with
      | nil => exact ⟨')', s, by simp [printSexp.printL], by decide⟩
      | cons k ks =>
        obtain ⟨j, js⟩ := k
        refine ⟨'\n', (printSexp.printL h tab (indent + tab) (node j js :: ks) ++
          ')' :: ([] ++ s)).tail, ?_, by decide⟩
        simp [printSexp.printL, printSexp]

theorem read_tokens (h : Heap) (t : Tree) :
    ∀ n js stack ts, sexpRead ((n, js) :: stack) (sexpTokens h t ++ ts) =
      sexpRead ((n, t.names h :: js) :: stack) ts := by
  induction t using Tree.induct with
  | _ i ks ih =>
    intro n js stack ts
    have hL : ∀ (m : Str) (acc : List SexpTree) stack ts,
        sexpRead ((m, acc) :: stack) (sexpTokens.tokensL h ks ++ ts) =
          sexpRead ((m, (Tree.names.namesL h ks).reverse ++ acc) :: stack) ts := by
      induction ks with
      | nil => intro m acc stack ts; simp [sexpTokens.tokensL, Tree.names.namesL]
      | cons k ks ih2 =>
        intro m acc stack ts
        simp only [sexpTokens.tokensL, Tree.names.namesL, List.append_assoc]
        rw [ih k (by simp), ih2 (fun k' hk' => ih k' (by simp [hk']))]
        simp
    simp only [sexpTokens, List.cons_append, List.append_assoc]
    rw [sexpRead, hL]
    simp [sexpRead, Tree.names]

theorem readSexp_print (h : Heap) (tab : Nat) (t : Tree) :
    readSexp ((printSexp h tab 0 t).drop 1) = some (t.names h) := by
  have h1 : sexpLex none ((printSexp h tab 0 t).drop 1) = some (sexpTokens h t) := by
    have := lex_print h tab t 0 []
    simp only [List.append_nil] at this
    cases t
    simp only [printSexp, List.cons_append, List.append_assoc] at this ⊢
    rw [show ∀ x : Str, sexpLex none ('\n' :: x) = sexpLex none x from fun x => by
      simp [sexpLex]] at this
    simpa [sexpLex] using this
  unfold readSexp
  rw [h1, Option.bind_some]
  obtain ⟨i, ks⟩ := t
  have hL : ∀ (ks : List Tree) (m : Str) (acc : List SexpTree) stack ts,
      sexpRead ((m, acc) :: stack) (sexpTokens.tokensL h ks ++ ts) =
        sexpRead ((m, (Tree.names.namesL h ks).reverse ++ acc) :: stack) ts := by
    intro ks
    induction ks with
    | nil => intro m acc stack ts; simp [sexpTokens.tokensL, Tree.names.namesL]
    | cons k ks ih2 =>
      intro m acc stack ts
      simp only [sexpTokens.tokensL, Tree.names.namesL, List.append_assoc]
      rw [read_tokens, ih2]
      simp
  simp only [sexpTokens, List.cons_append]
  rw [sexpRead, hL]
  simp [sexpRead, Tree.names]

theorem Cls.name_injective : ∀ c d : Cls, c.name = d.name → c = d := by
  have key : (Cls.all.map Cls.name).Nodup := by decide +kernel
  have mem : ∀ c : Cls, c ∈ Cls.all := by intro c; cases c <;> decide
  exact fun c d h => List.inj_on_of_nodup_map key (mem c) (mem d) h

theorem names_classes (h h' : Heap) (t : Tree) : ∀ t' : Tree,
    t.names h = t'.names h' → t.classes h = t'.classes h' := by
  induction t using Tree.induct with
  | _ i ks ih =>
    rintro ⟨j, js⟩ he
    simp only [Tree.names, SexpTree.node.injEq] at he
    simp only [Tree.classes, ClsTree.node.injEq]
    refine ⟨Cls.name_injective _ _ he.1, ?_⟩
    replace he := he.2
    induction ks generalizing js with
    | nil =>
      cases js with
      | nil => rfl
      | cons j js => simp [Tree.names.namesL] at he
    | cons k ks ih2 =>
      cases js with
      | nil => simp [Tree.names.namesL] at he
      | cons j js =>
        simp only [Tree.names.namesL, List.cons.injEq] at he
        simp only [Tree.classes.classesL, List.cons.injEq]
        exact ⟨ih k (by simp) j he.1, ih2 (fun k' hk' => ih k' (by simp [hk'])) js he.2⟩

end RSM
