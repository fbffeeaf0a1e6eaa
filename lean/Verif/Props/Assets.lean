import Verif.Lemmas.Builder

/-!
# Properties of the files of the web manuscript (C55)
-/

namespace RSM
open PyM Build

/-- **C55.** The required assets are the values of the `src` attributes, from left to right. -/
theorem C55_assets (body : Str) (l : List Str) :
    findAssets body = l ↔ AllBetween "src=\"".toList "\"".toList body l := by
  have h := findall_all (o := "src=\"".toList) (w := "\"".toList) (by decide) body
  constructor
  · rintro rfl; exact h
  · intro h'; exact h.unique h'

/-- The name under which an asset is copied. -/
def assetTarget (a : Str) : Str := "static/".toList ++ pathName a

/-- An asset that can be copied: a file that can be read, and that has a name. -/
def Copyable (d : Disk) (a : Str) : Prop := (d.cwd a).isSome ∧ pathName a ≠ [] ∧ pathName a ≠ "..".toList

/-- The default files: the scripts and style sheets of the package. -/
def defaults (d : Disk) : List (Str × Str) :=
  d.static.filter fun f => pathSuffix f.1 = ".js".toList || pathSuffix f.1 = ".css".toList

/-- The last of a list of files with the given path. -/
def lastFile (l : List (Str × Str)) (p : Str) : Option Str := (l.reverse.find? (·.1 = p)).map (·.2)

/-- Everything a full build writes, in order. -/
def writes (d : Disk) (body : Str) (assets : List Str) : List (Str × Str) :=
  [("index.html".toList, page body)] ++ (defaults d).map (fun f => ("static/".toList ++ f.1, f.2)) ++
    assets.filterMap fun a => (d.cwd a).map fun c => (assetTarget a, c)

theorem lastFile_snoc (l : List (Str × Str)) (p c q : Str) :
    lastFile (l ++ [(p, c)]) q = if q = p then some c else lastFile l q := by
  unfold lastFile
  rw [List.reverse_append, List.reverse_singleton, List.singleton_append, List.find?_cons]
  by_cases h : q = p
  · subst h; simp
  · rw [if_neg h]
    have : decide ((p, c).1 = q) = false := by simpa using fun e => h e.symm
    rw [this]

theorem lastFile_single {p c q : Str} (h : q = p) : lastFile [(p, c)] q = some c := by
  rw [← List.nil_append [(p, c)], lastFile_snoc, if_pos h]

theorem copyAsset_ok {d : Disk} {a : Str} (h : Copyable d a) (s : BuildState) : ∃ c, d.cwd a = some c ∧
    copyAsset d a s = .ok () { s with web := s.web.write (assetTarget a) c } := by
  obtain ⟨c, hc⟩ := Option.isSome_iff_exists.1 h.1
  refine ⟨c, hc, ?_⟩
  unfold copyAsset
  rw [hc]
  simp only []
  rw [if_neg (by simp only [Bool.or_eq_true, decide_eq_true_eq, not_or]; exact h.2)]
  rfl

theorem copyAsset_err {d : Disk} {a : Str} (h : ¬Copyable d a) (s : BuildState) :
    copyAsset d a s = .err .otherError s := by
  unfold copyAsset
  cases hc : d.cwd a with
  | none => rfl
  | some c =>
    simp only []
    rw [if_pos]
    · rfl
    · simp only [Bool.or_eq_true, decide_eq_true_eq]
      refine Decidable.byContradiction fun hn => h ?_
      rw [not_or] at hn
      exact ⟨by rw [hc]; rfl, hn.1, hn.2⟩

/-- Writing files, on top of `base`. -/
structure Wrote (s : BuildState) (w : List (Str × Str)) : Prop where
  files : ∀ p, s.web.files p = lastFile w p

theorem Wrote.write {s : BuildState} {w} (h : Wrote s w) (p c : Str) :
    Wrote { s with web := s.web.write p c } (w ++ [(p, c)]) := by
  constructor
  intro q
  rw [lastFile_snoc, ← h.files q]
  rfl

theorem static_run (l : List (Str × Str)) (s : BuildState) (w) (h : Wrote s w) :
    ∃ s', forEach (fun f : Str × Str =>
      (modify fun s => { s with web := s.web.write ("static/".toList ++ f.1) f.2 } : PyM BuildState Unit)) l s
        = .ok () s' ∧ Wrote s' (w ++ l.map (fun f => ("static/".toList ++ f.1, f.2))) ∧ s'.assets = s.assets ∧
      s'.web.hasStatic = s.web.hasStatic ∧ s'.web.body = s.web.body ∧ s'.web.html = s.web.html := by
  induction l generalizing s w with
  | nil => exact ⟨s, rfl, by simpa using h, rfl, rfl, rfl, rfl⟩
  | cons f l ih =>
    rw [forEach_cons]
    simp only [modify_apply]
    obtain ⟨s', e, h1, h2, h3, h4, h5⟩ := ih _ _ (h.write ("static/".toList ++ f.1) f.2)
    refine ⟨s', e, ?_, h2, h3, h4, h5⟩
    simpa using h1

theorem assets_run (d : Disk) (l : List Str) (hl : ∀ a ∈ l, Copyable d a) (s : BuildState) (w) (h : Wrote s w) :
    ∃ s', forEach (copyAsset d) l s = .ok () s' ∧
      Wrote s' (w ++ l.filterMap fun a => (d.cwd a).map fun c => (assetTarget a, c)) ∧ s'.assets = s.assets ∧
      s'.web.hasStatic = s.web.hasStatic ∧ s'.web.body = s.web.body ∧ s'.web.html = s.web.html := by
  induction l generalizing s w with
  | nil => exact ⟨s, rfl, by simpa using h, rfl, rfl, rfl, rfl⟩
  | cons a l ih =>
    rw [forEach_cons]
    obtain ⟨c, hc, e⟩ := copyAsset_ok (hl a List.mem_cons_self) s
    rw [e]
    simp only []
    obtain ⟨s', e, h1, h2, h3, h4, h5⟩ := ih (fun x hx => hl x (List.mem_cons_of_mem _ hx)) _ _ (h.write (assetTarget a) c)
    refine ⟨s', e, ?_, h2, h3, h4, h5⟩
    rw [List.filterMap_cons, hc]
    simpa using h1

theorem assets_fail (d : Disk) (l : List Str) (hl : ∃ a ∈ l, ¬Copyable d a) (s : BuildState) :
    (forEach (copyAsset d) l s).raised = some .otherError := by
  induction l generalizing s with
  | nil => obtain ⟨a, ha, -⟩ := hl; cases ha
  | cons a l ih =>
    rw [forEach_cons]
    by_cases hc : Copyable d a
    · obtain ⟨c, -, e⟩ := copyAsset_ok hc s
      rw [e]
      apply ih
      obtain ⟨x, hx, hn⟩ := hl
      rcases List.mem_cons.1 hx with rfl | hx
      · exact absurd hc hn
      · exact ⟨x, hx, hn⟩
    · rw [copyAsset_err hc]; rfl

theorem prefix_run (d : Disk) (body : Str) (s : BuildState) : ∃ s1,
    (do singleFile body; mountStatic d : PyM BuildState Unit) s = .ok () s1 ∧
    Wrote s1 ([("index.html".toList, page body)] ++ (defaults d).map (fun f => ("static/".toList ++ f.1, f.2))) ∧
    s1.assets = findAssets body ∧ s1.web.body = body ∧ s1.web.html = page body ∧ s1.web.hasStatic = true := by
  obtain ⟨s', e, h1, h2, h3, h4, h5⟩ := static_run (defaults d)
    { assets := findAssets body,
      web := { (({} : Web).write "index.html" (page body)) with body := body, html := page body, hasStatic := true } }
    [("index.html".toList, page body)]
    ⟨fun p => by
      show (if p = "index.html".toList then some (page body) else none) = _
      rw [← List.nil_append [("index.html".toList, page body)], lastFile_snoc]
      rfl⟩
  exact ⟨s', e, h1, h2, h4, h5, h3⟩

/-- **C55.** A full build succeeds exactly if every required asset can be copied; then the web
manuscript has the page, the default files and the assets, each file with the contents that were
written last, and no other files. -/
theorem C55_build (d : Disk) (body : Str) (assets : List Str) (s : BuildState)
    (ha : AllBetween "src=\"".toList "\"".toList body assets) :
    (∀ a ∈ assets, Copyable d a) →
      ∃ s', fullBuild d body s = .ok () s' ∧ (∀ p, s'.web.files p = lastFile (writes d body assets) p) ∧
        s'.web.body = body ∧ s'.web.html = page body := by
  rw [← C55_assets] at ha
  subst ha
  intro hl
  obtain ⟨s1, e, h1, h2, h3, h4, -⟩ := prefix_run d body s
  obtain ⟨s', e', h1', h2', h3', h4', h5'⟩ := assets_run d (findAssets body) hl s1 _ h1
  refine ⟨s', ?_, h1'.files, h4'.trans h3, h5'.trans h4⟩
  have e0 : fullBuild d body s = (do (do singleFile body; mountStatic d : PyM BuildState Unit); mountAssets d : PyM BuildState Unit) s := by
    simp only [fullBuild, bind_apply]
    cases singleFile body s with
    | ok a s => rfl
    | err a s => rfl
  rw [e0, bind_apply, e]
  simp only [mountAssets, bind_apply, get_apply, h2, e']

/-- If an asset cannot be copied the build fails. -/
theorem C55_missing (d : Disk) (body : Str) (assets : List Str) (s : BuildState)
    (ha : AllBetween "src=\"".toList "\"".toList body assets) (a : Str) (hm : a ∈ assets) (hc : ¬Copyable d a) :
    (fullBuild d body s).raised = some .otherError := by
  rw [← C55_assets] at ha
  subst ha
  obtain ⟨s1, e, h1, h2, h3, h4, -⟩ := prefix_run d body s
  have e0 : fullBuild d body s = (do (do singleFile body; mountStatic d : PyM BuildState Unit); mountAssets d : PyM BuildState Unit) s := by
    simp only [fullBuild, bind_apply]
    cases singleFile body s with
    | ok a s => rfl
    | err a s => rfl
  rw [e0, bind_apply, e]
  simp only [mountAssets, bind_apply, get_apply, h2]
  exact assets_fail d _ ⟨a, hm, hc⟩ s1

theorem lastFile_append (l m : List (Str × Str)) (p : Str) : lastFile (l ++ m) p =
    match lastFile m p with
    | some c => some c
    | none => lastFile l p := by
  unfold lastFile
  rw [List.reverse_append, List.find?_append]
  cases List.find? (fun x => decide (x.1 = p)) m.reverse <;> rfl

theorem lastFile_none {l : List (Str × Str)} {p : Str} (h : ∀ x ∈ l, x.1 ≠ p) : lastFile l p = none := by
  unfold lastFile
  rw [Option.map_eq_none_iff, List.find?_eq_none]
  intro x hx
  simpa using h x (by simpa using hx)

/-- **C55.** Every required asset is there, with its contents, unless a later one has the same file
name. -/
theorem C55_asset_copied (d : Disk) (body : Str) (pre post : List Str) (a : Str) (s s' : BuildState)
    (ha : AllBetween "src=\"".toList "\"".toList body (pre ++ a :: post)) (h : fullBuild d body s = .ok () s')
    (hpost : ∀ b ∈ post, pathName b ≠ pathName a) :
    (d.cwd a).isSome ∧ s'.web.files ("static/".toList ++ pathName a) = d.cwd a := by
  have hall : ∀ x ∈ pre ++ a :: post, Copyable d x := by
    intro x hx
    refine Classical.byContradiction fun hn => ?_
    have := C55_missing d body _ s ha x hx hn
    rw [h] at this
    cases this
  obtain ⟨s2, e, hf, -⟩ := C55_build d body _ s ha hall
  rw [h] at e
  cases e
  have hs := (hall a (by simp)).1
  refine ⟨hs, ?_⟩
  obtain ⟨c, hc⟩ := Option.isSome_iff_exists.1 hs
  rw [hf, writes, lastFile_append, List.filterMap_append, List.filterMap_cons, hc]
  simp only [Option.map_some]
  rw [lastFile_append, ← List.singleton_append, lastFile_append]
  rw [lastFile_none (l := post.filterMap _)]
  · simp only []
    rw [lastFile_single (p := assetTarget a) (q := "static/".toList ++ pathName a) rfl]
  · intro x hx
    rw [List.mem_filterMap] at hx
    obtain ⟨b, hb, hx⟩ := hx
    cases hbc : d.cwd b with
    | none => rw [hbc] at hx; cases hx
    | some c' =>
      rw [hbc] at hx
      cases hx
      intro e
      exact hpost b hb (List.append_cancel_left e)

/-- The page itself is always there. -/
theorem C55_page (d : Disk) (body : Str) (s s' : BuildState) (h : fullBuild d body s = .ok () s') :
    s'.web.files "index.html".toList = some (page body) ∧ s'.web.html = page body := by
  have ha := (C55_assets body (findAssets body)).1 rfl
  have hall : ∀ x ∈ findAssets body, Copyable d x := by
    intro x hx
    refine Classical.byContradiction fun hn => ?_
    have := C55_missing d body _ s ha x hx hn
    rw [h] at this
    cases this
  obtain ⟨s2, e, hf, -, hh⟩ := C55_build d body _ s ha hall
  rw [h] at e
  cases e
  refine ⟨?_, hh⟩
  have hst : ∀ y : Str, "static/".toList ++ y ≠ "index.html".toList := by
    intro y e
    have := congrArg List.head? e
    revert this
    simp
  rw [hf, writes, lastFile_append, lastFile_append, lastFile_none, lastFile_none]
  · rfl
  · intro x hx
    rw [List.mem_map] at hx
    obtain ⟨f, -, rfl⟩ := hx
    exact hst _
  · intro x hx
    rw [List.mem_filterMap] at hx
    obtain ⟨b, hb, hx⟩ := hx
    cases hbc : d.cwd b with
    | none => rw [hbc] at hx; cases hx
    | some c' =>
      rw [hbc] at hx
      cases hx
      exact hst _

/-- A default file is there unless an asset has the same file name. -/
theorem C55_default_files (d : Disk) (body : Str) (assets : List Str) (s s' : BuildState) (f : Str × Str)
    (ha : AllBetween "src=\"".toList "\"".toList body assets) (h : fullBuild d body s = .ok () s')
    (hf : f ∈ d.static) (hsuf : pathSuffix f.1 = ".js".toList ∨ pathSuffix f.1 = ".css".toList)
    (hn : (d.static.map (·.1)).Nodup) (hno : ∀ a ∈ assets, pathName a ≠ f.1) :
    s'.web.files ("static/".toList ++ f.1) = some f.2 := by
  have hall : ∀ x ∈ assets, Copyable d x := by
    intro x hx
    refine Classical.byContradiction fun hn => ?_
    have := C55_missing d body _ s ha x hx hn
    rw [h] at this
    cases this
  obtain ⟨s2, e, hw, -, hh⟩ := C55_build d body _ s ha hall
  rw [h] at e
  cases e
  rw [hw, writes, lastFile_append, lastFile_none]
  · simp only []
    obtain ⟨pre, post, hpp⟩ := List.append_of_mem (show f ∈ defaults d from List.mem_filter.2 ⟨hf, by simpa using hsuf⟩)
    have hnd : ((defaults d).map (·.1)).Nodup := hn.sublist (List.filter_sublist.map _)
    rw [hpp] at hnd ⊢
    rw [List.map_append, List.map_cons, List.nodup_append] at hnd
    rw [List.map_append, List.map_cons, lastFile_append, lastFile_append, ← List.singleton_append, lastFile_append,
      lastFile_none (l := post.map _)]
    · simp only []
      rw [lastFile_single rfl]
    · intro x hx
      rw [List.mem_map] at hx
      obtain ⟨g, hg, rfl⟩ := hx
      intro e
      have := (List.nodup_cons.1 hnd.2.1).1
      exact this (List.mem_map.2 ⟨g, hg, List.append_cancel_left e⟩)
  · intro x hx
    rw [List.mem_filterMap] at hx
    obtain ⟨b, hb, hx⟩ := hx
    cases hbc : d.cwd b with
    | none => rw [hbc] at hx; cases hx
    | some c' =>
      rw [hbc] at hx
      cases hx
      exact fun e => hno b hb (List.append_cancel_left e)

/-! ## The hypotheses can be met -/

/-- A page with two images of the same file name, and a disk that has them. -/
def twoImages : Str := "<img src=\"a/x.png\"> <img src=\"b/x.png\">".toList

def someDisk : Disk where
  static := [("rsm.css".toList, "css".toList), ("icons".toList, "no".toList), ("a.js".toList, "js".toList)]
  cwd p := if p = "a/x.png".toList then some "first".toList else if p = "b/x.png".toList then some "second".toList
    else none

example : findAssets twoImages = ["a/x.png".toList, "b/x.png".toList] := by decide +kernel

/-- Two assets with the same file name overwrite each other. -/
theorem C55_collision : ((fullBuild someDisk twoImages {}).value = some ()) ∧
    (fullBuild someDisk twoImages {}).state.web.files "static/x.png".toList = some "second".toList ∧
    pathName "a/x.png".toList = pathName "b/x.png".toList ∧
    someDisk.cwd "a/x.png".toList ≠ someDisk.cwd "b/x.png".toList := by
  decide +kernel

example : (fullBuild someDisk twoImages {}).state.web.files "static/rsm.css".toList = some "css".toList ∧
    (fullBuild someDisk twoImages {}).state.web.files "static/icons".toList = none := by decide +kernel

example : (fullBuild someDisk "<img src=\"c.png\">".toList {}).raised = some .otherError := by decide +kernel

end RSM
