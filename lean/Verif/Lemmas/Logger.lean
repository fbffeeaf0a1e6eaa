import Verif.Model.Logger

/-! # Lemmas: the logger -/

namespace RSM
open PyM LogState

/-- `omega`, knowing the levels. -/
macro "levels" : tactic => `(tactic| ((try simp only [DEBUG, WARNING, LINT_LVL, ERROR] at *); omega))

/-- The level of the handler after a configuration. -/
def handlerLevel (L : Int) : Int := min WARNING (max L DEBUG)

/-- What is known after a configuration with level `L`: the handler is the only one, and the level
of the logger is that of the configuration. -/
structure Configured (L : Int) (f : LogFormatter) (s : LogState) : Prop where
  handlers : s.handlers = [⟨handlerLevel L, some f⟩]
  level : s.level = max L DEBUG
  cache : ∀ n l b, s.cache n l = some b → b = decide (max L DEBUG ≤ l)

/-- What is still known if linters have been made since. -/
structure ConfiguredLow (L : Int) (f : LogFormatter) (s : LogState) : Prop where
  handlers : s.handlers = [⟨handlerLevel L, some f⟩]
  level : s.level ≤ max L DEBUG
  pos : 0 < s.level
  cache : ∀ n l, s.cache n l = some false → l < max L DEBUG

theorem handlerLevel_pos (L : Int) : 0 < handlerLevel L := by
  unfold handlerLevel; levels

theorem Configured.low {L f s} (h : Configured L f s) : ConfiguredLow L f s where
  handlers := h.handlers
  level := by rw [h.level]; omega
  pos := by rw [h.level]; levels
  cache := fun n l e => by
    have := h.cache n l false e
    simpa using this

theorem config_ok {L : Int} {fmt : Str} {t l : Bool} {s : LogState} {f : LogFormat}
    (hf : LogFormat.ofName fmt = some f) : ∃ s1, configLogger L fmt t l s = .ok () s1 ∧
      Configured L ⟨f, t, l⟩ s1 ∧ s1.written = s.written ∧ s1.lintNamed = s.lintNamed := by
  simp only [configLogger, bind_apply, modify_apply, addHandler, hf]
  refine ⟨_, rfl, ⟨?_, rfl, fun n l b h => by cases h⟩, rfl, rfl⟩
  simp only [setLevel, setLoggerLevel, List.nil_append, List.map_cons, List.map_nil, handlerLevel]
  split
  · rename_i h
    have e : min WARNING (max L DEBUG) = max L DEBUG := by omega
    rw [e]
  · rename_i h
    have e : min WARNING (max L DEBUG) = WARNING := by omega
    rw [e]

theorem emit_single {env r s lv f} (h : s.handlers = [⟨lv, some f⟩]) : callHandlers env r s =
    if lv ≤ r.levelno then { s with written := s.written ++ [(r, f.format env s.lintNamed r)] }
    else s := by
  simp only [callHandlers, h, List.foldl_cons, List.foldl_nil, emitTo]
  rfl

theorem log_handlers (env r s) : (log env r s).handlers = s.handlers := by
  have key : ∀ (l : List LogHandler) (s : LogState), (l.foldl (emitTo env r) s).handlers = s.handlers := by
    intro l
    induction l with
    | nil => intro s; rfl
    | cons h l ih =>
      intro s
      rw [List.foldl_cons, ih]
      unfold emitTo; split
      · split <;> rfl
      · rfl
  unfold log
  split
  · unfold callHandlers
    split
    · split <;> rfl
    · rw [key]; rfl
  · rfl

/-- The other fields after a log call. -/
theorem log_fields (env r s) : (log env r s).level = s.level ∧
    (log env r s).lintNamed = s.lintNamed ∧ (log env r s).cache = (s.remember r.name r.levelno).cache := by
  have key : ∀ (l : List LogHandler) (s : LogState), (l.foldl (emitTo env r) s).level = s.level ∧
      (l.foldl (emitTo env r) s).lintNamed = s.lintNamed ∧
      (l.foldl (emitTo env r) s).cache = s.cache := by
    intro l
    induction l with
    | nil => intro s; exact ⟨rfl, rfl, rfl⟩
    | cons h l ih =>
      intro s
      rw [List.foldl_cons]
      have := ih (emitTo env r s h)
      rw [this.1, this.2.1, this.2.2]
      unfold emitTo; split
      · split <;> exact ⟨rfl, rfl, rfl⟩
      · exact ⟨rfl, rfl, rfl⟩
  unfold log
  split
  · unfold callHandlers
    split
    · split <;> exact ⟨rfl, rfl, rfl⟩
    · have := key (s.remember r.name r.levelno).handlers (s.remember r.name r.levelno)
      exact ⟨this.1, this.2.1, this.2.2⟩
  · exact ⟨rfl, rfl, rfl⟩

theorem Configured.enabled {L f s} (h : Configured L f s) (n l) :
    s.enabled n l = decide (max L DEBUG ≤ l) := by
  unfold LogState.enabled effectiveLevel
  split
  · rename_i b e; exact h.cache n l b e
  · rw [h.level, if_pos (by levels)]

theorem Configured.log {L f s} (h : Configured L f s) (env r) : Configured L f (log env r s) where
  handlers := by rw [log_handlers]; exact h.handlers
  level := by rw [(log_fields env r s).1]; exact h.level
  cache := fun n l b e => by
    rw [(log_fields env r s).2.2] at e
    simp only [remember] at e
    split at e
    · rename_i hn
      cases e
      rw [h.enabled, hn.2]
    · exact h.cache n l b e

theorem ConfiguredLow.enabled {L f s} (h : ConfiguredLow L f s) {n l} (hl : max L DEBUG ≤ l) :
    s.enabled n l = true := by
  unfold LogState.enabled effectiveLevel
  split
  · rename_i b e
    cases b
    · have := h.cache n l e; omega
    · rfl
  · have h1 := h.pos
    have h2 := h.level
    rw [if_pos (by omega)]
    exact decide_eq_true (by omega)

theorem ConfiguredLow.log {L f s} (h : ConfiguredLow L f s) (env r) : ConfiguredLow L f (log env r s) where
  handlers := by rw [log_handlers]; exact h.handlers
  level := by rw [(log_fields env r s).1]; exact h.level
  pos := by rw [(log_fields env r s).1]; exact h.pos
  cache := fun n l e => by
    rw [(log_fields env r s).2.2] at e
    simp only [remember] at e
    split at e
    · rename_i hn
      refine Decidable.byContradiction fun hc => ?_
      rw [hn.1, hn.2] at *
      rw [h.enabled (by omega)] at e
      cases e
    · exact h.cache n l e

theorem ConfiguredLow.newLinter {L f s} (h : ConfiguredLow L f s) : ConfiguredLow L f s.newLinter where
  handlers := h.handlers
  level := by
    have := h.level
    show (if LINT_LVL < s.level then LINT_LVL else s.level) ≤ _
    split <;> levels
  pos := by
    have := h.pos
    show 0 < (if LINT_LVL < s.level then LINT_LVL else s.level)
    split <;> levels
  cache := h.cache

theorem log_written_of_enabled {env r s lv f} (h : s.handlers = [⟨lv, some f⟩])
    (he : s.enabled r.name r.levelno = true) (hl : lv ≤ r.levelno) :
    (log env r s).written = s.written ++ [(r, f.format env s.lintNamed r)] := by
  unfold LogState.log
  rw [if_pos he, emit_single (lv := lv) (f := f) (by exact h), if_pos hl]
  rfl

theorem log_written_of_disabled {env r s} (he : s.enabled r.name r.levelno = false) :
    (log env r s).written = s.written := by
  unfold LogState.log
  rw [if_neg (by rw [he]; decide)]
  rfl

theorem log_written_of_low {env r s lv f} (h : s.handlers = [⟨lv, some f⟩]) (hl : r.levelno < lv) :
    (log env r s).written = s.written := by
  unfold LogState.log
  split
  · rw [emit_single (lv := lv) (f := f) (by exact h), if_neg (by omega)]; rfl
  · rfl

end RSM
