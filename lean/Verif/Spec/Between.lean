import Verif.Model.Str

/-!
# Marked places in a text

An independent description of what the builder looks for: a place in the text that begins with one
mark, ends with another one, and has no line break between them.
-/

namespace RSM

/-- `text` is `before`, `opening`, `inside`, `closing`, `after`, and `inside` is on one line. -/
structure Between (opening closing text before inside after : Str) : Prop where
  split : text = before ++ opening ++ inside ++ closing ++ after
  oneLine : '\n' ∉ inside

/-- The first such place: it begins first, and among those that begin there it is the shortest. -/
structure FirstBetween (opening closing text before inside after : Str) : Prop extends
    Between opening closing text before inside after where
  first : ∀ b i a, Between opening closing text b i a →
    before.length < b.length ∨ before.length = b.length ∧ inside.length ≤ i.length

/-- The insides of the first such place, of the first one after it, and so on. -/
inductive AllBetween (opening closing : Str) : Str → List Str → Prop
  | none {text} : (∀ b i a, ¬Between opening closing text b i a) → AllBetween opening closing text []
  | next {text b i a l} : FirstBetween opening closing text b i a → AllBetween opening closing a l →
      AllBetween opening closing text (i :: l)

end RSM
