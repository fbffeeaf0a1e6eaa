import Verif.Spec.Transform
import Verif.Model.Translator

/-!
# What the transformer and the translators warn of

For C86.  Each warning has a reason in the document; the order is fixed.
-/

namespace RSM

instance (h : Heap) (t : Tree) (l : Str) : Decidable (Carried h t l) := by unfold Carried; infer_instance

/-- After the labels are collected, the node has a label that is not blank: it has one, and is the first to
carry it. -/
def StaysLabelled (h : Heap) (t : Tree) (q : Ref) : Prop :=
  strip (h.get q).label ≠ [] ∧ FirstCarrier h t q

/-- The label that a pending reference asks for; it is the text `None` if it has no target. -/
inductive AsksFor (h : Heap) (x : Ref) : Str → Prop
  | target {l} : (h.get x).target = .str l → AsksFor h x l
  | none : (h.get x).target = .none → AsksFor h x "None".toList

/-- What is said of the pending reference `x`: which labels no node has; and, of a `:prev:`, that the step it
leads to has no label. -/
inductive Remarks (h : Heap) (t : Tree) (x : Ref) : List TWarning → Prop
  | known {l} : (h.get x).cls = .PendingReference → AsksFor h x l → Carried h t l → Remarks h t x []
  | unknown {l} : (h.get x).cls = .PendingReference → AsksFor h x l → ¬ Carried h t l →
      Remarks h t x [.unknownLabel l]
  | cite : (h.get x).cls = .PendingCite →
      Remarks h t x (((h.get x).targetlabels.filter fun l => ¬ Carried h t l).map .unknownLabel)
  | prev {a n l q} : (h.get x).cls = .PendingPrev → InnermostStep h x a → Transformer.prevCount (h.get x) = some n →
      StepsBefore h a l → (a :: l.reverse)[n.toNat]? = some q → StaysLabelled h t q → Remarks h t x []
  | unlabelled {a n l q} : (h.get x).cls = .PendingPrev → InnermostStep h x a →
      Transformer.prevCount (h.get x) = some n → StepsBefore h a l → (a :: l.reverse)[n.toNat]? = some q →
      ¬ StaysLabelled h t q → Remarks h t x [.unlabeledPrev]

/-- All the transformer says of a document: of each node whose label an earlier node has too; of each
pending reference, as given; and of each table of contents but the first. -/
def transformWarnings (h : Heap) (t : Tree) (remarks : Ref → List TWarning) : List TWarning :=
  ((laterCarriers h [] t.pre).map fun x => .duplicateLabel (h.get x).label) ++
  ((t.pre.filter fun x => Pending h x).flatMap remarks) ++
  ((t.pre.filter fun x => (h.get x).cls = .Contents).drop 1).map fun _ => .multipleToc

end RSM

namespace RSM

/-- What an entry of the bibliography lacks. -/
def entryLacks (nd : NodeRec) : List Tr.Warning :=
  (if nd.kind = "article".toList ∧ nd.journal = [] then [.noJournal nd.label] else []) ++
  (if nd.kind = "book".toList ∧ nd.publisher = [] then [.noPublisher nd.label] else []) ++
  (match nd.year with
    | .str (_ :: _) => []
    | _ => [.noYear nd.label]) ++
  (if nd.doi = [] then [.noDoi nd.label] else [])

/-- All the translators say of a document: what each entry of the bibliography lacks; with handrails, also that
the entry has no link. -/
def translateWarnings (handrails : Bool) (h : Heap) (t : Tree) : List Tr.Warning :=
  (t.pre.filter fun x => (h.get x).cls.isSub .Bibitem).flatMap fun x =>
    entryLacks (h.get x) ++ if handrails ∧ (h.get x).doi = [] then [.noLink] else []

end RSM
