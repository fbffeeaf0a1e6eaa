import Verif.Model.Py
import Verif.Model.Classes
import Verif.Model.Nodes
import Verif.Model.Histories
import Verif.Spec.Tree
import Verif.Spec.Forest
import Verif.Spec.Reading
import Verif.Props.NodeApi
import Verif.Props.Reading
import Verif.Model.Str
import Verif.Model.Util
import Verif.Spec.Escape
import Verif.Props.Escape
import Verif.Model.Transformer
import Verif.Model.Translator
import Verif.Spec.Transform
import Verif.Spec.Html
import Verif.Props.Labels
import Verif.Props.AttrPasses
import Verif.Props.Numbering
import Verif.Props.Resolve
import Verif.Props.Subproofs
import Verif.Props.Toc
import Verif.Props.Transform
import Verif.Props.Translator
import Verif.Props.TrText
import Verif.Props.TrTwice
import Verif.Model.Logger
import Verif.Model.Linter
import Verif.Model.App
import Verif.Props.Logger
import Verif.Props.Linter
import Verif.Props.App
import Verif.Model.Builder
import Verif.Props.Builder
import Verif.Props.Assets
import Verif.Model.Normalize
import Verif.Spec.Normalize
import Verif.Props.Normalize
import Verif.Spec.Balance
import Verif.Props.Balance
import Verif.Lemmas.ParserWhole
import Verif.Lemmas.ParserNone
import Verif.Lemmas.ParserLegal
import Verif.Spec.Source
import Verif.Props.Parser
import Verif.Spec.Words
import Verif.Spec.Prose
import Verif.Spec.Verbatim
import Verif.Props.Words
import Verif.Props.Links
import Verif.Props.Outcome
import Verif.Props.Pipeline
import Verif.Spec.Obstacle
import Verif.Props.TrOutcome
import Verif.Spec.Presentable
import Verif.Spec.Structure
import Verif.Lemmas.ReadyRun
import Verif.Lemmas.Presentable
import Verif.Lemmas.ParserPage
import Verif.Props.Page
import Verif.Spec.Render
import Verif.Lemmas.RenderBase
import Verif.Lemmas.RenderVisit
import Verif.Lemmas.RenderVisit2
import Verif.Lemmas.RenderVisit3
import Verif.Lemmas.RenderLeave
import Verif.Lemmas.RenderTree
import Verif.Props.Render
import Verif.Spec.Rails
import Verif.Lemmas.RailsBase
import Verif.Lemmas.RailsVisit
import Verif.Lemmas.RailsVisit2
import Verif.Lemmas.RailsVisit3
import Verif.Lemmas.RailsLeave
import Verif.Lemmas.RailsTree
import Verif.Lemmas.Steady
import Verif.Props.Rails
import Verif.Spec.CleanSource
import Verif.Lemmas.CleanRun
import Verif.Lemmas.CleanParse
import Verif.Lemmas.CleanFit
import Verif.Props.CleanSource
import Verif.Model.Program
import Verif.Spec.Program
import Verif.Lemmas.Program
import Verif.Props.Program
import Verif.Props.ProgramPage
import Verif.Spec.Warnings
import Verif.Lemmas.Warnings
import Verif.Lemmas.TrWarnings
import Verif.Props.Warnings
import Verif.Spec.History
import Verif.Lemmas.Sim
import Verif.Lemmas.SimNodes
import Verif.Lemmas.SimTrans
import Verif.Lemmas.SimToc
import Verif.Lemmas.SimParser
import Verif.Lemmas.SimTr
import Verif.Model.Repr
import Verif.Spec.Targets
import Verif.Lemmas.ReprBase
import Verif.Lemmas.Repr
import Verif.Lemmas.SimRepr
import Verif.Lemmas.SimProgram
import Verif.Props.History
import Verif.Spec.SourceLinks
import Verif.Spec.SourceCitations
import Verif.Lemmas.SourceLinks
import Verif.Lemmas.Structure
import Verif.Lemmas.StructureRun
import Verif.Lemmas.TrTexts
import Verif.Props.SourceLinks
import Verif.Model.Cli
import Verif.Spec.Cli
import Verif.Props.Cli
import Verif.Lemmas.Refused
import Verif.Props.Refused
import Verif.Spec.SourceNumbers
import Verif.Spec.SourceSteps
import Verif.Lemmas.NumberRun
import Verif.Lemmas.SourceNumbers
import Verif.Lemmas.SourceSteps
import Verif.Lemmas.StepPage
import Verif.Lemmas.SourcePrevs
import Verif.Lemmas.NumberPage
import Verif.Lemmas.OrderPage
import Verif.Lemmas.UnknownCite
import Verif.Lemmas.EntryNumbers
import Verif.Props.SourceCitations
import Verif.Props.SourceNumbers
import Verif.Props.SourceSteps
import Verif.Spec.SourceContents
import Verif.Lemmas.ContentsRun
import Verif.Lemmas.ContentsPage
import Verif.Props.SourceContents
import Verif.Spec.SourceOrder
import Verif.Props.SourceOrder
import Verif.Props.SourceEntries
