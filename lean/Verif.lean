import Verif.Model.Render
import Verif.Spec.Text
import Verif.Spec.Tree
import Verif.Spec.Samples
import Verif.Proofs.Chars
import Verif.Proofs.TextLemmas
import Verif.Proofs.Ctx
import Verif.Proofs.ErrIndex
import Verif.Proofs.TagMachine
import Verif.Proofs.Step
import Verif.Proofs.StepSound
import Verif.Proofs.CtlStep
import Verif.Proofs.Reach
import Verif.Proofs.Source
import Verif.Proofs.Effect
import Verif.Proofs.Graph
import Verif.Proofs.Final
import Verif.Proofs.Order
import Verif.Proofs.Position
import Verif.Proofs.TextInv
import Verif.Proofs.TagWf
import Verif.Proofs.MetaInv
import Verif.Spec.Input
import Verif.Spec.Graph
import Verif.Spec.Doc
import Verif.Spec.Wf
import Verif.Spec.DocOf
import Verif.Spec.Level
import Verif.Spec.Scan
import Verif.Proofs.Abs
import Verif.Proofs.Rep
import Verif.Proofs.Simulate
import Verif.Proofs.FinalDoc
import Verif.Proofs.AStep
import Verif.Proofs.TagRead
import Verif.Proofs.RawEnd
import Verif.Proofs.RoundTrip
import Verif.Proofs.DocOf
import Verif.Proofs.WfDec
import Verif.Proofs.ModeOk
import Verif.Proofs.WfInv
import Verif.Spec.Place
import Verif.Props.Region
import Verif.Props.Errors
import Verif.Props.Minify
import Verif.Props.Names
import Verif.Props.RenderOpts
import Verif.Props.RenderComment
import Verif.Props.RenderInner
import Verif.Props.RenderText
import Verif.Props.Panics
import Verif.Props.Graph
import Verif.Props.Position
import Verif.Props.Text
import Verif.Props.Tags
import Verif.Props.RoundTrip
import Verif.Props.Accepted
import Verif.Props.Stable
import Verif.Props.Append
import Verif.Props.Blocks
import Verif.Findings
import Verif.Proofs.OptMono
import Verif.Props.Options
import Verif.Spec.Open
import Verif.Spec.Join
import Verif.Proofs.Open
import Verif.Proofs.Join
import Verif.Props.Fixes
import Verif.Spec.Quote
import Verif.Spec.Pre
import Verif.Spec.Entity
import Verif.Props.Unquote
import Verif.Props.Pre
import Verif.Props.DecodeMin
import Verif.Props.ErrorPos
import Verif.Spec.File
import Verif.Props.File
import Verif.Spec.Clone
import Verif.Proofs.Clone
import Verif.Props.Clone
import Verif.Spec.Span
import Verif.Proofs.Span
import Verif.Props.Span
import Verif.Spec.Memory
import Verif.Proofs.Memory
import Verif.Props.Memory
import Verif.Spec.Written
import Verif.Proofs.Written
import Verif.Props.Written
import Verif.Spec.Spaces
import Verif.Proofs.Spaces
import Verif.Props.Spaces
import Verif.Proofs.Alive
import Verif.Props.Alive
import Verif.Spec.Linear
import Verif.Props.PreExact
import Verif.Spec.TagSeq
import Verif.Props.Foreign
import Verif.Spec.Reread
import Verif.Proofs.Loose
import Verif.Props.Reread
import Verif.Spec.Stops
import Verif.Props.Stops
import Verif.Spec.Grammar
import Verif.Props.Grammar
import Verif.Proofs.CloneValue
import Verif.Props.CloneValue
import Verif.Spec.Viable
import Verif.Proofs.Viable
import Verif.Props.Viable
import Verif.Spec.Errors
import Verif.Proofs.ErrExact
import Verif.Props.ErrorsExact
import Verif.Proofs.Scan
import Verif.Proofs.ScanRun
import Verif.Proofs.ScanInside
import Verif.Proofs.TagHalf
import Verif.Proofs.Half
import Verif.Props.Scan
import Verif.Spec.Outcome
import Verif.Proofs.Begin
import Verif.Proofs.LastAt
import Verif.Proofs.Rejects
import Verif.Proofs.Ends
import Verif.Props.Outcome
import Verif.Spec.Borrow
import Verif.Model.Borrow
import Verif.Props.Borrow
import Verif.Spec.Minified
import Verif.Proofs.Minified
import Verif.Proofs.MinIdem
import Verif.Props.Idem
import Verif.Conformance
import Verif.Model.Display
import Verif.Spec.Message
import Verif.Props.Message
import Verif.Props.UnquoteExact
import Verif.Props.OptionsJoin
import Verif.Props.Childless
import Verif.Spec.Hoist
import Verif.Proofs.Hoist
import Verif.Props.EscapeVoid
import Verif.Proofs.LoosePlace
import Verif.Props.LoosePlace
import Verif.Props.Links
import Verif.Spec.Size
import Verif.Proofs.Size
import Verif.Props.Size
import Verif.Proofs.NoFix
import Verif.Spec.Blank
import Verif.Proofs.Blank
import Verif.Proofs.BlankInv
import Verif.Proofs.BlankStep
import Verif.Proofs.BlankFinal
import Verif.Props.Blank
import Verif.Spec.Recode
import Verif.Proofs.Recode
import Verif.Props.Recode
import Verif.Proofs.RecodeTree
import Verif.Spec.Inner
import Verif.Proofs.Inner
import Verif.Props.Inner
import Verif.Props.SizeOpts
import Verif.Spec.Mend
import Verif.Props.Mend
import Verif.Proofs.Finish
import Verif.Props.MendHalf
import Verif.Model.Cost
import Verif.Proofs.Cost
import Verif.Proofs.CostStep
import Verif.Props.Work
import Verif.Props.FileRegion
import Verif.Model.RenderCost
import Verif.Proofs.RenderCost
import Verif.Proofs.Bare
import Verif.Props.RenderWork
import Verif.Spec.Fresh
import Verif.Proofs.Fresh
import Verif.Props.WorkPaid
import Verif.Model.File
import Verif.Spec.Bytes
import Verif.Props.FileBytes
import Verif.Proofs.PrevLink
import Verif.Props.PrevLink
import Verif.Model.Stack
import Verif.Spec.Stack
import Verif.Props.Stack
import Verif.Proofs.Flags
import Verif.Props.Flags
import Verif.Model.Index
import Verif.Props.Index
import Verif.Model.RenderHeap
import Verif.Props.RenderHeap
import Verif.Spec.Insert
import Verif.Props.Insert
import Verif.Spec.Replace
import Verif.Props.Replace
import Verif.Spec.Splice
import Verif.Props.Splice
import Verif.Model.CostFile
import Verif.Props.FileWork
import Verif.Spec.Edits
import Verif.Props.Edits
