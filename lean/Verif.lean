import Verif.Model.Basic
import Verif.Model.Lexer
import Verif.Model.StdLexer
import Verif.Model.Eval
import Verif.Model.Bench
import Verif.Model.Bootstrap
import Verif.Model.ByteCalls
import Verif.Model.Calls
import Verif.Model.Comp
import Verif.Model.Convert
import Verif.Model.ConvertCalls
import Verif.Model.ConvertDepth
import Verif.Model.DebugText
import Verif.Model.Eq
import Verif.Model.ErrorHandler
import Verif.Model.Examples
import Verif.Model.Json
import Verif.Model.LibTests
import Verif.Model.OptCalls
import Verif.Model.Optimize
import Verif.Model.Refs
import Verif.Model.RefsCalls
import Verif.Model.Search
import Verif.Model.SelfSyntax
import Verif.Model.StackDepth
import Verif.Model.Syntax
import Verif.Model.SyntaxCalls
import Verif.Model.TypeTest
import Verif.Model.Writer
import Verif.Model.Writes
import Verif.Spec.Api
import Verif.Spec.Automaton
import Verif.Spec.Bench
import Verif.Spec.ByteCost
import Verif.Spec.Change
import Verif.Spec.Compose
import Verif.Spec.ContextFree
import Verif.Spec.Continuable
import Verif.Spec.Convert
import Verif.Spec.ConvertCost
import Verif.Spec.ConvertDepth
import Verif.Spec.ConvertTree
import Verif.Spec.Cost
import Verif.Spec.Counts
import Verif.Spec.Data
import Verif.Spec.DataNames
import Verif.Spec.DataOf
import Verif.Spec.Dead
import Verif.Spec.DebugText
import Verif.Spec.Desc
import Verif.Spec.EditRanges
import Verif.Spec.Emits
import Verif.Spec.ErrorHandler
import Verif.Spec.ExampleDocs
import Verif.Spec.Examples
import Verif.Spec.Fate
import Verif.Spec.Float
import Verif.Spec.Generates
import Verif.Spec.Ids
import Verif.Spec.Inline
import Verif.Spec.Items
import Verif.Spec.Json
import Verif.Spec.JsonLayout
import Verif.Spec.KeyValue
import Verif.Spec.LeaveOut
import Verif.Spec.Lexer
import Verif.Spec.Near
import Verif.Spec.Notation
import Verif.Spec.Occurs
import Verif.Spec.Offers
import Verif.Spec.OptCost
import Verif.Spec.Optimize
import Verif.Spec.Origin
import Verif.Spec.Peg
import Verif.Spec.PegBool
import Verif.Spec.Predictable
import Verif.Spec.Predictive
import Verif.Spec.Print
import Verif.Spec.Properties
import Verif.Spec.Questions
import Verif.Spec.ReadBack
import Verif.Spec.Recorded
import Verif.Spec.RefsCost
import Verif.Spec.Relink
import Verif.Spec.Renumber
import Verif.Spec.Rewrite
import Verif.Spec.Rewriting
import Verif.Spec.Rounding
import Verif.Spec.Run
import Verif.Spec.Safe
import Verif.Spec.Sayable
import Verif.Spec.SelfDoc
import Verif.Spec.Shape
import Verif.Spec.SlowTree
import Verif.Spec.SmallHistory
import Verif.Spec.StackDepth
import Verif.Spec.StringText
import Verif.Spec.Syntax
import Verif.Spec.SyntaxCost
import Verif.Spec.Tight
import Verif.Spec.Tower
import Verif.Spec.Tree
import Verif.Spec.TreeSize
import Verif.Spec.TreeTabs
import Verif.Spec.TypeTest
import Verif.Spec.Unclosed
import Verif.Spec.Viable
import Verif.Spec.WellFormed
import Verif.Spec.Writer
import Verif.Spec.Writes
import Verif.Spec.Written
import Verif.Proofs.Api
import Verif.Proofs.Automaton
import Verif.Proofs.Basics
import Verif.Proofs.Boot
import Verif.Proofs.BootComment
import Verif.Proofs.BootCost
import Verif.Proofs.BootDoc
import Verif.Proofs.BootEmits
import Verif.Proofs.BootLow
import Verif.Proofs.BootRule
import Verif.Proofs.ByteCost
import Verif.Proofs.CallCount
import Verif.Proofs.CallDepth
import Verif.Proofs.Calls
import Verif.Proofs.Change
import Verif.Proofs.Complete
import Verif.Proofs.Compose
import Verif.Proofs.ContextFree
import Verif.Proofs.Continuable
import Verif.Proofs.ContinuableFind
import Verif.Proofs.Convert
import Verif.Proofs.ConvertBad
import Verif.Proofs.ConvertCalls
import Verif.Proofs.ConvertCost
import Verif.Proofs.ConvertDepth
import Verif.Proofs.ConvertDepthRules
import Verif.Proofs.ConvertFuel
import Verif.Proofs.ConvertIds
import Verif.Proofs.ConvertSim
import Verif.Proofs.ConvertStep
import Verif.Proofs.ConvertTree
import Verif.Proofs.ConvertTreeDoc
import Verif.Proofs.ConvertTreeOff
import Verif.Proofs.ConvertTreeRule
import Verif.Proofs.CostLogic
import Verif.Proofs.CountedFuel
import Verif.Proofs.Counts
import Verif.Proofs.Cut
import Verif.Proofs.DataInj
import Verif.Proofs.DataNames
import Verif.Proofs.DataOf
import Verif.Proofs.DataSize
import Verif.Proofs.Dead
import Verif.Proofs.DebugText
import Verif.Proofs.Depth
import Verif.Proofs.Desc
import Verif.Proofs.DescAll
import Verif.Proofs.DescRead
import Verif.Proofs.Det
import Verif.Proofs.DocCheck
import Verif.Proofs.Doubles
import Verif.Proofs.Edit
import Verif.Proofs.EditRanges
import Verif.Proofs.Emits
import Verif.Proofs.Erase
import Verif.Proofs.ErrorHandler
import Verif.Proofs.Fate
import Verif.Proofs.FateCycle
import Verif.Proofs.FateFuel
import Verif.Proofs.FatePanic
import Verif.Proofs.FileSize
import Verif.Proofs.Flat
import Verif.Proofs.Fuel
import Verif.Proofs.FuelBound
import Verif.Proofs.Generates
import Verif.Proofs.Halting
import Verif.Proofs.Inline
import Verif.Proofs.InlineText
import Verif.Proofs.Items
import Verif.Proofs.Json
import Verif.Proofs.JsonLayout
import Verif.Proofs.LeaveOut
import Verif.Proofs.Leftover
import Verif.Proofs.LineItems
import Verif.Proofs.Names
import Verif.Proofs.Near
import Verif.Proofs.NearOpt
import Verif.Proofs.NearStd
import Verif.Proofs.Notation
import Verif.Proofs.NotationCheck
import Verif.Proofs.NotationConv
import Verif.Proofs.NotationDoc
import Verif.Proofs.NotationExact
import Verif.Proofs.NotationRule
import Verif.Proofs.NumberText
import Verif.Proofs.NumbersEnd
import Verif.Proofs.Occurs
import Verif.Proofs.Offers
import Verif.Proofs.OpenComments
import Verif.Proofs.OptCalls
import Verif.Proofs.OptCost
import Verif.Proofs.OptGuard
import Verif.Proofs.OptPanic
import Verif.Proofs.OptRun
import Verif.Proofs.OptSim
import Verif.Proofs.OptTotal
import Verif.Proofs.OptTwice
import Verif.Proofs.Origin
import Verif.Proofs.Peak
import Verif.Proofs.Peg
import Verif.Proofs.PegAbc
import Verif.Proofs.PegBool
import Verif.Proofs.PegOpt
import Verif.Proofs.PegRule
import Verif.Proofs.Predictable
import Verif.Proofs.PredictableCheck
import Verif.Proofs.PredictableFind
import Verif.Proofs.PredictableSteps
import Verif.Proofs.Predictive
import Verif.Proofs.PredictiveRun
import Verif.Proofs.Prepend
import Verif.Proofs.Print
import Verif.Proofs.Properties
import Verif.Proofs.PropertiesOpt
import Verif.Proofs.Pumping
import Verif.Proofs.Questions
import Verif.Proofs.RawConvert
import Verif.Proofs.ReadBack
import Verif.Proofs.Reads
import Verif.Proofs.Recorded
import Verif.Proofs.RefsCost
import Verif.Proofs.RefsSize
import Verif.Proofs.Relink
import Verif.Proofs.Renumber
import Verif.Proofs.RenumberOpt
import Verif.Proofs.Rewrite
import Verif.Proofs.Rewriting
import Verif.Proofs.RewritingTotal
import Verif.Proofs.Rounding
import Verif.Proofs.RunProps
import Verif.Proofs.Safe
import Verif.Proofs.SayAny
import Verif.Proofs.Sayable
import Verif.Proofs.Shape
import Verif.Proofs.SmallFile
import Verif.Proofs.SmallHistory
import Verif.Proofs.SmallRules
import Verif.Proofs.Sound
import Verif.Proofs.Spans
import Verif.Proofs.StackDepth
import Verif.Proofs.StdLexer
import Verif.Proofs.SyntaxFuel
import Verif.Proofs.Tight
import Verif.Proofs.Took
import Verif.Proofs.Total
import Verif.Proofs.Trace
import Verif.Proofs.TuringWord
import Verif.Proofs.Unique
import Verif.Proofs.Viable
import Verif.Proofs.WfCheck
import Verif.Proofs.Writer
import Verif.Proofs.Writes
import Verif.Props.Bench
import Verif.Props.BenchErrors
import Verif.Props.Boundary
import Verif.Props.ByteCost
import Verif.Props.Change
import Verif.Props.ContextFree
import Verif.Props.Continuable
import Verif.Props.Convert
import Verif.Props.ConvertCost
import Verif.Props.ConvertDepth
import Verif.Props.ConvertHelpers
import Verif.Props.ConvertRead
import Verif.Props.ConvertTree
import Verif.Props.Cost
import Verif.Props.Counts
import Verif.Props.DataNames
import Verif.Props.DataOf
import Verif.Props.DataSize
import Verif.Props.Dead
import Verif.Props.DebugText
import Verif.Props.Edit
import Verif.Props.EditRanges
import Verif.Props.Eq
import Verif.Props.ErrorHandler
import Verif.Props.Errstr
import Verif.Props.Examples
import Verif.Props.Fate
import Verif.Props.FileSize
import Verif.Props.Generates
import Verif.Props.Hello
import Verif.Props.IndentExact
import Verif.Props.IndentTree
import Verif.Props.Inline
import Verif.Props.Json
import Verif.Props.JsonLayout
import Verif.Props.KeyValue
import Verif.Props.Leak
import Verif.Props.LeaveOut
import Verif.Props.Leftover
import Verif.Props.Linear
import Verif.Props.Lines
import Verif.Props.Near
import Verif.Props.Notation
import Verif.Props.NumberRule
import Verif.Props.NumberText
import Verif.Props.Numbers
import Verif.Props.Offers
import Verif.Props.OptCost
import Verif.Props.OptExact
import Verif.Props.OptFewer
import Verif.Props.OptTwice
import Verif.Props.Optimize
import Verif.Props.Origin
import Verif.Props.Outcome
import Verif.Props.Parse
import Verif.Props.ParsedNumbers
import Verif.Props.ParsedStrings
import Verif.Props.Peg
import Verif.Props.PegBool
import Verif.Props.Predictable
import Verif.Props.Predictive
import Verif.Props.Properties
import Verif.Props.Questions
import Verif.Props.ReadBack
import Verif.Props.ReadNumbers
import Verif.Props.Refs
import Verif.Props.RefsCost
import Verif.Props.Regular
import Verif.Props.Relink
import Verif.Props.Renumber
import Verif.Props.Rewrite
import Verif.Props.Rounding
import Verif.Props.Rules
import Verif.Props.Safe
import Verif.Props.Sayable
import Verif.Props.Search
import Verif.Props.SelfSyntax
import Verif.Props.Shape
import Verif.Props.StackDepth
import Verif.Props.StringRule
import Verif.Props.Syntax
import Verif.Props.SyntaxCost
import Verif.Props.TabCost
import Verif.Props.TabExact
import Verif.Props.TabLinear
import Verif.Props.TabTree
import Verif.Props.Tabs
import Verif.Props.Termination
import Verif.Props.Tight
import Verif.Props.Time
import Verif.Props.Tower
import Verif.Props.TypeErrors
import Verif.Props.TypeTest
import Verif.Props.Undecidable
import Verif.Props.UndecidableFiles
import Verif.Props.Version10
import Verif.Props.Viable
import Verif.Props.ViableCalc
import Verif.Props.WorkUnique
import Verif.Props.Writer
import Verif.Props.Writes
import Verif.Props.WrittenNumbers
import Verif.Tests.ErrorHandler
import Verif.Tests.Json
import Verif.Tests.Rules
import Verif.Tests.Search
