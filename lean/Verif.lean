import Verif.Model.Basic
import Verif.Model.Ast
import Verif.Model.Flat
import Verif.Model.Parser
import Verif.Model.PegRules
import Verif.Model.PegText
import Verif.Model.Peg
import Verif.Model.Gcode
import Verif.Spec.Peg
import Verif.Spec.Text
import Verif.Proofs.Fuel
import Verif.Spec.Refs
import Verif.Proofs.Preserve
import Verif.Proofs.Position
import Verif.Proofs.Sound
import Verif.Proofs.Complete
import Verif.Proofs.Run
import Verif.Spec.Bounds
import Verif.Proofs.Bounds
import Verif.Spec.Tree
import Verif.Spec.Critical
import Verif.Proofs.Api
import Verif.Props.Core
import Verif.Props.Errors
import Verif.Spec.Report
import Verif.Proofs.Report
import Verif.Props.Report
import Verif.Props.Combinators
import Verif.Props.Rules
import Verif.Props.Termination
import Verif.Props.Ast
import Verif.Proofs.PegFuel
import Verif.Proofs.PegInv
import Verif.Spec.PegNotation
import Verif.Proofs.PegTree
import Verif.Proofs.PegShape
import Verif.Proofs.PegFlatOK
import Verif.Proofs.PegConsume
import Verif.Props.PegFront
import Verif.Props.Atoms
import Verif.Proofs.RustCode
import Verif.Props.Gcode
import Verif.Spec.PegSyntax
import Verif.Proofs.SynLayout
import Verif.Proofs.SynLeaf
import Verif.Proofs.SynStart
import Verif.Proofs.SynRun
import Verif.Proofs.SynExpr
import Verif.Proofs.SynDoc
import Verif.Proofs.SynInv
import Verif.Spec.PegPrint
import Verif.Spec.PegDefs
import Verif.Proofs.SynPrint
import Verif.Proofs.SynEol
import Verif.Props.Syntax
import Verif.Spec.SelfDoc
import Verif.Proofs.SynCheck
import Verif.Props.SelfHost
import Verif.Spec.Complaint
import Verif.Props.Complaint
import Verif.Spec.Regroup
import Verif.Proofs.Forget
import Verif.Proofs.Regroup
import Verif.Props.Regroup
import Verif.Proofs.Alike
import Verif.Props.Alike
import Verif.Model.Debug
import Verif.Proofs.Debug
import Verif.Proofs.DebugValues
import Verif.Spec.Lines
import Verif.Proofs.Lines
import Verif.Props.Debug
import Verif.Model.Meter
import Verif.Spec.Effort
import Verif.Proofs.Meter
import Verif.Props.Effort
import Verif.Spec.Rename
import Verif.Proofs.Rename
import Verif.Props.Rename
import Verif.Spec.Inline
import Verif.Proofs.Inline
import Verif.Props.Inline
import Verif.Props.AstLaws
import Verif.Spec.Tokens
import Verif.Proofs.Tokens
import Verif.Proofs.Join
import Verif.Props.Layout
import Verif.Model.Machine
import Verif.Spec.Machine
import Verif.Proofs.Machine
import Verif.Props.Machine
import Verif.Spec.Readme
import Verif.Spec.ReadmeLang
import Verif.Proofs.ReadmeRun
import Verif.Proofs.ReadmeCalc
import Verif.Props.Readme
import Verif.Props.ReadmeTree
import Verif.Spec.Extend
import Verif.Proofs.Extend
import Verif.Props.Extend
import Verif.Spec.ContextFree
import Verif.Proofs.ContextFree
import Verif.Proofs.Ll1Check
import Verif.Props.ContextFree
import Verif.Spec.ReadmeRules
import Verif.Proofs.Example
import Verif.Props.Example
import Verif.Spec.CodeText
import Verif.Props.CodeText
import Verif.Model.Program
import Verif.Props.Program
import Verif.Model.Equal
import Verif.Props.Equal
import Verif.Spec.Linear
import Verif.Proofs.Linear
import Verif.Props.Linear
import Verif.Spec.Viable
import Verif.Proofs.Viable
import Verif.Props.Viable
import Verif.Spec.Nesting
import Verif.Proofs.Nesting
import Verif.Props.Nesting
import Verif.Tests
import Verif.Spec.Glue
import Verif.Proofs.Glue
import Verif.Props.Glue
import Verif.Proofs.Bill
import Verif.Proofs.PegCost
import Verif.Proofs.PegSlow
import Verif.Proofs.PegDeep
import Verif.Props.PegCost
import Verif.Proofs.Combine
import Verif.Props.Combine
import Verif.Props.Regular
import Verif.Spec.Swap
import Verif.Proofs.Swap
import Verif.Props.Swap
import Verif.Spec.Counter
import Verif.Proofs.Does
import Verif.Props.Counter
import Verif.Spec.TreeSize
import Verif.Proofs.TreeSize
import Verif.Props.TreeSize
import Verif.Spec.TailCalls
import Verif.Proofs.Foresee
import Verif.Props.Automata
import Verif.Proofs.Loops
import Verif.Proofs.Minsky
import Verif.Props.Undecidable
import Verif.Spec.Trace
import Verif.Proofs.Trace
import Verif.Props.Trace
import Verif.Proofs.Returns
import Verif.Props.Returns
import Verif.Proofs.CalcCost
import Verif.Proofs.CalcShort
import Verif.Props.CalcCost
import Verif.Model.Copies
import Verif.Proofs.Copies
import Verif.Proofs.CopiesLow
import Verif.Props.Copies
import Verif.Proofs.NonAscii
import Verif.Props.NonAscii
import Verif.Model.Stack
import Verif.Proofs.Stack
import Verif.Props.Stack
import Verif.Model.PegStack
import Verif.Spec.Spread
import Verif.Proofs.PegStack
import Verif.Props.PegStack
import Verif.Model.TreeCopies
import Verif.Spec.TreeCopies
import Verif.Proofs.TreeCopies
import Verif.Props.TreeCopies
import Verif.Model.TreeStack
import Verif.Spec.TreeStack
import Verif.Proofs.TreeStack
import Verif.Props.TreeStack
import Verif.Model.Names
import Verif.Proofs.Names
import Verif.Props.Names
import Verif.Proofs.Search
import Verif.Props.Search
import Verif.Props.Split
import Verif.Spec.Requote
import Verif.Proofs.Requote
import Verif.Props.Requote
import Verif.Spec.CodeOf
import Verif.Props.CodeMeaning
import Verif.Spec.RuleSize
import Verif.Props.RuleSize
import Verif.Props.Quote
import Verif.Props.Sexp
import Verif.Props.Words
import Verif.Model.GcodeCost
import Verif.Spec.CodeDepth
import Verif.Props.GcodeCost
import Verif.Spec.Levels
import Verif.Props.Levels
import Verif.Props.LevelsLinear
import Verif.Model.Derived
import Verif.Spec.Derived
import Verif.Props.Derived
import Verif.Spec.IfElse
import Verif.Props.IfElse
import Verif.Spec.Nested
import Verif.Props.Nested
import Verif.Model.Calls
import Verif.Spec.Calls
import Verif.Props.Calls
import Verif.Model.Nodes
import Verif.Spec.Nodes
import Verif.Props.Nodes
import Verif.Model.Held
import Verif.Props.Held
import Verif.Spec.Json
import Verif.Proofs.Gens
import Verif.Proofs.JsonRules
import Verif.Proofs.JsonGen
import Verif.Proofs.JsonWrite
import Verif.Props.Json
import Verif.Model.Looks
import Verif.Props.Looks
import Verif.Props.Power
import Verif.Spec.Csv
import Verif.Proofs.CsvGen
import Verif.Props.Csv
import Verif.Props.JsonTrees
import Verif.Spec.Pending
import Verif.Props.Pending
import Verif.Spec.Labour
import Verif.Props.Labour
import Verif.Props.CsvTrees
import Verif.Spec.Codes
import Verif.Props.Codes
import Verif.Props.Numerals
import Verif.Props.RightAssoc
