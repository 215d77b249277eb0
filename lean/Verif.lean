import Verif.F64
import Verif.F64Lemmas
import Verif.Syntax
import Verif.Factorial
import Verif.Builtins
import Verif.Context
import Verif.Simplify
import Verif.Parser
import Verif.Eval
import Verif.Spec.Grammar
import Verif.Spec.Tree
import Verif.Spec.Text
import Verif.Lemmas.ParserBasics
import Verif.Lemmas.Lexer
import Verif.Lemmas.Forward
import Verif.Lemmas.Converse
import Verif.Lemmas.Tree
import Verif.Lemmas.Float
import Verif.Lemmas.Factorial
import Verif.Lemmas.FactorialRows
import Verif.Lemmas.FactorialTable
import Verif.Lemmas.Eval
import Verif.Lemmas.Simplify
import Verif.Lemmas.Denote
import Verif.Spec.Errors
import Verif.Spec.History
import Verif.Lemmas.Panics
import Verif.Lemmas.Invariants
import Verif.Lemmas.Parse
import Verif.Props.Factorial
import Verif.Props.Evaluation
import Verif.Props.ContextMap
import Verif.Props.Parsing
import Verif.Lemmas.Binding
import Verif.Lemmas.Missing
import Verif.Props.Binding
import Verif.Props.Histories
import Verif.Repl
import Verif.Spec.Binding
import Verif.Lemmas.Normal
import Verif.Props.Normal
import Verif.Lemmas.Implicit
import Verif.Lemmas.Render
import Verif.Lemmas.Written
import Verif.Props.Grammar
import Verif.Spec.Doc
import Verif.Lemmas.Layout
import Verif.Lemmas.Nearest
import Verif.Spec.Round
import Verif.Lemmas.Tokens
import Verif.Props.Tokens
import Verif.Lemmas.Safe
import Verif.Lemmas.Same
import Verif.Props.Values
import Verif.Spec.Safe
import Verif.Lemmas.Builds
import Verif.Props.Builds
import Verif.Spec.Builds
import Verif.Lemmas.Equal
import Verif.Props.Equality
import Verif.Spec.Equal
import Verif.Lemmas.Arith
import Verif.Lemmas.Ieee
import Verif.Lemmas.Minmax
import Verif.Lemmas.Value
import Verif.Props.Builtins
import Verif.Spec.Ieee
import Verif.Spec.Value
import Verif.Display
import Verif.Lemmas.Show
import Verif.Props.Display
import Verif.Spec.Show
import Verif.Heap
import Verif.Lemmas.Heap
import Verif.Props.Memory
import Verif.Spec.Once
import Verif.Lemmas.Root
import Verif.Props.Names
import Verif.Spec.Names
import Verif.Spec.Root
import Verif.Lemmas.Stable
import Verif.Props.Stable
import Verif.Lemmas.Extent
import Verif.Props.Extent
import Verif.Lemmas.Order
import Verif.Order
import Verif.Props.Order
import Verif.Spec.Order
import Verif.Lemmas.Mention
import Verif.Props.Mention
import Verif.Spec.Mention
import Verif.Props.Session
import Verif.Spec.Session
import Verif.Lemmas.Compose
import Verif.Macro
import Verif.Props.Compose
import Verif.Spec.Compose
import Verif.Effects
import Verif.Lemmas.Calls
import Verif.Lemmas.Effects
import Verif.Props.Effects
import Verif.Spec.Effects
import Verif.Props.Threads
import Verif.Threads
import Verif.Lemmas.Ascii
import Verif.Props.Utf8
import Verif.Spec.Utf8
import Verif.Lemmas.Places
import Verif.Cost
import Verif.Lemmas.Answer
import Verif.Lemmas.CostParse
import Verif.Lemmas.CostSame
import Verif.Lemmas.CostTree
import Verif.Props.Cost
import Verif.Lemmas.Local
import Verif.Lemmas.Viable
import Verif.Props.Prefix
import Verif.Spec.Prefix
import Verif.Lemmas.Exact
import Verif.Props.Exact
import Verif.Spec.Exact
import Verif.Conformance
import Verif.Lemmas.Constant
import Verif.Props.Constant
import Verif.Spec.Constant
import Verif.Lemmas.Error
import Verif.Props.Error
import Verif.Props.Report
import Verif.Report
import Verif.Spec.Error
import Verif.Spec.Report
import Verif.Lemmas.Print
import Verif.Lemmas.Shortest
import Verif.Print
import Verif.Props.Nan
import Verif.Props.Print
import Verif.Spec.Nan
import Verif.Spec.Print
import Verif.Lemmas.Rename
import Verif.Props.Rename
import Verif.Spec.Rename
import Verif.Props.Hash
import Verif.Spec.Hash
import Verif.Lemmas.Loosen
import Verif.Lemmas.Nightly
import Verif.Props.Nightly
import Verif.Spec.Nightly
import Verif.Lemmas.RoundOrder
import Verif.Props.Monotone
import Verif.Spec.Monotone
import Verif.Lemmas.Bang
import Verif.Props.Bang
import Verif.Props.BindExact
import Verif.Lemmas.Rules
import Verif.Props.Rules
import Verif.Spec.Rules
import Verif.CtxEq
import Verif.Lemmas.Related
import Verif.Props.CtxEq
import Verif.Props.Macro
import Verif.Spec.Twin
import Verif.Depth
import Verif.Lemmas.Nesting
import Verif.Props.Nesting
import Verif.Spec.Nesting
import Verif.Lemmas.Inline
import Verif.Props.Inline
import Verif.Spec.Inline
import Verif.Lemmas.Parts
import Verif.Props.Parts
import Verif.Spec.Parts
import Verif.Lemmas.Climb
import Verif.Lemmas.Flat
import Verif.Lemmas.Orders
import Verif.Lemmas.Rows
import Verif.Props.Flat
import Verif.Spec.Flat
import Verif.Lemmas.Adjacent
import Verif.Props.Adjacent
import Verif.Lemmas.Depth
import Verif.Props.ComposeBuilds
import Verif.Lemmas.Terms
import Verif.Props.Terms
import Verif.Spec.Terms
import Verif.Lemmas.NoPower
import Verif.Lemmas.OnBoth
import Verif.Lemmas.Platform
import Verif.Props.Platform
import Verif.Spec.Platform
import Verif.Debug
import Verif.Lemmas.Shown
import Verif.Props.Shown
import Verif.Lemmas.Laws
import Verif.Props.Laws
import Verif.Spec.Laws
import Verif.Props.NanPlatform
import Verif.Lemmas.Accuracy
import Verif.Props.Accuracy
import Verif.Spec.Accuracy
import Verif.Lemmas.Trim
import Verif.Props.Debug
import Verif.Props.Trim
import Verif.Spec.Trim
import Verif.Lemmas.Pretty
import Verif.Lemmas.Transcript
import Verif.Pretty
import Verif.Props.Transcript
import Verif.Spec.Pretty
import Verif.Transcript
import Verif.Lemmas.Faults
import Verif.Props.Faults
import Verif.Spec.Faults
import Verif.Lemmas.Scale
import Verif.Props.Scale
import Verif.Spec.Scale
import Verif.Lemmas.Parity
import Verif.Props.Parity
import Verif.Spec.Parity
import Verif.Lemmas.Reading
import Verif.Props.Reading
import Verif.Spec.Reading
import Verif.Lemmas.Range
import Verif.Props.Range
import Verif.Spec.Range
import Verif.Program
import Verif.Props.Program
import Verif.Spec.Program
import Verif.HeapParser
import Verif.Lemmas.HeapParser
import Verif.Props.HeapParser
import Verif.Props.Shared
import Verif.Spec.Shared
import Verif.Props.Library
import Verif.Spec.Library
import Verif.Cursor
import Verif.Lemmas.Cursor
import Verif.Props.Cursor
import Verif.Props.Constants
import Verif.Lemmas.Apart
import Verif.Lemmas.Residue
import Verif.Lemmas.Square
import Verif.Props.Apart
import Verif.Props.Residue
import Verif.Props.Square
import Verif.Spec.Apart
import Verif.Spec.Residue
import Verif.Lemmas.Lattice
import Verif.Props.Lattice
import Verif.Spec.Lattice
import Verif.Props.Curry
import Verif.Props.Wrap
import Verif.Spec.Wrap
import Verif.Lemmas.Steady
import Verif.Props.Steady
import Verif.Spec.Steady
import Verif.Props.Decimals
import Verif.Spec.Decimals
import Verif.Props.Rearrange
import Verif.Spec.Rearrange
import Verif.ErrorDebug
import Verif.Lemmas.ErrorDebug
import Verif.Props.ErrorDebug
import Verif.Spec.Debug
import Verif.Lemmas.Whole
import Verif.Props.Mean
import Verif.Props.Whole
import Verif.Spec.Whole
import Verif.Props.Ledger
import Verif.Spec.Ledger
import Verif.Lemmas.Back
import Verif.Props.Back
import Verif.Spec.Back
import Verif.PrettyError
import Verif.Props.PrettyError
import Verif.Lemmas.Joined
import Verif.Spec.Joined
import Verif.Lemmas.Solve
import Verif.Props.Quotient
import Verif.Props.Solve
import Verif.Spec.Quotient
import Verif.Lemmas.Threshold
import Verif.Props.Threshold
import Verif.Spec.Threshold
import Verif.Props.Bracket
import Verif.Spec.Bracket
import Verif.Props.Rest
import Verif.Spec.Rest
import Verif.Lemmas.Hypot
import Verif.Props.Hypot
import Verif.Spec.Hypot
import Verif.Props.Lerp
import Verif.Spec.Lerp
import Verif.Props.Cause
import Verif.Spec.Cause
import Verif.Props.Sign
import Verif.Spec.Sign
import Verif.Build
import Verif.Props.Feature
import Verif.Spec.Feature
import Verif.Props.Screen
import Verif.ReplIO
import Verif.Spec.Screen
import Verif.Props.Single
import Verif.Spec.Single
import Verif.Props.Choose
import Verif.Spec.Choose
import Verif.Into
import Verif.Props.Given
import Verif.Spec.Given
import Verif.Props.WholeRoot
import Verif.Spec.WholeRoot
import Verif.Props.Quadratic
import Verif.Spec.Quadratic
