import Verif.Scalar
import Verif.ScalarLemmas
import Verif.ConstInt
import Verif.Expr
import Verif.ConstLemmas
import Verif.Repr
import Verif.Prelude
import Verif.Runtime
import Verif.ExprLemmas
import Verif.Schema
import Verif.Wire
import Verif.DecodeVM
import Verif.DecodeSpec
import Verif.DecodeRefine
import Verif.EncodeVM
import Verif.EncodeSpec
import Verif.EncodeRefine
import Verif.EncodeItems
import Verif.EncodeSim
import Verif.EncodeDecl
import Verif.Props.Scalars
import Verif.Props.Const
import Verif.Props.Repr
import Verif.Props.Prelude
import Verif.Props.Decode
import Verif.Props.Encode
import Verif.Order
import Verif.Props.Order
import Verif.RoundTrip
import Verif.Props.RoundTrip
import Verif.Props.Expr
import Verif.Tokenizer
import Verif.TokenSpec
import Verif.TokenTables
import Verif.TokenLemmas
import Verif.TokenGobble
import Verif.Props.Tokens
import Verif.Props.Chars
import Verif.Props.Casts
import Verif.Props.ExprTypes
import Verif.Props.ForeignUses
import Verif.Props.Members
import Verif.Props.Emits
import Verif.Props.CompileSpec
import Verif.Props.NumberTypes
import Verif.Ast
import Verif.Parser
import Verif.ParserSpec
import Verif.ParserLemmas
import Verif.ParserSound
import Verif.ParserSafe
import Verif.ParserComplete
import Verif.PrintSpec
import Verif.Props.Parser
import Verif.Sem.Asg
import Verif.Sem.Convert
import Verif.Sem.Program
import Verif.Sem.Spec
import Verif.Sem.Lemmas
import Verif.Sem.Sound
import Verif.Sem.Types
import Verif.Sem.PreludeEnv
import Verif.Props.Typing
import Verif.Sem.IMap
import Verif.Sem.Passes
import Verif.Props.Imports
import Verif.Props.Modules
import Verif.Props.Cycles
import Verif.Derives
import Verif.Props.Derives
import Verif.Sem.Dups
import Verif.Props.Dups
import Verif.Sem.Elab
import Verif.Sem.ElabProgram
import Verif.Props.Names
import Verif.Sem.Shape
import Verif.Sem.Placed
import Verif.Props.Shape
import Verif.Sem.Typed
import Verif.Props.Typed
import Verif.Sem.Lower
import Verif.Sem.LowerShape
import Verif.Sem.Closed
import Verif.Props.Closed
import Verif.Lexical
import Verif.Sem.LowerFirm
import Verif.Sem.Scoping
import Verif.Sem.History
import Verif.Says
import Verif.Sem.Origin
import Verif.Sem.Grounded
import Verif.Sem.Saying
import Verif.Props.Generate
import Verif.Props.Scope
import Verif.Props.EndToEnd
import Verif.Props.RustTypes
import Verif.Props.Shipped
import Verif.Props.Says
import Verif.Conformance
import Verif.Bounds
import Verif.Survive
import Verif.Props.Survive
import Verif.Schedule
import Verif.Props.Schedule
import Verif.Delimited
import Verif.Props.Delimited
import Verif.Hygiene
import Verif.Props.Hygiene
import Verif.Lossless
import Verif.Props.Lossless
import Verif.Forth
import Verif.Props.Forth
import Verif.Fail
import Verif.Props.Fail
import Verif.Flags
import Verif.Props.Flags
import Verif.Sizes
import Verif.Props.Sizes
import Verif.Readers
import Verif.Props.Readers
import Verif.Instances
import Verif.Props.Instances
import Verif.Sinks
import Verif.Props.Sinks
import Verif.Traits
import Verif.Defaults
import Verif.Props.Traits
import Verif.Props.Defaults
import Verif.EncodeSurvive
import Verif.Props.EncodeSurvive
import Verif.RustNames
import Verif.Props.RustNames
import Verif.NameGen
import Verif.Props.NamesClosed
import Verif.Defaulted
import Verif.Called
import Verif.DefaultedSays
import Verif.Props.Defaulted
import Verif.Props.DefaultedTrip
