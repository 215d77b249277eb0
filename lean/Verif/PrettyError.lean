import Verif.ErrorDebug
import Verif.Pretty
/-
The indented form `{:#?}` of errors, contexts and parsers: the derived `Debug` implementations of
`ErrorDebug.lean` with the alternate flag, through `core::fmt::builders` (see `Pretty.lean`).
-/
namespace Xprs

/-- `DebugTuple` with any number of fields (at least one) -/
def prettyFields (name : Bytes) (fields : List Bytes) : Bytes :=
  name ++ b!"(\n" ++ (fields.flatMap fun f => pad (f ++ b!",\n")) ++ b!")"

/-- `DebugMap`: the entries `key: value` -/
def prettyMap (entries : List (Bytes × Bytes)) : Bytes :=
  prettyList c!"{" c!"}" (entries.map fun e => e.1 ++ b!": " ++ e.2)

/-- `{:#?}` of `ErrorKind` (`/repo/src/parser.rs:528-559`) -/
def ErrKind.pretty (plain : Char → Bool) : ErrKind → Bytes
  | .unexpectedEnd => b!"UnexpectedEndOfExpression"
  | .unexpectedToken c => prettyFields b!"UnexpectedToken" [charDebug plain c]
  | .malformedNumber s => prettyFields b!"MalformedNumber" [strDebug plain s]
  | .illegalCharacter c => prettyFields b!"IllegalCharacter" [charDebug plain c]
  | .expectedToken c => prettyFields b!"ExpectedToken" [charDebug plain c]
  | .variableNotDeclared v avail =>
    prettyFields b!"VariableNotDeclared" [strDebug plain v, prettyList c!"[" c!"]" (avail.map (strDebug plain))]
  | .tooFew expected got => prettyFields b!"TooFewArguments" [decimal expected, decimal got]
  | .tooMany expected got => prettyFields b!"TooManyArguments" [decimal expected, decimal got]
  | .missingArgument => b!"MissingArgument"

/-- `{:#?}` of `ParseError` (`/repo/src/parser.rs:451-460`), of an error for the text `source` -/
def PErr.pretty (plain : Char → Bool) (source : Bytes) (e : PErr) : Bytes :=
  prettyStruct b!"ParseError" [(b!"kind", e.kind.pretty plain),
    (b!"span", prettyStruct b!"SourceSpan" [(b!"offset", prettyFields b!"SourceOffset" [decimal e.off]),
      (b!"length", decimal e.len)]),
    (b!"src", strDebug plain source)]

/-- `{:#?}` of `EvalError` (`/repo/src/xprs.rs:365-369`) -/
def evalErrorPretty (plain : Char → Bool) (v : Bytes) : Bytes := prettyFields b!"EvalError" [strDebug plain v]

/-- `{:#?}` of `BindError` (`/repo/src/xprs.rs:732-741`) -/
def BindErr.pretty (plain : Char → Bool) : BindErr → Bytes
  | .one s => prettyFields b!"OneVariable" [strDebug plain s]
  | .multiple s => prettyFields b!"MultipleVariables" [strDebug plain s]

/-- `{:#?}` of `Function` (`/repo/src/token/function.rs:7-17`), of a name that may need escapes -/
def funcPrettyE (plain : Char → Bool) (f : Func) : Bytes :=
  prettyStruct b!"Function" [(b!"name", strDebug plain f.name), (b!"func", fnDebug f.func), (b!"nb_args", prettyOpt f.nbArgs)]

/-- `{:#?}` of `Symbol` (`/repo/src/context.rs:7-14`) -/
def Symbol.pretty (plain : Char → Bool) : Symbol → Bytes
  | .var x => prettyFields b!"Variable" [debugF64 x]
  | .func f => prettyFields b!"Function" [funcPrettyE plain f]

/-- `{:#?}` of `Option<HashSet<&str>>` -/
def expectedPretty (plain : Char → Bool) : Option (List Bytes) → Bytes
  | none => b!"None"
  | some vs => prettyFields b!"Some" [prettyList c!"{" c!"}" (vs.map (strDebug plain))]

/-- `{:#?}` of `Context` (`/repo/src/context.rs:53-59`) whose symbols and expected variables are
iterated in the orders given -/
def contextPretty (plain : Char → Bool) (l : List (Bytes × Symbol)) (vs : Option (List Bytes)) : Bytes :=
  prettyStruct b!"Context" [(b!"symbols", prettyMap (l.map fun p => (strDebug plain p.1, p.2.pretty plain))),
    (b!"expected_vars", expectedPretty plain vs)]

/-- `{:#?}` of `Parser` (`/repo/src/parser.rs:37-41`) -/
def parserPretty (plain : Char → Bool) (l : List (Bytes × Symbol)) (vs : Option (List Bytes)) : Bytes :=
  prettyStruct b!"Parser" [(b!"ctx", contextPretty plain l vs)]

end Xprs
