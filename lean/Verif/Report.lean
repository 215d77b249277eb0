import Verif.Display
import Verif.Print
/-
What a user gets to read: `Display` and `Diagnostic` of the errors.
`/repo/src/parser.rs:450-559` (`ParseError`, `ErrorKind`), `/repo/src/xprs.rs:364-369`
(`EvalError`), `/repo/src/xprs.rs:731-741` (`BindError`).

Not modelled: how `miette` lays the parts of a diagnostic out, and its `source_code`
trait object (the source is the string itself).
-/
namespace Xprs

/-- `Display` of `char::from(c)`, as UTF-8: the character with the code `c`. -/
def charText (c : UInt8) : Bytes := if c < 128 then [c] else [192 + c / 64, 128 + c % 64]

/-- `Display for ErrorKind` (`parser.rs:532-558`) and for `ParseError` (`parser.rs:452`) -/
def ErrKind.message : ErrKind → Bytes
  | .unexpectedEnd => b!"Unexpected end of expression"
  | .unexpectedToken c => b!"Unexpected token: `" ++ charText c ++ b!"`"
  | .malformedNumber s => b!"Malformed number: `" ++ s ++ b!"`"
  | .illegalCharacter c => b!"Illegal character: `" ++ charText c ++ b!"`"
  | .expectedToken c => b!"Expected token: `" ++ charText c ++ b!"`"
  | .variableNotDeclared v _ => b!"Variable not previously declared: `" ++ v ++ b!"`"
  | .tooFew expected got =>
    b!"Too few arguments for function call, expected " ++ decimal expected ++ b!" got " ++ decimal got
  | .tooMany expected got =>
    b!"Too many arguments for function call, expected " ++ decimal expected ++ b!" got " ++ decimal got
  | .missingArgument => b!"Missing argument for function call"

/-- `"{n} argument{}."` with the plural `s` (`parser.rs:488-491`, `495-498`) -/
def argumentsText (n : Nat) : Bytes := decimal n ++ b!" argument" ++ (if 1 < n then b!"s" else []) ++ b!"."

/-- `Diagnostic::help` (`parser.rs:464-505`) -/
def PErr.help (cfg : Cfg) (e : PErr) : PM Bytes :=
  match e.kind with
  | .unexpectedEnd => .ok b!"Something might be missing here?"
  | .unexpectedToken _ => .ok b!"Try removing it?"
  | .malformedNumber _ => .ok b!"Did you enter a number with multiple decimal points?"
  | .illegalCharacter _ => .ok b!"Try removing this character."
  | .expectedToken c => .ok (b!"Try adding a `" ++ charText c ++ b!"` here.")
  | .variableNotDeclared _ avail =>
    .ok (b!"Try replacing it with one of the following: `" ++ joinWith b!"`, `" avail ++ b!"`.")
  | .tooMany _ _ => (helpCount cfg e).map fun n => b!"Try removing " ++ argumentsText (n.getD 0)
  | .tooFew _ _ => (helpCount cfg e).map fun n => b!"Try adding " ++ argumentsText (n.getD 0)
  | .missingArgument => .ok b!"Either remove comma or add argument."

/-- The parts of a diagnostic: `Display`, `help`, the only label (`parser.rs:507-518`) and
`source_code` (`parser.rs:520-523`). -/
structure Diag where
  message : Bytes
  help : Bytes
  label : Bytes
  off : Nat
  len : Nat
  source : Bytes
  deriving DecidableEq

/-- The diagnostic of an error that `Parser::parse` returned for `source`. -/
def PErr.diag (cfg : Cfg) (source : Bytes) (e : PErr) : PM Diag :=
  (e.help cfg).map fun h => ⟨e.kind.message, h, b!"here", e.off, e.len, source⟩

/-- `Display for EvalError` (`xprs.rs:368`) -/
def evalErrorText (v : Bytes) : Bytes := b!"Evaluation error: '" ++ v ++ b!"' was not provided"

/-- `Display for BindError` (`xprs.rs:737-740`) -/
def BindErr.text : BindErr → Bytes
  | .one s => b!"Variable '" ++ s ++ b!"' was not provided"
  | .multiple s => b!"Variables '" ++ s ++ b!"' were not provided"

end Xprs
