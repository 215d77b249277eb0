import Verif.Debug
import Verif.Report
import Verif.Context
import Verif.Order
import Mathlib.Data.Nat.Digits.Defs
/-
The derived `Debug` and `Ord` implementations of errors and the `Debug` of contexts and parsers:
`/repo/src/parser.rs:451-460` (`ParseError`), `528-559` (`ErrorKind`), `/repo/src/xprs.rs:365-369`
(`EvalError`), `732-741` (`BindError`), `/repo/src/context.rs:7-14` (`Symbol`), `53-59` (`Context`),
`/repo/src/parser.rs:37-41` (`Parser`).

Strings are written as std does, with escapes.  Which characters are written as they are is a matter of
the Unicode tables of std; it is a parameter (`plain`).  Assumption on `miette` 7: `SourceSpan` is a
struct of an `offset: SourceOffset`, a tuple struct of a number, and a `length`, both with a derived `Debug`.
-/
namespace Xprs

/-- The characters of a text, which takes at most as many bytes as the first argument says
(`str::chars`; a `str` is valid UTF-8, so the last case does not occur before the end). -/
def charsF : Nat → Bytes → List Char
  | 0, _ => []
  | n + 1, bs =>
    match ByteArray.utf8DecodeChar? bs.toByteArray 0 with
    | some c => c :: charsF n (bs.drop (String.utf8EncodeChar c).length)
    | none => []

/-- `str::chars` -/
def strChars (bs : Bytes) : List Char := charsF bs.length bs

/-- a hexadecimal digit, as `{:x}` writes it -/
def hexDigit (k : Nat) : UInt8 := UInt8.ofNat (if k < 10 then 48 + k else 87 + k)

/-- `{:x}` of a number other than zero -/
def hexText (n : Nat) : Bytes := (Nat.digits 16 n).reverse.map hexDigit

/-- `char::escape_debug_ext`, as `Debug` of `str` (`quote = '"'`) and `char` (`quote = '\''`) call it -/
def escChar (plain : Char → Bool) (quote c : Char) : Bytes :=
  if c = '\x00' then b!"\\0"
  else if c = '\t' then b!"\\t"
  else if c = '\r' then b!"\\r"
  else if c = '\n' then b!"\\n"
  else if c = '\\' then b!"\\\\"
  else if c = quote then b!"\\" ++ String.utf8EncodeChar quote
  else if plain c then String.utf8EncodeChar c
  else b!"\\u{" ++ hexText c.toNat ++ b!"}"

/-- `Debug for str` -/
def strDebug (plain : Char → Bool) (s : Bytes) : Bytes :=
  b!"\"" ++ (strChars s).flatMap (escChar plain '"') ++ b!"\""

/-- `Debug for char`, of `char::from(c)` -/
def charDebug (plain : Char → Bool) (c : UInt8) : Bytes :=
  b!"'" ++ escChar plain '\'' (Char.ofUInt8 c) ++ b!"'"

/-- `Debug for ErrorKind` (`/repo/src/parser.rs:528-559`) -/
def ErrKind.debug (plain : Char → Bool) : ErrKind → Bytes
  | .unexpectedEnd => b!"UnexpectedEndOfExpression"
  | .unexpectedToken c => b!"UnexpectedToken(" ++ charDebug plain c ++ b!")"
  | .malformedNumber s => b!"MalformedNumber(" ++ strDebug plain s ++ b!")"
  | .illegalCharacter c => b!"IllegalCharacter(" ++ charDebug plain c ++ b!")"
  | .expectedToken c => b!"ExpectedToken(" ++ charDebug plain c ++ b!")"
  | .variableNotDeclared v avail =>
    b!"VariableNotDeclared(" ++ strDebug plain v ++ b!", [" ++ joinWith b!", " (avail.map (strDebug plain)) ++ b!"])"
  | .tooFew expected got => b!"TooFewArguments(" ++ decimal expected ++ b!", " ++ decimal got ++ b!")"
  | .tooMany expected got => b!"TooManyArguments(" ++ decimal expected ++ b!", " ++ decimal got ++ b!")"
  | .missingArgument => b!"MissingArgument"

/-- `Debug for ParseError` (`/repo/src/parser.rs:451-460`), of an error for the text `source` -/
def PErr.debug (plain : Char → Bool) (source : Bytes) (e : PErr) : Bytes :=
  b!"ParseError { kind: " ++ e.kind.debug plain ++ b!", span: SourceSpan { offset: SourceOffset(" ++
    decimal e.off ++ b!"), length: " ++ decimal e.len ++ b!" }, src: " ++ strDebug plain source ++ b!" }"

/-- `Debug for EvalError` (`/repo/src/xprs.rs:365-369`) -/
def evalErrorDebug (plain : Char → Bool) (v : Bytes) : Bytes := b!"EvalError(" ++ strDebug plain v ++ b!")"

/-- `Debug for BindError` (`/repo/src/xprs.rs:732-741`) -/
def BindErr.debug (plain : Char → Bool) : BindErr → Bytes
  | .one s => b!"OneVariable(" ++ strDebug plain s ++ b!")"
  | .multiple s => b!"MultipleVariables(" ++ strDebug plain s ++ b!")"

/-- `Debug for Function` (`/repo/src/token/function.rs:7-17`), of a name that may need escapes -/
def funcDebugE (plain : Char → Bool) (f : Func) : Bytes :=
  b!"Function { name: " ++ strDebug plain f.name ++ b!", func: " ++ fnDebug f.func ++ b!", nb_args: " ++
    optDebug f.nbArgs ++ b!" }"

/-- `Debug for Symbol` (`/repo/src/context.rs:7-14`) -/
def Symbol.debug (plain : Char → Bool) : Symbol → Bytes
  | .var x => b!"Variable(" ++ debugF64 x ++ b!")"
  | .func f => b!"Function(" ++ funcDebugE plain f ++ b!")"

/-- `Debug for HashMap<&str, Symbol>`, of the entries in the order in which the map is iterated -/
def entriesDebug (plain : Char → Bool) (l : List (Bytes × Symbol)) : Bytes :=
  b!"{" ++ joinWith b!", " (l.map fun p => strDebug plain p.1 ++ b!": " ++ p.2.debug plain) ++ b!"}"

/-- `Debug for Option<HashSet<&str>>` -/
def expectedDebug (plain : Char → Bool) : Option (List Bytes) → Bytes
  | none => b!"None"
  | some vs => b!"Some({" ++ joinWith b!", " (vs.map (strDebug plain)) ++ b!"})"

/-- `Debug for Parser` (`/repo/src/parser.rs:37-41`) of a context (`/repo/src/context.rs:53-59`) whose
symbols and expected variables are iterated in the orders given -/
def parserDebug (plain : Char → Bool) (l : List (Bytes × Symbol)) (vs : Option (List Bytes)) : Bytes :=
  b!"Parser { ctx: Context { symbols: " ++ entriesDebug plain l ++ b!", expected_vars: " ++
    expectedDebug plain vs ++ b!" } }"

/-- The derived comparison of the variants of `ErrorKind` (`/repo/src/parser.rs:528-559`): their order in
the source. -/
def ErrKind.index : ErrKind → Nat
  | .unexpectedEnd => 0
  | .unexpectedToken _ => 1
  | .malformedNumber _ => 2
  | .illegalCharacter _ => 3
  | .expectedToken _ => 4
  | .variableNotDeclared _ _ => 5
  | .tooFew _ _ => 6
  | .tooMany _ _ => 7
  | .missingArgument => 8

/-- `Ord for Vec<String>` -/
def strsCmp : List Bytes → List Bytes → Ordering
  | [], [] => .eq
  | [], _ :: _ => .lt
  | _ :: _, [] => .gt
  | a :: as, b :: bs => (strCmp a b).then (strsCmp as bs)

/-- `Ord for ErrorKind` (derived, `/repo/src/parser.rs:528-559`) -/
def ErrKind.cmp : ErrKind → ErrKind → Ordering
  | .unexpectedToken a, .unexpectedToken b => natCmp a.toNat b.toNat
  | .malformedNumber a, .malformedNumber b => strCmp a b
  | .illegalCharacter a, .illegalCharacter b => natCmp a.toNat b.toNat
  | .expectedToken a, .expectedToken b => natCmp a.toNat b.toNat
  | .variableNotDeclared a as, .variableNotDeclared b bs => (strCmp a b).then (strsCmp as bs)
  | .tooFew a x, .tooFew b y => (natCmp a b).then (natCmp x y)
  | .tooMany a x, .tooMany b y => (natCmp a b).then (natCmp x y)
  | a, b => natCmp a.index b.index

/-- `Ord for BindError` (derived, `/repo/src/xprs.rs:732-741`) -/
def BindErr.cmp : BindErr → BindErr → Ordering
  | .one a, .one b => strCmp a b
  | .one _, .multiple _ => .lt
  | .multiple _, .one _ => .gt
  | .multiple a, .multiple b => strCmp a b

end Xprs
