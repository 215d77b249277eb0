import Verif.Debug
/-
The indented form `{:#?}` of expressions, which the REPL prints (`/repo/src/bin/repl.rs:32`):
the derived `Debug` implementations (see `Debug.lean`) with the alternate flag, through
`core::fmt::builders`.
-/
namespace Xprs

/-- `PadAdapter` of `core::fmt::builders`: four blanks in front of whatever is written at the
beginning of a line; `nl`: the next byte is at the beginning of a line. -/
def padGo : Bool → Bytes → Bytes
  | _, [] => []
  | nl, c :: t => (if nl then b!"    " else []) ++ c :: padGo (c == c!"\n") t

/-- What is written through a fresh `PadAdapter`. -/
def pad (t : Bytes) : Bytes := padGo true t

/-- `DebugTuple` with one field -/
def prettyTuple (name field : Bytes) : Bytes := name ++ b!"(\n" ++ pad (field ++ b!",\n") ++ b!")"

/-- `DebugStruct` (with at least one field) -/
def prettyStruct (name : Bytes) (fields : List (Bytes × Bytes)) : Bytes :=
  name ++ b!" {\n" ++ (fields.flatMap fun f => pad (f.1 ++ b!": " ++ f.2 ++ b!",\n")) ++ b!"}"

/-- `DebugList` and `DebugSet` -/
def prettyList (opening closing : UInt8) (entries : List Bytes) : Bytes :=
  opening :: ((if entries = [] then [] else c!"\n" :: entries.flatMap fun e => pad (e ++ b!",\n")) ++ [closing])

/-- `{:#?}` of `Option<u8>` -/
def prettyOpt : Option Nat → Bytes
  | none => b!"None"
  | some n => prettyTuple b!"Some" (decimal n)

/-- `{:#?}` of `Function` (`/repo/src/token/function.rs:7-17`) -/
def prettyFunc (f : Func) : Bytes :=
  prettyStruct b!"Function" [(b!"name", quoted f.name), (b!"func", fnDebug f.func), (b!"nb_args", prettyOpt f.nbArgs)]

mutual
/-- `{:#?}` of `Element` (`/repo/src/element/mod.rs:20-33`) -/
def prettyE : Elem → Bytes
  | .num x => prettyTuple b!"Number" (debugF64 x)
  | .bin op l r => prettyTuple b!"BinOp" (prettyStruct b!"BinOp"
      [(b!"op", opDebug op), (b!"lhs", prettyE l), (b!"rhs", prettyE r)])
  | .un op e => prettyTuple b!"UnOp" (prettyStruct b!"UnOp" [(b!"op", opDebug op), (b!"operand", prettyE e)])
  | .call f args => prettyTuple b!"Function" (prettyStruct b!"FunctionCall"
      [(b!"desc", prettyFunc f), (b!"args", prettyList c!"[" c!"]" (prettyL args))])
  | .var n => prettyTuple b!"Variable" (quoted n)
/-- the entries of `Vec<Element>` -/
def prettyL : List Elem → List Bytes
  | [] => []
  | a :: as => prettyE a :: prettyL as
end

/-- `{:?}` of `HashSet<&str>` -/
def setDebug (ns : List Bytes) : Bytes := b!"{" ++ joinWith b!", " (ns.map quoted) ++ b!"}"

/-- `{:#?}` of `Xprs` (`/repo/src/xprs.rs:18-25`) -/
def Xpr.pretty (o : Oracle) (e : Xpr) : Bytes :=
  prettyStruct b!"Xprs" [(b!"root", prettyE e.root), (b!"vars", prettyList c!"{" c!"}" ((o.ord e.vars).map quoted))]

end Xprs
