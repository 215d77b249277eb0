import Verif.Print
import Verif.Display
/-
The derived `Debug` implementations of expressions: `/repo/src/element/mod.rs:20-33`,
`binop.rs:7-15`, `unop.rs:7-13`, `function_call.rs:7-13`, `/repo/src/token/operator.rs:5-21`,
`/repo/src/token/function.rs:7-17` and 78-85, `/repo/src/xprs.rs:18-25`.
Simplification: `{:?}` only (for `{:#?}` see `Pretty.lean`), and names are written between quotes as
they are; std escapes quotes, backslashes and unprintable characters, which are not in names.
-/
namespace Xprs

/-- `Debug for Operator` (`/repo/src/token/operator.rs:5-21`) -/
def opDebug : Op → Bytes
  | .plus => b!"Plus"
  | .minus => b!"Minus"
  | .times => b!"Times"
  | .divide => b!"Divide"
  | .power => b!"Power"
  | .modulo => b!"Modulo"
  | .factorial => b!"Factorial"

/-- `Debug for str` -/
def quoted (n : Bytes) : Bytes := b!"\"" ++ n ++ b!"\""

/-- `Debug for FnPointer` (`/repo/src/token/function.rs:78-85`); the built-in functions are made
with `new_static` (`/repo/src/utils/built_in_functions.rs`). -/
def fnDebug : FnPtr → Bytes
  | .builtin _ => b!"Static"
  | .static _ => b!"Static"
  | .dyn _ => b!"Dyn"

/-- `Debug for Option<u8>` -/
def optDebug : Option Nat → Bytes
  | none => b!"None"
  | some n => b!"Some(" ++ decimal n ++ b!")"

/-- `Debug for Function` (`/repo/src/token/function.rs:7-17`) -/
def funcDebug (f : Func) : Bytes :=
  b!"Function { name: " ++ quoted f.name ++ b!", func: " ++ fnDebug f.func ++ b!", nb_args: " ++
    optDebug f.nbArgs ++ b!" }"

mutual
/-- `Debug for Element` (`/repo/src/element/mod.rs:20-33`) -/
def debugE : Elem → Bytes
  | .num x => b!"Number(" ++ debugF64 x ++ b!")"
  | .bin op l r => b!"BinOp(BinOp { op: " ++ opDebug op ++ b!", lhs: " ++ debugE l ++ b!", rhs: " ++
      debugE r ++ b!" })"
  | .un op e => b!"UnOp(UnOp { op: " ++ opDebug op ++ b!", operand: " ++ debugE e ++ b!" })"
  | .call f args => b!"Function(FunctionCall { desc: " ++ funcDebug f ++ b!", args: [" ++
      joinWith b!", " (debugL args) ++ b!"] })"
  | .var n => b!"Variable(" ++ quoted n ++ b!")"
/-- the entries of `Debug for Vec<Element>` -/
def debugL : List Elem → List Bytes
  | [] => []
  | a :: as => debugE a :: debugL as
end

/-- `Debug for Xprs` (`/repo/src/xprs.rs:18-25`); a `HashSet` is printed in the order in which it is
iterated. -/
def Xpr.debug (o : Oracle) (e : Xpr) : Bytes :=
  b!"Xprs { root: " ++ debugE e.root ++ b!", vars: {" ++ joinWith b!", " ((o.ord e.vars).map quoted) ++ b!"} }"

end Xprs
