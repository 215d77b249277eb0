import Verif.Eval
/-
The `Display` implementations of expressions: `/repo/src/element/mod.rs:35-46`,
`binop.rs:33-37`, `unop.rs:30-34`, `function_call.rs:35-45`,
`/repo/src/token/operator.rs:43-56`, `/repo/src/xprs.rs:38-43`.
-/
namespace Xprs

/-- `Display for Operator` (`/repo/src/token/operator.rs:43-56`) -/
def opText : Op → Bytes
  | .factorial => b!"!"
  | .plus => b!"+"
  | .minus => b!"-"
  | .times => b!"*"
  | .divide => b!"/"
  | .power => b!"^"
  | .modulo => b!"%"

/-- `[String]::join` -/
def joinWith (sep : Bytes) : List Bytes → Bytes
  | [] => []
  | [a] => a
  | a :: as => a ++ sep ++ joinWith sep as

mutual
/-- `Display for Element`; `fmt` is `Display for f64`. -/
def showE (fmt : F64 → Bytes) : Elem → Bytes
  | .num x => fmt x
  | .var n => n
  | .bin op l r => b!"(" ++ showE fmt l ++ b!" " ++ opText op ++ b!" " ++ showE fmt r ++ b!")"
  | .un op e => b!"(" ++ opText op ++ showE fmt e ++ b!")"
  | .call f args => f.name ++ b!"(" ++ joinWith b!", " (showL fmt args) ++ b!")"
/-- the `map` over the arguments (`function_call.rs:37-41`) -/
def showL (fmt : F64 → Bytes) : List Elem → List Bytes
  | [] => []
  | a :: as => showE fmt a :: showL fmt as
end

/-- `Display for Xprs` (`/repo/src/xprs.rs:38-43`) -/
def Xpr.show (fmt : F64 → Bytes) (e : Xpr) : Bytes := showE fmt e.root

end Xprs
