import Verif.Macro
import Verif.Spec.Ieee
import Verif.Spec.Doc
/-
Putting texts together.
-/
namespace Xprs
namespace Spec

/-- The texts with commas between them. -/
def commas : List Bytes → Bytes
  | [] => []
  | [t] => t
  | t :: ts => t ++ c!"," :: commas ts

/-- `(s)` -/
def inParens (s : Bytes) : Bytes := c!"(" :: (s ++ [c!")"])

/-- A function applied to a list of arguments, if their number is right. -/
def Closure.apply : Closure → List F64 → Option F64
  | .f0 f, [] => some f
  | .f1 f, [a] => some (f a)
  | .f2 f, [a, b] => some (f a b)
  | .f3 f, [a, b, c] => some (f a b c)
  | .f4 f, [a, b, c, d] => some (f a b c d)
  | .f5 f, [a, b, c, d, e] => some (f a b c d e)
  | .f6 f, [a, b, c, d, e, g] => some (f a b c d e g)
  | .f7 f, [a, b, c, d, e, g, h] => some (f a b c d e g h)
  | .f8 f, [a, b, c, d, e, g, h, i] => some (f a b c d e g h i)
  | .f9 f, [a, b, c, d, e, g, h, i, j] => some (f a b c d e g h i j)
  | .slice f, args => some (f args)
  | _, _ => none

end Spec
end Xprs
