import Verif.Spec.Value
import Verif.Syntax
/-
Expressions for the rounding error of a sum.
-/
namespace Xprs
namespace Spec

/-- `b - ((a + b) - a)`. -/
def fastResidue (a b : Elem) : Elem := .bin .minus b (.bin .minus (.bin .plus a b) a)

/-- `(a - ((a + b) - b)) + (b - ((a + b) - ((a + b) - b)))`. -/
def residue (a b : Elem) : Elem :=
  .bin .plus (.bin .minus a (.bin .minus (.bin .plus a b) b))
    (.bin .minus b (.bin .minus (.bin .plus a b) (.bin .minus (.bin .plus a b) b)))

end Spec
end Xprs
