import Verif.Spec.Quotient
import Verif.Spec.Whole
/-
What is left of a number when multiples of a whole number are taken off (`restTree` is that of `Spec/Whole`).
-/
namespace Xprs
namespace Spec

/-- `b * f(a / b)`. -/
def fullTree (f : Builtin) (a b : Elem) : Elem := .bin .times b (shareTree f a b)

/-- `b * trunc(a / b) + a % b`. -/
def joinTree (a b : Elem) : Elem := .bin .plus (fullTree .trunc a b) (.bin .modulo a b)

/-- The trees of C123, and their values. -/
inductive RestValue (a b : Elem) (x : F64) (p : ℚ) (j : ℤ) : Elem → ℚ → Prop
  | full {f N} : Splits f p j → Picks f (p / j) N → RestValue a b x p j (fullTree f a b) (j * N)
  | rest {f N} : Splits f p j → Picks f (p / j) N → |p - j * N| ≤ |p| →
      RestValue a b x p j (restTree f a b) (p - j * N)
  | join : |p| + |(j : ℚ)| ≤ 2 ^ 53 → j ≠ 1 ∨ Whole x → RestValue a b x p j (joinTree a b) p

end Spec
end Xprs
