import Verif.Spec.Laws
/-
The length of the hypotenuse.
-/
namespace Xprs
namespace Spec

/-- `sqrt(a * a + b * b)`. -/
def hypotTree (a b : Elem) : Elem := app .sqrt (.bin .plus (.bin .times a a) (.bin .times b b))

/-- A number whose square neither overflows nor loses digits: zero or from `2⁻⁵¹¹` to `2⁵¹⁰`. -/
def Leg (p : ℚ) : Prop := (p = 0 ∨ 1 / 2 ^ 511 ≤ |p|) ∧ |p| ≤ 2 ^ 510

end Spec
end Xprs
