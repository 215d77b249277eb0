import Verif.Spec.Laws
/-
Linear interpolation (for C125).
-/
namespace Xprs
namespace Spec

/-- `a + (b - a) * t`. -/
def lerpTree (a b t : Elem) : Elem := .bin .plus a (.bin .times (.bin .minus b a) t)

/-- `r` is `p`, `q`, or between the two. -/
def Amid (p q r : ℚ) : Prop := p ≤ r ∧ r ≤ q ∨ q ≤ r ∧ r ≤ p

end Spec
end Xprs
