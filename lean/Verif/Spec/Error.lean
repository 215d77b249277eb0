import Verif.Spec.Ieee
import Verif.Spec.Tree
/-
Rounding errors of expression trees (for C70).
-/
namespace Xprs
namespace Spec
set_option exponentiation.threshold 4096

/-- The unit roundoff of `f64`: the relative error of one rounding is at most this. -/
def roundoff : ℚ := 1 / 2 ^ 53

/-- Neither very large nor very small. -/
def Moderate (q : ℚ) : Prop := q = 0 ∨ (1 / 2 ^ 1000 ≤ |q| ∧ |q| ≤ 2 ^ 1000)

/-- `Approx m e q k`: over the rational numbers the tree `e` has the value `q`; all results
on the way are moderate, only numbers of the same sign are added and only numbers of
different signs are subtracted; `k` counts the roundings that can add up. Numbers and
variables may themselves have been rounded (`lit`, `input`), like the decimal number `0.1`. -/
inductive Approx (m : HMap F64) : Elem → ℚ → ℕ → Prop
  | num {x q} : value x = some q → Moderate q → Approx m (.num x) q 0
  | var {n x q} : m n = some x → value x = some q → Moderate q → Approx m (.var n) q 0
  | lit {x q} : RoundsTo q x → Moderate q → Approx m (.num x) q 1
  | input {n x q} : m n = some x → RoundsTo q x → Moderate q → Approx m (.var n) q 1
  | pos {e p j} : Approx m e p j → Approx m (.un .plus e) p j
  | neg {e p j} : Approx m e p j → Approx m (.un .minus e) (-p) j
  | plus {l r p q j k} : Approx m l p j → Approx m r q k → 0 ≤ p * q → Moderate (p + q) →
      Approx m (.bin .plus l r) (p + q) (max j k + 1)
  | minus {l r p q j k} : Approx m l p j → Approx m r q k → p * q ≤ 0 → Moderate (p - q) →
      Approx m (.bin .minus l r) (p - q) (max j k + 1)
  | times {l r p q j k} : Approx m l p j → Approx m r q k → Moderate (p * q) →
      Approx m (.bin .times l r) (p * q) (j + k + 1)
  | divide {l r p q j k} : Approx m l p j → Approx m r q k → q ≠ 0 → Moderate (p / q) →
      Approx m (.bin .divide l r) (p / q) (j + k + 1)

end Spec
end Xprs
