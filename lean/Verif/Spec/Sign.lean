import Verif.Spec.Exact
import Verif.Spec.Laws
/-
The sign of formulas written as products (for C127).
-/
namespace Xprs
namespace Spec
set_option exponentiation.threshold 4096

/-- `Factored m e q`: over the rational numbers `e` has the value `q`; it is built with signs, `*`, `/` and
`abs` from parts that need no rounding and from sums and differences of two such parts. -/
inductive Factored (m : HMap F64) : Elem → ℚ → Prop
  | exact {e q} : Exact m e q → Factored m e q
  | sum {l r p q} : Exact m l p → Exact m r q → Factored m (.bin .plus l r) (p + q)
  | diff {l r p q} : Exact m l p → Exact m r q → Factored m (.bin .minus l r) (p - q)
  | pos {e q} : Factored m e q → Factored m (.un .plus e) q
  | neg {e q} : Factored m e q → Factored m (.un .minus e) (-q)
  | abs {e q} : Factored m e q → Factored m (app .abs e) |q|
  | times {l r p q} : Factored m l p → Factored m r q → Factored m (.bin .times l r) (p * q)
  | divide {l r p q} : Factored m l p → Factored m r q → q ≠ 0 → Factored m (.bin .divide l r) (p / q)

/-- `v` says nothing wrong about the sign of `q`: if `q` is zero so is `v`, if `v` is positive so is `q`, if `v`
is negative so is `q`. -/
def Truthful (q : ℚ) (v : F64) : Prop :=
  (∀ r, value v = some r → (q = 0 → r = 0) ∧ (0 < r → 0 < q) ∧ (r < 0 → q < 0)) ∧
  (v = .inf false → 0 < q) ∧ (v = .inf true → q < 0)

/-- A product or quotient that is not zero is lost to zero here: it is not larger than half of the smallest
number, or the divisor has become infinite. -/
inductive Vanishes (w : World) (m : HMap F64) : Elem → Prop
  | times {l r a b p q} : eval w m l = .ok a → eval w m r = .ok b → value a = some p → value b = some q →
      p ≠ 0 → q ≠ 0 → |p * q| ≤ 1 / 2 ^ 1075 → Vanishes w m (.bin .times l r)
  | divide {l r a b p q} : eval w m l = .ok a → eval w m r = .ok b → value a = some p → value b = some q →
      p ≠ 0 → q ≠ 0 → |p / q| ≤ 1 / 2 ^ 1075 → Vanishes w m (.bin .divide l r)
  | infinite {l r a p s} : eval w m l = .ok a → eval w m r = .ok (.inf s) → value a = some p → p ≠ 0 →
      Vanishes w m (.bin .divide l r)

end Spec
end Xprs
