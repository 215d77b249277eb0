import Verif.Spec.Safe
import Verif.Spec.Laws
import Verif.Spec.Value
/-
Quadratic equations (for C134).
-/
namespace Xprs
namespace Spec

/-- `(-b + sqrt(b * b - 4 * a * c)) / (2 * a)`, or with `-` for `+` -/
def solveTree (op : Op) (a b c : Elem) : Elem :=
  .bin .divide
    (.bin op (.un .minus b)
      (app .sqrt (.bin .minus (.bin .times b b) (.bin .times (.bin .times (.num (F64.ofNat 4)) a) c))))
    (.bin .times (.num (F64.ofNat 2)) a)

/-- Whole coefficients that are not too large; the first is not zero. -/
structure Coefficients (A B C : ℤ) (x y z : F64) : Prop where
  a : value x = some (A : ℚ)
  b : value y = some (B : ℚ)
  c : value z = some (C : ℚ)
  ne : A ≠ 0
  first : |A| < 2 ^ 50
  disc : B * B + 4 * |A * C| < 2 ^ 52

/-- `u` and `v` are, rounded to nearest, all the rational solutions of `A·X² + B·X + C = 0`, and there are some. -/
def Solutions (A B C : ℤ) (u v : F64) : Prop :=
  ∃ p q : ℚ, RoundsTo p u ∧ RoundsTo q v ∧ ∀ X : ℚ, A * (X * X) + B * X + C = 0 ↔ X = p ∨ X = q

/-- `e` is one of the two formulas, its operands are such coefficients without a doubtful step, and the rational
number `q` is the solution it stands for: with `+` the one where `2·A·q + B` is the positive root. -/
def Solves (w : World) (m : HMap F64) (e : Elem) (q : ℚ) : Prop :=
  ∃ (a b c : Elem) (x y z : F64) (A B C : ℤ), Runs w m a x ∧ Runs w m b y ∧ Runs w m c z ∧ Coefficients A B C x y z ∧
    (A : ℚ) * (q * q) + B * q + C = 0 ∧
    (e = solveTree .plus a b c ∧ 0 ≤ 2 * A * q + B ∨ e = solveTree .minus a b c ∧ 2 * A * q + B ≤ 0)

end Spec
end Xprs
