import Verif.Spec.Decimals
/-
Quotients by whole numbers, brought to whole numbers.
-/
namespace Xprs
namespace Spec

/-- The quotient is by a whole number and of moderate size; for `floor` and `ceil` it is not a number
that could be lost to zero on the side where it matters. -/
def Splits (f : Builtin) (p : ℚ) (j : ℤ) : Prop :=
  (f = .floor ∧ |p| + |(j : ℚ)| ≤ 2 ^ 53 ∧ (0 ≤ p / j ∨ 1 / 2 ^ 1074 ≤ |p / j|)) ∨
  (f = .ceil ∧ |p| + |(j : ℚ)| ≤ 2 ^ 53 ∧ (p / j ≤ 0 ∨ 1 / 2 ^ 1074 ≤ |p / j|)) ∨
  (f = .trunc ∧ |p| + |(j : ℚ)| ≤ 2 ^ 53) ∨ (f = .round ∧ |p| + |(j : ℚ)| < 2 ^ 52)

/-- `f(a / b)`. -/
def shareTree (f : Builtin) (a b : Elem) : Elem := app f (.bin .divide a b)

/-- `f((a)/(b))`: the text, from the texts of `a` (0) and `b` (1). -/
def shareForm (f : Builtin) : Form := .call f (.infix .divide (.part 0) (.part 1))

end Spec
end Xprs
