import Verif.Spec.Exact
/-
Dividing and multiplying back (for C117).
-/
namespace Xprs
namespace Spec

/-- `(a / b) * b` -/
def backTree (a b : Elem) : Elem := .bin .times (.bin .divide a b) b

/-- `a / b + a / b + a / b` -/
def thirdsTree (a b : Elem) : Elem := .bin .plus (.bin .plus (.bin .divide a b) (.bin .divide a b)) (.bin .divide a b)

/-- The number has at most 52 binary digits, from the first to the last that is not zero. -/
def Digits52 (q : ℚ) : Prop := ∃ M e : ℤ, |M| < 2 ^ 52 ∧ q = M * 2 ^ e

/-- In binary, `n` has one or two digits other than zero. -/
def TwoBits (n : ℕ) : Prop := (∃ i, n = 2 ^ i) ∨ ∃ i j, i ≠ j ∧ n = 2 ^ i + 2 ^ j

end Spec
end Xprs
