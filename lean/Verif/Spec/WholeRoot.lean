import Verif.Spec.Safe
import Verif.Spec.Laws
import Verif.Spec.Value
import Mathlib.Analysis.Real.Sqrt
/-
Whole parts of square roots (for C133).
-/
namespace Xprs
namespace Spec

/-- The whole number that `f` makes of the real root of `n` is `k`.  (The root of a whole number is never halfway
between two whole numbers.) -/
def RootIs : Builtin → ℕ → ℕ → Prop
  | .floor, n, k => k ≤ √(n : ℝ) ∧ √(n : ℝ) < k + 1
  | .trunc, n, k => k ≤ √(n : ℝ) ∧ √(n : ℝ) < k + 1
  | .ceil, n, k => (k : ℝ) - 1 < √(n : ℝ) ∧ √(n : ℝ) ≤ k
  | .round, n, k => |√(n : ℝ) - k| < 1 / 2
  | _, _, _ => False

/-- Up to where it is computed exactly: `2⁵⁰` for `round`, else `2⁵²`. -/
def rootLimit : Builtin → ℕ
  | .round => 2 ^ 50
  | _ => 2 ^ 52

end Spec
end Xprs
