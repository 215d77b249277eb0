import Mathlib.Analysis.Real.Sqrt
import Verif.Spec.Ieee
/-
The square root of IEEE 754, with the real square root of Mathlib.
-/
namespace Xprs
namespace Spec

/-- `n` is the point of the grid nearest to the real number `t`.  Of two nearest points
it is the even one: a multiple of twice their distance. -/
structure NearestReal (t : ℝ) (n : Nat) : Prop where
  grid : Grid n
  closest : ∀ m : Nat, Grid m → |(n : ℝ) - t| ≤ |(m : ℝ) - t|
  even : ∀ m : Nat, Grid m → m ≠ n → |(m : ℝ) - t| = |(n : ℝ) - t| → 2 * dist m n ∣ n

/-- `r` is the square root of `x`. -/
inductive Roots : F64 → F64 → Prop
  | nan : Roots .nan .nan
  | inf : Roots (.inf false) (.inf false)
  | negInf : Roots (.inf true) .nan
  /-- with its sign -/
  | zero {x} : value x = some 0 → Roots x x
  | negative {x q} : value x = some q → q < 0 → Roots x .nan
  /-- nearest to the real root, in units of `2⁻¹⁰⁷⁴` -/
  | positive {x r q n h} : value x = some q → 0 < q → r = .fin false n h →
      NearestReal (√(q : ℝ) * 2 ^ 1074) n → Roots x r

end Spec
end Xprs
