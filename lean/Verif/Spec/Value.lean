import Mathlib.Data.Rat.Floor
import Verif.F64
import Verif.Spec.Round
/-
The rational number a finite float stands for.
-/
namespace Xprs
namespace Spec
set_option exponentiation.threshold 4096

/-- The value of a finite float as a rational number; NaN and the infinities have none. -/
def value : F64 → Option ℚ
  | .fin false n _ => some ((n : ℚ) / 2 ^ 1074)
  | .fin true n _ => some (-(n : ℚ) / 2 ^ 1074)
  | _ => none

/-- The sign bit (`false` for NaN). -/
def signBit : F64 → Bool
  | .fin s _ _ => s
  | .inf s => s
  | .nan => false

/-- `v` is what IEEE 754 prescribes for a result with the exact value `q`: the float
nearest to `q` (`NearestF64`, magnitudes in units of `2⁻¹⁰⁷⁴`; ties to even, infinity from
half a unit beyond the largest float), with the sign of `q`. -/
def RoundsTo (q : ℚ) (v : F64) : Prop :=
  (∃ N D : Nat, 0 < D ∧ |q| * 2 ^ 1074 = (N : ℚ) / (D : ℚ) ∧ NearestF64 N D (F64.abs v)) ∧
  (q < 0 → signBit v = true) ∧ (0 < q → signBit v = false)

/-- `q` rounded towards zero. -/
def truncRat (q : ℚ) : ℤ := if 0 ≤ q then ⌊q⌋ else ⌈q⌉

/-- The order of the extended number line (NaN is not on it; the zeros are at the same
place). -/
inductive LeF : F64 → F64 → Prop
  | bot {b} : b ≠ .nan → LeF (.inf true) b
  | top {a} : a ≠ .nan → LeF a (.inf false)
  | fin {a b p q} : value a = some p → value b = some q → p ≤ q → LeF a b

/-- `m` is the least of `xs`, NaN not counted; infinity if there is nothing else. -/
def Minimum (xs : List F64) (m : F64) : Prop :=
  ((∀ x ∈ xs, x = .nan) → m = .inf false) ∧
  ((∃ x ∈ xs, x ≠ .nan) → m ∈ xs ∧ m ≠ .nan ∧ ∀ x ∈ xs, x ≠ .nan → LeF m x)

/-- `m` is the greatest of `xs`, NaN not counted; minus infinity if there is nothing
else. -/
def Maximum (xs : List F64) (m : F64) : Prop :=
  ((∀ x ∈ xs, x = .nan) → m = .inf true) ∧
  ((∃ x ∈ xs, x ≠ .nan) → m ∈ xs ∧ m ≠ .nan ∧ ∀ x ∈ xs, x ≠ .nan → LeF x m)

end Spec
end Xprs
