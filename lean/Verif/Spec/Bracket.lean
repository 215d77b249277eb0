import Verif.Spec.Threshold
import Verif.Spec.Decimals
/-
What C122 says: for which values of `x` a formula in whole steps has a given value.
-/
namespace Xprs
namespace Spec

/-- `f` makes `N` of the numbers from `lo` to `hi`, with or without the ends. -/
def Bracket (f : Builtin) (N : ℤ) (lo : ℚ) (withLo : Bool) (hi : ℚ) (withHi : Bool) : Prop :=
  ∀ r : ℚ, Picks f r N ↔ (if withLo then lo ≤ r else lo < r) ∧ (if withHi then r ≤ hi else r < hi)

/-- `x` lies between `s` and `t`, with or without the ends. -/
def Within (x s : F64) (withS : Bool) (t : F64) (withT : Bool) : Prop :=
  (if withS then ¬ Less x s else Less s x) ∧ (if withT then ¬ Less t x else Less x t)

end Spec
end Xprs
