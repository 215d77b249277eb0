import Verif.Spec.Safe
import Verif.Spec.Laws
import Verif.Spec.Value
import Mathlib.Data.Nat.Choose.Basic
import Mathlib.Data.Nat.Factorial.Basic
/-
Counting with factorials (for C131).
-/
namespace Xprs
namespace Spec

/-- `a! / (b! * (a - b)!)` -/
def chooseTree (a b : Elem) : Elem :=
  .bin .divide (.un .factorial a) (.bin .times (.un .factorial b) (.un .factorial (.bin .minus a b)))

/-- `a! / (a - b)!` -/
def arrangeTree (a b : Elem) : Elem :=
  .bin .divide (.un .factorial a) (.un .factorial (.bin .minus a b))

/-- The tree is one of the two formulas, its operands are `n` and `k` with `k ≤ n ≤ 170` without a doubtful step,
and `N` is the number of choices of `k` out of `n` things: without regard to their order, or with. -/
inductive Ways (w : World) (m : HMap F64) (n : ℕ) : ℕ → Elem → Prop
  | choose {a b x y} {k : ℕ} : Runs w m a x → Runs w m b y → value x = some (n : ℚ) → value y = some (k : ℚ) → k ≤ n →
      n ≤ 170 → Ways w m n (n.choose k) (chooseTree a b)
  | arrange {a b x y} {k : ℕ} : Runs w m a x → Runs w m b y → value x = some (n : ℚ) → value y = some (k : ℚ) → k ≤ n →
      n ≤ 170 → Ways w m n (n.descFactorial k) (arrangeTree a b)

end Spec
end Xprs
