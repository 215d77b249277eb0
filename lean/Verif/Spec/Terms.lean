import Verif.Spec.Error
/-
Rounding errors of expression trees with cancellation (for C87).
-/
namespace Xprs
namespace Spec
set_option exponentiation.threshold 4096

/-- `Terms m e q Q k`: over the rational numbers the tree `e` has the value `q`, and the value `Q`
if every number and every variable is replaced by its absolute value and every `-` by `+`; so `Q`
is the sum of the absolute values of the terms if the products are multiplied out.  Divisors have
no cancellation in them.  All these sums are moderate; `k` counts the roundings that can add
up. -/
inductive Terms (m : HMap F64) : Elem → ℚ → ℚ → ℕ → Prop
  | num {x q} : value x = some q → Moderate q → Terms m (.num x) q |q| 0
  | var {n x q} : m n = some x → value x = some q → Moderate q → Terms m (.var n) q |q| 0
  | lit {x q} : RoundsTo q x → Moderate q → Terms m (.num x) q |q| 1
  | input {n x q} : m n = some x → RoundsTo q x → Moderate q → Terms m (.var n) q |q| 1
  | pos {e p P j} : Terms m e p P j → Terms m (.un .plus e) p P j
  | neg {e p P j} : Terms m e p P j → Terms m (.un .minus e) (-p) P j
  | plus {l r p P q Q j k} : Terms m l p P j → Terms m r q Q k → Moderate (P + Q) →
      Terms m (.bin .plus l r) (p + q) (P + Q) (max j k + 1)
  | minus {l r p P q Q j k} : Terms m l p P j → Terms m r q Q k → Moderate (P + Q) →
      Terms m (.bin .minus l r) (p - q) (P + Q) (max j k + 1)
  | times {l r p P q Q j k} : Terms m l p P j → Terms m r q Q k → Moderate (P * Q) →
      Terms m (.bin .times l r) (p * q) (P * Q) (j + k + 1)
  | divide {l r p P q j k} : Terms m l p P j → Approx m r q k → q ≠ 0 → Moderate (P / |q|) →
      Terms m (.bin .divide l r) (p / q) (P / |q|) (j + k + 1)

end Spec
end Xprs
