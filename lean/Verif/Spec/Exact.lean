import Mathlib.Data.Nat.Factorial.Basic
import Verif.Spec.Ieee
import Verif.Spec.Tree
/-
Exact arithmetic on expression trees (for C67).
-/
namespace Xprs
namespace Spec

/-- Some `f64` has exactly the value `q`. -/
def InF64 (q : ℚ) : Prop := ∃ f, value f = some q

/-- `Exact m e q`: over the rational numbers the tree `e` has the value `q` (a remainder
being that of the division towards zero), and no result on the way needs rounding. -/
inductive Exact (m : HMap F64) : Elem → ℚ → Prop
  | num {x q} : value x = some q → Exact m (.num x) q
  | var {n x q} : m n = some x → value x = some q → Exact m (.var n) q
  | pos {e p} : Exact m e p → Exact m (.un .plus e) p
  | neg {e p} : Exact m e p → Exact m (.un .minus e) (-p)
  | plus {l r p q} : Exact m l p → Exact m r q → InF64 (p + q) → Exact m (.bin .plus l r) (p + q)
  | minus {l r p q} : Exact m l p → Exact m r q → InF64 (p - q) → Exact m (.bin .minus l r) (p - q)
  | times {l r p q} : Exact m l p → Exact m r q → InF64 (p * q) → Exact m (.bin .times l r) (p * q)
  | divide {l r p q} : Exact m l p → Exact m r q → q ≠ 0 → InF64 (p / q) →
      Exact m (.bin .divide l r) (p / q)
  | modulo {l r p q} : Exact m l p → Exact m r q → q ≠ 0 →
      Exact m (.bin .modulo l r) (p - q * truncRat (p / q))

/-- Not beyond `2⁵³`. -/
def Small (z : ℤ) : Prop := |z| ≤ 2 ^ 53

/-- `Counts m e z`: over the integers the tree `e` has the value `z`, divisions have no
remainder, and no result on the way is beyond `2⁵³`. -/
inductive Counts (m : HMap F64) : Elem → ℤ → Prop
  | num {x} {z : ℤ} : value x = some (z : ℚ) → Small z → Counts m (.num x) z
  | var {n x} {z : ℤ} : m n = some x → value x = some (z : ℚ) → Small z → Counts m (.var n) z
  | pos {e a} : Counts m e a → Counts m (.un .plus e) a
  | neg {e a} : Counts m e a → Counts m (.un .minus e) (-a)
  | factorial {e n} : Counts m e (n : ℕ) → Small n.factorial →
      Counts m (.un .factorial e) n.factorial
  | plus {l r a b} : Counts m l a → Counts m r b → Small (a + b) → Counts m (.bin .plus l r) (a + b)
  | minus {l r a b} : Counts m l a → Counts m r b → Small (a - b) →
      Counts m (.bin .minus l r) (a - b)
  | times {l r a b} : Counts m l a → Counts m r b → Small (a * b) →
      Counts m (.bin .times l r) (a * b)
  | divide {l r a b} : Counts m l (a * b) → Counts m r b → b ≠ 0 → Small a →
      Counts m (.bin .divide l r) a
  | modulo {l r a b} : Counts m l a → Counts m r b → b ≠ 0 → Counts m (.bin .modulo l r) (a.tmod b)

end Spec
end Xprs
