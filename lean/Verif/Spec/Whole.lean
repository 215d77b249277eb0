import Verif.Spec.Exact
import Verif.Spec.Decimals
/-
Whole numbers in expressions with calls (for C115).
-/
namespace Xprs
namespace Spec

mutual
/-- `Tallies m e z`: over the integers the tree `e` has the value `z`, where a quotient need not be whole if
`floor`, `ceil`, `trunc` or `round` makes a whole number of it at once, and no result on the way is
beyond `2⁵³`. -/
inductive Tallies (m : HMap F64) : Elem → ℤ → Prop
  | num {x} {z : ℤ} : value x = some (z : ℚ) → Small z → Tallies m (.num x) z
  | var {n x} {z : ℤ} : m n = some x → value x = some (z : ℚ) → Small z → Tallies m (.var n) z
  | pos {e a} : Tallies m e a → Tallies m (.un .plus e) a
  | neg {e a} : Tallies m e a → Tallies m (.un .minus e) (-a)
  | factorial {e n} : Tallies m e (n : ℕ) → Small n.factorial → Tallies m (.un .factorial e) n.factorial
  | plus {l r a b} : Tallies m l a → Tallies m r b → Small (a + b) → Tallies m (.bin .plus l r) (a + b)
  | minus {l r a b} : Tallies m l a → Tallies m r b → Small (a - b) → Tallies m (.bin .minus l r) (a - b)
  | times {l r a b} : Tallies m l a → Tallies m r b → Small (a * b) → Tallies m (.bin .times l r) (a * b)
  | divide {l r a b} : Tallies m l (a * b) → Tallies m r b → b ≠ 0 → Small a → Tallies m (.bin .divide l r) a
  | modulo {l r a b} : Tallies m l a → Tallies m r b → b ≠ 0 → Tallies m (.bin .modulo l r) (a.tmod b)
  /-- the quotient, brought to a whole number: the one that the function makes of the true quotient -/
  | quotient {f l r a b N} : f = .floor ∨ f = .ceil ∨ f = .trunc → Tallies m l a → Tallies m r b → b ≠ 0 →
      |a| < 2 ^ 53 → Picks f (a / b) N → Tallies m (app f (.bin .divide l r)) N
  | rounded {l r a b N} : Tallies m l a → Tallies m r b → b ≠ 0 → |a| < 2 ^ 52 → Picks .round (a / b) N →
      Tallies m (app .round (.bin .divide l r)) N
  | whole {f e a} : f = .floor ∨ f = .ceil ∨ f = .trunc ∨ f = .round → Tallies m e a → Tallies m (app f e) a
  | abs {e a} : Tallies m e a → Tallies m (app .abs e) |a|
  | min {es zs a} : TalliesL m es zs → a ∈ zs → (∀ z ∈ zs, a ≤ z) → Tallies m (.call Builtin.min.toFunc es) a
  | max {es zs a} : TalliesL m es zs → a ∈ zs → (∀ z ∈ zs, z ≤ a) → Tallies m (.call Builtin.max.toFunc es) a
  | sum {es zs} : es ≠ [] → TalliesL m es zs → (zs.map Int.natAbs).sum ≤ 2 ^ 53 →
      Tallies m (.call Builtin.sum.toFunc es) zs.sum
/-- The same for the arguments of a call. -/
inductive TalliesL (m : HMap F64) : List Elem → List ℤ → Prop
  | nil : TalliesL m [] []
  | cons {e es z zs} : Tallies m e z → TalliesL m es zs → TalliesL m (e :: es) (z :: zs)
end

/-- `a - b * f(a / b)`: what `f` leaves of `a`. -/
def restTree (f : Builtin) (a b : Elem) : Elem := .bin .minus a (.bin .times b (app f (.bin .divide a b)))

end Spec
end Xprs
