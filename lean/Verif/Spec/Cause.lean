import Verif.Spec.Nan
import Verif.Spec.Safe
/-
Where results come from that are not numbers (for C126).
-/
namespace Xprs
namespace Spec
set_option exponentiation.threshold 4096

/-- From here on numbers are rounded to infinity: half a step above the largest number. -/
def TooLarge (q : ℚ) : Prop := 2 ^ 1024 - 2 ^ 970 ≤ |q|

/-- The operation on two numbers has no number for its result. -/
inductive NoNumber (w : World) : Op → F64 → ℚ → F64 → ℚ → Prop
  | plus {a p b q} : TooLarge (p + q) → NoNumber w .plus a p b q
  | minus {a p b q} : TooLarge (p - q) → NoNumber w .minus a p b q
  | times {a p b q} : TooLarge (p * q) → NoNumber w .times a p b q
  | byZero {a p b} : NoNumber w .divide a p b 0
  | divide {a p b q} : q ≠ 0 → TooLarge (p / q) → NoNumber w .divide a p b q
  | modulo {a p b} : NoNumber w .modulo a p b 0
  | power {a p b q} : value (w.powf a b) = none → NoNumber w .power a p b q

/-- A number below 171 that has a factorial. -/
def Countable (q : ℚ) : Prop := ∃ n : ℕ, q = n ∧ n ≤ 170

/-- Here it happens for the first time: `e` is infinity or NaN itself, a variable with such a
value, or an operation or call on numbers that has no number for its result. -/
inductive Breaks (w : World) (m : HMap F64) : Elem → Prop
  | num {x} : value x = none → Breaks w m (.num x)
  | var {n x} : m n = some x → value x = none → Breaks w m (.var n)
  | bin {op l r a b p q} : eval w m l = .ok a → eval w m r = .ok b → value a = some p → value b = some q →
      NoNumber w op a p b q → Breaks w m (.bin op l r)
  | factorial {e a q} : eval w m e = .ok a → value a = some q → ¬ Countable q → Breaks w m (.un .factorial e)
  | call {f args vs v} : evalL w m args = .ok vs → (∀ u ∈ vs, ∃ q, value u = some q) → callFn w f vs = .ok v →
      value v = none → Breaks w m (.call f args)

/-- When the numbers are added to `a`, from left to right, the sum becomes too large. -/
inductive Spills : F64 → List F64 → Prop
  | here {a u p q us} : value a = some p → value u = some q → TooLarge (p + q) → Spills a (u :: us)
  | later {a u us} : Spills (F64.add a u) us → Spills a (u :: us)

/-- A function whose results, as far as they are numbers, do not depend on the signs of zeros. -/
def ZeroBlind (w : World) (f : Func) : Prop :=
  ∀ vs v q, (∀ u ∈ vs, ∃ q, value u = some q) → callFn w f vs = .ok v → value v = some q → CallStep w f vs v

end Spec
end Xprs
