import Verif.Spec.Root
import Verif.Spec.Safe
/-
How close floats are to real numbers, for trees with calls and with constants like π (for C91).
-/
namespace Xprs
namespace Spec
set_option exponentiation.threshold 4096

/-- What one rounding leaves at least: `1 - 2⁻⁵³`. -/
noncomputable def keep : ℝ := 1 - 1 / 2 ^ 53

/-- `v` is `q` up to a factor that `k` roundings can make. -/
def Close (k : ℕ) (q v : ℝ) : Prop := ∃ ρ : ℝ, v = q * ρ ∧ keep ^ k ≤ ρ ∧ ρ * keep ^ k ≤ 1

/-- The float `x` is the real number `q` up to `k` roundings. -/
def CloseTo (k : ℕ) (q : ℝ) (x : F64) : Prop := ∃ r : ℚ, value x = some r ∧ Close k q r

/-- Neither very large nor very small. -/
def Middling (q : ℝ) : Prop := q = 0 ∨ (1 / 2 ^ 1000 ≤ |q| ∧ |q| ≤ 2 ^ 1000)

/-- The function `f`, called with floats that are close to the given real numbers (each up to
the given number of roundings), returns a float that is `q` up to `k` roundings, whatever the
signs of zeros among the arguments. -/
def Accurate (w : World) (f : Func) (ps : List (ℝ × ℕ)) (q : ℝ) (k : ℕ) : Prop :=
  ∀ vs, List.Forall₂ (fun p v => CloseTo p.2 p.1 v) ps vs → ∃ v, CallStep w f vs v ∧ CloseTo k q v

/-- `Tracks w m e q k`: over the real numbers the tree `e` has the value `q`; numbers and
variables are close to the real numbers they stand for, results of operations are moderate,
only numbers of the same sign are added and only numbers of different signs subtracted, and
the functions called are accurate where they are called; `k` counts the roundings that can
add up. -/
inductive Tracks (w : World) (m : HMap F64) : Elem → ℝ → ℕ → Prop
  | num {x q k} : CloseTo k q x → Tracks w m (.num x) q k
  | var {n x q k} : m n = some x → CloseTo k q x → Tracks w m (.var n) q k
  | pos {e p j} : Tracks w m e p j → Tracks w m (.un .plus e) p j
  | neg {e p j} : Tracks w m e p j → Tracks w m (.un .minus e) (-p) j
  | plus {l r p q j k} : Tracks w m l p j → Tracks w m r q k → 0 ≤ p * q → Middling (p + q) →
      Tracks w m (.bin .plus l r) (p + q) (max j k + 1)
  | minus {l r p q j k} : Tracks w m l p j → Tracks w m r q k → p * q ≤ 0 → Middling (p - q) →
      Tracks w m (.bin .minus l r) (p - q) (max j k + 1)
  | times {l r p q j k} : Tracks w m l p j → Tracks w m r q k → Middling (p * q) →
      Tracks w m (.bin .times l r) (p * q) (j + k + 1)
  | divide {l r p q j k} : Tracks w m l p j → Tracks w m r q k → q ≠ 0 → Middling (p / q) →
      Tracks w m (.bin .divide l r) (p / q) (j + k + 1)
  | call {f es ps q k} : es.length = ps.length → (∀ p ∈ ps, p.2 ≤ 2 ^ 50) →
      (∀ i (h : i < es.length) (h' : i < ps.length), Tracks w m es[i] ps[i].1 ps[i].2) →
      Accurate w f ps q k → Tracks w m (.call f es) q k

end Spec
end Xprs
