import Verif.Spec.Accuracy
/-
How close floats are to real numbers, for trees with calls in which terms cancel (for C111).
-/
namespace Xprs
namespace Spec
set_option exponentiation.threshold 4096

/-- What `k` roundings can make of a number, as a factor. -/
noncomputable def growth (k : ℕ) : ℝ := (keep ^ k)⁻¹

/-- `r` is `q` up to `k` roundings of numbers up to `Q`. -/
def OffBy (k : ℕ) (Q q r : ℝ) : Prop := |q| ≤ Q ∧ |r - q| ≤ Q * (growth k - 1)

/-- The float `x` is the real number `q` up to `k` roundings of numbers up to `Q`. -/
def OffTo (k : ℕ) (Q q : ℝ) (x : F64) : Prop := ∃ r : ℚ, value x = some r ∧ OffBy k Q q r

/-- What is known of an argument: its value over the real numbers, the size of its terms, and the
number of roundings. -/
structure Estimate where
  val : ℝ
  size : ℝ
  steps : ℕ

/-- The function `f`, called with floats of which the given is known, returns a float that is `q` up
to `k` roundings of numbers up to `Q`, whatever the signs of zeros among the arguments. -/
def Robust (w : World) (f : Func) (ps : List Estimate) (q Q : ℝ) (k : ℕ) : Prop :=
  ∀ vs, List.Forall₂ (fun p v => OffTo p.steps p.size p.val v) ps vs → ∃ v, CallStep w f vs v ∧ OffTo k Q q v

/-- `Cancels w m e q Q k`: over the real numbers the tree `e` has the value `q`; `Q` is the sum of the
absolute values of its terms, and `k` counts the roundings that can add up.  Terms may cancel, but
not in divisors; the functions called are robust where they are called. -/
inductive Cancels (w : World) (m : HMap F64) : Elem → ℝ → ℝ → ℕ → Prop
  | num {x q Q k} : OffTo k Q q x → Cancels w m (.num x) q Q k
  | var {n x q Q k} : m n = some x → OffTo k Q q x → Cancels w m (.var n) q Q k
  | exact {e q k} : Tracks w m e q k → Cancels w m e q |q| k
  | pos {e p P j} : Cancels w m e p P j → Cancels w m (.un .plus e) p P j
  | neg {e p P j} : Cancels w m e p P j → Cancels w m (.un .minus e) (-p) P j
  | plus {l r p P q Q j k} : Cancels w m l p P j → Cancels w m r q Q k → Middling (P + Q) →
      Cancels w m (.bin .plus l r) (p + q) (P + Q) (max j k + 1)
  | minus {l r p P q Q j k} : Cancels w m l p P j → Cancels w m r q Q k → Middling (P + Q) →
      Cancels w m (.bin .minus l r) (p - q) (P + Q) (max j k + 1)
  | times {l r p P q Q j k} : Cancels w m l p P j → Cancels w m r q Q k → Middling (P * Q) →
      Cancels w m (.bin .times l r) (p * q) (P * Q) (j + k + 1)
  | divide {l r p P q j k} : Cancels w m l p P j → Tracks w m r q k → q ≠ 0 → Middling (P / |q|) →
      Cancels w m (.bin .divide l r) (p / q) (P / |q|) (j + k + 1)
  | call {f es q Q k} {ps : List Estimate} : es.length = ps.length → (∀ p ∈ ps, p.steps ≤ 2 ^ 50) →
      (∀ i (h : i < es.length) (h' : i < ps.length), Cancels w m es[i] ps[i].val ps[i].size ps[i].steps) →
      Robust w f ps q Q k → Cancels w m (.call f es) q Q k

end Spec
end Xprs
