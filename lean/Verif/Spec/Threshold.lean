import Verif.Spec.Apart
import Verif.Spec.Exact
/-
What C121 says: where the value of a formula passes a number.
-/
namespace Xprs
namespace Spec

/-- `v` lies with respect to `z` as `x` with respect to `s` (`up`), or the other way round. -/
def Sides (v z x s : F64) : Bool → Prop
  | true => (Less v z ↔ Less x s) ∧ (Less z v ↔ Less s x) ∧ (OnPar v z ↔ OnPar x s)
  | false => (Less v z ↔ Less s x) ∧ (Less z v ↔ Less x s) ∧ (OnPar v z ↔ OnPar x s)

/-- The numbers of the format around `s` are no closer than those around `k`: a power of two below
`s` whose double is above `k`. -/
def Coarser (s k : ℚ) : Prop := ∃ e : ℤ, e < 1023 ∧ (2 : ℚ) ^ e < |s| ∧ |k| < 2 ^ (e + 1)

/-- `Passes G e k up a s`: the formula `e` is made from `a` by steps of arithmetic with operands
that do not matter otherwise (`G c y`: the operand `c` has the value `y`), and these steps, done
exactly, lead from the number `s` to the number `k`, through numbers of the format only; `up` if
the formula rises with `a`. -/
inductive Passes (G : Elem → F64 → Prop) : Elem → ℚ → Bool → Elem → ℚ → Prop
  | here {a k} : InF64 k → Passes G a k true a k
  | pos {e k up a s} : Passes G e k up a s → Passes G (.un .plus e) k up a s
  | neg {e k up a s} : Passes G e k up a s → Passes G (.un .minus e) (-k) (!up) a s
  | add {e t up a s c y q} : Passes G e t up a s → G c y → value y = some q → InF64 (t + q) →
      Coarser t (t + q) → Passes G (.bin .plus e c) (t + q) up a s
  | addTo {e t up a s c y q} : Passes G e t up a s → G c y → value y = some q → InF64 (t + q) →
      Coarser t (t + q) → Passes G (.bin .plus c e) (t + q) up a s
  | sub {e t up a s c y q} : Passes G e t up a s → G c y → value y = some q → InF64 (t - q) →
      Coarser t (t - q) → Passes G (.bin .minus e c) (t - q) up a s
  | subFrom {e t up a s c y q} : Passes G e t up a s → G c y → value y = some q → InF64 (q - t) →
      Coarser t (q - t) → Passes G (.bin .minus c e) (q - t) (!up) a s
  | mul {e t up a s c y q} : Passes G e t up a s → G c y → value y = some q → InF64 (t * q) →
      1 / 2 ^ 1021 ≤ |t * q| → Passes G (.bin .times e c) (t * q) (up == decide (0 < q)) a s
  | mulBy {e t up a s c y q} : Passes G e t up a s → G c y → value y = some q → InF64 (t * q) →
      1 / 2 ^ 1021 ≤ |t * q| → Passes G (.bin .times c e) (t * q) (up == decide (0 < q)) a s
  | div {e t up a s c y q} : Passes G e t up a s → G c y → value y = some q → InF64 (t / q) →
      1 / 2 ^ 1021 ≤ |t / q| → Passes G (.bin .divide e c) (t / q) (up == decide (0 < q)) a s

end Spec
end Xprs
