import Verif.Spec.Value
/-
The arithmetic of IEEE 754, as relations between operands and result.
-/
namespace Xprs
namespace Spec

/-- `a + b` is `r`. -/
inductive Adds : F64 → F64 → F64 → Prop
  | nanL {b} : Adds .nan b .nan
  | nanR {a} : Adds a .nan .nan
  | opposite {s} : Adds (.inf s) (.inf (!s)) .nan
  | infL {s b} : b ≠ .nan → b ≠ .inf (!s) → Adds (.inf s) b (.inf s)
  | infR {s a} : a ≠ .nan → a ≠ .inf (!s) → Adds a (.inf s) (.inf s)
  /-- an exact zero is negative only if both operands are -/
  | finite {a b r p q} : value a = some p → value b = some q → RoundsTo (p + q) r →
      (p + q = 0 → signBit r = (signBit a && signBit b)) → Adds a b r

/-- `a - b` is `r`. -/
def Subs (a b r : F64) : Prop := Adds a (F64.neg b) r

/-- `a * b` is `r`. -/
inductive Muls : F64 → F64 → F64 → Prop
  | nanL {b} : Muls .nan b .nan
  | nanR {a} : Muls a .nan .nan
  | infZero {s b} : value b = some 0 → Muls (.inf s) b .nan
  | zeroInf {s a} : value a = some 0 → Muls a (.inf s) .nan
  | infL {s b} : b ≠ .nan → value b ≠ some 0 → Muls (.inf s) b (.inf (s != signBit b))
  | infR {s a} : a ≠ .nan → value a ≠ some 0 → Muls a (.inf s) (.inf (signBit a != s))
  | finite {a b r p q} : value a = some p → value b = some q → RoundsTo (p * q) r →
      signBit r = (signBit a != signBit b) → Muls a b r

/-- `a / b` is `r`. -/
inductive Divs : F64 → F64 → F64 → Prop
  | nanL {b} : Divs .nan b .nan
  | nanR {a} : Divs a .nan .nan
  | infInf {s t} : Divs (.inf s) (.inf t) .nan
  | zeroZero {a b} : value a = some 0 → value b = some 0 → Divs a b .nan
  | infL {s b q} : value b = some q → Divs (.inf s) b (.inf (s != signBit b))
  | infR {s a p r} : value a = some p → value r = some 0 → signBit r = (signBit a != s) →
      Divs a (.inf s) r
  | byZero {a b p} : value a = some p → p ≠ 0 → value b = some 0 →
      Divs a b (.inf (signBit a != signBit b))
  | finite {a b r p q} : value a = some p → value b = some q → q ≠ 0 → RoundsTo (p / q) r →
      signBit r = (signBit a != signBit b) → Divs a b r

/-- `a % b` is `r` (the remainder of division towards zero, C's `fmod`). -/
inductive Rems : F64 → F64 → F64 → Prop
  | nanL {b} : Rems .nan b .nan
  | nanR {a} : Rems a .nan .nan
  | infL {s b} : Rems (.inf s) b .nan
  | byZero {a b} : value b = some 0 → Rems a b .nan
  | infR {s a p} : value a = some p → Rems a (.inf s) a
  | finite {a b r p q} : value a = some p → value b = some q → q ≠ 0 →
      value r = some (p - q * truncRat (p / q)) → signBit r = signBit a → Rems a b r

/-- Adding `xs` to `a`, from left to right, is `r`. -/
inductive SumsTo : F64 → List F64 → F64 → Prop
  | nil {a} : SumsTo a [] a
  | cons {a x xs b r} : Adds a x b → SumsTo b xs r → SumsTo a (x :: xs) r

/-- What a rounding function does: finite numbers are rounded exactly and keep their sign
(so that `-0.5` becomes `-0`); infinities and NaN are kept. -/
def Rounding (r : ℚ → ℤ) (args : List F64) (y : F64) : Prop :=
  ∀ x, args = [x] →
    (∀ q, value x = some q → value y = some (r q : ℚ) ∧ signBit y = signBit x) ∧
    (∀ s, x = .inf s → y = x) ∧ (x = .nan → y = .nan)

end Spec
end Xprs
