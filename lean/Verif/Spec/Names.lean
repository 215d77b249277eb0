import Mathlib.Data.Nat.Factorial.Basic
import Verif.Spec.Root
import Verif.Spec.Safe
import Verif.Factorial
import Verif.Builtins
/-
The built-in functions as the documentation lists them
(`/repo/README.md:222-233`, `/repo/src/utils/built_in_functions.rs`): name, number of
arguments, meaning.
-/
namespace Xprs
namespace Spec

/-- What a function of the platform does with its arguments: how they are related to the
result. -/
abbrev Meaning := World → List F64 → F64 → Prop

/-- The platform's function `s`, of the one argument. -/
def std1 (s : Std1) : Meaning := fun w args y => ∃ x, args = [x] ∧ y = w.libm1 s x
/-- The platform's function `s`, of the two arguments in the order they are written. -/
def std2 (s : Std2) : Meaning := fun w args y => ∃ x x', args = [x, x'] ∧ y = w.libm2 s x x'
/-- A function of one argument that does not depend on the platform. -/
def own1 (P : F64 → F64 → Prop) : Meaning := fun _ args y => ∃ x, args = [x] ∧ P x y

/-- The part behind the point; NaN for the infinities. -/
def Fraction (x y : F64) : Prop :=
  (∀ q, value x = some q → value y = some (q - truncRat q)) ∧ (value x = none → y = .nan)

/-- The absolute value. -/
def Absolute (x y : F64) : Prop :=
  (∀ q, value x = some q → value y = some |q| ∧ signBit y = false) ∧
  (∀ s, x = .inf s → y = .inf false) ∧ (x = .nan → y = .nan)

/-- One divided by `x`. -/
def Inverse (x y : F64) : Prop := ∃ one, value one = some 1 ∧ Divs one x y

/-- The factorial: NaN unless `x` is a whole number and not negative, infinity from 171
on, and else the true factorial, up to a relative error of `2⁻⁵⁰`. -/
def FactorialOf (x y : F64) : Prop :=
  (x = .nan → y = .nan) ∧ (x = .inf true → y = .nan) ∧ (x = .inf false → y = .inf false) ∧
  (∀ q, value x = some q → (q < 0 ∨ ¬ ∃ k : Nat, q = k) → y = .nan) ∧
  (∀ k : Nat, value x = some (k : ℚ) → 170 < k → y = .inf false) ∧
  (∀ k : Nat, value x = some (k : ℚ) → k ≤ 170 →
    ∃ p, value y = some p ∧ |p - k.factorial| * 2 ^ 50 < k.factorial)

/-- The sum from left to right. -/
def SumOf (args : List F64) (y : F64) : Prop :=
  ∀ x xs, args = x :: xs → ∃ r, SumsTo x xs r ∧ Same y r

/-- The sum divided by the number of arguments. -/
def MeanOf (args : List F64) (y : F64) : Prop :=
  ∀ x xs, args = x :: xs → args.length ≤ 2 ^ 53 →
    ∃ r n m, SumsTo x xs r ∧ value n = some (args.length : ℚ) ∧ Divs r n m ∧ Same y m

structure Row where
  name : Bytes
  /-- `none`: any number -/
  args : Option Nat
  meaning : Meaning

/-- The documented functions. -/
def manual : List Row := [
  ⟨b!"sin", some 1, std1 .sin⟩, ⟨b!"cos", some 1, std1 .cos⟩, ⟨b!"tan", some 1, std1 .tan⟩,
  ⟨b!"asin", some 1, std1 .asin⟩, ⟨b!"acos", some 1, std1 .acos⟩, ⟨b!"atan", some 1, std1 .atan⟩,
  ⟨b!"atan2", some 2, std2 .atan2⟩,
  ⟨b!"sinh", some 1, std1 .sinh⟩, ⟨b!"cosh", some 1, std1 .cosh⟩, ⟨b!"tanh", some 1, std1 .tanh⟩,
  ⟨b!"asinh", some 1, std1 .asinh⟩, ⟨b!"acosh", some 1, std1 .acosh⟩, ⟨b!"atanh", some 1, std1 .atanh⟩,
  ⟨b!"ln", some 1, std1 .ln⟩, ⟨b!"log", some 1, std1 .log10⟩, ⟨b!"logn", some 2, std2 .log⟩,
  ⟨b!"sqrt", some 1, own1 Roots⟩, ⟨b!"cbrt", some 1, std1 .cbrt⟩, ⟨b!"exp", some 1, std1 .exp⟩,
  ⟨b!"floor", some 1, fun _ => Rounding fun q => ⌊q⌋⟩, ⟨b!"ceil", some 1, fun _ => Rounding fun q => ⌈q⌉⟩,
  ⟨b!"round", some 1, fun _ => Rounding fun q => if 0 ≤ q then ⌊q + 1 / 2⌋ else ⌈q - 1 / 2⌉⟩,
  ⟨b!"trunc", some 1, fun _ => Rounding truncRat⟩,
  ⟨b!"abs", some 1, own1 Absolute⟩, ⟨b!"min", none, fun _ => Minimum⟩, ⟨b!"max", none, fun _ => Maximum⟩,
  ⟨b!"hypot", some 2, std2 .hypot⟩, ⟨b!"fract", some 1, own1 Fraction⟩,
  ⟨b!"recip", some 1, own1 Inverse⟩, ⟨b!"invert", some 1, own1 Inverse⟩,
  ⟨b!"sum", none, fun _ => SumOf⟩, ⟨b!"mean", none, fun _ => MeanOf⟩,
  ⟨b!"factorial", some 1, own1 FactorialOf⟩, ⟨b!"gamma", some 1, std1 .tgamma⟩]

/-- `v` is the float nearest to the positive real number `t`. -/
def NearestTo (t : ℝ) (v : F64) : Prop := ∃ n h, v = .fin false n h ∧ NearestReal (t * 2 ^ 1074) n

end Spec
end Xprs
