import Verif.Into
import Verif.Spec.Value
import Mathlib.Data.Rat.Defs
/-
The numbers that values of other types stand for (for C132).
-/
namespace Xprs
namespace Spec

/-- The number that the bits of an `f32` stand for, by IEEE 754: sign, exponent biased by 127, fraction; `none` for
infinities and NaN. -/
def single (bits : ℕ) : Option ℚ :=
  let sign : ℚ := if bits.testBit 31 then -1 else 1
  let e : ℕ := bits / 2 ^ 23 % 256
  let f : ℚ := (bits % 2 ^ 23 : ℕ) / 2 ^ 23
  if e = 255 then none
  else if e = 0 then some (sign * f * 2 ^ (-126 : ℤ))
  else some (sign * (1 + f) * 2 ^ ((e : ℤ) - 127))

/-- The number that a value of one of the types stands for. -/
def Stands : Given → ℚ → Prop
  | .f64 x, q => value x = some q
  | .f32 b, q => single b.toNat = some q
  | .bool b, q => b = true ∧ q = 1 ∨ b = false ∧ q = 0
  | .i8 n, q => q = n.toInt
  | .i16 n, q => q = n.toInt
  | .i32 n, q => q = n.toInt
  | .u8 n, q => q = n.toNat
  | .u16 n, q => q = n.toNat
  | .u32 n, q => q = n.toNat

end Spec
end Xprs
