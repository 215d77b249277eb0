import Verif.Context
/-
The values that `Context::set_var` and `with_var` accept (`/repo/src/context.rs:64-78`,
`T: Into<f64>`): the types for which std has `From<T> for f64` (`library/core/src/convert/num.rs`).
The conversion is a cast `as f64`, which rounds to nearest where it must.

Not modelled: types of the user with their own `Into<f64>`, which is code of the user, and the
unstable `f16`.
-/
namespace Xprs

/-- A value of one of these types; an `f32` is given by its bits. -/
inductive Given where
  | f64 (x : F64)
  | f32 (bits : UInt32)
  | bool (b : Bool)
  | i8 (n : Int8)
  | i16 (n : Int16)
  | i32 (n : Int32)
  | u8 (n : UInt8)
  | u16 (n : UInt16)
  | u32 (n : UInt32)

/-- An integer `as f64`: rounded to nearest; there is no negative zero. -/
def F64.ofInt (z : Int) : F64 := F64.ofMag (decide (z < 0)) (z.natAbs * unit64) 1

/-- An `f32` `as f64`, from the 1 + 8 + 23 bits of binary32: the unit of an `f32` is `2⁻¹⁴⁹`, which is `2⁹²⁵`
units of `2⁻¹⁰⁷⁴`. -/
def F64.ofF32 (bits : Nat) : F64 :=
  let s := decide (2 ^ 31 ≤ bits)
  let e := bits / 2 ^ 23 % 2 ^ 8
  let m := bits % 2 ^ 23
  if e = 255 then if m = 0 then .inf s else .nan
  else if e = 0 then .ofMag s (m * 2 ^ 925) 1
  else .ofMag s ((2 ^ 23 + m) * 2 ^ (e - 1) * 2 ^ 925) 1

/-- `value.into()` -/
def Given.into : Given → F64
  | .f64 x => x
  | .f32 b => .ofF32 b.toNat
  | .bool b => .ofInt (if b then 1 else 0)
  | .i8 n => .ofInt n.toInt
  | .i16 n => .ofInt n.toInt
  | .i32 n => .ofInt n.toInt
  | .u8 n => .ofInt n.toNat
  | .u16 n => .ofInt n.toNat
  | .u32 n => .ofInt n.toNat

/-- `set_var` / `with_var` for all of these types (`/repo/src/context.rs:64-78`). -/
def Context.setGiven (c : Context) (name : Bytes) (v : Given) : Context := c.setVar name v.into

end Xprs
