/-
IEEE-754 binary64 (`f64`) as plain data, with round-to-nearest-even arithmetic.

The code under verification computes with Rust's `f64` everywhere
(`/repo/src/xprs.rs:272-362`, `/repo/src/element/simplify.rs:221-237`,
`/repo/src/utils/factorial.rs`).  Lean's own `Float` is opaque to the kernel, so
this file gives a concrete executable model.

Representation: a finite `f64` is `± n · 2⁻¹⁰⁷⁴` for a natural number `n`
(`2⁻¹⁰⁷⁴` is the smallest subnormal).  `n` is *representable* when
`n < 2²⁰⁹⁸` (i.e. the value is below `2¹⁰²⁴`) and `n` has at most 53
significant bits.  There is one NaN (sign and payload of NaN are not modelled).
-/
namespace Xprs

set_option exponentiation.threshold 4096

/-- The weight (as a power of two) of the last significant bit of a magnitude
`n`: zero for `n < 2⁵³`, so that 53 significant bits are kept. -/
def ulpExp (n : Nat) : Nat := n.log2 - 52

/-- `1.0` in units of `2⁻¹⁰⁷⁴`. -/
@[irreducible] def unit64 : Nat := 2 ^ 1074

/-- `2¹⁰²⁴` in units of `2⁻¹⁰⁷⁴`: the first magnitude that overflows. -/
@[irreducible] def maxMag : Nat := 2 ^ 2098

theorem maxMag_pos : 0 < maxMag := by unfold maxMag; exact Nat.two_pow_pos _
theorem unit64_pos : 0 < unit64 := by unfold unit64; exact Nat.two_pow_pos _

/-- `n · 2⁻¹⁰⁷⁴` is a finite binary64 magnitude. -/
def Rep (n : Nat) : Prop := n < maxMag ∧ n % 2 ^ ulpExp n = 0

instance (n : Nat) : Decidable (Rep n) :=
  inferInstanceAs (Decidable (_ ∧ _))

/-- IEEE-754 binary64 values. `s = true` is the negative sign. -/
inductive F64 where
  | nan
  | inf (s : Bool)
  | fin (s : Bool) (n : Nat) (h : Rep n)

/-- Identity of representations (`NaN` is identical to itself); used only to decide
equations, with the magnitudes compared by `Nat.beq` so that the kernel can evaluate
it quickly. -/
def F64.same : F64 → F64 → Bool
  | .nan, .nan => true
  | .inf s, .inf t => s == t
  | .fin s n _, .fin t m _ => s == t && Nat.beq n m
  | _, _ => false

theorem F64.same_iff (a b : F64) : F64.same a b = true ↔ a = b := by
  cases a <;> cases b <;> simp [F64.same]

instance : DecidableEq F64 := fun a b => decidable_of_iff _ (F64.same_iff a b)

/-- `N / D` rounded to the nearest integer, ties to even (`D > 0`). -/
def rne (N D : Nat) : Nat :=
  let q := N / D
  let r := N % D
  if 2 * r < D then q
  else if D < 2 * r then q + 1
  else if q % 2 = 0 then q else q + 1

/-- The magnitude `N / D` (in units of `2⁻¹⁰⁷⁴`) rounded to 53 significant bits
(fewer for subnormals), nearest, ties to even, with unbounded exponent. -/
def roundMag (N D : Nat) : Nat :=
  let k := ulpExp (N / D)
  rne N (D * 2 ^ k) * 2 ^ k

namespace F64

theorem rep_zero : Rep 0 := ⟨maxMag_pos, Nat.zero_mod _⟩

/-- Signed zero. -/
def zero (s : Bool) : F64 := .fin s 0 rep_zero

/-- IEEE rounding of the exact value `± N / D` (in units of `2⁻¹⁰⁷⁴`, `D > 0`):
nearest-even, overflowing to infinity.  (`Rep` fails only on overflow, see
`rep_roundMag`.) -/
def ofMag (s : Bool) (N D : Nat) : F64 :=
  if h : Rep (roundMag N D) then .fin s (roundMag N D) h else .inf s

/-- A natural number as `f64` (rounded if above `2⁵³`). -/
def ofNat (n : Nat) : F64 := ofMag false (n * unit64) 1

/-- `0.0` -/
def f0 : F64 := zero false
/-- `1.0` -/
def f1 : F64 := ofNat 1

/-- Signed integer value (units of `2⁻¹⁰⁷⁴`). -/
def sv (s : Bool) (n : Nat) : Int := if s then -(n : Int) else n

/-- Unary minus: flips the sign bit. -/
def neg : F64 → F64
  | .nan => .nan
  | .inf s => .inf !s
  | .fin s n h => .fin (!s) n h

/-- `a + b` (round-to-nearest: an exact zero sum is `+0` unless both operands are
negative zeros). -/
def add : F64 → F64 → F64
  | .nan, _ => .nan
  | _, .nan => .nan
  | .inf s, .inf t => if s = t then .inf s else .nan
  | .inf s, .fin _ _ _ => .inf s
  | .fin _ _ _, .inf t => .inf t
  | .fin s n _, .fin t m _ =>
    let z := sv s n + sv t m
    if z = 0 then zero (s && t) else ofMag (decide (z < 0)) z.natAbs 1

/-- `a - b`, which IEEE-754 defines as `a + (-b)`. -/
def sub (a b : F64) : F64 := add a (neg b)

/-- `a * b` -/
def mul : F64 → F64 → F64
  | .nan, _ => .nan
  | _, .nan => .nan
  | .inf s, .inf t => .inf (s != t)
  | .inf s, .fin t m _ => if m = 0 then .nan else .inf (s != t)
  | .fin s n _, .inf t => if n = 0 then .nan else .inf (s != t)
  | .fin s n _, .fin t m _ => ofMag (s != t) (n * m) unit64

/-- `a / b` -/
def div : F64 → F64 → F64
  | .nan, _ => .nan
  | _, .nan => .nan
  | .inf _, .inf _ => .nan
  | .inf s, .fin t _ _ => .inf (s != t)
  | .fin s _ _, .inf t => zero (s != t)
  | .fin s n _, .fin t m _ =>
    if m = 0 then (if n = 0 then .nan else .inf (s != t))
    else ofMag (s != t) (n * unit64) m

/-- `a % b`: C `fmod`, the exact remainder with the sign of the dividend. -/
def rem : F64 → F64 → F64
  | .nan, _ => .nan
  | _, .nan => .nan
  | .inf _, _ => .nan
  | .fin s n h, .inf _ => .fin s n h
  | .fin s n _, .fin _ m _ => if m = 0 then .nan else ofMag s (n % m) 1

/-- Position on the extended number line (`none` for NaN); both zeros are 0. -/
def key : F64 → Option Int
  | .nan => none
  | .inf s => some (sv s maxMag)
  | .fin s n _ => some (sv s n)

/-- The `==` operator on `f64`: false on NaN, `0.0 == -0.0`. -/
def beq (a b : F64) : Bool :=
  match key a, key b with
  | some x, some y => decide (x = y)
  | _, _ => false

/-- The `<` operator on `f64`: false on NaN. -/
def blt (a b : F64) : Bool :=
  match key a, key b with
  | some x, some y => decide (x < y)
  | _, _ => false

/-- `f64::is_infinite` -/
def isInf : F64 → Bool
  | .inf _ => true
  | _ => false

/-- `f64::is_nan` -/
def isNan : F64 → Bool
  | .nan => true
  | _ => false

/-- `f64::trunc`: integer part, towards zero, keeping the sign. -/
def trunc : F64 → F64
  | .nan => .nan
  | .inf s => .inf s
  | .fin s n _ => ofMag s (n / unit64 * unit64) 1

/-- `f64::fract`, defined in std as `self - self.trunc()`. -/
def fract (a : F64) : F64 := sub a (trunc a)

/-- `f64::abs` -/
def abs : F64 → F64
  | .nan => .nan
  | .inf _ => .inf false
  | .fin _ n h => .fin false n h

/-- Round the magnitude up to a whole number. -/
def ceilMag (n : Nat) : Nat := (n + (unit64 - 1)) / unit64 * unit64

/-- `f64::floor` -/
def floor : F64 → F64
  | .nan => .nan
  | .inf s => .inf s
  | .fin s n _ => ofMag s (if s then ceilMag n else n / unit64 * unit64) 1

/-- `f64::ceil` -/
def ceil : F64 → F64
  | .nan => .nan
  | .inf s => .inf s
  | .fin s n _ => ofMag s (if s then n / unit64 * unit64 else ceilMag n) 1

/-- `f64::round`: nearest integer, ties away from zero. -/
def round : F64 → F64
  | .nan => .nan
  | .inf s => .inf s
  | .fin s n _ => ofMag s ((n + unit64 / 2) / unit64 * unit64) 1

/-- `f64::recip`: `1.0 / self`. -/
def recip (a : F64) : F64 := div f1 a

/-- The integer square root of `N`, bit by bit: the greatest `r < acc + 2^k` with
`r * r ≤ N`, starting from `acc`. -/
def isqrtLoop (N : Nat) : Nat → Nat → Nat
  | 0, acc => acc
  | k + 1, acc =>
    if (acc + 2 ^ k) * (acc + 2 ^ k) ≤ N then isqrtLoop N k (acc + 2 ^ k) else isqrtLoop N k acc

/-- The integer square root of a number below `2³¹⁷²`. -/
def isqrt (N : Nat) : Nat := isqrtLoop N 1586 0

/-- `f64::sqrt`, which std guarantees to be the exact root, rounded.  In units of
`2⁻¹⁰⁷⁴` the root of `n` is that of `n · 2¹⁰⁷⁴`; where it is not whole, it is rounded as
the integer part and a half is. -/
def sqrt : F64 → F64
  | .nan => .nan
  | .inf s => if s then .nan else .inf false
  | .fin s n h =>
    if n = 0 then .fin s n h
    else if s then .nan
    else
      let r := isqrt (n * unit64)
      ofMag false (2 * r + if r * r = n * unit64 then 0 else 1) 2

/-- `f64::min`: the other operand if one is NaN.  (For zeros of opposite sign Rust
leaves the choice open; the model keeps the first operand.) -/
def fmin (a b : F64) : F64 :=
  if isNan a then b else if isNan b then a else if blt b a then b else a

/-- `f64::max`, see `fmin`. -/
def fmax (a b : F64) : F64 :=
  if isNan a then b else if isNan b then a else if blt a b then b else a

/-- The `f64` nearest to `M · 10^E`: what `str::parse::<f64>` and decimal literals
in Rust source denote. -/
def ofDecimal (M : Nat) (E : Int) : F64 :=
  if 0 ≤ E then ofMag false (M * 10 ^ E.toNat * unit64) 1
  else ofMag false (M * unit64) (10 ^ (-E).toNat)

/-- Is the value a (finite) whole number? -/
def isInt : F64 → Bool
  | .fin _ n _ => decide (n % unit64 = 0)
  | _ => false

end F64
end Xprs
