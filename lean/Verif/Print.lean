import Verif.Parser
/-
`Display for f64` of the standard library, which prints the numbers of expressions
(`/repo/src/element/mod.rs:38`), and `Debug for f64`, which prints values
(`/repo/src/bin/repl.rs:36-39`).  `Display`: the shortest decimal number that reads back as
the same number and, of these, the closest one; never with an exponent.  (Of two equally
close ones the greater one, as in `core::num::flt2dec::strategy::dragon`; std does not
document this.)  `Debug`: the same digits, with at least one behind the point, or with an
exponent if the number is small or large (`core::fmt::float`).
-/
namespace Xprs

/-- `Display` of a `u8` or `usize`. -/
def decimal (n : Nat) : Bytes :=
  if n < 10 then [UInt8.ofNat (48 + n)] else decimal (n / 10) ++ [UInt8.ofNat (48 + n % 10)]

/-- `M · 10^E` reads back as the number `n` (in units of `2⁻¹⁰⁷⁴`). -/
def readsAs (n M : Nat) (E : Int) : Bool :=
  match F64.ofDecimal M E with
  | .fin false k _ => decide (k = n)
  | _ => false

/-- The closest multiple of `10^E` that reads back as `n`. -/
def candidate (n : Nat) (E : Int) : Option Nat :=
  let N := n * 10 ^ (-E).toNat
  let D := unit64 * 10 ^ E.toNat
  let q := N / D
  let near := if 2 * (N % D) < D then q else q + 1
  let far := if 2 * (N % D) < D then q + 1 else q
  if readsAs n near E then some near
  else if readsAs n far E then some far
  else none

/-- The first exponent, going down from `E`, for which there is one. -/
def searchFrom (n : Nat) : Nat → Int → Nat × Int
  | 0, E => (0, E)
  | k + 1, E =>
    match candidate n E with
    | some M => (M, E)
    | none => searchFrom n k (E - 1)

/-- The digits and the exponent printed for `n`.  The number is less than `10^k`, where `k` is
the number of digits of its integral part, and a multiple of `10⁻¹⁰⁷⁴`. -/
def shortest (n : Nat) : Nat × Int :=
  if n = 0 then (0, 0)
  else
    let k := (decimal (n / unit64)).length
    searchFrom n (k + 1075) k

/-- The number `M · 10^E` in digits, with a point if needed. -/
def decText (M : Nat) (E : Int) : Bytes :=
  if 0 ≤ E then decimal M ++ List.replicate E.toNat c!"0"
  else
    let k := (-E).toNat
    let ds := List.replicate (k + 1 - (decimal M).length) c!"0" ++ decimal M
    ds.take (ds.length - k) ++ c!"." :: ds.drop (ds.length - k)

/-- `Display for f64` -/
def fmtF64 : F64 → Bytes
  | .nan => b!"NaN"
  | .inf s => if s then b!"-inf" else b!"inf"
  | .fin s n _ => (if s then b!"-" else []) ++ decText (shortest n).1 (shortest n).2

/-- The number `M · 10^E` with one digit in front of the point and an exponent. -/
def expText (M : Nat) (E : Int) : Bytes :=
  (decimal M).take 1 ++ (if (decimal M).length = 1 then [] else c!"." :: (decimal M).drop 1) ++
    c!"e" :: (if E + (decimal M).length < 1 then b!"-" else []) ++ decimal (E + (decimal M).length - 1).natAbs

/-- `(abs != 0.0 && abs < 1e-4) || abs >= 1e+16` -/
def usesExp (x : F64) : Bool :=
  (!F64.beq x F64.f0 && F64.blt x (F64.ofDecimal 1 (-4))) || !F64.blt x (F64.ofDecimal 1 16)

/-- `Debug for f64` -/
def debugF64 : F64 → Bytes
  | .nan => b!"NaN"
  | .inf s => if s then b!"-inf" else b!"inf"
  | .fin s n h => (if s then b!"-" else []) ++
    if usesExp (.fin false n h) then expText (shortest n).1 (shortest n).2
    else decText (shortest n).1 (shortest n).2 ++ (if 0 ≤ (shortest n).2 then b!".0" else [])

end Xprs
