import Verif.Spec.Grammar
/-
Rounding to binary64, as a specification: the grid of numbers with 53 significant bits,
and the point of the grid nearest to a given number.  Magnitudes are in units of
`2⁻¹⁰⁷⁴`.  Nothing here refers to the rounding functions of the model.
-/
namespace Xprs
namespace Spec

/-- `n` has at most 53 significant bits. -/
def Grid (n : Nat) : Prop := ∃ m k, m < 2 ^ 53 ∧ n = m * 2 ^ k

/-- Distance of two numbers. -/
def dist (a b : Nat) : Nat := (a - b) + (b - a)

/-- `n` is the point of the grid nearest to `N / D`.  Of two nearest points it is the
even one: a multiple of twice their distance. -/
structure Nearest (N D n : Nat) : Prop where
  grid : Grid n
  closest : ∀ m, Grid m → dist (n * D) N ≤ dist (m * D) N
  even : ∀ m, Grid m → m ≠ n → dist (m * D) N = dist (n * D) N → 2 * dist m n ∣ n

/-- `v` is the binary64 number nearest to `+ N / D`: the nearest point of the grid if that
is below `2¹⁰²⁴`, else infinity. -/
def NearestF64 (N D : Nat) (v : F64) : Prop :=
  ∃ n, Nearest N D n ∧
    ((n < 2 ^ 2098 ∧ ∃ h, v = .fin false n h) ∨ (2 ^ 2098 ≤ n ∧ v = .inf false))

/-- Numerator of `M · 10^E`. -/
def decNum (M : Nat) (E : Int) : Nat := M * 10 ^ E.toNat
/-- Denominator of `M · 10^E`. -/
def decDen (E : Int) : Nat := 10 ^ (-E).toNat

/-- `txt`, followed by `rest`, is a whole number literal for the decimal number
`M · 10^E`. -/
def Decimal (txt rest : Bytes) (M : Nat) (E : Int) : Prop :=
  ∃ mant ip fp,
    (∃ c, mant.head? = some c ∧ (digit c ∨ c = c!".")) ∧
    (∀ c ∈ mant, mantChar c) ∧ MantShape mant ip fp ∧ M = decVal (ip ++ fp) ∧
    ((txt = mant ∧ notHead mantChar rest ∧ ¬ expStart rest ∧ E = -(fp.length : Int)) ∨
     (∃ e sg ds, (e = c!"e" ∨ e = c!"E") ∧ ds ≠ [] ∧ (∀ c ∈ ds, digit c) ∧
        txt = mant ++ e :: (sg ++ ds) ∧ notHead digit rest ∧
        (((sg = [] ∨ sg = [c!"+"]) ∧ E = (decVal ds : Int) - fp.length) ∨
          (sg = [c!"-"] ∧ E = -(decVal ds : Int) - fp.length))))

/-- A mantissa is fine: it has a digit and not more than one point. -/
def mantOk (mant : Bytes) : Prop := (∃ c ∈ mant, digit c) ∧ mant.count c!"." ≤ 1

/-- `mant` is all of the mantissa of the literal that begins here. -/
def Mantissa (mant rest : Bytes) : Prop :=
  (∃ c, mant.head? = some c ∧ (digit c ∨ c = c!".")) ∧ (∀ c ∈ mant, mantChar c) ∧
  notHead mantChar rest

end Spec
end Xprs
