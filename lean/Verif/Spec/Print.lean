import Verif.Spec.Value
/-
Printing of numbers (for C72).
-/
namespace Xprs
namespace Spec
set_option exponentiation.threshold 4096

/-- The decimal number `M · 10^E` is read as `v`: it is the nearest number. -/
def ReadsTo (M : ℕ) (E : ℤ) (v : F64) : Prop :=
  NearestF64 (decNum M E * 2 ^ 1074) (decDen E) v

/-- `M · 10^E` is the number to print for `v`: it is read as `v`, no decimal number with fewer
places (a greater exponent) is, and of those with as many places it is the closest one. -/
structure Shortest (v : F64) (M : ℕ) (E : ℤ) : Prop where
  reads : ReadsTo M E v
  places : ∀ M' E', E < E' → ¬ ReadsTo M' E' v
  closest : ∀ M' x, ReadsTo M' E v → value v = some x →
    |(decNum M E : ℚ) / decDen E - x| ≤ |(decNum M' E : ℚ) / decDen E - x|

/-- The text is the number `M · 10^E` in digits: digits and zeros, or digits with a point in
front of the last `-E` ones; no needless zeros in front. -/
def Written (txt : Bytes) (M : ℕ) (E : ℤ) : Prop :=
  ∃ ip fp, (∀ c ∈ ip, digit c) ∧ (∀ c ∈ fp, digit c) ∧ ip ≠ [] ∧
    (ip.head? = some c!"0" → ip.length = 1) ∧
    ((0 ≤ E ∧ fp = [] ∧ txt = ip ∧ decVal ip = M * 10 ^ E.toNat) ∨
     (E < 0 ∧ fp.length = (-E).toNat ∧ txt = ip ++ c!"." :: fp ∧ decVal (ip ++ fp) = M))

/-- The text is the number `M · 10^E` with one digit, not zero, in front of the point, no
point if there is no other digit, and an exponent without needless zeros. -/
def Scientific (txt : Bytes) (M : ℕ) (E : ℤ) : Prop :=
  ∃ d ds k, digit d ∧ d ≠ c!"0" ∧ (∀ c ∈ ds, digit c) ∧ decVal (d :: ds) = M ∧
    (∀ c ∈ k, digit c) ∧ k ≠ [] ∧ (k.head? = some c!"0" → k.length = 1) ∧
    decVal k = (E + ds.length).natAbs ∧
    txt = d :: ((if ds = [] then [] else c!"." :: ds) ++
      c!"e" :: (if E + ds.length < 0 then c!"-" :: k else k))

end Spec
end Xprs
