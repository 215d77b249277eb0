import Verif.Spec.Laws
import Verif.Spec.Print
/-
Rounding to decimal places.
-/
namespace Xprs
namespace Spec

/-- `f(a * t) / t`, where `f` makes a whole number of its argument. -/
def placesTree (f : Builtin) (a t : Elem) : Elem := .bin .divide (app f (.bin .times a t)) t

/-- `(f((a)*(t)))/(t)`: the text, from the texts of `a` (0) and `t` (1). -/
def placesForm (f : Builtin) : Form := .infix .divide (.call f (.infix .times (.part 0) (.part 1))) (.part 1)

/-- The whole number `N` is what the function makes of `r`. -/
def Picks : Builtin → ℚ → ℤ → Prop
  | .floor, r, N => N ≤ r ∧ r < N + 1
  | .ceil, r, N => N - 1 < r ∧ r ≤ N
  | .trunc, r, N => |(N : ℚ)| ≤ |r| ∧ |r - N| < 1
  | .round, r, N => |r - N| ≤ 1 / 2 ∧ (|r - N| = 1 / 2 → |r| < |(N : ℚ)|)
  | _, _, _ => False

/-- `v` is the number written `N` with the point in front of the last `k` digits. -/
def LiteralAt (N : ℤ) (k : ℕ) (v : F64) : Prop :=
  ReadsTo N.natAbs (-k) (F64.abs v) ∧ ∃ s, value v = some s ∧ 0 ≤ s * N

/-- In the text there are at most `k` characters behind the point, if there is one. -/
def AtMostPlaces (k : ℕ) (txt : Bytes) : Prop := ∀ ip fp, txt = ip ++ c!"." :: fp → fp.length ≤ k

end Spec
end Xprs
