import Verif.Spec.Laws
/-
Bringing a number into a range.
-/
namespace Xprs
namespace Spec

/-- `((a % b) + b) % b`. -/
def wrapTree (a b : Elem) : Elem := .bin .modulo (.bin .plus (.bin .modulo a b) b) b

/-- `(((a)%(b))+(b))%(b)`: the text, from the texts of `a` (0) and `b` (1). -/
def wrapForm : Form := .infix .modulo (.infix .plus (.infix .modulo (.part 0) (.part 1)) (.part 1)) (.part 1)

/-- `r` is where `p` comes to lie when the line is wound around a circle of circumference `q`,
but for an error of at most `d`. -/
def WrapsTo (q d p r : ℚ) : Prop := 0 ≤ r ∧ r < q ∧ ∃ k : ℤ, |p - k * q - r| ≤ d

end Spec
end Xprs
