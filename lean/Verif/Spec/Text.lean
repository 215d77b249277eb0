import Verif.Spec.Grammar
import Verif.Spec.Tree
/-
Specification vocabulary for input texts.
-/
namespace Xprs
namespace Spec

/-- Two exclamation marks with only whitespace between them occur in the text. -/
def DoubleBang (l : Bytes) : Prop :=
  ∃ a ws b, spaces ws ∧ l = a ++ c!"!" :: (ws ++ c!"!" :: b)

/-- A function the text can name: one of the context, or a built-in one that the
context does not hide. -/
def Named (ctx : Context) (f : Func) : Prop := ∃ nm, lookup ctx nm = .func f

end Spec
end Xprs
