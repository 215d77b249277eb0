import Verif.Spec.Builds
import Verif.Spec.Binding
/-
Vocabulary for names that are given a value in the context: the texts in which no number
follows such a name directly, and the replacement of a variable by its value.
-/
namespace Xprs
namespace Spec

/-- No number beginning with a digit comes right after the name `n` or after `)`. -/
def ApartFrom (n : Bytes) (ts : List Bytes) : Prop :=
  ∀ p a b q, ts = p ++ a :: b :: q → digitTok b → a ≠ n ∧ a ≠ b!")"

/-- The tree with every occurrence of the variable `n` replaced by the number `v`. -/
def fixVar (n : Bytes) (v : F64) (e : Elem) : Elem :=
  subst (fun k => if k = n then .num v else .var k) e

end Spec
end Xprs
