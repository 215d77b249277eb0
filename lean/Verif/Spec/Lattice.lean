import Verif.Spec.Value
import Verif.Spec.Safe
import Verif.Eval
/-
What the functions `min` and `max` give (for C108).
-/
namespace Xprs
namespace Spec

/-- The built-in function called `name` gives `v` for the arguments `xs`. -/
def Gives (w : World) (name : Bytes) (xs : List F64) (v : F64) : Prop :=
  ∃ f, Ident.fromStr name = .func f ∧ callFn w f xs = .ok v

/-- `x`, brought between `lo` and `hi`. -/
def Clamped (lo x hi v : F64) : Prop :=
  LeF lo v ∧ LeF v hi ∧ (LeF lo x → LeF x hi → Same v x) ∧ (LeF x lo → Same v lo) ∧ (LeF hi x → Same v hi)

end Spec
end Xprs
