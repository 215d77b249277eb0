import Verif.Spec.Safe
import Verif.Spec.Value
/-
Writing the same expression in another order.
-/
namespace Xprs
namespace Spec

/-- The functions `min` and `max`. -/
def IsMinMax (f : Func) : Prop := f = Builtin.min.toFunc ∨ f = Builtin.max.toFunc

/-- The trees differ in the order of terms and factors, and in how `min` and `max` are written: the
order of their arguments, arguments given twice, and calls among the arguments of the same
function. -/
inductive Rearranged : Elem → Elem → Prop
  | refl (a) : Rearranged a a
  | symm {a b} : Rearranged a b → Rearranged b a
  | trans {a b c} : Rearranged a b → Rearranged b c → Rearranged a c
  | comm {op} (a b) : op = .plus ∨ op = .times → Rearranged (.bin op a b) (.bin op b a)
  | members {f as bs} : IsMinMax f → (∀ a, a ∈ as ↔ a ∈ bs) → Rearranged (.call f as) (.call f bs)
  | nested {f} (as bs cs) : IsMinMax f → Rearranged (.call f (as ++ .call f bs :: cs)) (.call f (as ++ bs ++ cs))
  | un {op a b} : Rearranged a b → Rearranged (.un op a) (.un op b)
  | bin {op a b c d} : Rearranged a b → Rearranged c d → Rearranged (.bin op a c) (.bin op b d)
  | arg {f as a b bs} : Rearranged a b → Rearranged (.call f (as ++ a :: bs)) (.call f (as ++ b :: bs))

/-- The sum of the absolute values. -/
def amount (vs : List F64) : ℚ := (vs.map fun v => |(value v).getD 0|).sum

end Spec
end Xprs
