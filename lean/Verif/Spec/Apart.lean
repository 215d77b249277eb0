import Verif.Spec.Value
/-
The strict order of the extended number line.
-/
namespace Xprs
namespace Spec

/-- `a` is less than `b` (neither is NaN). -/
def Less (a b : F64) : Prop := LeF a b ∧ ¬ LeF b a

/-- `a` and `b` are at the same place of the line: equal, or zeros. -/
def OnPar (a b : F64) : Prop := LeF a b ∧ LeF b a

end Spec
end Xprs
