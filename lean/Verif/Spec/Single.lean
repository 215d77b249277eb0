import Verif.Spec.Exact
import Verif.Spec.Laws
/-
Formulas that are rounded once (for C130).
-/
namespace Xprs
namespace Spec

/-- `Sure m e q`: the tree needs no rounding, and its value is `q`. -/
inductive Sure (m : HMap F64) : Elem → ℚ → Prop
  | exact {e q} : Exact m e q → Sure m e q
  | pos {e q} : Sure m e q → Sure m (.un .plus e) q
  | neg {e q} : Sure m e q → Sure m (.un .minus e) (-q)
  | abs {e q} : Sure m e q → Sure m (app .abs e) |q|
  | floor {e q} : Sure m e q → Sure m (app .floor e) ⌊q⌋
  | ceil {e q} : Sure m e q → Sure m (app .ceil e) ⌈q⌉
  | trunc {e q} : Sure m e q → Sure m (app .trunc e) (truncRat q)
  | min {a b p q} : Sure m a p → Sure m b q → Sure m (.call Builtin.min.toFunc [a, b]) (min p q)
  | max {a b p q} : Sure m a p → Sure m b q → Sure m (.call Builtin.max.toFunc [a, b]) (max p q)

/-- `Single m e q`: over the rational numbers the tree has the value `q`, and at most one operation in it is
rounded, the last one apart from signs and `abs`. -/
inductive Single (m : HMap F64) : Elem → ℚ → Prop
  | sure {e q} : Sure m e q → Single m e q
  | plus {l r p q} : Sure m l p → Sure m r q → Single m (.bin .plus l r) (p + q)
  | minus {l r p q} : Sure m l p → Sure m r q → Single m (.bin .minus l r) (p - q)
  | times {l r p q} : Sure m l p → Sure m r q → Single m (.bin .times l r) (p * q)
  | divide {l r p q} : Sure m l p → Sure m r q → q ≠ 0 → Single m (.bin .divide l r) (p / q)
  | pos {e q} : Single m e q → Single m (.un .plus e) q
  | neg {e q} : Single m e q → Single m (.un .minus e) (-q)
  | abs {e q} : Single m e q → Single m (app .abs e) |q|

end Spec
end Xprs
