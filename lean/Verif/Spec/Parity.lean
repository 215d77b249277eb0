import Verif.Spec.Safe
/-
Odd and even expressions (for C96).
-/
namespace Xprs
namespace Spec

/-- `y` is `x` with the opposite sign if `odd`, and `x` itself otherwise; the two zeros are
not distinguished. -/
def Flip (odd : Bool) (x y : F64) : Prop := Same (if odd then F64.neg x else x) y

/-- Changing the signs of all arguments of the function changes the sign of its value (`p`)
or nothing (`¬ p`). -/
def FnParity (w : World) (f : Func) (p : Bool) : Prop :=
  ∀ vs v, callFn w f vs = .ok v → ∃ u, callFn w f (vs.map F64.neg) = .ok u ∧ Flip p v u

/-- `Parity w O e p`: if the variables of `O` change their signs, the expression `e`
changes its sign (`p`) or nothing (`¬ p`), by the rules of school. -/
inductive Parity (w : World) (O : Bytes → Bool) : Elem → Bool → Prop
  | num {x} : Parity w O (.num x) false
  | zero {x} : IsZero x → Parity w O (.num x) true
  | var {n} : Parity w O (.var n) (O n)
  | pos {e p} : Parity w O e p → Parity w O (.un .plus e) p
  | neg {e p} : Parity w O e p → Parity w O (.un .minus e) p
  | factorial {e} : Parity w O e false → Parity w O (.un .factorial e) false
  | plus {l r p} : Parity w O l p → Parity w O r p → Parity w O (.bin .plus l r) p
  | minus {l r p} : Parity w O l p → Parity w O r p → Parity w O (.bin .minus l r) p
  | times {l r p q} : Parity w O l p → Parity w O r q → Parity w O (.bin .times l r) (p != q)
  | divide {l r p q} : Parity w O l p → Parity w O r q → Parity w O (.bin .divide l r) (p != q)
  | modulo {l r p} : Parity w O l p → Parity w O r false → Parity w O (.bin .modulo l r) p
  | power {l r} : Parity w O l false → Parity w O r false → Parity w O (.bin .power l r) false
  | call {f args} : (∀ a ∈ args, Parity w O a false) → Parity w O (.call f args) false
  | fn {f args p} : FnParity w f p → (∀ a ∈ args, Parity w O a true) → Parity w O (.call f args) p

/-- The variables of `O` have changed their signs, the others have not changed. -/
def Mirrored (O : Bytes → Bool) (m m' : HMap F64) : Prop :=
  ∀ n x, m n = some x → ∃ y, m' n = some y ∧ Flip (O n) x y

end Spec
end Xprs
