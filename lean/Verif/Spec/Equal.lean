import Verif.Spec.Safe
/-
Vocabulary for equality of expressions: trees that differ only in the order of the
operands of `+` and `*`.
-/
namespace Xprs
namespace Spec

mutual
/-- `Alike R a b`: the trees have the same shape except that the operands of some sums
and products are exchanged; numbers at corresponding places are related by `R`. -/
inductive Alike (R : F64 → F64 → Prop) : Elem → Elem → Prop
  | num {x y} : R x y → Alike R (.num x) (.num y)
  | var {n} : Alike R (.var n) (.var n)
  | un {op a b} : Alike R a b → Alike R (.un op a) (.un op b)
  | bin {op a a' b b'} : Alike R a a' → Alike R b b' → Alike R (.bin op a b) (.bin op a' b')
  | comm {op a a' b b'} : op = .plus ∨ op = .times → Alike R a b' → Alike R b a' →
      Alike R (.bin op a b) (.bin op a' b')
  | call {f as bs} : AlikeL R as bs → Alike R (.call f as) (.call f bs)
inductive AlikeL (R : F64 → F64 → Prop) : List Elem → List Elem → Prop
  | nil : AlikeL R [] []
  | cons {a b as bs} : Alike R a b → AlikeL R as bs → AlikeL R (a :: as) (b :: bs)
end

/-- Equality of numbers as `f64` has it: not NaN, and the zeros are equal. -/
def NumEq (x y : F64) : Prop := x ≠ .nan ∧ Same x y

/-- Every number literal in the tree satisfies `P`. -/
def Literals (P : F64 → Prop) (e : Elem) : Prop := ∀ x, Sub (.num x) e → P x

/-- The smallest congruence on trees that identifies equal numbers, `a+b` with `b+a`
and `a*b` with `b*a`. -/
inductive Cong : Elem → Elem → Prop
  | num {x y} : NumEq x y → Cong (.num x) (.num y)
  | swap {op a b} : op = .plus ∨ op = .times → Cong (.bin op a b) (.bin op b a)
  | refl (a) : Cong a a
  | symm {a b} : Cong a b → Cong b a
  | trans {a b c} : Cong a b → Cong b c → Cong a c
  | un {op a b} : Cong a b → Cong (.un op a) (.un op b)
  | left {op a a' b} : Cong a a' → Cong (.bin op a b) (.bin op a' b)
  | right {op a b b'} : Cong b b' → Cong (.bin op a b) (.bin op a b')
  | arg {f pre post a b} : Cong a b → Cong (.call f (pre ++ a :: post)) (.call f (pre ++ b :: post))

end Spec
end Xprs
