import Verif.Spec.Equal
import Verif.Spec.Value
/-
Vocabulary for the ordering of expressions.  Nothing here refers to the comparison
functions of the model.
-/
namespace Xprs
namespace Spec

/-- The operators in the order in which they are declared. -/
def operators : List Op := [.plus, .minus, .times, .divide, .power, .modulo, .factorial]

/-- `a` stands before `b` in the list. -/
def Ahead {α : Type} (l : List α) (a b : α) : Prop := ∃ p q r, l = p ++ a :: q ++ b :: r

/-- The kinds of nodes. -/
inductive Kind where
  | number | binary | unary | call | variable

def kinds : List Kind := [.number, .binary, .unary, .call, .variable]

def kindOf : Elem → Kind
  | .num _ => .number | .bin .. => .binary | .un .. => .unary | .call .. => .call
  | .var _ => .variable

/-- Dictionary order of texts. -/
inductive Dict : Bytes → Bytes → Prop
  | nil {b t} : Dict [] (b :: t)
  | head {a b s t} : a < b → Dict (a :: s) (b :: t)
  | tail {a s t} : Dict s t → Dict (a :: s) (a :: t)

/-- `a < b` on the extended number line. -/
def LtF (a b : F64) : Prop := LeF a b ∧ ¬ LeF b a

mutual
/-- The trees agree in everything an ordering by operators, numbers and names can see:
equal numbers, the same operators, variables and names of functions, operands in the same
order. -/
inductive Level : Elem → Elem → Prop
  | num {x y} : NumEq x y → Level (.num x) (.num y)
  | var {n} : Level (.var n) (.var n)
  | un {op a b} : Level a b → Level (.un op a) (.un op b)
  | bin {op a a' b b'} : Level a a' → Level b b' → Level (.bin op a b) (.bin op a' b')
  | call {f g as bs} : f.name = g.name → LevelL as bs → Level (.call f as) (.call g bs)
inductive LevelL : List Elem → List Elem → Prop
  | nil : LevelL [] []
  | cons {a b as bs} : Level a b → LevelL as bs → LevelL (a :: as) (b :: bs)
end

mutual
/-- The order of trees: by kind, then by operator, number, or name, then by the first
operand that differs. -/
inductive Before : Elem → Elem → Prop
  | kind {a b} : Ahead kinds (kindOf a) (kindOf b) → Before a b
  | num {x y} : LtF x y → Before (.num x) (.num y)
  | var {m n} : Dict m n → Before (.var m) (.var n)
  | unOp {o o' a b} : Ahead operators o o' → Before (.un o a) (.un o' b)
  | un {o a b} : Before a b → Before (.un o a) (.un o b)
  | binOp {o o' a b a' b'} : Ahead operators o o' → Before (.bin o a b) (.bin o' a' b')
  | left {o a b a' b'} : Before a a' → Before (.bin o a b) (.bin o a' b')
  | right {o a b a' b'} : Level a a' → Before b b' → Before (.bin o a b) (.bin o a' b')
  | name {f g as bs} : Dict f.name g.name → Before (.call f as) (.call g bs)
  | args {f g as bs} : f.name = g.name → BeforeL as bs → Before (.call f as) (.call g bs)
inductive BeforeL : List Elem → List Elem → Prop
  | nil {b bs} : BeforeL [] (b :: bs)
  | head {a b as bs} : Before a b → BeforeL (a :: as) (b :: bs)
  | tail {a b as bs} : Level a b → BeforeL as bs → BeforeL (a :: as) (b :: bs)
end

end Spec
end Xprs
