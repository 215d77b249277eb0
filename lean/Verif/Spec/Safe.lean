import Verif.Spec.Tree
/-
Vocabulary for value preservation: equality of floats up to the sign of zero, and a
big-step evaluation relation that leaves out the steps at which algebra over the
reals and `f64` arithmetic differ.
-/
namespace Xprs
namespace Spec

/-- `+0` or `-0`. -/
def IsZero (a : F64) : Prop := ∃ s, a = F64.zero s

/-- The same float, except that the two zeros are not distinguished (NaN is the same
as NaN). -/
def Same (a b : F64) : Prop := a = b ∨ (IsZero a ∧ IsZero b)

/-- `Same`, element by element. -/
inductive SameL : List F64 → List F64 → Prop
  | nil : SameL [] []
  | cons {a b as bs} : Same a b → SameL as bs → SameL (a :: as) (b :: bs)

/-- Greater than zero (infinity included). -/
inductive Positive : F64 → Prop
  | inf : Positive (.inf false)
  | fin {n h} : n ≠ 0 → Positive (.fin false n h)

/-- A finite whole number. -/
def Whole (a : F64) : Prop := ∃ s k h, a = .fin s (k * 2 ^ 1074) h

/-- A binary operation on `f64` that is not one of the doubtful ones.  The result of
`+ - * / %` is not NaN; the divisor is not zero; zero is raised to positive powers
only; remainders modulo one are taken of whole numbers only. -/
inductive BinStep (w : World) : Op → F64 → F64 → F64 → Prop
  | plus {a b} : F64.add a b ≠ .nan → BinStep w .plus a b (F64.add a b)
  | minus {a b} : F64.sub a b ≠ .nan → BinStep w .minus a b (F64.sub a b)
  | times {a b} : F64.mul a b ≠ .nan → BinStep w .times a b (F64.mul a b)
  | divide {a b} : F64.div a b ≠ .nan → ¬ IsZero b → BinStep w .divide a b (F64.div a b)
  | power {a b} : (IsZero a → Positive b) → BinStep w .power a b (w.powf a b)
  | modulo {a b} : F64.rem a b ≠ .nan → (b = F64.f1 → Whole a) →
      BinStep w .modulo a b (F64.rem a b)

/-- A unary operation. -/
inductive UnStep : Op → F64 → F64 → Prop
  | plus {a} : UnStep .plus a a
  | minus {a} : UnStep .minus a (F64.neg a)
  | factorial {a v} : factorial a = .ok v → UnStep .factorial a v

/-- A call whose result does not depend on the sign of zero arguments (up to the sign
of a zero result). -/
def CallStep (w : World) (f : Func) (vs : List F64) (v : F64) : Prop :=
  callFn w f vs = .ok v ∧ ∀ us, SameL vs us → ∃ u, callFn w f us = .ok u ∧ Same v u

mutual
/-- `Runs w m e v`: under the map `m` the tree `e` evaluates to `v`, and no operation
on the way is a doubtful one. -/
inductive Runs (w : World) (m : HMap F64) : Elem → F64 → Prop
  | num {x} : Runs w m (.num x) x
  | var {n x} : m n = some x → Runs w m (.var n) x
  | bin {op l r a b v} : Runs w m l a → Runs w m r b → BinStep w op a b v →
      Runs w m (.bin op l r) v
  | un {op e a v} : Runs w m e a → UnStep op a v → Runs w m (.un op e) v
  | call {f args vs v} : RunsL w m args vs → CallStep w f vs v → Runs w m (.call f args) v
/-- `Runs` for the arguments of a call. -/
inductive RunsL (w : World) (m : HMap F64) : List Elem → List F64 → Prop
  | nil : RunsL w m [] []
  | cons {a as v vs} : Runs w m a v → RunsL w m as vs → RunsL w m (a :: as) (v :: vs)
end

/-- What value preservation needs of `powf` (all true of C `pow`): the first power, the
powers of zero, and the sign of zero being irrelevant except for zero raised to a
non-positive power. -/
structure PowLaws (w : World) : Prop where
  one : ∀ a, w.powf a F64.f1 = a
  zero : ∀ a b, IsZero a → Positive b → IsZero (w.powf a b)
  sign : ∀ a a' b b', Same a a' → Same b b' → (IsZero a → Positive b) →
    Same (w.powf a b) (w.powf a' b')

end Spec
end Xprs
