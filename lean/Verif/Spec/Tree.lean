import Verif.Simplify
/-
Specification vocabulary for expression trees: occurrence of variables, well-formed
calls, tree size.  Nothing here refers to the functions of the model that traverse
trees.
-/
namespace Xprs
namespace Spec

/-- The variable `n` occurs in the tree. -/
inductive Occurs (n : Bytes) : Elem → Prop
  | here : Occurs n (.var n)
  | left {op l r} : Occurs n l → Occurs n (.bin op l r)
  | right {op l r} : Occurs n r → Occurs n (.bin op l r)
  | operand {op e} : Occurs n e → Occurs n (.un op e)
  | arg {f args a} : a ∈ args → Occurs n a → Occurs n (.call f args)

/-- `t` is a sub-tree of `e` (possibly `e` itself). -/
inductive Sub (t : Elem) : Elem → Prop
  | refl : Sub t t
  | left {op l r} : Sub t l → Sub t (.bin op l r)
  | right {op l r} : Sub t r → Sub t (.bin op l r)
  | operand {op e} : Sub t e → Sub t (.un op e)
  | arg {f args a} : a ∈ args → Sub t a → Sub t (.call f args)

/-- There is no `^` in the tree. -/
def NoPower (e : Elem) : Prop := ∀ l r, ¬ Sub (.bin .power l r) e

/-- The number of arguments `k` is one the function declares to accept (and at least
one: `f()` is not an expression). -/
def ArityOk (f : Func) (k : Nat) : Prop := 0 < k ∧ ∀ n, f.nbArgs = some n → k = n

/-- Every call in the tree has a number of arguments its function declares to
accept, and calls a function that satisfies `P`. -/
def Calls (P : Func → Prop) (e : Elem) : Prop :=
  ∀ f args, Sub (.call f args) e → P f ∧ ArityOk f args.length

/-- The function does not panic when called with a number of arguments it declares to
accept. -/
def FnTotal (w : World) (f : Func) : Prop :=
  ∀ args, ArityOk f args.length → ∃ v, callFn w f args = .ok v

/-- All functions of the context are total in that sense. -/
def CtxTotal (w : World) (ctx : Context) : Prop :=
  ∀ nm f, ctx.get nm = some (.func f) → FnTotal w f

/-- A tree as the documentation has it: binary operators are `+ - * / ^ %`, unary
ones are `+ - !`, calls have as many arguments as declared and call functions that
satisfy `P`. -/
inductive Proper (P : Func → Prop) : Elem → Prop
  | num (x) : Proper P (.num x)
  | var (n) : Proper P (.var n)
  | bin {op l r} : op ≠ .factorial → Proper P l → Proper P r → Proper P (.bin op l r)
  | un {op e} : op = .plus ∨ op = .minus ∨ op = .factorial → Proper P e → Proper P (.un op e)
  | call {f args} : P f → ArityOk f args.length → (∀ a ∈ args, Proper P a) →
      Proper P (.call f args)

mutual
/-- The variables in reading order, with repetitions. -/
def readVars : Elem → List Bytes
  | .num _ => []
  | .var n => [n]
  | .bin _ l r => readVars l ++ readVars r
  | .un _ e => readVars e
  | .call _ args => readVarsL args
def readVarsL : List Elem → List Bytes
  | [] => []
  | a :: as => readVars a ++ readVarsL as
end

mutual
/-- Number of nodes. -/
def size : Elem → Nat
  | .num _ => 1
  | .var _ => 1
  | .bin _ l r => size l + size r + 1
  | .un _ e => size e + 1
  | .call _ args => sizeL args + 1
def sizeL : List Elem → Nat
  | [] => 0
  | a :: as => size a + sizeL as
end

mutual
/-- Number of nodes on the longest path from the root to a leaf.  The depth of the
recursion of every function that walks down a tree (evaluation, printing, comparison,
dropping). -/
def height : Elem → Nat
  | .num _ => 1
  | .var _ => 1
  | .bin _ l r => max (height l) (height r) + 1
  | .un _ e => height e + 1
  | .call _ args => heightL args + 1
def heightL : List Elem → Nat
  | [] => 0
  | a :: as => max (height a) (heightL as)
end

mutual
/-- Number of calls of the function `g`. -/
def callCount (g : Func) : Elem → Nat
  | .num _ => 0
  | .var _ => 0
  | .bin _ l r => callCount g l + callCount g r
  | .un _ e => callCount g e
  | .call f args => (if f = g then 1 else 0) + callCountL g args
def callCountL (g : Func) : List Elem → Nat
  | [] => 0
  | a :: as => callCount g a + callCountL g as
end

/-- A negated literal, `-(c)`, occurs as a node of the tree. -/
def NegLit (e : Elem) : Prop := ∃ c, Sub (.un .minus (.num c)) e

/-- No subtraction occurs in the tree. -/
def NoSub (e : Elem) : Prop := ∀ l r, ¬ Sub (.bin .minus l r) e

end Spec
end Xprs
