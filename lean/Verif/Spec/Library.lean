import Verif.Spec.Binding
/-
Definitions for C102: the text of a function in place of its calls.
-/
namespace Xprs
namespace Spec

/-- A function the user has made of an expression: where its closure lives, the names it
was bound to, and the tree of the expression. -/
structure Defn where
  addr : Nat
  params : List Bytes
  body : Elem

/-- What stands for a name in a call with the given arguments: the last argument given
for it. -/
def argFor : List Bytes → List Elem → Bytes → Elem
  | p :: ps, a :: as, n =>
    if n ∈ ps.take as.length then argFor ps as n else if n = p then a else .var n
  | _, _, n => .var n

mutual
/-- Every call of the function replaced by its text, with the arguments in place of the
names. -/
def expand (d : Defn) : Elem → Elem
  | .num x => .num x
  | .var n => .var n
  | .bin op l r => .bin op (expand d l) (expand d r)
  | .un op e => .un op (expand d e)
  | .call f args =>
    if f.func = .dyn d.addr then subst (argFor d.params (expandL d args)) d.body
    else .call f (expandL d args)
def expandL (d : Defn) : List Elem → List Elem
  | [] => []
  | a :: as => expand d a :: expandL d as
end

/-- All functions of a library replaced, the newest first. -/
def expandAll : List Defn → Elem → Elem
  | [], e => e
  | d :: ds, e => expandAll ds (expand d e)

end Spec
end Xprs
