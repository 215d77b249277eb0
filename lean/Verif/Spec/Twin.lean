import Verif.Spec.Equal
import Verif.Parser
/-
Vocabulary for results that differ only in their numbers.
-/
namespace Xprs
namespace Spec

mutual
/-- The same tree, but numbers at corresponding places are only equal as `f64` has it. -/
inductive Twin : Elem → Elem → Prop
  | num {x y} : NumEq x y → Twin (.num x) (.num y)
  | var {n} : Twin (.var n) (.var n)
  | un {op a b} : Twin a b → Twin (.un op a) (.un op b)
  | bin {op a a' b b'} : Twin a a' → Twin b b' → Twin (.bin op a b) (.bin op a' b')
  | call {f as bs} : TwinL as bs → Twin (.call f as) (.call f bs)
inductive TwinL : List Elem → List Elem → Prop
  | nil : TwinL [] []
  | cons {a b as bs} : Twin a b → TwinL as bs → TwinL (a :: as) (b :: bs)
end

/-- Outcomes of `parse` that are the same up to a relation of the trees and to the order of the
names that are suggested for an undeclared variable. -/
inductive Matches (T : Elem → Elem → Prop) : PRes → PRes → Prop
  | ok {x y} : T x.root y.root → x.vars = y.vars → Matches T (.ok x) (.ok y)
  | undeclared {v l l' off len} : (∀ u, u ∈ l ↔ u ∈ l') → v ∉ l →
      Matches T (.err ⟨.variableNotDeclared v l, off, len⟩) (.err ⟨.variableNotDeclared v l', off, len⟩)
  | err {e} : Matches T (.err e) (.err e)
  | panic {p} : Matches T (.panic p) (.panic p)

end Spec
end Xprs
