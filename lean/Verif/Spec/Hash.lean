import Verif.Eval
/-
What may depend on the order in which a hash set is iterated (for C74).
-/
namespace Xprs
namespace Spec

/-- The same result of `parse`, or an undeclared variable in both cases, with the
suggestions in some order. -/
def SameParse (ctx : Context) (r r' : PRes) : Prop :=
  r = r' ∨ ∃ vs v v' l l' off len, ctx.getExpected = some vs ∧ v ∉ vs ∧ v' ∉ vs ∧ l.Perm vs ∧ l'.Perm vs ∧
    r = .err ⟨.variableNotDeclared v l, off, len⟩ ∧ r' = .err ⟨.variableNotDeclared v' l', off, len⟩

/-- The same function, the same panic, or errors of the same kind that name the variables of
the same list in some order. -/
def SameBind {α : Type} (r r' : BindRes α) : Prop :=
  r = r' ∨ ∃ l l' : List Bytes, l.Perm l' ∧
    ((r = .err (.one (List.intercalate b!", " l)) ∧ r' = .err (.one (List.intercalate b!", " l'))) ∨
      (r = .err (.multiple (List.intercalate b!", " l)) ∧ r' = .err (.multiple (List.intercalate b!", " l'))))

end Spec
end Xprs
