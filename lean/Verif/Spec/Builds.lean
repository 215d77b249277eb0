import Verif.Spec.Doc
/-
Vocabulary for comparing two builds of the parser: the inputs in which no number
follows a closing parenthesis directly.
-/
namespace Xprs
namespace Spec

/-- The token begins with a digit: a number literal not written `.5`. -/
def digitTok (t : Bytes) : Prop := ∃ c, t.head? = some c ∧ digit c

/-- The token can end an operand: a number, a name, `)` or `!`. -/
def endsOperand (t : Bytes) : Prop :=
  (∃ c, t.head? = some c ∧ (digit c ∨ c = c!"." ∨ letter c)) ∨ t = b!")" ∨ t = b!"!"

/-- No number beginning with a digit comes right after a closing parenthesis. -/
def ParensApart (ts : List Bytes) : Prop :=
  ∀ p b q, ts = p ++ b!")" :: b :: q → ¬ digitTok b

end Spec
end Xprs
