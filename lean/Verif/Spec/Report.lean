import Verif.Syntax
/-
Messages that quote (for C69).
-/
namespace Xprs
namespace Spec

/-- The message ends with the text `part` in backquotes, the first ones in it. -/
def Quotes (message part : Bytes) : Prop :=
  ∃ pre, c!"`" ∉ pre ∧ message = pre ++ c!"`" :: part ++ [c!"`"]

end Spec
end Xprs
