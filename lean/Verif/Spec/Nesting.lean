import Verif.Spec.Doc
import Verif.Spec.Tree
/-
Vocabulary for how deeply a text is nested.
-/
namespace Xprs
namespace Spec

/-- At no place of the text are more than `d` parentheses open. -/
def Opens (d : Nat) (text : Bytes) : Prop := ∀ p, p <+: text → depth p ≤ d

/-- The number of signs in front of an operand: of `+` and `-` that come first or behind one of
`( , + - * / % ^ !`, spaces apart.  The first argument says whether such a byte, or none, comes
before the text.  (So a sign behind a factorial counts as well.) -/
def frontSigns : Bool → Bytes → Nat
  | _, [] => 0
  | b, c :: r =>
    if space c then frontSigns b r
    else if c = c!"+" ∨ c = c!"-" then (if b then 1 else 0) + frontSigns true r
    else frontSigns (decide (c ∈ b!"(,*/%^!")) r

end Spec
end Xprs
