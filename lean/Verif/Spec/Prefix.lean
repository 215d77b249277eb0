import Verif.Parser
/-
Texts that begin alike, and where an error is found (for C66).
-/
namespace Xprs.Spec

/-- `l` and `l'` do not differ in their first `n` bytes (a text that ends earlier
differs from one that goes on). -/
def SameStart (n : Nat) (l l' : Bytes) : Prop := l.take n = l'.take n

/-- How much of a text of `n` bytes stands before the place where the error is found:
everything before the offending byte, before the number that cannot be read, up to the
closing parenthesis of a call with a wrong number of arguments, up to the place of a
missing argument, or the whole text. -/
def foundAt (e : PErr) (n : Nat) : Nat :=
  match e.kind with
  | .unexpectedEnd => n
  | .variableNotDeclared _ _ => n
  | .unexpectedToken _ | .illegalCharacter _ | .expectedToken _ => e.off
  | .malformedNumber _ => e.off
  | .tooFew _ _ | .tooMany _ _ => e.off + e.len
  | .missingArgument => e.off + 1

/-- What is put behind a text to complete it: an operand if one is missing, and closing
parentheses. -/
def Filler (tail : Bytes) : Prop :=
  ∃ k, tail = List.replicate k c!")" ∨ tail = b!"(0)" ++ List.replicate k c!")"

/-- The context `ctx'` knows the same names as `ctx` but lets every function take any
number of arguments and any variable occur. -/
def Loosened (ctx ctx' : Context) : Prop :=
  ctx'.getExpected = none ∧
  ∀ nm, match lookup ctx nm with
    | .const x => lookup ctx' nm = .const x
    | .var v => lookup ctx' nm = .var v
    | .func f => lookup ctx' nm = .func { f with nbArgs := none }

/-- No two functions of the context differ in their arities only. -/
def OneArity (ctx : Context) : Prop :=
  ∀ n m f g, lookup ctx n = .func f → lookup ctx m = .func g → f.name = g.name →
    f.func = g.func → f = g

end Xprs.Spec
