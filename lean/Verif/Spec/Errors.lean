import Verif.Spec.Grammar
import Verif.Parser
/-
What a parse error has to say about the source it is reported for.
-/
namespace Xprs
namespace Spec

/-- The characters an operand may begin with, and `)`. -/
def operandChar (c : UInt8) : Prop :=
  digit c ∨ letter c ∨ c = c!"." ∨ c = c!"+" ∨ c = c!"-" ∨ c = c!"(" ∨ c = c!")"

/-- At `[off, off + len)` the source contains a call, with `got` legal arguments, of a
function declared with `declared` parameters. -/
def CallAt (cfg : Cfg) (fin : Elem → PM Elem) (ctx : Context) (src : Bytes) (off len : Nat)
    (declared got : Nat) : Prop :=
  ∃ (nm ws : Bytes) (as : CArgs) (f : Func) (rest : Bytes), src.drop off = nm ++ ws ++ c!"(" :: as.text ++ c!")" :: rest ∧
    (nm ++ ws ++ c!"(" :: as.text ++ [c!")"]).length = len ∧
    Name nm (ws ++ c!"(" :: as.text ++ c!")" :: rest) ∧ spaces ws ∧
    lookup ctx nm = .func f ∧ f.nbArgs = some declared ∧
    as.count = got ∧ as.wf cfg fin ctx rest

/-- The error is a true statement about the source: the span lies inside it and what
the error says is to be found there. -/
def Report (cfg : Cfg) (fin : Elem → PM Elem) (ctx : Context) (src : Bytes) (e : PErr) : Prop :=
  e.off + e.len ≤ src.length ∧
  match e.kind with
  | .unexpectedEnd => e.off + 1 = src.length ∧ e.len = 0
  | .unexpectedToken c => src[e.off]? = some c ∧ e.len = 0
  | .illegalCharacter c => src[e.off]? = some c ∧ e.len = 0 ∧ ¬ operandChar c ∧ ¬ space c
  | .expectedToken c => (c = c!"(" ∨ c = c!")") ∧ src[e.off]? ≠ some c ∧ e.len = 0
  | .malformedNumber txt =>
    (src.drop e.off).take e.len = txt ∧ txt.length = e.len ∧
    (∃ c, txt.head? = some c ∧ (digit c ∨ c = c!".")) ∧
    ∀ lit rest v, src.drop e.off = lit ++ rest → ¬ Literal lit rest v
  | .missingArgument => e.len = 2
  | .tooFew declared got => got < declared ∧ CallAt cfg fin ctx src e.off e.len declared got
  | .tooMany declared got => declared < got ∧ CallAt cfg fin ctx src e.off e.len declared got
  | .variableNotDeclared _ _ => False

end Spec
end Xprs
