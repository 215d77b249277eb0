import Verif.Repl
import Verif.Spec.Text
import Verif.Spec.Round
/-
What a dialogue with the REPL should look like.
-/
namespace Xprs
namespace Spec

/-- A letter in lower case. -/
def lowered (c : UInt8) : UInt8 := if 65 ≤ c ∧ c ≤ 90 then c + 32 else c

/-- The number with the other sign. -/
def opposite : F64 → F64
  | .nan => .nan
  | .inf s => .inf (!s)
  | .fin s n h => .fin (!s) n h

/-- A number without sign: `inf`, `infinity` or `nan` in any case, or a decimal number,
without underscores, which stands for the nearest binary64 number. -/
def Unsigned (u : Bytes) (y : F64) : Prop :=
  ((u.map lowered = b!"inf" ∨ u.map lowered = b!"infinity") ∧ y = .inf false) ∨
  (u.map lowered = b!"nan" ∧ y = .nan) ∨
  (c!"_" ∉ u ∧ ∃ M E, Decimal u [] M E ∧ NearestF64 (decNum M E * 2 ^ 1074) (decDen E) y)

/-- The text is a number, with or without sign, and it stands for `x`. -/
def Numeral (t : Bytes) (x : F64) : Prop :=
  ∃ u y, Unsigned u y ∧
    (((t = u ∨ t = c!"+" :: u) ∧ x = y) ∨ (t = c!"-" :: u ∧ x = opposite y))

/-- A line, the lines typed in answer to its questions, and the reply. -/
structure Exchange where
  line : Bytes
  answers : List Bytes
  reply : Reply

/-- The lines of a dialogue, in the order they are typed. -/
def typed (xs : List Exchange) : List Bytes := xs.flatMap fun x => x.line :: x.answers

/-- Every question has got a number as its answer: `vals` lists them. -/
def Answered : List Bytes → List F64 → Prop
  | [], [] => True
  | t :: ts, x :: xs => Numeral (strTrim t) x ∧ Answered ts xs
  | _, _ => False

/-- The line is an expression, one number was given for each of its variables, in the
order they were asked for, and the reply is its value; or it is not and the reply is the
error. -/
def Fair (cfg : Cfg) (w : World) (o : Oracle) (x : Exchange) : Prop :=
  strTrim x.line ≠ b!"exit" ∧
  ((∃ ast vals v, parse cfg w o Context.default x.line = .ok ast ∧
      Answered x.answers vals ∧ vals.length = ast.vars.length ∧
      ast.eval w (fun n => ((o.ord ast.vars).zip vals).lookup n) = .ok v ∧
      x.reply = .evaluated v) ∨
   (∃ e, parse cfg w o Context.default x.line = .err e ∧ x.answers = [] ∧ x.reply = .reported e))

/-- The exchanges of a dialogue in which turn `k` asks for variables in the order
`os k`. -/
def Dialogue (cfg : Cfg) (w : World) (os : Nat → Oracle) (xs : List Exchange) : Prop :=
  ∀ i x, xs[i]? = some x → Fair cfg w (os i) x

/-- The `i`-th of the lines; behind the last one the empty text is read again and again. -/
def nth (ls : List Line) (i : Nat) : Line := (ls[i]?).getD (some [])

/-- Why a turn that finds the lines `ls` may end the program. -/
def Ends (cfg : Cfg) (w : World) (o : Oracle) (ls : List Line) : Stop → Prop
  | .bye => ∃ t, nth ls 0 = some t ∧ strTrim t = b!"exit"
  | .ioError => nth ls 0 = none
  | .badAnswer => ∃ t ast, nth ls 0 = some t ∧ parse cfg w o Context.default t = .ok ast ∧
      ∃ i < ast.vars.length, ∀ a, nth ls (i + 1) = some a → ∀ x, ¬ Numeral (strTrim a) x
  | .unreachableBranch => False
  | .libPanic p => ∃ t, nth ls 0 = some t ∧
      (DoubleBang t ∨ (t = [] ∧ cfg.overflowChecks = true ∧ p = .overflow))

end Spec
end Xprs
