import Verif.Spec.Pretty
/-
A text written over several lines, put back on one (for C118).
-/
namespace Xprs
namespace Spec

/-- What the reader is doing: reading a line, or passing over the blanks behind a line end, which
came behind a comma or behind the opening bracket given. -/
inductive Mode
  | line
  | comma
  | opened (c : UInt8)

/-- What goes in front of the first character `c` of the next line, and the brackets then open (`true`:
a brace with blanks inside, as of a struct; sets and maps begin with a quotation mark and have none). -/
def before (m : Mode) (st : List Bool) (c : UInt8) : Bytes × List Bool :=
  match m with
  | .line => ([], st)
  | .comma => if closes c then (if c = c!"}" ∧ st.head? = some true then b!" " else [], st.tail) else (b!", ", st)
  | .opened o => if o = c!"{" ∧ c ≠ c!"\"" then (b!" ", true :: st) else ([], false :: st)

/-- Puts a text on one line: the line ends and the blanks behind them are left out, and the comma
behind the last entry of a bracket with them; between two entries a blank remains, and inside
the braces of a struct. -/
def flat : Mode → List Bool → Bytes → Bytes
  | _, _, [] => []
  | m, st, c :: t =>
    match m, decide (c = c!" " ∨ c = c!"\n") with
    | .comma, true => flat .comma st t
    | .opened o, true => flat (.opened o) st t
    | m, _ =>
      (before m st c).1 ++
        if t.head? = some c!"\n" ∧ c = c!"," then flat .comma (before m st c).2 t
        else if t.head? = some c!"\n" ∧ opens c then c :: flat (.opened c) (before m st c).2 t
        else c :: flat .line (before m st c).2 t

end Spec
end Xprs
