import Verif.Repl
/-
How `{:#?}` relates to `{:?}`, and reports of errors that can be told apart.
-/
namespace Xprs
namespace Spec

/-- A new line, indented by four blanks for each of `d` brackets. -/
def newline (d : Nat) : Bytes := c!"\n" :: List.replicate (4 * d) c!" "

def opens (c : UInt8) : Prop := c ∈ b!"([{"
def closes (c : UInt8) : Prop := c ∈ b!")]}"
instance (c : UInt8) : Decidable (opens c) := inferInstanceAs (Decidable (_ ∈ _))
instance (c : UInt8) : Decidable (closes c) := inferInstanceAs (Decidable (_ ∈ _))

/-- The text of `{:?}`, read inside `d` brackets, laid out with every entry of a bracket on a
line of its own, followed by a comma, and the closing bracket on the next line; empty brackets
are left as they are; blanks just inside of brackets and behind commas are left out. -/
def layout : Nat → Bytes → Bytes
  | _, [] => []
  | d, c :: t =>
    if opens c then
      match t with
      | [] => [c]
      | c' :: t' =>
        if closes c' then c :: c' :: layout d t'
        else if c' = c!" " then c :: (newline (d + 1) ++ layout (d + 1) t')
        else c :: (newline (d + 1) ++ layout (d + 1) (c' :: t'))
    else if closes c then c!"," :: (newline (d - 1) ++ c :: layout (d - 1) t)
    else if c = c!"," then
      match t with
      | [] => [c]
      | _ :: t' => c :: (newline d ++ layout d t')
    else if c = c!" " ∧ t.head? = some c!"}" then layout d t
    else c :: layout d t

/-- The reports of the errors in `rs` and `rs'` say which error they are of, whatever follows, and
look neither like the answer to an expression nor like the farewell. -/
structure Telling (report report' : PErr → Bytes) (rs rs' : List Reply) : Prop where
  inj : ∀ e e', .reported e ∈ rs → .reported e' ∈ rs' → ∀ r r',
    report e ++ b!"\n" ++ r = report' e' ++ b!"\n" ++ r' → e = e' ∧ r = r'
  start : ∀ e, .reported e ∈ rs → ∀ r r', report e ++ b!"\n" ++ r ≠ b!"Interpreted as: " ++ r' ∧
    report e ++ b!"\n" ++ r ≠ b!"Bye!\n" ++ r'
  start' : ∀ e, .reported e ∈ rs' → ∀ r r', report' e ++ b!"\n" ++ r ≠ b!"Interpreted as: " ++ r' ∧
    report' e ++ b!"\n" ++ r ≠ b!"Bye!\n" ++ r'

end Spec
end Xprs
