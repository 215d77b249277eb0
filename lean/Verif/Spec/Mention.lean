import Verif.Spec.Grammar
/-
Which names a text mentions.
-/
namespace Xprs
namespace Spec

/-- A letter or an apostrophe: what can stand only inside a name (and, as `e` or `E`, in
a number). -/
def wordChar (c : UInt8) : Prop := letter c ∨ c = c!"'"

instance : DecidablePred wordChar := fun _ => inferInstanceAs (Decidable (_ ∨ _))

/-- The name `nm` stands somewhere in the text, as a whole: not behind a letter or an
apostrophe, and not in front of another character of a name. -/
def Mentions (text nm : Bytes) : Prop :=
  ∃ a b, text = a ++ (nm ++ b) ∧ Name nm b ∧ ∀ c, a.getLast? = some c → ¬ wordChar c

end Spec
end Xprs
