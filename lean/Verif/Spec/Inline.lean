import Verif.Spec.Builds
import Verif.Spec.Binding
/-
Replacing names by texts in parentheses (for C84).
-/
namespace Xprs
namespace Spec

/-- The tokens `ts'` are `ts` with every name that `defs` gives a text for replaced by that
text in parentheses. -/
inductive Inlines (defs : Bytes → Option Bytes) : List Bytes → List Bytes → Prop
  | nil : Inlines defs [] []
  | keep {t : Bytes} {ts ts' : List Bytes} : defs t = none → Inlines defs ts ts' →
      Inlines defs (t :: ts) (t :: ts')
  | text {t s : Bytes} {us ts ts' : List Bytes} : defs t = some s → Lex s us → Inlines defs ts ts' →
      Inlines defs (t :: ts) (b!"(" :: (us ++ b!")" :: ts'))

/-- No number beginning with a digit comes right after a replaced name or after `)`. -/
def ApartFromAll (defs : Bytes → Option Bytes) (ts : List Bytes) : Prop :=
  ∀ p a b q, ts = p ++ a :: b :: q → digitTok b → defs a = none ∧ a ≠ b!")"

end Spec
end Xprs
