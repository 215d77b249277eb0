import Verif.Spec.Utf8
import Verif.Context
import Verif.Spec.Show
/-
What the theorems about the `Debug` output of errors and parsers speak of.
-/
namespace Xprs
namespace Spec

/-- The bytes of a text (`&str`). -/
def IsText (t : Bytes) : Prop := ∃ cs, t = utf8 cs

/-- The names of the expected variables are texts. -/
def TextNames (ctx : Context) : Prop := ∀ vs, ctx.getExpected = some vs → ∀ n ∈ vs, IsText n

/-- `l` lists the symbols of a context, each once, in any order; all names are texts. -/
def Lists (ctx : Context) (l : List (Bytes × Symbol)) : Prop :=
  (l.map Prod.fst).Nodup ∧ (∀ n s, ctx.get n = some s ↔ (n, s) ∈ l) ∧
    ∀ n s, (n, s) ∈ l → IsText n ∧ ∀ f, s = .func f → IsText f.name

/-- The symbol, with what a function computes left out. -/
def facelessS : Symbol → Symbol
  | .var x => .var x
  | .func f => .func (facelessF f)

/-- The two contexts differ at most in what functions compute. -/
def AlikeCtx (c c' : Context) : Prop :=
  (∀ n, (c.get n).map facelessS = (c'.get n).map facelessS) ∧
    match c.getExpected, c'.getExpected with
    | none, none => True
    | some l, some l' => ∀ v, v ∈ l ↔ v ∈ l'
    | _, _ => False

/-- One line without control characters (those below the space). -/
def OneLine (t : Bytes) : Prop := ∀ b ∈ t, 32 ≤ b

/-- A relation of results that is a total order: exactly one of less, equal and greater, swapped with
the arguments, transitive, and `Equal` only for the same thing. -/
structure TotalOrder {α : Type} (cmp : α → α → Ordering) : Prop where
  eq : ∀ a b, cmp a b = .eq ↔ a = b
  swap : ∀ a b, cmp b a = (cmp a b).swap
  trans : ∀ a b c, cmp a b = .lt → cmp b c = .lt → cmp a c = .lt

end Spec
end Xprs
