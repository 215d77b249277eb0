import Verif.Context
/-
The derived `==` of `Symbol`, `Context` and `Parser` (`/repo/src/context.rs:7-14, 53-59`,
`/repo/src/parser.rs:37-41`; a parser is its context).
-/
namespace Xprs

/-- `==` of `Symbol` (derived, `context.rs:7`): numbers as `f64`, functions by name, pointer
and number of arguments. -/
def Symbol.eqS : Symbol → Symbol → Bool
  | .var x, .var y => F64.beq x y
  | .func f, .func g => decide (f = g)
  | _, _ => false

/-- `==` of `Option`. -/
def optEq {α : Type} (p : α → α → Prop) : Option α → Option α → Prop
  | some a, some b => p a b
  | none, none => True
  | _, _ => False

/-- `==` of `Context` (derived, `context.rs:53`): the hash maps have the same keys with equal
values, and the sets of expected variables are equal.  It is a proposition, as hash maps are
modelled by functions. -/
def Context.Equal (c c' : Context) : Prop :=
  (∀ nm, optEq (fun a b => a.eqS b = true) (c.symbols.get nm) (c'.symbols.get nm)) ∧
  optEq (fun l l' => ∀ v, v ∈ l ↔ v ∈ l') c.expectedVars c'.expectedVars

end Xprs
