import Verif.Spec.Value
import Verif.Spec.Tree
import Verif.Eval
/-
Expressions that rise or fall with their variables (for C76).
-/
namespace Xprs
namespace Spec

/-- `b` is on the side of `a` that `d` tells: not below it if `d`, not above it else. -/
def Moves (d : Bool) (a b : F64) : Prop := if d then LeF a b else LeF b a

/-- The functions that rise with their arguments. -/
def Rises (b : Builtin) : Prop :=
  b ∈ [.floor, .ceil, .round, .trunc, .sqrt, .sum, .mean, .min, .max, .factorial]

/-- The functions that are not negative for arguments that are not. -/
def KeepsSign (b : Builtin) : Prop := Rises b ∨ b = .recip

/-- The tree is plainly not negative, if the variables in `P` are not (`-0` counts as
negative): it is built from such variables and literals without minus signs, or from absolute
values and factorials. -/
inductive Nonneg (P : Bytes → Prop) : Elem → Prop
  | num {x} : signBit x = false → Nonneg P (.num x)
  | var {n} : P n → Nonneg P (.var n)
  | pos {e} : Nonneg P e → Nonneg P (.un .plus e)
  | add {l r} : Nonneg P l → Nonneg P r → Nonneg P (.bin .plus l r)
  | mul {l r} : Nonneg P l → Nonneg P r → Nonneg P (.bin .times l r)
  | div {l r} : Nonneg P l → Nonneg P r → Nonneg P (.bin .divide l r)
  | factorial {e} : Nonneg P (.un .factorial e)
  | abs {f args} : f.func = .builtin .abs → Nonneg P (.call f args)
  | call {f b args} : f.func = .builtin b → KeepsSign b → args ≠ [] →
      (∀ a ∈ args, Nonneg P a) → Nonneg P (.call f args)

/-- The tree plainly rises (`d`) or falls when every variable goes where `D` allows it to go:
`D n true` lets `n` rise, `D n false` lets it fall, both keep it where it is. -/
inductive Goes (D : Bytes → Bool → Prop) (P : Bytes → Prop) : Bool → Elem → Prop
  | num {d x} : Goes D P d (.num x)
  | var {d n} : D n d → Goes D P d (.var n)
  | pos {d e} : Goes D P d e → Goes D P d (.un .plus e)
  | neg {d e} : Goes D P (!d) e → Goes D P d (.un .minus e)
  | factorial {d e} : Goes D P d e → Goes D P d (.un .factorial e)
  | add {d l r} : Goes D P d l → Goes D P d r → Goes D P d (.bin .plus l r)
  | sub {d l r} : Goes D P d l → Goes D P (!d) r → Goes D P d (.bin .minus l r)
  | mul {d l r} : Nonneg P l → Nonneg P r → Goes D P d l → Goes D P d r →
      Goes D P d (.bin .times l r)
  | div {d l r} : Nonneg P l → Nonneg P r → Goes D P d l → Goes D P (!d) r →
      Goes D P d (.bin .divide l r)
  /-- a multiple: a negative factor turns the direction round -/
  | timesL {d c e} : Goes D P (d != signBit c) e → Goes D P d (.bin .times (.num c) e)
  | timesR {d c e} : Goes D P (d != signBit c) e → Goes D P d (.bin .times e (.num c))
  | over {d c e} : Goes D P (d != signBit c) e → Goes D P d (.bin .divide e (.num c))
  | call {d f b args} : f.func = .builtin b → Rises b → (∀ a ∈ args, Goes D P d a) →
      Goes D P d (.call f args)
  | abs {d f args} : f.func = .builtin .abs → (∀ a ∈ args, Nonneg P a) → (∀ a ∈ args, Goes D P d a) →
      Goes D P d (.call f args)
  | recip {d f args} : f.func = .builtin .recip →
      (∀ a ∈ args, Nonneg P a) →
      (∀ a ∈ args, Goes D P (!d) a) → Goes D P d (.call f args)

/-- The variables go from `m` to `m'` as `D` allows, and those in `P` are not negative. -/
def Shift (D : Bytes → Bool → Prop) (P : Bytes → Prop) (m m' : HMap F64) : Prop :=
  (∀ n d a b, D n d → m n = some a → m' n = some b → Moves d a b) ∧
  ∀ n a, P n → m n = some a ∨ m' n = some a → signBit a = false

/-- No part of the tree is NaN. -/
def Clean (w : World) (m : HMap F64) (e : Elem) : Prop :=
  ∀ t, Sub t e → eval w m t ≠ .ok .nan

end Spec
end Xprs
