import Verif.Spec.Root
import Verif.Spec.Tree
import Verif.Eval
/-
Expressions with units of measurement, and what a change of units does (for C95).
-/
namespace Xprs
namespace Spec
set_option exponentiation.threshold 4096

/-- `b` is `a · 2^j`, with the same sign. -/
def Scaled (j : ℤ) (a b : F64) : Prop :=
  (a = .nan ∧ b = .nan) ∨ (∃ s, a = .inf s ∧ b = .inf s) ∨
    ∃ q, value a = some q ∧ value b = some (q * 2 ^ j) ∧ signBit b = signBit a

/-- Zero, infinity or NaN: the numbers that are the same in all units. -/
def Unitless (x : F64) : Prop := ∀ q, value x = some q → q = 0

/-- `Dim Γ e d`: if every variable `n` is measured in the `Γ n`-th power of some unit, the
expression `e` makes sense and is measured in its `d`-th power.  Only quantities of the same
dimension may be added, subtracted, compared or divided with remainder. -/
inductive Dim (Γ : Bytes → ℤ) : Elem → ℤ → Prop
  | num {x} : Dim Γ (.num x) 0
  | unitless {x d} : Unitless x → Dim Γ (.num x) d
  | var {n} : Dim Γ (.var n) (Γ n)
  | pos {e d} : Dim Γ e d → Dim Γ (.un .plus e) d
  | neg {e d} : Dim Γ e d → Dim Γ (.un .minus e) d
  | factorial {e} : Dim Γ e 0 → Dim Γ (.un .factorial e) 0
  | plus {l r d} : Dim Γ l d → Dim Γ r d → Dim Γ (.bin .plus l r) d
  | minus {l r d} : Dim Γ l d → Dim Γ r d → Dim Γ (.bin .minus l r) d
  | modulo {l r d} : Dim Γ l d → Dim Γ r d → Dim Γ (.bin .modulo l r) d
  | times {l r c d} : Dim Γ l c → Dim Γ r d → Dim Γ (.bin .times l r) (c + d)
  | divide {l r c d} : Dim Γ l c → Dim Γ r d → Dim Γ (.bin .divide l r) (c - d)
  | power {l r} : Dim Γ l 0 → Dim Γ r 0 → Dim Γ (.bin .power l r) 0
  | keep {f b args d} : f.func = .builtin b → b ∈ [Builtin.abs, .min, .max, .sum, .mean] →
      (∀ a ∈ args, Dim Γ a d) → Dim Γ (.call f args) d
  | recip {f args d} : f.func = .builtin .recip → (∀ a ∈ args, Dim Γ a d) →
      Dim Γ (.call f args) (-d)
  | sqrt {f args d} : f.func = .builtin .sqrt → (∀ a ∈ args, Dim Γ a (2 * d)) →
      Dim Γ (.call f args) d
  /-- any function of pure numbers -/
  | call {f args} : (∀ a ∈ args, Dim Γ a 0) → Dim Γ (.call f args) 0

/-- An operation with the exact result `p` has not overflowed, and if it has rounded the
result, this is not too small for full precision (IEEE 754: no overflow, no underflow). -/
def Calm (p : ℚ) (r : F64) : Prop := ∃ q, value r = some q ∧ (q = p ∨ 1 / 2 ^ 1022 ≤ |p|)

/-- The operation on `a` and `b` with the result `r` neither overflows nor underflows.
(Remainders never do.) -/
def CalmBin (op : Op) (a b r : F64) : Prop :=
  ∀ p q, value a = some p → value b = some q →
    (op = .plus → Calm (p + q) r) ∧ (op = .minus → Calm (p - q) r) ∧
    (op = .times → Calm (p * q) r) ∧ (op = .divide → q ≠ 0 → Calm (p / q) r)

/-- No addition overflows when `xs` are added to `a`, from left to right. -/
inductive CalmSum : F64 → List F64 → Prop
  | nil {a} : CalmSum a []
  | cons {a x b xs} : Adds a x b → CalmBin .plus a x b → CalmSum b xs → CalmSum a (x :: xs)

/-- The built-in function `b`, called with `vs` and returning `r`, neither overflows nor
underflows on the way, if it is one of those that compute in steps. -/
def CalmCall (w : World) (b : Builtin) (vs : List F64) (r : F64) : Prop :=
  (b = .recip → ∀ x q, vs.head? = some x → value x = some q → q ≠ 0 → Calm (1 / q) r) ∧
  (b = .sum ∨ b = .mean → CalmSum (F64.zero w.sumInit) vs) ∧
  (b = .mean → ∀ s n, SumsTo (F64.zero w.sumInit) vs s → RoundsTo vs.length n →
    CalmBin .divide s n r)

/-- Nothing overflows or underflows when the tree is evaluated. -/
structure Quiet (w : World) (m : HMap F64) (e : Elem) : Prop where
  bin : ∀ op l r a b v, Sub (.bin op l r) e → eval w m l = .ok a → eval w m r = .ok b →
    eval w m (.bin op l r) = .ok v → CalmBin op a b v
  call : ∀ f b args vs v, Sub (.call f args) e → f.func = .builtin b →
    evalL w m args = .ok vs → eval w m (.call f args) = .ok v → CalmCall w b vs v

/-- The units are changed by the factor `2^k`: where a variable `n` had a value in the old
units, it has the value `2^(k · Γ n)` times as large in the new ones. -/
def NewUnits (Γ : Bytes → ℤ) (k : ℤ) (m m' : HMap F64) : Prop :=
  ∀ n, (m n = none ∧ m' n = none) ∨ ∃ a b, m n = some a ∧ m' n = some b ∧ Scaled (k * Γ n) a b

end Spec
end Xprs
