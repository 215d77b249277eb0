import Verif.Spec.Equal
import Verif.Eval
/-
The rewrite rules documented in the comments of `/repo/src/element/simplify.rs:53-272`, one
constructor per comment, and what can be reached by applying them anywhere in a tree.
-/
namespace Xprs
namespace Spec

/-- The literal `0` (of either sign, as `==` does not tell them apart). -/
def LitZero (e : Elem) : Prop := ∃ c, e = .num c ∧ IsZero c
/-- The literal `1`. -/
def LitOne (e : Elem) : Prop := e = .num F64.f1
/-- The same expression up to the order of operands of `+` and `*`. -/
def Equal (a b : Elem) : Prop := Alike NumEq a b

/-- `Rule w n a b`: the comments say that `a` becomes `b`; `n` is whether the rules marked
NIGHTLY count. -/
inductive Rule (w : World) (n : Bool) : Elem → Elem → Prop
  -- `0 + a => a`
  | zero_add {z a} : LitZero z → Rule w n (.bin .plus z a) a
  -- `a + 0 => a`
  | add_zero {a z} : LitZero z → Rule w n (.bin .plus a z) a
  -- `(-a) + a => 0`
  | neg_add {a b} : n = true → Equal a b → Rule w n (.bin .plus (.un .minus a) b) (.num F64.f0)
  -- `a + (-a) => 0`
  | add_neg {a b} : n = true → Equal a b → Rule w n (.bin .plus a (.un .minus b)) (.num F64.f0)
  -- `0 - a => -a`
  | zero_sub {z a} : LitZero z → Rule w n (.bin .minus z a) (.un .minus a)
  -- `a - 0 => a`
  | sub_zero {a z} : LitZero z → Rule w n (.bin .minus a z) a
  -- `a - a => 0`
  | sub_self {a b} : Equal a b → Rule w n (.bin .minus a b) (.num F64.f0)
  -- `a - (-b) => a + b`
  | sub_neg {a b} : n = true → Rule w n (.bin .minus a (.un .minus b)) (.bin .plus a b)
  -- `0 * a => 0`
  | zero_mul {z a} : LitZero z → Rule w n (.bin .times z a) (.num F64.f0)
  -- `a * 0 => 0`
  | mul_zero {a z} : LitZero z → Rule w n (.bin .times a z) (.num F64.f0)
  -- `1 * a => a`
  | one_mul {i a} : LitOne i → Rule w n (.bin .times i a) a
  -- `a * 1 => a`
  | mul_one {a i} : LitOne i → Rule w n (.bin .times a i) a
  -- `(-a) * (-b) => a * b`
  | neg_mul_neg {a b} : n = true →
      Rule w n (.bin .times (.un .minus a) (.un .minus b)) (.bin .times a b)
  -- `0/0 => NaN // special case`
  | zero_div_zero {z z'} : LitZero z → LitZero z' → Rule w n (.bin .divide z z') (.num .nan)
  -- `0 / a => 0`
  | zero_div {z a} : LitZero z → ¬ LitZero a → Rule w n (.bin .divide z a) (.num F64.f0)
  -- `a / 0 => inf`
  | div_zero {a z} : ¬ LitZero a → LitZero z → Rule w n (.bin .divide a z) (.num (.inf false))
  -- `a / 1 => a`
  | div_one {a i} : LitOne i → Rule w n (.bin .divide a i) a
  -- `a / a => 1`
  | div_self {a b} : ¬ LitZero a → Equal a b → Rule w n (.bin .divide a b) (.num F64.f1)
  -- `(-a) / (-b) => a / b`
  | neg_div_neg {a b} : n = true →
      Rule w n (.bin .divide (.un .minus a) (.un .minus b)) (.bin .divide a b)
  -- `0 ^ 0 => 1 // special case`
  | zero_pow_zero {z z'} : LitZero z → LitZero z' → Rule w n (.bin .power z z') (.num F64.f1)
  -- `0 ^ a => 0`
  | zero_pow {z a} : LitZero z → ¬ LitZero a → Rule w n (.bin .power z a) (.num F64.f0)
  -- `a ^ 0 => 1`
  | pow_zero {a z} : LitZero z → Rule w n (.bin .power a z) (.num F64.f1)
  -- `a ^ 1 => a`
  | pow_one {a i} : LitOne i → Rule w n (.bin .power a i) a
  -- `0 % 0 => NaN // special case`
  | zero_mod_zero {z z'} : LitZero z → LitZero z' → Rule w n (.bin .modulo z z') (.num .nan)
  -- `0 % a => 0`
  | zero_mod {z a} : LitZero z → ¬ LitZero a → Rule w n (.bin .modulo z a) (.num F64.f0)
  -- `a % 0 => NaN`
  | mod_zero {a z} : LitZero z → Rule w n (.bin .modulo a z) (.num .nan)
  -- `a % 1 => 0`
  | mod_one {a i} : LitOne i → Rule w n (.bin .modulo a i) (.num F64.f0)
  -- `a % a => 0`
  | mod_self {a b} : ¬ LitZero a → Equal a b → Rule w n (.bin .modulo a b) (.num F64.f0)
  -- `2 Numbers`: their value
  | two_numbers {op a b v} : eval w HMap.empty (.bin op (.num a) (.num b)) = .ok v →
      Rule w n (.bin op (.num a) (.num b)) (.num v)
  -- the match on `UnOp::op`: `+a` is `a`, and `-c` and `c!` have a value
  | positive {a} : Rule w n (.un .plus a) a
  | one_number {op a v} : eval w HMap.empty (.un op (.num a)) = .ok v →
      Rule w n (.un op (.num a)) (.num v)
  -- a call with known arguments has a value
  | known_call {f v} {xs : List F64} : eval w HMap.empty (.call f (xs.map .num)) = .ok v →
      Rule w n (.call f (xs.map .num)) (.num v)

/-- A rule is applied somewhere in the tree. -/
inductive Step (w : World) (n : Bool) : Elem → Elem → Prop
  | rule {a b} : Rule w n a b → Step w n a b
  | left {op a a' b} : Step w n a a' → Step w n (.bin op a b) (.bin op a' b)
  | right {op a b b'} : Step w n b b' → Step w n (.bin op a b) (.bin op a b')
  | operand {op a a'} : Step w n a a' → Step w n (.un op a) (.un op a')
  | arg {f pre a a' post} : Step w n a a' →
      Step w n (.call f (pre ++ a :: post)) (.call f (pre ++ a' :: post))

/-- Rules are applied one after the other. -/
inductive Steps (w : World) (n : Bool) (a : Elem) : Elem → Prop
  | none : Steps w n a a
  | more {b c} : Steps w n a b → Step w n b c → Steps w n a c

/-- The left sides that can be left over: negated literals, `a ^ 0`, and in NIGHTLY builds
sums, products and quotients. -/
def Leftover (n : Bool) (s : Elem) : Prop :=
  (∃ c, s = .un .minus (.num c)) ∨ (∃ a z, s = .bin .power a z ∧ LitZero z) ∨
    (n = true ∧ ∃ op a b, s = .bin op a b ∧ (op = .plus ∨ op = .times ∨ op = .divide))

end Spec
end Xprs
