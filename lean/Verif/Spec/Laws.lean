import Verif.Spec.Value
import Verif.Spec.Compose
import Verif.Spec.Safe
/-
Laws of arithmetic that floating-point numbers obey to the bit.
-/
namespace Xprs
namespace Spec

/-- A built-in function applied to one operand. -/
def app (b : Builtin) (a : Elem) : Elem := .call b.toFunc [a]

/-- The functions that make a whole number of their argument. -/
def toWhole : List Builtin := [.floor, .ceil, .round, .trunc]

/-- The two sides have the same value, bit for bit, whatever their operands are: infinite, NaN,
negative zeros, or so large or small that the result overflows or underflows. -/
inductive Law : Elem → Elem → Prop
  | addComm (a b) : Law (.bin .plus a b) (.bin .plus b a)
  | mulComm (a b) : Law (.bin .times a b) (.bin .times b a)
  | sub (a b) : Law (.bin .minus a b) (.bin .plus a (.un .minus b))
  | plus (a) : Law (.un .plus a) a
  | negNeg (a) : Law (.un .minus (.un .minus a)) a
  | mulNeg (a b) : Law (.bin .times (.un .minus a) b) (.un .minus (.bin .times a b))
  | divNeg (a b) : Law (.bin .divide (.un .minus a) b) (.un .minus (.bin .divide a b))
  | negDiv (a b) : Law (.bin .divide a (.un .minus b)) (.un .minus (.bin .divide a b))
  | remNeg (a b) : Law (.bin .modulo (.un .minus a) b) (.un .minus (.bin .modulo a b))
  | negRem (a b) : Law (.bin .modulo a (.un .minus b)) (.bin .modulo a b)
  | remRem (a b) : Law (.bin .modulo (.bin .modulo a b) b) (.bin .modulo a b)
  | double (a) : Law (.bin .plus a a) (.bin .times (.num (F64.ofNat 2)) a)
  | one (a) : Law (.bin .times (.num F64.f1) a) a
  /-- dividing by 2 is multiplying with 0.5, and so for every number with an exact inverse -/
  | inverse (a) {c d : F64} {p q : ℚ} : value c = some p → value d = some q → p * q = 1 →
      Law (.bin .divide a (.num c)) (.bin .times a (.num d))
  | subZero (a) : Law (.bin .minus a (.num F64.f0)) a
  | recip (a) : Law (app .recip a) (.bin .divide (.num F64.f1) a)
  | absNeg (a) : Law (app .abs (.un .minus a)) (app .abs a)
  | absAbs (a) : Law (app .abs (app .abs a)) (app .abs a)
  | absMul (a b) : Law (app .abs (.bin .times a b)) (.bin .times (app .abs a) (app .abs b))
  | absDiv (a b) : Law (app .abs (.bin .divide a b)) (.bin .divide (app .abs a) (app .abs b))
  | absRem (a b) : Law (app .abs (.bin .modulo a b)) (.bin .modulo (app .abs a) b)
  | floorNeg (a) : Law (app .floor (.un .minus a)) (.un .minus (app .ceil a))
  | truncNeg (a) : Law (app .trunc (.un .minus a)) (.un .minus (app .trunc a))
  | roundNeg (a) : Law (app .round (.un .minus a)) (.un .minus (app .round a))
  | whole {f g} (a) : f ∈ toWhole → g ∈ toWhole → Law (app f (app g a)) (app g a)

/-- What can be shown with the laws: they may be used in both directions, one after the other,
and anywhere in a tree. -/
inductive ByLaws : Elem → Elem → Prop
  | law {a b} : Law a b → ByLaws a b
  | refl (a) : ByLaws a a
  | symm {a b} : ByLaws a b → ByLaws b a
  | trans {a b c} : ByLaws a b → ByLaws b c → ByLaws a c
  | un {op a b} : ByLaws a b → ByLaws (.un op a) (.un op b)
  | bin {op a b a' b'} : ByLaws a a' → ByLaws b b' → ByLaws (.bin op a b) (.bin op a' b')
  | arg {f as a b bs} : ByLaws a b → ByLaws (.call f (as ++ a :: bs)) (.call f (as ++ b :: bs))

/-- Laws of real arithmetic that hold of floats but for the sign of a zero. -/
inductive ZeroLaw : Elem → Elem → Prop
  | addZero (a) : ZeroLaw (.bin .plus a (.num F64.f0)) a
  | zeroSub (a) : ZeroLaw (.bin .minus (.num F64.f0) a) (.un .minus a)
  | negAdd (a b) : ZeroLaw (.un .minus (.bin .plus a b)) (.bin .plus (.un .minus a) (.un .minus b))
  | negSub (a b) : ZeroLaw (.un .minus (.bin .minus a b)) (.bin .minus b a)
  | fractNeg (a) : ZeroLaw (app .fract (.un .minus a)) (.un .minus (app .fract a))

/-- Laws of real arithmetic (some of them for numbers other than zero) that floats break. -/
inductive NoLaw : (Elem → Elem → Elem → Elem) → (Elem → Elem → Elem → Elem) → Prop
  | addAssoc : NoLaw (fun a b c => .bin .plus (.bin .plus a b) c) (fun a b c => .bin .plus a (.bin .plus b c))
  | mulAssoc : NoLaw (fun a b c => .bin .times (.bin .times a b) c) (fun a b c => .bin .times a (.bin .times b c))
  | distrib : NoLaw (fun a b c => .bin .times a (.bin .plus b c))
      (fun a b c => .bin .plus (.bin .times a b) (.bin .times a c))
  | addSub : NoLaw (fun a b _ => .bin .minus (.bin .plus a b) b) (fun a _ _ => a)
  | mulDiv : NoLaw (fun a b _ => .bin .times (.bin .divide a b) b) (fun a _ _ => a)
  | divMul : NoLaw (fun a b _ => .bin .divide (.bin .times a b) b) (fun a _ _ => a)
  | inverse : NoLaw (fun a b _ => .bin .divide a b) (fun a b _ => .bin .times a (.bin .divide (.num F64.f1) b))
  | sqrtSq : NoLaw (fun a _ _ => .bin .times (app .sqrt a) (app .sqrt a)) (fun a _ _ => a)
  | parts : NoLaw (fun a b c => .bin .divide (.bin .plus a b) c)
      (fun a b c => .bin .plus (.bin .divide a c) (.bin .divide b c))

/-- A way to put texts together: `part i` is the `i`-th of them. -/
inductive Form
  | part (i : Nat)
  | neg (f : Form)
  | pos (f : Form)
  | infix (op : Op) (f g : Form)
  | call (b : Builtin) (f : Form)

/-- The text, with every operand in parentheses. -/
def Form.text (s : Nat → Bytes) : Form → Bytes
  | .part i => s i
  | .neg f => c!"-" :: inParens (f.text s)
  | .pos f => c!"+" :: inParens (f.text s)
  | .infix op f g => inParens (f.text s) ++ opChar op :: inParens (g.text s)
  | .call b f => b.name ++ inParens (f.text s)

/-- The same with trees. -/
def Form.tree (e : Nat → Elem) : Form → Elem
  | .part i => e i
  | .neg f => .un .minus (f.tree e)
  | .pos f => .un .plus (f.tree e)
  | .infix op f g => .bin op (f.tree e) (g.tree e)
  | .call b f => app b (f.tree e)

/-- The operators are infix operators, the functions have one argument, and their names mean
them. -/
def Form.Fine (ctx : Context) : Form → Prop
  | .part _ => True
  | .neg f => f.Fine ctx
  | .pos f => f.Fine ctx
  | .infix op f g => op ≠ .factorial ∧ f.Fine ctx ∧ g.Fine ctx
  | .call b f => IsName b.name ∧ lookup ctx b.name = .func b.toFunc ∧ b.nbArgs ≠ some 2 ∧ f.Fine ctx

end Spec
end Xprs
