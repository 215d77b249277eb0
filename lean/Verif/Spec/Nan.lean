import Verif.Spec.Ieee
import Verif.Spec.Tree
import Verif.Eval
/-
Where NaN comes from and where it goes (for C71).
-/
namespace Xprs
namespace Spec

/-- The operations on two numbers that IEEE 754 calls invalid. -/
inductive InvalidBin : Op → F64 → F64 → Prop
  | plus {s} : InvalidBin .plus (.inf s) (.inf (!s))
  | minus {s} : InvalidBin .minus (.inf s) (.inf s)
  | infZero {s b} : value b = some 0 → InvalidBin .times (.inf s) b
  | zeroInf {s a} : value a = some 0 → InvalidBin .times a (.inf s)
  | infInf {s t} : InvalidBin .divide (.inf s) (.inf t)
  | zeroZero {a b} : value a = some 0 → value b = some 0 → InvalidBin .divide a b
  | infMod {s b} : InvalidBin .modulo (.inf s) b
  | modZero {a b} : value b = some 0 → InvalidBin .modulo a b

/-- The numbers that have no factorial: minus infinity and the finite numbers that are not
natural. -/
def NoFactorial (a : F64) : Prop :=
  a = .inf true ∨ ∃ q, value a = some q ∧ ∀ n : ℕ, q ≠ n

/-- The evaluation of the tree meets NaN: in a number or variable, by an invalid operation,
from `powf` or from a function, in a place from where it gets to the result. -/
inductive MeetsNan (w : World) (m : HMap F64) : Elem → Prop
  | num : MeetsNan w m (.num .nan)
  | var {n} : m n = some .nan → MeetsNan w m (.var n)
  | operand {op e} : MeetsNan w m e → MeetsNan w m (.un op e)
  | left {op l r} : op ≠ .power → MeetsNan w m l → MeetsNan w m (.bin op l r)
  | right {op l r} : op ≠ .power → MeetsNan w m r → MeetsNan w m (.bin op l r)
  | invalid {op l r a b} : eval w m l = .ok a → eval w m r = .ok b → InvalidBin op a b →
      MeetsNan w m (.bin op l r)
  | factorial {e a} : eval w m e = .ok a → NoFactorial a → MeetsNan w m (.un .factorial e)
  | power {l r a b} : eval w m l = .ok a → eval w m r = .ok b → w.powf a b = .nan →
      MeetsNan w m (.bin .power l r)
  | call {f args vs} : evalL w m args = .ok vs → callFn w f vs = .ok .nan →
      MeetsNan w m (.call f args)

/-- The function passes NaN on: called with as many arguments as declared, one of them NaN,
it returns nothing but NaN. -/
def PassesNan (w : World) (f : Func) : Prop :=
  ∀ vs v, ArityOk f vs.length → .nan ∈ vs → callFn w f vs = .ok v → v = .nan

/-- What C99 says of NaN as an argument of the functions of the platform: they return NaN, but
for `hypot` with an infinite leg, `pow(1, NaN)` and `pow(NaN, 0)`. -/
structure NanLaws (w : World) : Prop where
  one : ∀ f, w.libm1 f .nan = .nan
  two : ∀ f a b, a = .nan ∨ b = .nan → f ≠ .hypot ∨ (F64.isInf a = false ∧ F64.isInf b = false) →
    w.libm2 f a b = .nan
  base : ∀ b, value b ≠ some 0 → w.powf .nan b = .nan
  exponent : ∀ a, value a ≠ some 1 → w.powf a .nan = .nan

/-- A way from a place where the variable stands to the root of the tree on which NaN is not
lost. -/
inductive NanPath (w : World) (m : HMap F64) (n : Bytes) : Elem → Prop
  | here : NanPath w m n (.var n)
  | operand {op e} : NanPath w m n e → NanPath w m n (.un op e)
  | left {op l r} : op ≠ .power → NanPath w m n l → NanPath w m n (.bin op l r)
  | right {op l r} : op ≠ .power → NanPath w m n r → NanPath w m n (.bin op l r)
  | base {l r b} : NanPath w m n l → eval w m r = .ok b → value b ≠ some 0 → NanPath w m n (.bin .power l r)
  | exponent {l r a} : NanPath w m n r → eval w m l = .ok a → value a ≠ some 1 →
      NanPath w m n (.bin .power l r)
  | arg {f args a} : a ∈ args → NanPath w m n a → PassesNan w f → NanPath w m n (.call f args)
  | hypot {args a vs} : a ∈ args → NanPath w m n a → evalL w m args = .ok vs → (∀ v ∈ vs, F64.isInf v = false) →
      NanPath w m n (.call Builtin.hypot.toFunc args)

end Spec
end Xprs
