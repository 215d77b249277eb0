import Verif.Spec.Safe
import Verif.Spec.Monotone
/-
Bounds of an expression from bounds of its variables (for C98): interval arithmetic with
the operations of `f64` themselves.
-/
namespace Xprs
namespace Spec

/-- A finite number. -/
def Bounded (x : F64) : Prop := ∃ q, value x = some q

/-- `x` lies between `lo` and `hi`. -/
def Between (lo x hi : F64) : Prop := LeF lo x ∧ LeF x hi

/-- The same, element by element. -/
inductive BetweenL : List F64 → List F64 → List F64 → Prop
  | nil : BetweenL [] [] []
  | cons {lo x hi los xs his} : Between lo x hi → BetweenL los xs his →
      BetweenL (lo :: los) (x :: xs) (hi :: his)

/-- Zero is not between `a` and `b`. -/
def Apart (a b : F64) : Prop := Positive a ∨ Positive (F64.neg b)

/-- What is known of functions and of `^`: bounds of the result from bounds of the
arguments. -/
structure Known where
  fn : Func → List F64 → List F64 → F64 → F64 → Prop
  pow : F64 → F64 → F64 → F64 → F64 → F64 → Prop

mutual
/-- `Ranges K R e lo hi`: by the rules of interval arithmetic `e` lies between `lo` and
`hi` if every variable lies within the bounds that `R` gives for it.  The bounds are
computed with the operations of `f64`, and must be finite. -/
inductive Ranges (K : Known) (R : Bytes → F64 → F64 → Prop) : Elem → F64 → F64 → Prop
  | num {x} : Bounded x → Ranges K R (.num x) x x
  | var {n a b} : R n a b → Bounded a → Bounded b → Ranges K R (.var n) a b
  /-- bounds may be loosened -/
  | wider {e a b lo hi} : Ranges K R e a b → LeF lo a → LeF b hi → Bounded lo → Bounded hi →
      Ranges K R e lo hi
  | pos {e a b} : Ranges K R e a b → Ranges K R (.un .plus e) a b
  | neg {e a b} : Ranges K R e a b → Ranges K R (.un .minus e) (F64.neg b) (F64.neg a)
  | add {l r a b c d} : Ranges K R l a b → Ranges K R r c d →
      Bounded (F64.add a c) → Bounded (F64.add b d) →
      Ranges K R (.bin .plus l r) (F64.add a c) (F64.add b d)
  | sub {l r a b c d} : Ranges K R l a b → Ranges K R r c d →
      Bounded (F64.sub a d) → Bounded (F64.sub b c) →
      Ranges K R (.bin .minus l r) (F64.sub a d) (F64.sub b c)
  /-- a product lies between the products of the ends -/
  | mul {l r a b c d lo hi} : Ranges K R l a b → Ranges K R r c d → Bounded lo → Bounded hi →
      (∀ x ∈ [a, b], ∀ y ∈ [c, d], Between lo (F64.mul x y) hi) →
      Ranges K R (.bin .times l r) lo hi
  /-- a quotient lies between the quotients of the ends, if the divisor is not zero -/
  | div {l r a b c d lo hi} : Ranges K R l a b → Ranges K R r c d → Bounded lo → Bounded hi →
      Apart c d → (∀ x ∈ [a, b], ∀ y ∈ [c, d], Between lo (F64.div x y) hi) →
      Ranges K R (.bin .divide l r) lo hi
  /-- a remainder is not above dividend and divisor, if neither is negative -/
  | rem {l r a b c d hi} : Ranges K R l a b → Ranges K R r c d → LeF F64.f0 a → Positive c →
      Bounded hi → LeF b hi ∨ LeF d hi → Ranges K R (.bin .modulo l r) F64.f0 hi
  | pow {l r a b c d lo hi} : Ranges K R l a b → Ranges K R r c d → Apart a b ∨ Positive c →
      K.pow a b c d lo hi → Ranges K R (.bin .power l r) lo hi
  | call {f args los his lo hi} : RangesL K R args los his → K.fn f los his lo hi →
      Ranges K R (.call f args) lo hi
inductive RangesL (K : Known) (R : Bytes → F64 → F64 → Prop) : List Elem → List F64 → List F64 → Prop
  | nil : RangesL K R [] [] []
  | cons {e es a b as bs} : Ranges K R e a b → RangesL K R es as bs →
      RangesL K R (e :: es) (a :: as) (b :: bs)
end

/-- What is known is true: for finite arguments within the bounds functions and powers
have a value, which lies within the bounds for the result. -/
structure Sound (w : World) (K : Known) : Prop where
  fn : ∀ f los his lo hi, K.fn f los his lo hi → Bounded lo ∧ Bounded hi ∧
    ∀ vs, (∀ v ∈ vs, Bounded v) → BetweenL los vs his → ∃ v, callFn w f vs = .ok v ∧ Between lo v hi
  pow : ∀ a b c d lo hi, K.pow a b c d lo hi → Bounded lo ∧ Bounded hi ∧
    ∀ x y, Bounded x → Bounded y → Between a x b → Between c y d → Between lo (w.powf x y) hi

/-- The functions do not distinguish the two zeros, within the bounds for their arguments. -/
def Steady (w : World) (K : Known) : Prop :=
  ∀ f los his lo hi, K.fn f los his lo hi → ∀ vs, (∀ v ∈ vs, Bounded v) → BetweenL los vs his →
    ∀ us, SameL vs us → ∃ v u, callFn w f vs = .ok v ∧ callFn w f us = .ok u ∧ Same v u

/-- The functions of the library whose bounds can be read off the ends on every platform. -/
inductive Natural (w : World) : Func → List F64 → List F64 → F64 → F64 → Prop
  /-- rounding, square root, `sum`, `mean`, `min` and `max` rise with their arguments -/
  | rises {f b los his lo hi} : f.func = .builtin b →
      b ∈ [.floor, .ceil, .round, .trunc, .sqrt, .sum, .mean, .min, .max] →
      b.run w los = .ok lo → b.run w his = .ok hi → Bounded lo → Bounded hi →
      Natural w f los his lo hi
  | abs {f a b hi} : f.func = .builtin .abs → Bounded a → Bounded b → LeF (F64.abs a) hi → LeF (F64.abs b) hi →
      Bounded hi → Natural w f [a] [b] F64.f0 hi
  | absPos {f a b} : f.func = .builtin .abs → Bounded a → Bounded b → LeF F64.f0 a →
      Natural w f [a] [b] a b
  | absNeg {f a b} : f.func = .builtin .abs → Bounded a → Bounded b → LeF b F64.f0 →
      Natural w f [a] [b] (F64.neg b) (F64.neg a)
  | recip {f a b} : f.func = .builtin .recip → Bounded a → Bounded b → Apart a b →
      Bounded (F64.div F64.f1 a) → Bounded (F64.div F64.f1 b) →
      Natural w f [a] [b] (F64.div F64.f1 b) (F64.div F64.f1 a)

/-- What is known on every platform. -/
def natural (w : World) : Known := ⟨Natural w, fun _ _ _ _ _ _ => False⟩

/-- Nothing is taken modulo one. -/
def NotModOne (w : World) (m : HMap F64) (e : Elem) : Prop :=
  ∀ l r, Sub (.bin .modulo l r) e → eval w m r ≠ .ok F64.f1

end Spec
end Xprs
