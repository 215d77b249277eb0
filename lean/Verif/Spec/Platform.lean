import Verif.Spec.Mention
/-
What a text can ask of the platform it runs on.
-/
namespace Xprs
namespace Spec

/-- Two platforms do the same for a text: they compute powers alike if it contains a `^`,
and give the same results for the functions it names. -/
structure AlikeFor (w w' : World) (ctx : Context) (input : Bytes) : Prop where
  pow : c!"^" ∈ input → ∀ a b, w.powf a b = w'.powf a b
  fns : ∀ nm f, Mentions input nm → lookup ctx nm = .func f → ∀ vs, callFn w f vs = callFn w' f vs

/-- The built-in functions made only of operations that IEEE 754 determines. -/
def Portable (b : Builtin) : Prop :=
  b ∈ [Builtin.abs, .floor, .ceil, .round, .trunc, .fract, .recip, .factorial, .min, .max, .sqrt]

instance (b : Builtin) : Decidable (Portable b) := by unfold Portable; infer_instance

/-- A text that asks nothing of the platform: no `^`, and the functions it names are
portable ones. -/
def SelfContained (ctx : Context) (input : Bytes) : Prop :=
  c!"^" ∉ input ∧ ∀ nm f, Mentions input nm → lookup ctx nm = .func f →
    ∃ b, f.func = .builtin b ∧ Portable b

end Spec
end Xprs
