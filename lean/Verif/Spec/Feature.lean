import Verif.Build
/-
What a dependent of the crate gets (for C128).
-/
namespace Xprs
namespace Spec

/-- The dependent asks for the feature: by name, or by leaving the defaults on, which are all features but
`pejmdas`. -/
def Asks (r : Request) (f : Feature) : Prop := f ∈ r.features ∨ (r.defaults = true ∧ f ≠ .pejmdas)

/-- One of the dependents asks for the feature. -/
def Wants (rs : List Request) (f : Feature) : Prop := ∃ r ∈ rs, Asks r f

/-- The compiler can be asked for its version, which is at least 1. -/
def Usable (tc : Option Toolchain) : Prop := ∃ t, tc = some t ∧ 1 ≤ t.major

/-- The build succeeds. -/
def Builds (tc : Option Toolchain) (rs : List Request) : Prop :=
  ∀ checks usize, ∃ cfg p, build tc checks usize rs = .built cfg p

end Spec
end Xprs
