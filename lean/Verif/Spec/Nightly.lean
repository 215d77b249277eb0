import Verif.Spec.Tree
import Verif.Eval
/-
Trees without a minus sign, and builds that differ only in the compiler channel.
-/
namespace Xprs
namespace Spec

/-- No subtraction and no negation occurs in the tree. -/
def Minusless (e : Elem) : Prop :=
  (∀ l r, ¬ Sub (.bin .minus l r) e) ∧ ∀ a, ¬ Sub (.un .minus a) e

/-- Two builds of the same crate, by the same or by different compiler channels: only
`cfg(NIGHTLY)` may differ. -/
def SameButChannel (c c' : Cfg) : Prop :=
  c.opt = c'.opt ∧ c.pejmdas = c'.pejmdas ∧ c.overflowChecks = c'.overflowChecks ∧ c.usize = c'.usize

end Spec
end Xprs
