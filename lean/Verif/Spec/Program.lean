import Verif.Program
import Verif.Spec.Once
import Verif.Spec.Text
import Verif.Spec.Tree
/-
What a program that uses the library sees if there is no memory (for C99): expressions are
values, a copy is the same value, and simplifying one changes no other.
-/
namespace Xprs
namespace Spec

/-- Put what a simplification gives in the place of what it was given. -/
def replace (xs : List Xpr) (i : Nat) : PM Xpr → Obs × List Xpr
  | .ok e => (.done, xs.set i e)
  | .error p => (.panic p, xs)

/-- One command; nothing if there is no such expression. -/
def act (cfg : Cfg) (w : World) (xs : List Xpr) : Cmd → Option (Obs × List Xpr)
  | .parse o ctx input =>
    match parse cfg w o ctx input with
    | .ok x => some (.parsed (.ok x), xs ++ [x])
    | r => some (.parsed r, xs)
  | .clone i => xs[i]?.map fun x => (.done, xs ++ [x])
  | .drop i => xs[i]?.map fun _ => (.done, xs.eraseIdx i)
  | .eval i vars => xs[i]?.map fun x => (.value (x.eval w vars), xs)
  | .fix i x v => xs[i]?.map fun e => replace xs i (e.simplifyFor cfg w x v)
  | .fixAll i l => xs[i]?.map fun e => replace xs i (e.simplifyForMultiple cfg w l)
  | .into i x v => xs[i]?.map fun e => replace xs i (e.simplifyFor cfg w x v)
  | .intoAll i l => xs[i]?.map fun e => replace xs i (e.simplifyForMultiple cfg w l)

/-- A program, starting with no expressions. -/
inductive Plays (cfg : Cfg) (w : World) : List (Cmd × Obs) → List Xpr → Prop
  | start : Plays cfg w [] []
  | next {tr xs c ob ys} : Plays cfg w tr xs → act cfg w xs c = some (ob, ys) →
      Plays cfg w (tr ++ [(c, ob)]) ys

/-- No simplification panicked. -/
def Undisturbed (tr : List (Cmd × Obs)) : Prop := ∀ c p, (c, Obs.panic p) ∉ tr

/-- The boxes and references of all expressions a program holds. -/
def holdings (es : List HXpr) : List Res := es.flatMap fun e => e.root.owns

/-- All texts parsed are without `!!` and in contexts whose functions do not panic. -/
def Tame (w : World) (tr : List (Cmd × Obs)) : Prop :=
  ∀ o ctx input ob, (Cmd.parse o ctx input, ob) ∈ tr → ¬ DoubleBang input ∧ CtxTotal w ctx

end Spec
end Xprs
