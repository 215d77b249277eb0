import Verif.Eval
/-
The expressions a program can get hold of: parsed ones and what simplification makes
of them.
-/
namespace Xprs
namespace Spec

/-- `e` results from parsing `input` and any number of simplifications. -/
inductive Reach (cfg : Cfg) (w : World) (ctx : Context) (input : Bytes) : Xpr → Prop
  | parsed {o x} : parse cfg w o ctx input = .ok x → Reach cfg w ctx input x
  | simplified {e x v e'} : Reach cfg w ctx input e → e.simplifyFor cfg w x v = .ok e' →
      Reach cfg w ctx input e'
  | multiple {e l e'} : Reach cfg w ctx input e → e.simplifyForMultiple cfg w l = .ok e' →
      Reach cfg w ctx input e'

/-- A run of `simplify_for` calls, each with its own name and value, leads from the first
expression to the second; `k` of them returned something different from what they were
given. -/
inductive Trail (cfg : Cfg) (w : World) (a : Xpr) : Xpr → Nat → Prop
  | start : Trail cfg w a a 0
  | idle {b x v k} : Trail cfg w a b k → b.simplifyFor cfg w x v = .ok b → Trail cfg w a b k
  | change {b x v c k} : Trail cfg w a b k → b.simplifyFor cfg w x v = .ok c → c ≠ b →
      Trail cfg w a c (k + 1)

/-- `k` calls of `simplify_for` with the same name and value, each on the result of the
one before. -/
inductive Repeated (cfg : Cfg) (w : World) (x : Bytes) (v : F64) (a : Xpr) : Xpr → Nat → Prop
  | none : Repeated cfg w x v a a 0
  | more {b c k} : Repeated cfg w x v a b k → b.simplifyFor cfg w x v = .ok c →
      Repeated cfg w x v a c (k + 1)

end Spec
end Xprs
