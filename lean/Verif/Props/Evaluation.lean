import Verif.Lemmas.Eval
/-
Properties C21 and C22: `eval` and `eval_unchecked`, and what they depend on.
-/
namespace Xprs
namespace Props
open Spec

/-! ### C21 -/

/-- C21: for every expression, map and set of functions: `eval_unchecked` returns what
`eval` returns, and panics exactly when `eval` reports an error or panics. -/
theorem C21_unchecked (w : World) (e : Xpr) (m : HMap F64) :
    (∀ v, e.eval w m = .ok v → e.evalUnchecked w m = .ok v) ∧
    ((∃ p, e.evalUnchecked w m = .error p) ↔ ∃ r, e.eval w m = .error r) ∧
    (∀ n, e.eval w m = .error (.missing n) → e.evalUnchecked w m = .error .unwrap) ∧
    (∀ p, e.eval w m = .error (.panic p) → e.evalUnchecked w m = .error p) := by
  unfold Xpr.eval Xpr.evalUnchecked
  rw [evalU_eq]
  cases eval w m e.root with
  | ok v => simp [toUnchecked]
  | error r => cases r <;> simp [toUnchecked]

/-- `eval_no_vars` and `eval_no_vars_unchecked` are evaluation under the empty map. -/
theorem C21_no_vars (w : World) (e : Xpr) :
    e.evalNoVars w = e.eval w (fun _ => none) ∧
    e.evalNoVarsUnchecked w = e.evalUnchecked w (fun _ => none) := ⟨rfl, rfl⟩

/-- A world for examples: all unspecified functions are constant zero. -/
def w0 : World :=
  { libm1 := fun _ _ => F64.f0, libm2 := fun _ _ _ => F64.f0, powf := fun _ _ => F64.f0,
    user := fun _ _ => some F64.f0, sumInit := true }

/-- `x + 1` with `x = 2`, and without `x`. -/
example : Xpr.evalUnchecked w0 ⟨.bin .plus (.var b!"x") (.num F64.f1), [b!"x"]⟩
    (HMap.ofList [(b!"x", F64.ofNat 2)]) = .ok (F64.ofNat 3) := by decide +kernel
example : Xpr.evalUnchecked w0 ⟨.bin .plus (.var b!"x") (.num F64.f1), [b!"x"]⟩ HMap.empty
    = .error .unwrap := by decide +kernel

/-! ### C22 -/

/-- C22: maps that agree on the variables occurring in the tree give the same results
(values, errors and panics alike), for both evaluation functions. -/
theorem C22_depends (w : World) (e : Xpr) (m m' : HMap F64)
    (h : ∀ n, Occurs n e.root → m n = m' n) :
    e.eval w m = e.eval w m' ∧ e.evalUnchecked w m = e.evalUnchecked w m' := by
  unfold Xpr.eval Xpr.evalUnchecked
  rw [evalU_eq, evalU_eq, eval_congr w e.root h]
  exact ⟨rfl, rfl⟩

/-- Extra entries are ignored. -/
theorem C22_extra (w : World) (e : Xpr) (m : HMap F64) (k : Bytes) (v : F64)
    (h : ¬ Occurs k e.root) : e.eval w (m.insert k v) = e.eval w m := by
  refine (C22_depends w e _ _ ?_).1
  intro n hn
  unfold HMap.insert
  rw [if_neg]
  rintro rfl
  exact h hn

/-- `y` does not occur in `x!`, and `x` does matter. -/
example : ¬ Occurs b!"y" (.un .factorial (.var b!"x")) := by
  intro h; simp at h
example : Xpr.eval w0 ⟨.un .factorial (.var b!"x"), [b!"x"]⟩
      (HMap.ofList [(b!"x", F64.ofNat 2)]) ≠
    Xpr.eval w0 ⟨.un .factorial (.var b!"x"), [b!"x"]⟩
      (HMap.ofList [(b!"x", F64.ofNat 3)]) := by decide +kernel

end Props
end Xprs
