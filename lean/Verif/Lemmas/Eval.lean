import Verif.Lemmas.Tree
import Verif.Lemmas.Factorial
/-
Facts about evaluation.
-/
namespace Xprs
open Spec
set_option linter.unusedSimpArgs false

/-! ### Built-in functions are total -/

theorem wrap1_total {g : F64 → PM F64} (hg : ∀ x, ∃ v, g x = .ok v) {args : List F64}
    (h : 0 < args.length) : ∃ v, wrap1 g args = .ok v := by
  cases args with
  | nil => simp at h
  | cons a t => exact hg a

theorem wrap2_total {g : F64 → F64 → PM F64} (hg : ∀ x y, ∃ v, g x y = .ok v) {args : List F64}
    (h : 1 < args.length) : ∃ v, wrap2 g args = .ok v := by
  cases args with
  | nil => simp at h
  | cons a t =>
    cases t with
    | nil => simp at h
    | cons b t => exact hg a b

theorem builtin_total (w : World) (b : Builtin) : FnTotal w b.toFunc := by
  intro args ⟨h0, hn⟩
  show ∃ v, b.run w args = .ok v
  cases b <;>
    first
    | exact ⟨_, rfl⟩
    | exact wrap1_total (fun x => ⟨_, rfl⟩) h0
    | exact wrap1_total factorial_ok h0
    | exact wrap2_total (fun x y => ⟨_, rfl⟩) (by rw [hn 2 rfl]; decide)

/-! ### Evaluation of proper trees -/

theorem unF_total {op : Op} (h : op = .plus ∨ op = .minus ∨ op = .factorial) (v : F64) :
    ∃ x, unF op v = .ok x := by
  rcases h with rfl | rfl | rfl
  · exact ⟨_, rfl⟩
  · exact ⟨_, rfl⟩
  · exact factorial_ok v

theorem binF_total (w : World) {op : Op} (h : op ≠ .factorial) (a b : F64) :
    ∃ x, binF w op a b = .ok x := by
  cases op <;> first | exact ⟨_, rfl⟩ | exact absurd rfl h

theorem evalL_length (w : World) (m : HMap F64) : ∀ (es : List Elem) {vs : List F64},
    evalL w m es = .ok vs → vs.length = es.length
  | [], vs, h => by simp [evalL] at h; subst h; rfl
  | a :: as, vs, h => by
    rw [evalL] at h
    split at h
    · cases h
    · split at h
      · cases h
      · rename_i h'
        cases h
        simp [evalL_length w m as h']

theorem EvalSpec.bind {α β : Type} {r : Except EvErr α} {m1 m2 : Option Bytes}
    {res : Except EvErr β} (h1 : EvalSpec r m1) (he : ∀ x, r = .error x → res = .error x)
    (h2 : ∀ v, r = .ok v → EvalSpec res m2) : EvalSpec res (m1.or m2) := by
  cases m1 with
  | none =>
    obtain ⟨v, rfl⟩ := h1
    exact h2 v rfl
  | some n => exact he _ h1

mutual
theorem eval_spec (w : World) (m : HMap F64) : ∀ e : Elem, Proper (FnTotal w) e →
    EvalSpec (eval w m e) (firstMissing m (readVars e))
  | .num x, _ => ⟨x, rfl⟩
  | .var n, _ => by
    rw [eval]
    simp only [readVars, firstMissing, List.find?_cons, List.find?_nil, HMap.get]
    cases h : m n with
    | none => rfl
    | some v => exact ⟨v, rfl⟩
  | .un op e, h => by
    cases h with
    | un ho he =>
      have := eval_spec w m e he
      rw [eval, readVars]
      rw [show firstMissing m (readVars e) = (firstMissing m (readVars e)).or none by simp]
      refine EvalSpec.bind this (fun x hx => by rw [hx]) ?_
      intro v hv
      rw [hv]
      obtain ⟨x, hx⟩ := unF_total ho v
      exact ⟨x, by simp only [hx]; rfl⟩
  | .bin op l r, h => by
    cases h with
    | bin ho hl hr =>
      rw [eval, readVars, firstMissing_append]
      refine EvalSpec.bind (eval_spec w m l hl) (fun x hx => by rw [hx]) ?_
      intro a ha
      rw [ha]
      rw [show firstMissing m (readVars r) = (firstMissing m (readVars r)).or none by simp]
      refine EvalSpec.bind (eval_spec w m r hr) (fun x hx => by simp only [hx]) ?_
      intro b hb
      simp only [hb]
      obtain ⟨x, hx⟩ := binF_total w ho a b
      exact ⟨x, by simp only [hx]; rfl⟩
  | .call f args, h => by
    cases h with
    | call hf ha hargs =>
      rw [eval, readVars]
      rw [show firstMissing m (readVarsL args) = (firstMissing m (readVarsL args)).or none by simp]
      refine EvalSpec.bind (evalL_spec w m args hargs) (fun x hx => by rw [hx]) ?_
      intro vs hvs
      rw [hvs]
      obtain ⟨x, hx⟩ := hf vs (by rw [evalL_length w m args hvs]; exact ha)
      exact ⟨x, by simp only [hx]; rfl⟩
theorem evalL_spec (w : World) (m : HMap F64) : ∀ es : List Elem,
    (∀ a ∈ es, Proper (FnTotal w) a) → EvalSpec (evalL w m es) (firstMissing m (readVarsL es))
  | [], _ => ⟨[], rfl⟩
  | a :: as, h => by
    rw [evalL, readVarsL, firstMissing_append]
    refine EvalSpec.bind (eval_spec w m a (h a (by simp))) (fun x hx => by rw [hx]) ?_
    intro v hv
    rw [hv]
    rw [show firstMissing m (readVarsL as) = (firstMissing m (readVarsL as)).or none by simp]
    refine EvalSpec.bind (evalL_spec w m as (fun b hb => h b (by simp [hb])))
      (fun x hx => by simp only [hx]) ?_
    intro vs hvs
    simp only [hvs]
    exact ⟨_, rfl⟩
end

/-! ### Checked and unchecked evaluation -/

/-- What `eval_unchecked` does where `eval` has this outcome. -/
def toUnchecked {α : Type} : Except EvErr α → PM α
  | .ok v => .ok v
  | .error (.panic p) => .error p
  | .error (.missing _) => .error .unwrap

mutual
theorem evalU_eq (w : World) (m : HMap F64) : ∀ e : Elem, evalU w m e = toUnchecked (eval w m e)
  | .num x => rfl
  | .var n => by rw [evalU, eval]; cases m.get n <;> rfl
  | .un op e => by
    rw [evalU, eval, evalU_eq w m e]
    cases eval w m e with
    | error r => cases r <;> rfl
    | ok v =>
      cases op <;> try rfl
      simp only [toUnchecked, unF]
      cases factorial v <;> rfl
  | .bin op l r => by
    rw [evalU, eval, evalU_eq w m l, evalU_eq w m r]
    cases eval w m l with
    | error r => cases r <;> rfl
    | ok a =>
      simp only [toUnchecked]
      cases eval w m r with
      | error r => cases r <;> rfl
      | ok b => cases op <;> rfl
  | .call f args => by
    rw [evalU, eval, evalUL_eq w m args]
    cases evalL w m args with
    | error r => cases r <;> rfl
    | ok vs =>
      simp only [toUnchecked]
      cases callFn w f vs <;> rfl
theorem evalUL_eq (w : World) (m : HMap F64) : ∀ es : List Elem,
    evalUL w m es = toUnchecked (evalL w m es)
  | [] => rfl
  | a :: as => by
    rw [evalUL, evalL, evalU_eq w m a, evalUL_eq w m as]
    cases eval w m a with
    | error r => cases r <;> rfl
    | ok a =>
      simp only [toUnchecked]
      cases evalL w m as with
      | error r => cases r <;> rfl
      | ok b => rfl
end

/-! ### Dependence on the map -/

mutual
theorem eval_congr (w : World) {m m' : HMap F64} : ∀ e : Elem,
    (∀ n, Occurs n e → m n = m' n) → eval w m e = eval w m' e
  | .num x, _ => rfl
  | .var n, h => by rw [eval, eval, HMap.get, HMap.get, h n .here]
  | .un op e, h => by rw [eval, eval, eval_congr w e (fun n hn => h n (.operand hn))]
  | .bin op l r, h => by
    rw [eval, eval, eval_congr w l (fun n hn => h n (.left hn)),
      eval_congr w r (fun n hn => h n (.right hn))]
  | .call f args, h => by
    rw [eval, eval, evalL_congr w args (fun a ha n hn => h n (.arg ha hn))]
theorem evalL_congr (w : World) {m m' : HMap F64} : ∀ es : List Elem,
    (∀ a ∈ es, ∀ n, Occurs n a → m n = m' n) → evalL w m es = evalL w m' es
  | [], _ => rfl
  | a :: as, h => by
    rw [evalL, evalL, eval_congr w a (h a (by simp)),
      evalL_congr w as (fun b hb => h b (by simp [hb]))]
end

/-- `firstMissing` is none iff all variables are defined. -/
theorem firstMissing_none {m : HMap F64} {vs : List Bytes} :
    firstMissing m vs = none ↔ ∀ n ∈ vs, ∃ v, m n = some v := by
  unfold firstMissing
  rw [List.find?_eq_none]
  constructor
  · intro h n hn
    have := h n hn
    cases hm : m n with
    | none => simp [hm] at this
    | some v => exact ⟨v, rfl⟩
  · intro h n hn
    obtain ⟨v, hv⟩ := h n hn
    simp [hv]

end Xprs
