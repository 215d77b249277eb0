import Verif.Spec.Tree
import Verif.Eval
/-
Facts about trees: free variables, evaluation.
-/
namespace Xprs
open Spec
set_option linter.unusedSimpArgs false

/-! ### Occurrence -/

@[simp] theorem occurs_num {n : Bytes} {x : F64} : ¬ Occurs n (.num x) := by rintro ⟨⟩
@[simp] theorem occurs_var {n m : Bytes} : Occurs n (.var m) ↔ n = m :=
  ⟨by rintro ⟨⟩; rfl, by rintro rfl; exact .here⟩
@[simp] theorem occurs_bin {n : Bytes} {op : Op} {l r : Elem} :
    Occurs n (.bin op l r) ↔ Occurs n l ∨ Occurs n r :=
  ⟨by rintro ⟨⟩ <;> simp [*], fun h => h.elim .left .right⟩
@[simp] theorem occurs_un {n : Bytes} {op : Op} {e : Elem} :
    Occurs n (.un op e) ↔ Occurs n e :=
  ⟨by rintro ⟨⟩; assumption, .operand⟩
@[simp] theorem occurs_call {n : Bytes} {f : Func} {args : List Elem} :
    Occurs n (.call f args) ↔ ∃ a ∈ args, Occurs n a :=
  ⟨by rintro ⟨⟩; exact ⟨_, by assumption, by assumption⟩, by rintro ⟨a, h, h'⟩; exact .arg h h'⟩

mutual
theorem mem_findVars (n : Bytes) : ∀ (e : Elem) (vs : List Bytes),
    n ∈ findVars e vs ↔ n ∈ vs ∨ Occurs n e
  | .num x, vs => by simp [findVars]
  | .var m, vs => by
    rw [findVars]
    split
    · rename_i h
      simp only [occurs_var]
      exact ⟨Or.inl, fun h' => h'.elim id (fun e => e ▸ h)⟩
    · simp
  | .un _ e, vs => by rw [findVars, mem_findVars n e]; simp
  | .bin _ l r, vs => by rw [findVars, mem_findVars n r, mem_findVars n l]; simp [or_assoc]
  | .call _ args, vs => by rw [findVars, mem_findVarsL n args]; simp
theorem mem_findVarsL (n : Bytes) : ∀ (es : List Elem) (vs : List Bytes),
    n ∈ findVarsL es vs ↔ n ∈ vs ∨ ∃ a ∈ es, Occurs n a
  | [], vs => by simp [findVarsL]
  | a :: as, vs => by
    rw [findVarsL, mem_findVarsL n as, mem_findVars n a]
    simp [or_assoc]
end

mutual
theorem nodup_findVars : ∀ (e : Elem) (vs : List Bytes), vs.Nodup → (findVars e vs).Nodup
  | .num x, vs, h => by simpa [findVars] using h
  | .var m, vs, h => by
    rw [findVars]
    split
    · exact h
    · rename_i h'
      rw [List.nodup_append]
      refine ⟨h, by simp, ?_⟩
      intro a ha b hb
      simp at hb; subst hb
      rintro rfl; exact h' ha
  | .un _ e, vs, h => by rw [findVars]; exact nodup_findVars e vs h
  | .bin _ l r, vs, h => by
    rw [findVars]; exact nodup_findVars r _ (nodup_findVars l vs h)
  | .call _ args, vs, h => by rw [findVars]; exact nodup_findVarsL args vs h
theorem nodup_findVarsL : ∀ (es : List Elem) (vs : List Bytes), vs.Nodup →
    (findVarsL es vs).Nodup
  | [], vs, h => by simpa [findVarsL] using h
  | a :: as, vs, h => by
    rw [findVarsL]; exact nodup_findVarsL as _ (nodup_findVars a vs h)
end

mutual
theorem mem_readVars (n : Bytes) : ∀ e : Elem, n ∈ readVars e ↔ Occurs n e
  | .num x => by simp [readVars]
  | .var m => by simp [readVars]
  | .un _ e => by rw [readVars, mem_readVars n e]; simp
  | .bin _ l r => by rw [readVars, List.mem_append, mem_readVars n r, mem_readVars n l]; simp
  | .call _ args => by rw [readVars, mem_readVarsL n args]; simp
theorem mem_readVarsL (n : Bytes) : ∀ es : List Elem, n ∈ readVarsL es ↔ ∃ a ∈ es, Occurs n a
  | [] => by simp [readVarsL]
  | a :: as => by rw [readVarsL, List.mem_append, mem_readVarsL n as, mem_readVars n a]; simp
end

/-! ### Evaluation -/

/-- The first variable in reading order that the map does not define. -/
def firstMissing (m : HMap F64) (vs : List Bytes) : Option Bytes :=
  vs.find? fun n => (m n).isNone

theorem firstMissing_append (m : HMap F64) (a b : List Bytes) :
    firstMissing m (a ++ b) = (firstMissing m a).or (firstMissing m b) := by
  simp [firstMissing]

/-- No panic, and the outcome of evaluation as a function of the missing variables. -/
def EvalSpec {α : Type} (r : Except EvErr α) (miss : Option Bytes) : Prop :=
  match miss with
  | none => ∃ v, r = .ok v
  | some n => r = .error (.missing n)

theorem factorial_total (x : F64) (h : ∀ p, factorial x ≠ .error p) : ∃ v, factorial x = .ok v := by
  cases hf : factorial x with
  | ok v => exact ⟨v, rfl⟩
  | error p => exact absurd hf (h p)

end Xprs
