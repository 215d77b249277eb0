import Verif.Lemmas.Parse
/-
An `EvalError` always names a variable of the tree that the map lacks; reading order.
-/
namespace Xprs
open Spec

mutual
theorem eval_missing (w : World) (m : HMap F64) : ∀ (e : Elem) {n : Bytes},
    eval w m e = .error (.missing n) → Occurs n e ∧ m n = none
  | .num x, n, h => by rw [eval] at h; cases h
  | .var k, n, h => by
    rw [eval] at h
    split at h
    · cases h
    · rename_i hm; cases h; exact ⟨.here, hm⟩
  | .un op e, n, h => by
    rw [eval] at h
    split at h
    · rename_i r hr; cases h
      have := eval_missing w m e hr; exact ⟨.operand this.1, this.2⟩
    · rename_i v hv
      cases hu : unF op v <;> simp [hu, liftP] at h
  | .bin op l r, n, h => by
    rw [eval] at h
    split at h
    · rename_i r hr; cases h
      have := eval_missing w m l hr; exact ⟨.left this.1, this.2⟩
    · rename_i a ha
      split at h
      · rename_i r hr; cases h
        have := eval_missing w m r hr; exact ⟨.right this.1, this.2⟩
      · rename_i b hb
        cases hu : binF w op a b <;> simp [hu, liftP] at h
  | .call f args, n, h => by
    rw [eval] at h
    split at h
    · rename_i r hr; cases h
      obtain ⟨⟨a, ha, ho⟩, hm⟩ := evalL_missing w m args hr
      exact ⟨.arg ha ho, hm⟩
    · rename_i vs hvs
      cases hu : callFn w f vs <;> simp [hu, liftP] at h
theorem evalL_missing (w : World) (m : HMap F64) : ∀ (es : List Elem) {n : Bytes},
    evalL w m es = .error (.missing n) → (∃ a ∈ es, Occurs n a) ∧ m n = none
  | [], n, h => by rw [evalL] at h; cases h
  | a :: as, n, h => by
    rw [evalL] at h
    split at h
    · rename_i r hr; cases h
      have := eval_missing w m a hr; exact ⟨⟨a, by simp, this.1⟩, this.2⟩
    · split at h
      · rename_i r hr; cases h
        obtain ⟨⟨b, hb, ho⟩, hm⟩ := evalL_missing w m as hr
        exact ⟨⟨b, by simp [hb], ho⟩, hm⟩
      · cases h
end

/-- `firstMissing` picks the first variable that the map lacks. -/
theorem firstMissing_some {m : HMap F64} {vs : List Bytes} {n : Bytes} :
    firstMissing m vs = some n ↔
      ∃ pre post, vs = pre ++ n :: post ∧ (∀ k ∈ pre, ∃ v, m k = some v) ∧ m n = none := by
  unfold firstMissing
  rw [List.find?_eq_some_iff_append]
  constructor
  · rintro ⟨h1, a, b, h2, h3⟩
    refine ⟨a, b, h2, fun k hk => ?_, by simpa using h1⟩
    have := h3 k hk
    cases hm : m k with
    | none => simp [hm] at this
    | some v => exact ⟨v, rfl⟩
  · rintro ⟨a, b, h2, h3, h1⟩
    refine ⟨by simp [h1], a, b, h2, fun k hk => ?_⟩
    obtain ⟨v, hv⟩ := h3 k hk
    simp [hv]

end Xprs
