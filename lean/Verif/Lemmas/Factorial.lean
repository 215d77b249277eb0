import Verif.Lemmas.Float
import Verif.Factorial
/-
`factorial` case by case.
-/
namespace Xprs

instance instDecidableEqExcept {ε α : Type} [DecidableEq ε] [DecidableEq α] :
    DecidableEq (Except ε α)
  | .ok a, .ok b => decidable_of_iff (a = b) (by simp)
  | .error a, .error b => decidable_of_iff (a = b) (by simp)
  | .ok _, .error _ => isFalse (by simp)
  | .error _, .ok _ => isFalse (by simp)

set_option exponentiation.threshold 4096

theorem factorialTable_length : factorialTable.length = 171 := by
  unfold factorialTable
  rw [List.length_map]; decide +kernel

theorem factorial_nan : factorial .nan = .ok .nan := rfl

theorem factorial_neg_inf : factorial (.inf true) = .ok .nan := by
  have : F64.blt (.inf true) F64.f0 = true := by
    have := maxMag_pos
    simp [F64.blt, F64.key, F64.f0, F64.zero, F64.sv]; omega
  simp [factorial, this]

theorem factorial_inf : factorial (.inf false) = .ok (.inf false) := by
  have : F64.blt (.inf false) F64.f0 = false := by
    simp [F64.blt, F64.key, F64.f0, F64.zero, F64.sv]
  simp [factorial, this, F64.isInf]

theorem factorial_neg {n : Nat} (h : Rep n) (hn : 0 < n) :
    factorial (.fin true n h) = .ok .nan := by
  have : F64.blt (.fin true n h) F64.f0 = true := by
    simp [F64.blt, F64.key, F64.f0, F64.zero, F64.sv]; omega
  simp [factorial, this]

theorem factorial_fract {n : Nat} (h : Rep n) (hn : n % unit64 ≠ 0) :
    factorial (.fin false n h) = .ok .nan := by
  have h1 : F64.blt (.fin false n h) F64.f0 = false := by
    simp [F64.blt, F64.key, F64.f0, F64.zero, F64.sv]
  have h2 : F64.beq (F64.fract (.fin false n h)) F64.f0 = false := by
    rw [F64.fract_fin, if_neg hn]
    simp only [F64.beq, F64.key, F64.f0, F64.zero, F64.sv, decide_eq_false_iff_not]
    simp only [Bool.false_eq_true, if_false]
    generalize n % unit64 = r at hn
    omega
  simp [factorial, h1, h2, F64.isInf]

theorem beq_fract_whole {s : Bool} {k : Nat} (h : Rep (k * unit64)) :
    F64.beq (F64.fract (.fin s (k * unit64) h)) F64.f0 = true := by
  rw [F64.fract_fin, if_pos (Nat.mul_mod_left _ _)]
  rfl

theorem factorial_big {k : Nat} (h : Rep (k * unit64)) (hk : 170 < k) :
    factorial (.fin false (k * unit64) h) = .ok (.inf false) := by
  have h1 : F64.blt (.fin false (k * unit64) h) F64.f0 = false := by
    simp only [F64.blt, F64.key, F64.f0, F64.zero, F64.sv, decide_eq_false_iff_not]
    simp only [Bool.false_eq_true, if_false]
    omega
  have h3 : F64.blt (F64.ofNat 170) (.fin false (k * unit64) h) = true := by
    rw [F64.ofNat_eq (rep_nat (by decide))]
    have : 170 * unit64 < k * unit64 := Nat.mul_lt_mul_of_pos_right hk unit64_pos
    simp only [F64.blt, F64.key, F64.sv, decide_eq_true_iff]
    simp only [Bool.false_eq_true, if_false]
    omega
  simp [factorial, h1, beq_fract_whole h, h3, F64.isInf]

theorem factorial_table {s : Bool} {k : Nat} (h : Rep (k * unit64)) (hk : k ≤ 170)
    (hs : s = false ∨ k = 0) :
    factorial (.fin s (k * unit64) h) =
      .ok (factorialTable[k]'(by rw [factorialTable_length]; omega)) := by
  have h1 : F64.blt (.fin s (k * unit64) h) F64.f0 = false := by
    simp only [F64.blt, F64.key, F64.f0, F64.zero, F64.sv, decide_eq_false_iff_not]
    rcases hs with rfl | rfl
    · simp only [Bool.false_eq_true, if_false]; omega
    · simp
  have h3 : F64.blt (F64.ofNat 170) (.fin s (k * unit64) h) = false := by
    rw [F64.ofNat_eq (rep_nat (by decide))]
    have : k * unit64 ≤ 170 * unit64 := Nat.mul_le_mul_right _ hk
    simp only [F64.blt, F64.key, F64.sv, decide_eq_false_iff_not]
    rcases hs with rfl | rfl
    · simp only [Bool.false_eq_true, if_false]; omega
    · simp; omega
  have h4 : toUsizeUnchecked (.fin s (k * unit64) h) = .ok k := by
    unfold toUsizeUnchecked
    simp only [Nat.mul_div_cancel _ unit64_pos]
    rw [if_neg, if_neg]
    · omega
    · rcases hs with rfl | rfl <;> simp
  have h5 : factorialTable[k]? = some (factorialTable[k]'(by rw [factorialTable_length]; omega)) :=
    List.getElem?_eq_getElem _
  simp only [factorial, h1, beq_fract_whole h, h3, F64.isInf, h4, h5]
  simp

/-- `factorial` never panics and has no undefined behaviour. -/
theorem factorial_ok (x : F64) : ∃ v, factorial x = .ok v := by
  cases x with
  | nan => exact ⟨_, factorial_nan⟩
  | inf s => cases s; exact ⟨_, factorial_inf⟩; exact ⟨_, factorial_neg_inf⟩
  | fin s n h =>
    by_cases hm : n % unit64 = 0
    · have hn : n = n / unit64 * unit64 := by
        have := Nat.div_add_mod n unit64
        rw [hm, Nat.mul_comm] at this; omega
      rw [F64.fin_congr h hn]
      by_cases hs : s = false ∨ n / unit64 = 0
      · by_cases hk : n / unit64 ≤ 170
        · exact ⟨_, factorial_table _ hk hs⟩
        · rcases hs with rfl | hs
          · exact ⟨_, factorial_big _ (by omega)⟩
          · omega
      · have hs' : s = true := by
          cases s with
          | false => exact absurd (Or.inl rfl) hs
          | true => rfl
        subst hs'
        refine ⟨_, factorial_neg _ ?_⟩
        have h1 : 0 < n / unit64 := by
          rcases Nat.eq_zero_or_pos (n / unit64) with h | h
          · exact absurd (Or.inr h) hs
          · exact h
        exact Nat.mul_pos h1 unit64_pos
    · cases s with
      | false => exact ⟨_, factorial_fract h hm⟩
      | true =>
        refine ⟨_, factorial_neg h ?_⟩
        rcases Nat.eq_zero_or_pos n with h | h
        · subst h; simp at hm
        · exact h

end Xprs
