import Verif.Spec.Value
import Verif.Lemmas.Float
import Mathlib.Tactic.Linarith
import Mathlib.Tactic.FieldSimp
import Mathlib.Tactic.Ring
/-
Exact values of the rounding operations.
-/
namespace Xprs
open Spec
set_option exponentiation.threshold 4096

theorem unit64_cast : ((unit64 : ℕ) : ℚ) = 2 ^ 1074 := by
  rw [unit64_eq]; push_cast; rfl

theorem unit64_pos_rat : (0 : ℚ) < (unit64 : ℕ) := by exact_mod_cast unit64_pos

theorem value_fin (s : Bool) {n : Nat} (h : Rep n) :
    value (.fin s n h) = some ((F64.sv s n : ℚ) / (unit64 : ℕ)) := by
  rw [unit64_cast]
  cases s <;> simp [value, F64.sv]

theorem signBit_fin (s : Bool) {n : Nat} (h : Rep n) : signBit (.fin s n h) = s := rfl

theorem value_some {x : F64} {q : ℚ} (h : value x = some q) :
    ∃ s n hn, x = .fin s n hn ∧ q = (F64.sv s n : ℚ) / (unit64 : ℕ) := by
  cases x with
  | nan => cases h
  | inf s => cases h
  | fin s n hn => rw [value_fin] at h; cases h; exact ⟨s, n, hn, rfl, rfl⟩

/-- The value of a whole number. -/
theorem value_whole (s : Bool) {k : Nat} (h : Rep (k * unit64)) :
    value (.fin s (k * unit64) h) = some ((F64.sv s k : ℤ) : ℚ) := by
  rw [value_fin]
  have := unit64_pos_rat
  congr 1
  cases s <;> simp only [F64.sv, if_true, if_false, Bool.false_eq_true] <;> push_cast <;> field_simp

theorem Rep.ceilK {n : Nat} (h : Rep n) {k : Nat} (hk : k * unit64 ≤ n + unit64)
    (hu : unit64 ∣ n → k * unit64 = n) : Rep (k * unit64) := by
  rcases Nat.lt_or_ge (ulpExp n) 1074 with hlt | hge
  · have h1 : n < 2 ^ (53 + 1073) := Nat.lt_of_lt_of_le (lt_two_pow_ulpExp n)
      (Nat.pow_le_pow_right (by decide) (by omega))
    have hU := unit64_eq
    have h2 : k * unit64 ≤ 2 ^ 53 * unit64 := by
      rw [hU] at hk ⊢
      have e : (2 : Nat) ^ (53 + 1073) = 2 ^ 52 * 2 ^ 1074 := by rw [← Nat.pow_add]
      rw [e] at h1
      generalize (2 : Nat) ^ 1074 = U at *
      have : (2 : Nat) ^ 53 = 2 * 2 ^ 52 := by decide
      rw [this]
      have : U ≤ 2 ^ 52 * U := Nat.le_mul_of_pos_left _ (by decide)
      rw [Nat.mul_assoc]
      omega
    exact rep_nat (Nat.le_of_mul_le_mul_right h2 unit64_pos)
  · have : unit64 ∣ n := by
      rw [unit64_eq]; exact Nat.dvd_trans (Nat.pow_dvd_pow 2 hge) h.dvd
    rw [hu this]; exact h

theorem Rep.ceil {n : Nat} (h : Rep n) : Rep ((n + (unit64 - 1)) / unit64 * unit64) := by
  have hp := unit64_pos
  refine h.ceilK ?_ ?_
  · have := Nat.div_mul_le_self (n + (unit64 - 1)) unit64; omega
  · rintro ⟨k, rfl⟩
    rw [Nat.mul_add_div hp, Nat.div_eq_of_lt (by omega), Nat.add_zero, Nat.mul_comm]

theorem Rep.round {n : Nat} (h : Rep n) : Rep ((n + unit64 / 2) / unit64 * unit64) := by
  have hp := unit64_pos
  refine h.ceilK ?_ ?_
  · have := Nat.div_mul_le_self (n + unit64 / 2) unit64; omega
  · rintro ⟨k, rfl⟩
    rw [Nat.mul_add_div hp, Nat.div_eq_of_lt (by omega), Nat.add_zero, Nat.mul_comm]

/-- `n / U` rounded up, as an integer division. -/
theorem ceil_div (n U : Nat) (hU : 0 < U) : -((-(n : Int)) / (U : Int)) = ((n + (U - 1)) / U : Nat) := by
  have h1 := Nat.div_add_mod (n + (U - 1)) U
  have h2 := Nat.mod_lt (n + (U - 1)) hU
  generalize (n + (U - 1)) / U = k at *
  generalize (n + (U - 1)) % U = r at *
  have : (-(n : Int)) / (U : Int) = -(k : Int) := by
    have e : -(n : Int) = (U : Int) * (-(k : Int)) + ((U : Int) - 1 - r) := by
      have : (n : Int) + (U - 1) = U * k + r := by
        have := congrArg (Nat.cast (R := Int)) h1
        push_cast at this
        rw [Nat.cast_sub (by omega)] at this
        push_cast at this
        linarith
      linarith
    rw [e, Int.add_comm, Int.add_mul_ediv_left _ _ (by omega), Int.ediv_eq_zero_of_lt (by omega) (by omega)]
    omega
  rw [this]; omega

theorem floor_sv (s : Bool) (n : Nat) : ⌊(F64.sv s n : ℚ) / (unit64 : ℕ)⌋ =
    F64.sv s (if s then (n + (unit64 - 1)) / unit64 else n / unit64) := by
  rw [Rat.floor_intCast_div_natCast]
  cases s with
  | false => simp [F64.sv]
  | true =>
    have := ceil_div n unit64 unit64_pos
    simp only [F64.sv, if_true]
    rw [← this]; omega

theorem ceil_sv (s : Bool) (n : Nat) : ⌈(F64.sv s n : ℚ) / (unit64 : ℕ)⌉ =
    F64.sv s (if s then n / unit64 else (n + (unit64 - 1)) / unit64) := by
  rw [Rat.ceil_intCast_div_natCast]
  cases s with
  | false =>
    have := ceil_div n unit64 unit64_pos
    simpa [F64.sv] using this
  | true => simp [F64.sv]

theorem floor_value {x : F64} {q : ℚ} (h : value x = some q) :
    value (F64.floor x) = some ((⌊q⌋ : ℤ) : ℚ) ∧ signBit (F64.floor x) = signBit x := by
  obtain ⟨s, n, hn, rfl, rfl⟩ := value_some h
  rw [floor_sv]
  cases s with
  | false =>
    have : F64.floor (.fin false n hn) = .fin false (n / unit64 * unit64) hn.trunc := F64.ofMag_rep _ _
    rw [this, value_whole]
    exact ⟨by simp only [if_false, Bool.false_eq_true], by simp only [signBit_fin]⟩
  | true =>
    have : F64.floor (.fin true n hn) = .fin true ((n + (unit64 - 1)) / unit64 * unit64) hn.ceil :=
      F64.ofMag_rep _ _
    rw [this, value_whole]
    exact ⟨by simp only [if_true], by simp only [signBit_fin]⟩

theorem ceil_value {x : F64} {q : ℚ} (h : value x = some q) :
    value (F64.ceil x) = some ((⌈q⌉ : ℤ) : ℚ) ∧ signBit (F64.ceil x) = signBit x := by
  obtain ⟨s, n, hn, rfl, rfl⟩ := value_some h
  rw [ceil_sv]
  cases s with
  | true =>
    have : F64.ceil (.fin true n hn) = .fin true (n / unit64 * unit64) hn.trunc := F64.ofMag_rep _ _
    rw [this, value_whole]
    exact ⟨by simp only [if_true], by simp only [signBit_fin]⟩
  | false =>
    have : F64.ceil (.fin false n hn) = .fin false ((n + (unit64 - 1)) / unit64 * unit64) hn.ceil :=
      F64.ofMag_rep _ _
    rw [this, value_whole]
    exact ⟨by simp only [if_false, Bool.false_eq_true], by simp only [signBit_fin]⟩

theorem sv_nonneg {s : Bool} {n : Nat} : (0 : ℚ) ≤ (F64.sv s n : ℚ) / (unit64 : ℕ) ↔ s = false ∨ n = 0 := by
  have hU := unit64_pos_rat
  have e : (0 : ℚ) ≤ (F64.sv s n : ℚ) / (unit64 : ℕ) ↔ (0 : ℚ) ≤ (F64.sv s n : ℚ) := by
    constructor
    · intro h
      have := mul_nonneg h hU.le
      rwa [div_mul_cancel₀ _ hU.ne'] at this
    · intro h
      exact div_nonneg h hU.le
  rw [e, Int.cast_nonneg_iff]
  cases s <;> simp [F64.sv]

theorem trunc_value {x : F64} {q : ℚ} (h : value x = some q) :
    value (F64.trunc x) = some ((truncRat q) : ℚ) ∧
      signBit (F64.trunc x) = signBit x := by
  obtain ⟨s, n, hn, rfl, rfl⟩ := value_some h
  rw [F64.trunc_fin, value_whole]
  refine ⟨?_, by simp only [signBit_fin]⟩
  unfold truncRat
  congr 2
  split
  · rename_i h0
    rw [floor_sv]
    rcases sv_nonneg.1 h0 with rfl | rfl
    · rfl
    · have hp := unit64_pos
      cases s with
      | false => rfl
      | true =>
        simp only [if_true, Nat.zero_add]
        rw [Nat.div_eq_of_lt (a := unit64 - 1) (by omega), Nat.zero_div]
  · rename_i h0
    rw [ceil_sv]
    cases s with
    | true => rfl
    | false => exact absurd (sv_nonneg.2 (.inl rfl)) h0

theorem fract_value {x : F64} {q : ℚ} (h : value x = some q) :
    value (F64.fract x) = some (q - (truncRat q : ℚ)) := by
  obtain ⟨t1, _⟩ := trunc_value h
  obtain ⟨s, n, hn, rfl, rfl⟩ := value_some h
  rw [F64.trunc_fin, value_fin] at t1
  injection t1 with t1
  rw [← t1, F64.fract_fin]
  have hdm := Nat.div_add_mod n unit64
  have hq : (F64.sv s n : ℚ) / (unit64 : ℕ) - (F64.sv s (n / unit64 * unit64) : ℚ) / (unit64 : ℕ) =
      (F64.sv s (n % unit64) : ℚ) / (unit64 : ℕ) := by
    rw [← sub_div]
    congr 1
    have : F64.sv s n - F64.sv s (n / unit64 * unit64) = F64.sv s (n % unit64) := by
      have hm : unit64 * (n / unit64) = n / unit64 * unit64 := Nat.mul_comm _ _
      generalize n / unit64 * unit64 = a at *
      generalize n % unit64 = b at *
      unfold F64.sv
      split <;> omega
    exact_mod_cast this
  rw [hq]
  split
  · rename_i h0
    rw [h0]
    simp only [F64.zero, value_fin]
    cases s <;> rfl
  · rw [value_fin]

theorem round_value {x : F64} {q : ℚ} (h : value x = some q) :
    value (F64.round x) = some (((if 0 ≤ q then ⌊q + 1 / 2⌋ else ⌈q - 1 / 2⌉ : ℤ)) : ℚ) ∧
      signBit (F64.round x) = signBit x := by
  obtain ⟨s, n, hn, rfl, rfl⟩ := value_some h
  have hr : F64.round (.fin s n hn) = .fin s ((n + unit64 / 2) / unit64 * unit64) hn.round :=
    F64.ofMag_rep _ _
  clear h
  rw [hr, value_whole]
  refine ⟨?_, by simp only [signBit_fin]⟩
  congr 2
  have hu : ∃ V, unit64 = 2 * V ∧ 0 < V := ⟨2 ^ 1073, by rw [unit64_eq, ← Nat.pow_succ'], Nat.two_pow_pos _⟩
  obtain ⟨V, hV, hV0⟩ := hu
  have hc := unit64_pos_rat
  have hhalf : (1 : ℚ) / 2 = (V : ℕ) / (unit64 : ℕ) := by
    rw [hV]; push_cast
    have : (V : ℚ) ≠ 0 := by exact_mod_cast hV0.ne'
    field_simp
  have hVd : unit64 / 2 = V := by omega
  have up : ∀ n : Nat, ⌊(n : ℚ) / (unit64 : ℕ) + 1 / 2⌋ = ((n + unit64 / 2) / unit64 : Nat) := by
    intro n
    rw [hhalf, ← add_div, hVd]
    have := Rat.floor_intCast_div_natCast ((n + V : Nat) : Int) unit64
    push_cast at this ⊢
    exact this
  split
  · rename_i h0
    rcases sv_nonneg.1 h0 with rfl | rfl
    · have := up n
      simpa [F64.sv] using this.symm
    · have := up 0
      have e : F64.sv s 0 = 0 := by cases s <;> rfl
      rw [e]
      have hz : (0 + unit64 / 2) / unit64 = 0 := Nat.div_eq_of_lt (by omega)
      rw [hz] at this ⊢
      rw [e]
      simpa using this.symm
  · rename_i h0
    cases s with
    | false => exact absurd (sv_nonneg.2 (.inl rfl)) h0
    | true =>
      have := up n
      have e : ((F64.sv true n : ℤ) : ℚ) / (unit64 : ℕ) - 1 / 2 = -((n : ℚ) / (unit64 : ℕ) + 1 / 2) := by
        simp only [F64.sv, if_true]; push_cast; ring
      rw [e, Int.ceil_neg, this]
      simp only [F64.sv, if_true]

theorem abs_value {x : F64} {q : ℚ} (h : value x = some q) :
    value (F64.abs x) = some |q| ∧ signBit (F64.abs x) = false := by
  obtain ⟨s, n, hn, rfl, rfl⟩ := value_some h
  refine ⟨?_, signBit_fin _ _⟩
  show value (.fin false n hn) = _
  rw [value_fin, abs_div, abs_of_pos unit64_pos_rat]
  congr 2
  cases s <;> simp [F64.sv]

end Xprs
