import Verif.Lemmas.Apart
import Verif.Lemmas.Range
import Verif.Lemmas.Root
/-
The square root of a square.
-/
namespace Xprs
open Spec
set_option exponentiation.threshold 4096

theorem grid_normal {n : ℕ} (h : Grid n) (hn : 2 ^ 52 ≤ n) :
    ∃ M k, 2 ^ 52 ≤ M ∧ M < 2 ^ 53 ∧ n = M * 2 ^ k := by
  obtain ⟨m, k, hm, rfl⟩ := h
  induction k generalizing m with
  | zero => exact ⟨m, 0, by simpa using hn, hm, rfl⟩
  | succ k ih =>
    by_cases h52 : 2 ^ 52 ≤ m
    · exact ⟨m, k + 1, h52, hm, rfl⟩
    · have e : m * 2 ^ (k + 1) = 2 * m * 2 ^ k := by rw [pow_succ]; ring
      rw [e] at hn ⊢
      exact ih (2 * m) (by omega) hn

/-- The root of a factor near one is nearer to one. -/
theorem root_factor {ρ : ℝ} (h1 : keep ≤ ρ) (h2 : ρ * keep ≤ 1) :
    |1 - √ρ| < 1 / (2 * (2 ^ 53 - 1)) := by
  have h0 : 0 ≤ ρ := le_trans keep_gt.le h1
  have hs := Real.mul_self_sqrt h0
  have hs0 := Real.sqrt_nonneg ρ
  generalize √ρ = σ at *
  rw [abs_lt]
  constructor
  · by_contra hc
    have hc : 1 + 1 / (2 * (2 ^ 53 - 1)) ≤ σ := by linarith
    have : (1 + 1 / (2 * (2 ^ 53 - 1))) * (1 + 1 / (2 * (2 ^ 53 - 1))) ≤ σ * σ :=
      mul_self_le_mul_self (by norm_num) hc
    rw [hs] at this
    have h3 := mul_le_mul_of_nonneg_right this keep_gt.le
    have h4 := h3.trans h2
    unfold keep at h4
    norm_num at h4
  · by_contra hc
    have hc : σ ≤ 1 - 1 / (2 * (2 ^ 53 - 1)) := by linarith
    have : σ * σ ≤ (1 - 1 / (2 * (2 ^ 53 - 1))) * (1 - 1 / (2 * (2 ^ 53 - 1))) :=
      mul_self_le_mul_self hs0 hc
    rw [hs] at this
    have h4 := h1.trans this
    unfold keep at h4
    norm_num at h4

theorem root_of_square {n N : ℕ} (hn : Grid n) (hb : 2 ^ 52 ≤ (n : ℝ) * n / 2 ^ 1074)
    (hN : NearestReal ((n : ℝ) * n / 2 ^ 1074) N) : NearestReal √((N : ℝ) * 2 ^ 1074) n := by
  have hU : (0 : ℝ) < 2 ^ 1074 := by positivity
  have hnn : (2 : ℝ) ^ 1126 ≤ (n : ℝ) * n := by
    rw [le_div_iff₀ hU] at hb
    refine le_trans (le_of_eq ?_) hb
    rw [← pow_add]
  have hn52 : 2 ^ 52 ≤ n := by
    by_contra hc
    rw [not_le] at hc
    have hc' : (n : ℝ) < 2 ^ 52 := by exact_mod_cast hc
    have h1 : (n : ℝ) * n < 2 ^ 52 * 2 ^ 52 := mul_self_lt_mul_self (by positivity) hc'
    have h2 : (2 : ℝ) ^ 52 * 2 ^ 52 ≤ 2 ^ 1126 := by
      rw [← pow_add]; exact pow_le_pow_right₀ (by norm_num) (by norm_num)
    linarith
  obtain ⟨M, k, hM, hM', rfl⟩ := grid_normal hn hn52
  rcases Nat.lt_or_eq_of_le hM with hM | hM
  · obtain ⟨ρ, e, h1, h2⟩ := nearestReal_close hN hb
    rw [pow_one] at h1 h2
    have hf := root_factor h1 h2
    have e2 : (N : ℝ) * 2 ^ 1074 = ((M * 2 ^ k : ℕ) : ℝ) * ((M * 2 ^ k : ℕ) : ℝ) * ρ := by
      rw [e]; field_simp
    rw [e2, Real.sqrt_mul (mul_self_nonneg _), Real.sqrt_mul_self (by positivity)]
    refine nearestReal_of hM hM' ?_
    have hMr : (M : ℝ) ≤ 2 ^ 53 - 1 := by
      have : M + 1 ≤ 2 ^ 53 := hM'
      have : (M : ℝ) + 1 ≤ 2 ^ 53 := by exact_mod_cast this
      linarith
    have hP : (0 : ℝ) < 2 ^ k := by positivity
    have hM0 : (0 : ℝ) < M := by exact_mod_cast (by omega : 0 < M)
    have e3 : ((M * 2 ^ k : ℕ) : ℝ) - ((M * 2 ^ k : ℕ) : ℝ) * √ρ = M * 2 ^ k * (1 - √ρ) := by
      push_cast; ring
    rw [e3, abs_mul, abs_of_pos (by positivity)]
    calc (M : ℝ) * 2 ^ k * |1 - √ρ| < M * 2 ^ k * (1 / (2 * (2 ^ 53 - 1))) :=
          mul_lt_mul_of_pos_left hf (by positivity)
      _ ≤ (2 ^ 53 - 1) * 2 ^ k * (1 / (2 * (2 ^ 53 - 1))) :=
          mul_le_mul_of_nonneg_right (mul_le_mul_of_nonneg_right hMr hP.le) (by norm_num)
      _ = 2 ^ k / 2 := by ring
  · subst hM
    have hk : 1022 ≤ 2 * k := by
      by_contra hc
      rw [not_le] at hc
      have : ((2 ^ 52 * 2 ^ k : ℕ) : ℝ) * ((2 ^ 52 * 2 ^ k : ℕ) : ℝ) = 2 ^ (104 + 2 * k) := by
        rw [← Nat.pow_add, Nat.cast_pow, Nat.cast_ofNat, ← pow_add]; congr 1; ring
      rw [this] at hnn
      have h2 := (pow_le_pow_iff_right₀ (by norm_num : (1 : ℝ) < 2)).1 hnn
      omega
    have et : ((2 ^ 52 * 2 ^ k : ℕ) : ℝ) * ((2 ^ 52 * 2 ^ k : ℕ) : ℝ) / 2 ^ 1074 =
        ((2 ^ (104 + 2 * k - 1074) : ℕ) : ℝ) := by
      rw [div_eq_iff hU.ne']
      rw [← Nat.pow_add, Nat.cast_pow, Nat.cast_pow, Nat.cast_ofNat, ← pow_add, ← pow_add,
        show 104 + 2 * k - 1074 + 1074 = 52 + k + (52 + k) by omega]
    have hN' : N = 2 ^ (104 + 2 * k - 1074) := by
      rw [et] at hN
      exact nearestReal_unique hN (nearestReal_self (grid_pow _))
    have : √((N : ℝ) * 2 ^ 1074) = ((2 ^ 52 * 2 ^ k : ℕ) : ℝ) := by
      rw [hN', ← et]
      rw [div_mul_cancel₀ _ hU.ne', Real.sqrt_mul_self (by positivity)]
    rw [this]
    exact nearestReal_self hn

theorem sqrt_square {x : F64} {p r : ℚ} (hx : value x = some p) (hy : value (F64.mul x x) = some r)
    (hb : 1 / 2 ^ 1022 ≤ p * p) : F64.sqrt (F64.mul x x) = F64.abs x := by
  have hU : (0 : ℝ) < 2 ^ 1074 := by positivity
  have hpp : (0 : ℚ) ≤ p * p := mul_self_nonneg p
  obtain ⟨N, hN, -, hr, -⟩ := rounds_mag (mul_rounds hx hx) hy
  have hr := hr hpp
  obtain ⟨n, gn, hn⟩ := grid_of_value hx
  have e1 : |((p * p : ℚ) : ℝ)| * 2 ^ 1074 = (n : ℝ) * n / 2 ^ 1074 := by
    have : p * p = (n : ℚ) / 2 ^ 1074 * (n / 2 ^ 1074) := by rw [← hn, abs_mul_abs_self]
    rw [this]
    push_cast
    rw [abs_of_nonneg (by positivity)]
    field_simp
  rw [e1] at hN
  have hb' : (2 : ℝ) ^ 52 ≤ (n : ℝ) * n / 2 ^ 1074 := by
    rw [← e1, abs_of_nonneg (by exact_mod_cast hpp)]
    have : ((1 / 2 ^ 1022 : ℚ) : ℝ) ≤ ((p * p : ℚ) : ℝ) := by exact_mod_cast hb
    refine le_trans ?_ (mul_le_mul_of_nonneg_right this hU.le)
    push_cast
    rw [one_div, inv_mul_eq_div, le_div_iff₀ (by positivity), ← pow_add]
  have hroot := root_of_square gn hb' hN
  have e2 : √(r : ℝ) * 2 ^ 1074 = √((N : ℝ) * 2 ^ 1074) := by
    rw [hr]
    push_cast
    have : (N : ℝ) * 2 ^ 1074 = (N / 2 ^ 1074) * (2 ^ 1074 * 2 ^ 1074) := by field_simp
    rw [this, Real.sqrt_mul (by positivity), Real.sqrt_mul_self hU.le]
  have hN0 : 0 < N := by
    by_contra hc
    have hc : N = 0 := by omega
    subst hc
    have := nearestReal_close hN hb'
    have h3 := close_ne_zero this (by linarith [pow_pos (two_pos : (0:ℝ) < 2) 52])
    exact h3 (by simp)
  have hr0 : 0 < r := by rw [hr]; positivity
  have hk := roots (F64.mul x x)
  generalize F64.mul x x = y at hy hk
  generalize F64.sqrt y = z at hk
  cases hk with
  | nan => cases hy
  | inf => cases hy
  | negInf => cases hy
  | zero h => rw [hy] at h; cases h; exact absurd hr0 (lt_irrefl _)
  | negative h h' => rw [hy] at h; cases h; exact absurd hr0 (not_lt.2 h'.le)
  | @positive _ _ _ k _ h _ e h' =>
    rw [hy] at h
    cases h
    rw [e2] at h'
    have := nearestReal_unique h' hroot
    subst this
    rw [e]
    obtain ⟨s, m, hm, rfl, rfl⟩ := value_some hx
    rw [abs_div, abs_sv, unit64_cast] at hn
    have hU' : (2 : ℚ) ^ 1074 ≠ 0 := by positivity
    rw [abs_of_pos (by positivity : (0 : ℚ) < 2 ^ 1074), div_left_inj' hU'] at hn
    have hn : m = k := by exact_mod_cast hn
    subst hn
    rfl

end Xprs
