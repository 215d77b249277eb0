import Verif.Lemmas.Threshold
import Verif.Lemmas.Square
import Verif.Lemmas.Whole
import Verif.Lemmas.Exact
/-
Rounding in `sqrt(x*x + y*y)` for C124.
-/
namespace Xprs
open _root_.Xprs.Spec
set_option exponentiation.threshold 4096

/-- A summand far below the last place is lost. -/
theorem nearZ_absorb {a b t : ℤ} (ha : GridZ a) (hb : 0 ≤ b) (h : b * 2 ^ 55 ≤ a) (hn : NearZ (a + b) t) : t = a := by
  have h1 : a ≤ t := hn.ge ha (by linarith)
  have h2 := hn.closest a ha
  have h3 : |a - (a + b)| = b := by rw [abs_sub_comm, show a + b - a = b by ring, _root_.abs_of_nonneg hb]
  rw [h3] at h2
  have h4 := (abs_le.1 h2).2
  rcases lt_or_ge a (2 ^ 53) with l | l
  · have : b = 0 := by
      by_contra h0
      have : 1 ≤ b := by omega
      linarith
    omega
  · by_contra hne
    have ha0 : a.toNat ≠ 0 := by omega
    have e : ((a.toNat : ℕ) : ℤ) = a := by omega
    have p1 := Nat.pow_log_le_self 2 ha0
    have p2 := Nat.lt_pow_succ_log_self (b := 2) (by norm_num) a.toNat
    have p3 : 53 ≤ Nat.log 2 a.toNat := Nat.le_log_of_pow_le (by norm_num) (by
      have : ((2 ^ 53 : ℕ) : ℤ) ≤ a.toNat := by rw [e]; exact_mod_cast l
      exact_mod_cast this)
    obtain ⟨g, hg⟩ := Nat.exists_eq_add_of_le p3
    rw [hg] at p1 p2
    have q1 : (2 : ℤ) ^ (53 + g) ≤ a := by rw [← e]; exact_mod_cast p1
    have q2 : a < (2 : ℤ) ^ (53 + g + 1) := by rw [← e]; exact_mod_cast p2
    have q3 : (2 : ℤ) ^ (52 + g) < |a| := by
      rw [_root_.abs_of_nonneg (by linarith [show (0 : ℤ) ≤ 2 ^ 53 by norm_num])]
      refine lt_of_lt_of_le ?_ q1
      exact pow_lt_pow_right₀ (by norm_num) (by omega)
    have q4 := gridZ_gap ha hn.grid q3 hne
    rw [_root_.abs_of_nonneg (by linarith)] at q4
    have q5 : (2 : ℤ) ^ (53 + g + 1) = 2 ^ 54 * 2 ^ g := by rw [← pow_add]; congr 1; omega
    rw [q5] at q2
    have q6 : (0 : ℤ) < 2 ^ g := by positivity
    linarith

theorem add_absorb {x y : F64} {p q : ℚ} (hx : value x = some p) (hy : value y = some q) (hq : 0 ≤ q)
    (h : q * 2 ^ 55 ≤ p) (hp : p ≤ 2 ^ 1022) : value (F64.add x y) = some p := by
  have hr := Xprs.add_rounds hx hy
  obtain ⟨r, hv, -⟩ := round_abs hr (by
    rw [_root_.abs_of_nonneg (by linarith)]
    have : (2 : ℚ) ^ 1022 + 2 ^ 1022 = 2 ^ 1023 := by norm_num
    linarith)
  obtain ⟨a, rfl, ga, -⟩ := gridZ_of_value hx
  obtain ⟨b, rfl, -, -⟩ := gridZ_of_value hy
  obtain ⟨t, rfl, -, -⟩ := gridZ_of_value hv
  have hU : (0 : ℚ) < 2 ^ 1074 := by positivity
  rw [hv]
  congr 2
  have hb : 0 ≤ b := by
    by_contra hlt
    have : (b : ℚ) < 0 := by exact_mod_cast not_le.1 hlt
    exact absurd hq (not_le.2 (div_neg_of_neg_of_pos this hU))
  have hab : b * 2 ^ 55 ≤ a := by
    rw [div_mul_eq_mul_div, div_le_div_iff_of_pos_right hU] at h
    exact_mod_cast h
  rw [← add_div, ← Int.cast_add] at hr
  exact_mod_cast nearZ_absorb ga hb hab (nearZ_of_rounds hr hv)

/-- The sides: zero or of moderate size. -/
theorem square_value {x : F64} {p : ℚ} (hx : value x = some p) (h : p = 0 ∨ 1 / 2 ^ 511 ≤ |p|) (hp : |p| ≤ 2 ^ 510) :
    ∃ r, value (F64.mul x x) = some r ∧ 0 ≤ r ∧ |r - p * p| * 2 ^ 53 ≤ p * p := by
  have hr := mul_rounds hx hx
  have e : |p * p| = p * p := abs_mul_self p
  have hpp : p * p ≤ 2 ^ 1020 := by
    rw [← abs_mul_abs_self p]
    have : (2 : ℚ) ^ 1020 = 2 ^ 510 * 2 ^ 510 := by rw [← pow_add]
    rw [this]
    exact mul_le_mul hp hp (abs_nonneg _) (by positivity)
  rcases h with rfl | h
  · have := mul_exact hx hx ⟨x, by rw [hx, mul_zero]⟩
    rw [mul_zero] at this
    exact ⟨0, this, le_rfl, by simp⟩
  · have hb : 1 / 2 ^ 1022 ≤ |p * p| := by
      rw [e, ← abs_mul_abs_self p]
      have : (1 : ℚ) / 2 ^ 1022 = 1 / 2 ^ 511 * (1 / 2 ^ 511) := by
        rw [div_mul_div_comm, ← pow_add, one_mul]
      rw [this]
      exact mul_le_mul h h (by positivity) (abs_nonneg _)
    have h3 : |p * p| ≤ 2 ^ 1023 := by
      rw [e]; exact hpp.trans (pow_le_pow_right₀ (by norm_num) (by norm_num))
    obtain ⟨r, hv, -⟩ := round_abs hr h3
    have h4 := round_rel hr hv hb h3
    rw [e] at h4
    refine ⟨r, hv, ?_, h4⟩
    have h5 := neg_abs_le (r - p * p)
    have h6 := mul_self_nonneg p
    have h7 := abs_nonneg (r - p * p)
    linarith

/-- The square of the sum is not below the sum of the squares, roundings included. -/
theorem hypot_upper {a b σ r₁ r₂ : ℚ} (hb : 0 < b) (hab : b ≤ a) (hr : a ≤ b * 2 ^ 51)
    (h1 : |r₁ - a * a| * 2 ^ 53 ≤ a * a) (h2 : |r₂ - b * b| * 2 ^ 53 ≤ b * b)
    (hσ : |σ - (a + b)| * 2 ^ 53 ≤ a + b) : r₁ + r₂ ≤ σ * σ := by
  have k1 : (r₁ - a * a) * 2 ^ 53 ≤ a * a := le_trans (by gcongr; exact le_abs_self _) h1
  have k2 : (r₂ - b * b) * 2 ^ 53 ≤ b * b := le_trans (by gcongr; exact le_abs_self _) h2
  have k3 : (a + b) * (2 ^ 53 - 1) ≤ σ * 2 ^ 53 := by
    have := neg_abs_le (σ - (a + b))
    nlinarith
  have ha : 0 < a := hb.trans_le hab
  have hM : (2 : ℚ) ^ 51 * 4 = 2 ^ 53 := by norm_num
  have hM8 : (8 : ℚ) ≤ 2 ^ 53 := by norm_num
  have hr' : 4 * a ≤ b * 2 ^ 53 := by rw [← hM]; linarith
  clear hr h1 h2 hσ hM
  generalize (2 : ℚ) ^ 53 = M at *
  have k5 : 0 ≤ (a + b) * (M - 1) := mul_nonneg (by linarith) (by linarith)
  have k4 : (a + b) * (M - 1) * ((a + b) * (M - 1)) ≤ σ * M * (σ * M) :=
    mul_le_mul k3 k3 k5 (k5.trans k3)
  have hA : 4 * (a * a) ≤ a * b * M := by nlinarith
  have hB : b * b ≤ a * b := by nlinarith
  have hP : 0 < a * b := by positivity
  have k6 : (a * a + b * b) * (M + 1) * M ≤ (a + b) * (M - 1) * ((a + b) * (M - 1)) := by
    have e : (a + b) * (M - 1) * ((a + b) * (M - 1)) - (a * a + b * b) * (M + 1) * M =
        M * (2 * (a * b) * (M - 2) - 3 * (a * a + b * b)) + (2 * (a * b) + a * a + b * b) := by ring
    have : 0 ≤ 2 * (a * b) * (M - 2) - 3 * (a * a + b * b) := by nlinarith
    have := mul_nonneg (by linarith : 0 ≤ M) this
    nlinarith
  have k7 : (r₁ + r₂) * M * M ≤ σ * M * (σ * M) := by
    refine le_trans ?_ (k6.trans k4)
    have : (r₁ + r₂) * M ≤ (a * a + b * b) * (M + 1) := by linarith
    exact mul_le_mul_of_nonneg_right this (by linarith)
  have hMM : 0 < M * M := by positivity
  refine le_of_mul_le_mul_right ?_ hMM
  linarith

end Xprs
