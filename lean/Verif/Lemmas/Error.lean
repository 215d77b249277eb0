import Verif.Lemmas.Exact
import Verif.Spec.Error
import Mathlib.Algebra.Order.Ring.Pow
/-
Relative errors (for C70).
-/
namespace Xprs
open Spec
set_option exponentiation.threshold 4096

theorem dist_le {a b d : ℕ} (h1 : a ≤ b + d) (h2 : b ≤ a + d) : dist a b ≤ d := by
  unfold dist; omega

theorem le_of_dist {a b d : ℕ} (h : dist a b ≤ d) : a ≤ b + d ∧ b ≤ a + d := by
  unfold dist at h; omega

theorem half_le {d P X N : ℕ} (h1 : 2 * d ≤ P) (h2 : P * 2 ^ 52 ≤ X) (h3 : X ≤ N) :
    d * 2 ^ 53 ≤ N := by
  calc d * 2 ^ 53 = 2 * d * 2 ^ 52 := by ring
    _ ≤ P * 2 ^ 52 := Nat.mul_le_mul_right _ h1
    _ ≤ N := h2.trans h3

/-- From `2⁵²` units on some number of the grid is near. -/
theorem grid_near {N D : ℕ} (hD : 0 < D) (h : 2 ^ 52 * D ≤ N) :
    ∃ g, Grid g ∧ dist (g * D) N * 2 ^ 53 ≤ N := by
  have hA : 2 ^ 52 ≤ N / D := (Nat.le_div_iff_mul_le hD).2 h
  obtain ⟨k, hk1, hk2⟩ : ∃ k, 2 ^ 52 * 2 ^ k ≤ N / D ∧ N / D < 2 ^ 53 * 2 ^ k := by
    have h0 : N / D ≠ 0 := by omega
    refine ⟨Nat.log2 (N / D) - 52, ?_, ?_⟩
    · rw [← Nat.pow_add]
      have h1 : 52 ≤ Nat.log2 (N / D) := (Nat.le_log2 h0).2 hA
      rw [Nat.add_sub_cancel' h1]
      exact Nat.log2_self_le h0
    · rw [← Nat.pow_add]
      refine lt_of_lt_of_le Nat.lt_log2_self (Nat.pow_le_pow_right (by decide) (by omega))
  have hP : 0 < D * 2 ^ k := by positivity
  have e1 : N / D / 2 ^ k = N / (D * 2 ^ k) := Nat.div_div_eq_div_mul _ _ _
  have hm1 : 2 ^ 52 ≤ N / (D * 2 ^ k) := by
    rw [← e1]; exact (Nat.le_div_iff_mul_le (by positivity)).2 hk1
  have hm2 : N / (D * 2 ^ k) < 2 ^ 53 := by
    rw [← e1]; exact (Nat.div_lt_iff_lt_mul (by positivity)).2 hk2
  have hdm := Nat.div_add_mod N (D * 2 ^ k)
  have hmod := Nat.mod_lt N hP
  generalize N / (D * 2 ^ k) = q at *
  generalize N % (D * 2 ^ k) = r at *
  have hb : D * 2 ^ k * 2 ^ 52 ≤ D * 2 ^ k * q := Nat.mul_le_mul_left _ hm1
  by_cases hr : 2 * r ≤ D * 2 ^ k
  · refine ⟨q * 2 ^ k, ⟨q, k, hm2, rfl⟩, ?_⟩
    have e2 : q * 2 ^ k * D = D * 2 ^ k * q := by ring
    rw [e2]
    exact le_trans (Nat.mul_le_mul_right _ (dist_le (d := r) (by omega) (by omega)))
      (half_le hr hb (by omega))
  · have hg : Grid ((q + 1) * 2 ^ k) := by
      by_cases hq : q + 1 < 2 ^ 53
      · exact ⟨q + 1, k, hq, rfl⟩
      · have : q + 1 = 2 ^ 53 := by omega
        exact ⟨2 ^ 52, k + 1, by decide, by rw [this]; ring⟩
    refine ⟨(q + 1) * 2 ^ k, hg, ?_⟩
    have e2 : (q + 1) * 2 ^ k * D = D * 2 ^ k * q + D * 2 ^ k := by ring
    rw [e2]
    exact le_trans (Nat.mul_le_mul_right _ (dist_le (d := D * 2 ^ k - r) (by omega) (by omega)))
      (half_le (by omega) hb (by omega))

/-- The relative error of a rounding. -/
theorem nearest_near {N D n : ℕ} (hD : 0 < D) (h : 2 ^ 52 * D ≤ N) (hn : Nearest N D n) :
    dist (n * D) N * 2 ^ 53 ≤ N := by
  obtain ⟨g, hg, hd⟩ := grid_near hD h
  exact le_trans (Nat.mul_le_mul_right _ (hn.closest g hg)) hd

/-- `v` is `q` up to `k` roundings. -/
def Near (k : ℕ) (q v : ℚ) : Prop :=
  ∃ ρ, v = q * ρ ∧ (1 - roundoff) ^ k ≤ ρ ∧ ρ * (1 - roundoff) ^ k ≤ 1

theorem round_within {x : ℚ} {v : F64} (h : RoundsTo x v) (h1 : 1 / 2 ^ 1022 ≤ |x|)
    (h2 : |x| ≤ 2 ^ 1023) : ∃ r, value v = some r ∧ Near 1 x r := by
  obtain ⟨⟨N, D, hD, hq, n, hn, hv⟩, hs1, hs2⟩ := h
  have hDq : (0 : ℚ) < (D : ℚ) := by exact_mod_cast hD
  have hNq : (N : ℚ) = |x| * 2 ^ 1074 * D := by rw [hq]; field_simp
  have hlow : 2 ^ 52 * D ≤ N := by
    have : ((2 ^ 52 * D : ℕ) : ℚ) ≤ (N : ℚ) := by
      rw [hNq]
      push_cast
      have : (2 : ℚ) ^ 52 ≤ |x| * 2 ^ 1074 := by
        calc (2 : ℚ) ^ 52 = 1 / 2 ^ 1022 * 2 ^ 1074 := by norm_num
          _ ≤ _ := by gcongr
      exact mul_le_mul_of_nonneg_right this hDq.le
    exact_mod_cast this
  have hup : N ≤ 2 ^ 2097 * D := by
    have : (N : ℚ) ≤ ((2 ^ 2097 * D : ℕ) : ℚ) := by
      rw [hNq]
      push_cast
      have : |x| * 2 ^ 1074 ≤ (2 : ℚ) ^ 2097 := by
        calc |x| * 2 ^ 1074 ≤ 2 ^ 1023 * 2 ^ 1074 := by gcongr
          _ = _ := by norm_num
      exact mul_le_mul_of_nonneg_right this hDq.le
    exact_mod_cast this
  have hd := nearest_near hD hlow hn
  have hfin : n < 2 ^ 2098 := by
    by_contra hc
    have h3 : 2 ^ 2098 * D ≤ n * D := Nat.mul_le_mul_right _ (by omega)
    have h4 : 2 ^ 2098 * D = 2 ^ 2097 * D + 2 ^ 2097 * D := by rw [← Nat.add_mul]; congr 1
    have hpos : 0 < 2 ^ 2097 * D := by positivity
    generalize 2 ^ 2097 * D = Y at *
    rw [h4] at h3
    have h5 : dist (n * D) N ≤ N := le_trans (Nat.le_mul_of_pos_right _ (by positivity)) hd
    have h6 : dist (n * D) N < N := by
      rcases Nat.lt_or_ge (dist (n * D) N) N with h | h
      · exact h
      · have h7 : N * 2 ^ 53 ≤ N := le_trans (Nat.mul_le_mul_right _ h) hd
        have h8 : N * 2 ≤ N * 2 ^ 53 := Nat.mul_le_mul_left _ (by decide)
        have h9 : 0 < 2 ^ 52 * D := by positivity
        omega
    have := (le_of_dist (Nat.le_refl (dist (n * D) N))).1
    omega
  have hN0 : 0 < N := by
    have : 0 < 2 ^ 52 * D := by positivity
    omega
  have hNq0 : (0 : ℚ) < (N : ℚ) := by exact_mod_cast hN0
  have hx : x ≠ 0 := by
    rintro rfl
    rw [hNq] at hNq0
    simp at hNq0
  -- the float
  obtain ⟨s, hn', rfl⟩ : ∃ s h, v = .fin s n h := by
    rcases hv with ⟨-, h', hv⟩ | ⟨hv, -⟩
    · cases v with
      | nan => cases hv
      | inf t => cases hv
      | fin t m hm =>
        have : m = n := by simp only [F64.abs, F64.fin.injEq] at hv; exact hv.2
        subst this
        exact ⟨t, hm, rfl⟩
    · omega
  refine ⟨_, value_fin .., (n * D : ℚ) / N, ?_, ?_, ?_⟩
  · have hsv : ((F64.sv s n : ℤ) : ℚ) = (if x < 0 then -1 else 1) * (n : ℚ) := by
      rcases lt_or_gt_of_ne hx with h0 | h0
      · have := hs1 h0
        rw [signBit_fin] at this
        subst this
        simp [F64.sv, h0]
      · have := hs2 h0
        rw [signBit_fin] at this
        subst this
        simp [F64.sv, not_lt.2 h0.le]
    have habs : x = (if x < 0 then -1 else 1) * |x| := by
      split
      · rename_i h0; rw [abs_of_neg h0]; ring
      · rename_i h0; rw [abs_of_nonneg (not_lt.1 h0)]; ring
    have hax : |x| ≠ 0 := abs_ne_zero.2 hx
    rw [hsv, hNq, ← unit64_cast]
    have hU := unit64_pos_rat
    rw [← unit64_cast] at hNq
    generalize (if x < 0 then (-1 : ℚ) else 1) = σ at *
    rw [show x * ((n : ℚ) * D / (|x| * (unit64 : ℕ) * D)) = σ * |x| * ((n : ℚ) * D / (|x| * (unit64 : ℕ) * D)) by
      rw [← habs]]
    field_simp
  all_goals
    have hq1 : ((n * D : ℕ) : ℚ) * 2 ^ 53 ≤ N * 2 ^ 53 + N := by
      have : n * D * 2 ^ 53 ≤ N * 2 ^ 53 + N := by
        have := Nat.mul_le_mul_right (2 ^ 53) (le_of_dist (Nat.le_refl (dist (n * D) N))).1
        rw [Nat.add_mul] at this
        exact this.trans (Nat.add_le_add_left hd _)
      exact_mod_cast this
    have hq2 : (N : ℚ) * 2 ^ 53 ≤ ((n * D : ℕ) : ℚ) * 2 ^ 53 + N := by
      have : N * 2 ^ 53 ≤ n * D * 2 ^ 53 + N := by
        have := Nat.mul_le_mul_right (2 ^ 53) (le_of_dist (Nat.le_refl (dist (n * D) N))).2
        rw [Nat.add_mul] at this
        exact this.trans (Nat.add_le_add_left hd _)
      exact_mod_cast this
    push_cast at hq1 hq2
    rw [pow_one]
    unfold roundoff
  · rw [le_div_iff₀ hNq0]
    linarith
  · have h5 : (n * D : ℚ) / N ≤ 1 + 1 / 2 ^ 53 := by
      rw [div_le_iff₀ hNq0]
      linarith
    calc (n * D : ℚ) / N * (1 - 1 / 2 ^ 53) ≤ (1 + 1 / 2 ^ 53) * (1 - 1 / 2 ^ 53) := by
          gcongr
      _ ≤ 1 := by norm_num

/-! ### Errors add up -/

theorem keep_pos (k : ℕ) : (0 : ℚ) < (1 - roundoff) ^ k := by
  have : (0 : ℚ) < 1 - roundoff := by unfold roundoff; norm_num
  positivity

theorem keep_le_one (k : ℕ) : (1 - roundoff) ^ k ≤ 1 :=
  pow_le_one₀ (by unfold roundoff; norm_num) (by unfold roundoff; norm_num)

theorem Near.refl (q : ℚ) : Near 0 q q := ⟨1, by ring, by simp, by simp⟩

theorem Near.mono {j k : ℕ} {q v : ℚ} (h : Near j q v) (hk : j ≤ k) : Near k q v := by
  obtain ⟨ρ, h1, h2, h3⟩ := h
  have h4 : (1 - roundoff) ^ k ≤ (1 - roundoff) ^ j :=
    pow_le_pow_of_le_one (by unfold roundoff; norm_num) (by unfold roundoff; norm_num) hk
  have h5 : 0 ≤ ρ := (keep_pos j).le.trans h2
  exact ⟨ρ, h1, h4.trans h2, (mul_le_mul_of_nonneg_left h4 h5).trans h3⟩

theorem Near.neg {k : ℕ} {q v : ℚ} (h : Near k q v) : Near k (-q) (-v) := by
  obtain ⟨ρ, h1, h2, h3⟩ := h
  exact ⟨ρ, by rw [h1]; ring, h2, h3⟩

theorem Near.mul {j k : ℕ} {p q u v : ℚ} (h : Near j p u) (h' : Near k q v) :
    Near (j + k) (p * q) (u * v) := by
  obtain ⟨ρ, h1, h2, h3⟩ := h
  obtain ⟨τ, k1, k2, k3⟩ := h'
  refine ⟨ρ * τ, by rw [h1, k1]; ring, ?_, ?_⟩
  · rw [pow_add]
    exact mul_le_mul h2 k2 (keep_pos k).le ((keep_pos j).le.trans h2)
  · rw [pow_add]
    have h5 : 0 ≤ τ * (1 - roundoff) ^ k := mul_nonneg ((keep_pos k).le.trans k2) (keep_pos k).le
    calc ρ * τ * ((1 - roundoff) ^ j * (1 - roundoff) ^ k)
        = ρ * (1 - roundoff) ^ j * (τ * (1 - roundoff) ^ k) := by ring
      _ ≤ 1 * 1 := mul_le_mul h3 k3 h5 (by norm_num)
      _ = 1 := by norm_num

theorem Near.inv {k : ℕ} {q v : ℚ} (h : Near k q v) : Near k q⁻¹ v⁻¹ := by
  obtain ⟨ρ, h1, h2, h3⟩ := h
  have h5 : 0 < ρ := (keep_pos k).trans_le h2
  refine ⟨ρ⁻¹, by rw [h1, mul_inv], ?_, ?_⟩
  · rw [le_inv_comm₀ (keep_pos k) h5, ← one_div, le_div_iff₀ (keep_pos k)]
    exact h3
  · rw [inv_mul_le_iff₀ h5, mul_one]
    exact h2

theorem Near.div {j k : ℕ} {p q u v : ℚ} (h : Near j p u) (h' : Near k q v) :
    Near (j + k) (p / q) (u / v) := by
  rw [div_eq_mul_inv, div_eq_mul_inv]
  exact h.mul h'.inv

theorem Near.trans {j k : ℕ} {p q r : ℚ} (h : Near j p q) (h' : Near k q r) :
    Near (j + k) p r := by
  obtain ⟨ρ, h1, h2, h3⟩ := h
  obtain ⟨τ, k1, k2, k3⟩ := h'
  have := Near.mul (p := p) (q := 1) ⟨ρ, h1, h2, h3⟩ (⟨τ, by ring, k2, k3⟩ : Near k 1 τ)
  rw [mul_one] at this
  rw [k1]
  exact this

/-- No cancellation: the error of a sum is not larger than that of its parts. -/
theorem Near.add {k : ℕ} {p q u v : ℚ} (h : Near k p u) (h' : Near k q v)
    (hs : 0 ≤ p * q) : Near k (p + q) (u + v) := by
  by_cases hz : p + q = 0
  · have hp : p = 0 := by
      have : q = -p := by linarith
      rw [this] at hs
      nlinarith [sq_nonneg p]
    have hq : q = 0 := by linarith
    subst hp hq
    obtain ⟨ρ, h1, -, -⟩ := h
    obtain ⟨τ, k1, -, -⟩ := h'
    rw [zero_mul] at h1 k1
    rw [h1, k1]
    exact (Near.refl _).mono (Nat.zero_le _)
  · obtain ⟨ρ, h1, h2, h3⟩ := h
    obtain ⟨τ, k1, k2, k3⟩ := h'
    have hsq : 0 < (p + q) * (p + q) := mul_self_pos.2 hz
    have e1 : p / (p + q) = p * (p + q) / ((p + q) * (p + q)) := by field_simp
    have e2 : q / (p + q) = q * (p + q) / ((p + q) * (p + q)) := by field_simp
    have l1 : 0 ≤ p / (p + q) := by
      rw [e1]
      exact div_nonneg (by nlinarith [sq_nonneg p]) hsq.le
    have l2 : 0 ≤ q / (p + q) := by
      rw [e2]
      exact div_nonneg (by nlinarith [sq_nonneg q]) hsq.le
    have l3 : p / (p + q) + q / (p + q) = 1 := by field_simp
    refine ⟨p / (p + q) * ρ + q / (p + q) * τ, by rw [h1, k1]; field_simp, ?_, ?_⟩
    · calc (1 - roundoff) ^ k = (p / (p + q) + q / (p + q)) * (1 - roundoff) ^ k := by rw [l3, one_mul]
        _ = p / (p + q) * (1 - roundoff) ^ k + q / (p + q) * (1 - roundoff) ^ k := by ring
        _ ≤ _ := add_le_add (mul_le_mul_of_nonneg_left h2 l1) (mul_le_mul_of_nonneg_left k2 l2)
    · calc (p / (p + q) * ρ + q / (p + q) * τ) * (1 - roundoff) ^ k
          = p / (p + q) * (ρ * (1 - roundoff) ^ k) + q / (p + q) * (τ * (1 - roundoff) ^ k) := by ring
        _ ≤ p / (p + q) * 1 + q / (p + q) * 1 :=
          add_le_add (mul_le_mul_of_nonneg_left h3 l1) (mul_le_mul_of_nonneg_left k3 l2)
        _ = 1 := by rw [mul_one, mul_one, l3]

theorem keep_low {k : ℕ} : 1 - k * roundoff ≤ (1 - roundoff) ^ k := by
  have := one_add_mul_le_pow (a := -roundoff) (by unfold roundoff; norm_num) k
  have e : (1 : ℚ) + k * -roundoff = 1 - k * roundoff := by ring
  rw [e, ← sub_eq_add_neg] at this
  exact this

theorem keep_half {k : ℕ} (hk : k ≤ 2 ^ 50) : (1 : ℚ) / 2 ≤ (1 - roundoff) ^ k := by
  refine le_trans ?_ keep_low
  have : (k : ℚ) ≤ 2 ^ 50 := by exact_mod_cast hk
  unfold roundoff
  linarith

theorem within_range {k : ℕ} {x y : ℚ} (h : Near k x y) (hk : k ≤ 2 ^ 50) (hx : x ≠ 0)
    (hm : Moderate x) : 1 / 2 ^ 1022 ≤ |y| ∧ |y| ≤ 2 ^ 1023 := by
  rcases hm with hm | ⟨m1, m2⟩
  · exact absurd hm hx
  obtain ⟨ρ, h1, h2, h3⟩ := h
  have hh := keep_half hk
  have r1 : (1 : ℚ) / 2 ≤ ρ := hh.trans h2
  have r0 : 0 < ρ := by linarith
  have r2 : ρ ≤ 2 := by
    have : ρ * (1 / 2) ≤ ρ * (1 - roundoff) ^ k := mul_le_mul_of_nonneg_left hh r0.le
    linarith
  rw [h1, abs_mul, abs_of_pos r0]
  constructor
  · calc (1 : ℚ) / 2 ^ 1022 ≤ 1 / 2 ^ 1000 * (1 / 2) := by norm_num
      _ ≤ |x| * ρ := mul_le_mul m1 r1 (by norm_num) (abs_nonneg _)
  · calc |x| * ρ ≤ 2 ^ 1000 * 2 := mul_le_mul m2 r2 r0.le (by positivity)
      _ ≤ 2 ^ 1023 := by norm_num

theorem value_f0 : value F64.f0 = some 0 := by decide +kernel

/-- A result of an operation, rounded. -/
theorem round_step {k : ℕ} {x y : ℚ} {v : F64} (hr : RoundsTo y v) (h : Near k x y)
    (hk : k ≤ 2 ^ 50) (hm : Moderate x) : ∃ r, value v = some r ∧ Near (k + 1) x r := by
  by_cases hx : x = 0
  · subst hx
    have hy : y = 0 := by
      obtain ⟨ρ, h1, -, -⟩ := h
      rw [h1, zero_mul]
    subst hy
    exact ⟨0, value_of_rounds hr ⟨F64.f0, value_f0⟩, (Near.refl 0).mono (Nat.zero_le _)⟩
  · obtain ⟨h1, h2⟩ := within_range h hk hx hm
    obtain ⟨r, h3, h4⟩ := round_within hr h1 h2
    exact ⟨r, h3, h.trans h4⟩

theorem rounds_decimal (M : ℕ) (E : ℤ) :
    RoundsTo ((decNum M E : ℚ) / decDen E) (F64.ofDecimal M E) := by
  have hD : 0 < decDen E := by unfold decDen; positivity
  have h0 : (0 : ℚ) ≤ (decNum M E : ℚ) / decDen E := by positivity
  have ha : F64.abs (F64.ofDecimal M E) = F64.ofDecimal M E ∧
      signBit (F64.ofDecimal M E) = false := by
    unfold F64.ofDecimal
    split <;> exact ⟨abs_ofMag .., signBit_ofMag ..⟩
  refine ⟨⟨decNum M E * 2 ^ 1074, decDen E, hD, ?_, ?_⟩, fun h => absurd h (not_lt.2 h0),
    fun _ => ha.2⟩
  · rw [abs_of_nonneg h0]
    push_cast
    ring
  · rw [ha.1]
    exact ofDecimal_nearest M E

/-- Trees without cancellation take no doubtful step and are evaluated with a small error. -/
theorem approx_runs {w : World} {m : HMap F64} {e : Elem} {q : ℚ} {k : ℕ} (h : Approx m e q k)
    (hk : k ≤ 2 ^ 50) : ∃ v r, Runs w m e v ∧ value v = some r ∧ Near k q r := by
  induction h with
  | num h _ => exact ⟨_, _, .num, h, .refl _⟩
  | var h1 h2 _ => exact ⟨_, _, .var h1, h2, .refl _⟩
  | lit h hm =>
    obtain ⟨r, h2, h3⟩ := round_step h (.refl _) (by omega) hm
    exact ⟨_, r, .num, h2, h3⟩
  | input h1 h hm =>
    obtain ⟨r, h2, h3⟩ := round_step h (.refl _) (by omega) hm
    exact ⟨_, r, .var h1, h2, h3⟩
  | pos _ ih =>
    obtain ⟨v, r, h1, h2, h3⟩ := ih hk
    exact ⟨v, r, .un h1 .plus, h2, h3⟩
  | neg _ ih =>
    obtain ⟨v, r, h1, h2, h3⟩ := ih hk
    exact ⟨_, _, .un h1 .minus, neg_value h2, h3.neg⟩
  | @plus _ _ _ _ j k _ _ hs hm ih1 ih2 =>
    obtain ⟨v, r, h1, h2, h3⟩ := ih1 (by omega)
    obtain ⟨u, t, k1, k2, k3⟩ := ih2 (by omega)
    obtain ⟨x, hx, hw⟩ := round_step (add_rounds h2 k2)
      ((h3.mono (le_max_left j k)).add (k3.mono (le_max_right j k)) hs) (by omega) hm
    exact ⟨_, x, .bin h1 k1 (.plus (ne_nan_of_value hx)), hx, hw⟩
  | @minus _ _ p q j k _ _ hs hm ih1 ih2 =>
    obtain ⟨v, r, h1, h2, h3⟩ := ih1 (by omega)
    obtain ⟨u, t, k1, k2, k3⟩ := ih2 (by omega)
    have hw := (h3.mono (le_max_left j k)).add (k3.mono (le_max_right j k)).neg (by linarith)
    rw [← sub_eq_add_neg, ← sub_eq_add_neg] at hw
    obtain ⟨x, hx, hw⟩ := round_step (sub_rounds h2 k2) hw (by omega) hm
    exact ⟨_, x, .bin h1 k1 (.minus (ne_nan_of_value hx)), hx, hw⟩
  | times _ _ hm ih1 ih2 =>
    obtain ⟨v, r, h1, h2, h3⟩ := ih1 (by omega)
    obtain ⟨u, t, k1, k2, k3⟩ := ih2 (by omega)
    obtain ⟨x, hx, hw⟩ := round_step (mul_rounds h2 k2) (h3.mul k3) (by omega) hm
    exact ⟨_, x, .bin h1 k1 (.times (ne_nan_of_value hx)), hx, hw⟩
  | divide _ _ hq hm ih1 ih2 =>
    obtain ⟨v, r, h1, h2, h3⟩ := ih1 (by omega)
    obtain ⟨u, t, k1, k2, k3⟩ := ih2 (by omega)
    have ht : t ≠ 0 := by
      obtain ⟨ρ, e, h4, -⟩ := k3
      rw [e]
      exact mul_ne_zero hq ((keep_pos _).trans_le h4).ne'
    obtain ⟨x, hx, hw⟩ := round_step (div_rounds h2 k2 ht) (h3.div k3) (by omega) hm
    exact ⟨_, x, .bin h1 k1 (.divide (ne_nan_of_value hx) (not_zero_of_value k2 ht)), hx, hw⟩

/-- The relative error. -/
theorem within_error {k : ℕ} {q r : ℚ} (h : Near k q r) (hk : k ≤ 2 ^ 50) :
    |r - q| ≤ |q| * (k / 2 ^ 52) := by
  obtain ⟨ρ, rfl, h2, h3⟩ := h
  have e : q * ρ - q = q * (ρ - 1) := by ring
  rw [e, abs_mul]
  refine mul_le_mul_of_nonneg_left ?_ (abs_nonneg _)
  have hl := keep_low (k := k)
  have hh := keep_half hk
  have r0 : 0 < ρ := (keep_pos k).trans_le h2
  have hku : (k : ℚ) * roundoff = k / 2 ^ 53 := by unfold roundoff; ring
  have hk0 : (0 : ℚ) ≤ k := by positivity
  have r2 : ρ ≤ 2 := by
    have : ρ * (1 / 2) ≤ ρ * (1 - roundoff) ^ k := mul_le_mul_of_nonneg_left hh r0.le
    linarith
  rw [abs_le]
  constructor
  · have : 1 - (k : ℚ) / 2 ^ 53 ≤ ρ := by rw [← hku]; exact hl.trans h2
    have h5 : (k : ℚ) / 2 ^ 53 ≤ k / 2 ^ 52 := by gcongr <;> norm_num
    linarith
  · have h4 : ρ * (1 - k / 2 ^ 53) ≤ 1 := by
      rw [← hku]
      exact (mul_le_mul_of_nonneg_left hl r0.le).trans h3
    have h5 : ρ * ((k : ℚ) / 2 ^ 53) ≤ 2 * (k / 2 ^ 53) := mul_le_mul_of_nonneg_right r2 (by positivity)
    have h6 : (2 : ℚ) * (k / 2 ^ 53) = k / 2 ^ 52 := by ring
    linarith

end Xprs
