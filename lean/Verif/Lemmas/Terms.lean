import Verif.Lemmas.Error
import Verif.Spec.Terms
/-
Absolute errors (for C87).
-/
namespace Xprs
open Spec
set_option exponentiation.threshold 4096

/-- The absolute error of a rounding, results below the normal numbers included. -/
theorem round_abs {x : ℚ} {v : F64} (h : RoundsTo x v) (h2 : |x| ≤ 2 ^ 1023) :
    ∃ r, value v = some r ∧ |r - x| * (1 - roundoff) ≤ max (|x| * roundoff) (1 / 2 ^ 1074) := by
  by_cases h1 : 1 / 2 ^ 1022 ≤ |x|
  · obtain ⟨r, h3, ρ, h4, h5, h6⟩ := round_within h h1 h2
    rw [pow_one] at h5 h6
    refine ⟨r, h3, le_max_of_le_left ?_⟩
    have e : r - x = x * (ρ - 1) := by rw [h4]; ring
    rw [e, abs_mul, mul_assoc]
    refine mul_le_mul_of_nonneg_left ?_ (abs_nonneg _)
    have hu : (0 : ℚ) < 1 - roundoff := by unfold roundoff; norm_num
    have hu0 : (0 : ℚ) < roundoff := by unfold roundoff; norm_num
    rcases abs_cases (ρ - 1) with ⟨e, -⟩ | ⟨e, -⟩ <;> rw [e] <;> nlinarith
  · rw [not_le] at h1
    obtain ⟨⟨N, D, hD, hq, n, hn, hv⟩, hs1, hs2⟩ := h
    have hDq : (0 : ℚ) < (D : ℚ) := by exact_mod_cast hD
    have hNq : (N : ℚ) = |x| * 2 ^ 1074 * D := by rw [hq]; field_simp
    have hlow : N < 2 ^ 52 * D := by
      have : (N : ℚ) < ((2 ^ 52 * D : ℕ) : ℚ) := by
        rw [hNq]
        push_cast
        have : |x| * 2 ^ 1074 < (2 : ℚ) ^ 52 := by
          calc |x| * 2 ^ 1074 < 1 / 2 ^ 1022 * 2 ^ 1074 := by gcongr
            _ = _ := by norm_num
        exact mul_lt_mul_of_pos_right this hDq
      exact_mod_cast this
    have hq52 : N / D < 2 ^ 52 := (Nat.div_lt_iff_lt_mul hD).2 hlow
    have hg : Grid (N / D) := ⟨N / D, 0, by omega, by simp⟩
    have hd : dist (n * D) N ≤ D := by
      refine (hn.closest _ hg).trans (dist_le ?_ ?_)
      · have := Nat.div_mul_le_self N D; omega
      · have := Nat.div_add_mod N D
        have := Nat.mod_lt N hD
        rw [Nat.mul_comm]; omega
    obtain ⟨d1, d2⟩ := le_of_dist hd
    have hfin : n < 2 ^ 2098 := by
      by_contra hc
      have h3 : 2 ^ 2098 * D ≤ n * D := Nat.mul_le_mul_right _ (by omega)
      have h4 : 2 ^ 52 * D + D ≤ 2 ^ 2098 * D := by
        rw [← Nat.succ_mul]; exact Nat.mul_le_mul_right _ (by norm_num)
      omega
    obtain ⟨s, hn', rfl⟩ : ∃ s h, v = .fin s n h := by
      rcases hv with ⟨-, h', hv⟩ | ⟨hv, -⟩
      · cases v with
        | nan => cases hv
        | inf t => cases hv
        | fin t m hm =>
          have : m = n := by simp only [F64.abs, F64.fin.injEq] at hv; exact hv.2
          subst this
          exact ⟨t, hm, rfl⟩
      · omega
    refine ⟨_, value_fin .., le_max_of_le_right ?_⟩
    have hkey : |(n : ℚ) / 2 ^ 1074 - (|x|)| ≤ 1 / 2 ^ 1074 := by
      have q1 : (n : ℚ) * D ≤ N + D := by exact_mod_cast d1
      have q2 : (N : ℚ) ≤ n * D + D := by exact_mod_cast d2
      rw [hNq] at q1 q2
      have p1 : (n : ℚ) ≤ |x| * 2 ^ 1074 + 1 := by
        refine le_of_mul_le_mul_right (a := (D : ℚ)) ?_ hDq
        linarith
      have p2 : |x| * 2 ^ 1074 ≤ (n : ℚ) + 1 := by
        refine le_of_mul_le_mul_right (a := (D : ℚ)) ?_ hDq
        linarith
      have hU : (0 : ℚ) < 2 ^ 1074 := by positivity
      generalize (2 : ℚ) ^ 1074 = U at *
      rw [abs_le]
      constructor
      · rw [← sub_nonneg]
        have : (n : ℚ) / U - |x| - -(1 / U) = ((n : ℚ) + 1 - |x| * U) / U := by field_simp; ring
        rw [this]
        exact div_nonneg (by linarith) hU.le
      · rw [← sub_nonneg]
        have : 1 / U - ((n : ℚ) / U - |x|) = (|x| * U + 1 - n) / U := by field_simp; ring
        rw [this]
        exact div_nonneg (by linarith) hU.le
    have hle : |((F64.sv s n : ℤ) : ℚ) / (2 ^ 1074 : ℚ) - x| ≤ 1 / 2 ^ 1074 := by
      rcases lt_trichotomy x 0 with h0 | h0 | h0
      · have := hs1 h0
        rw [signBit_fin] at this
        subst this
        rw [abs_of_neg h0] at hkey
        have e : ((F64.sv true n : ℤ) : ℚ) / (2 ^ 1074 : ℚ) - x = -((n : ℚ) / 2 ^ 1074 - -x) := by
          simp only [F64.sv]; push_cast; simp; ring
        rw [e, abs_neg]; exact hkey
      · subst h0
        rw [abs_zero, _root_.sub_zero] at hkey
        rw [_root_.sub_zero]
        refine le_trans (le_of_eq ?_) hkey
        cases s <;> simp [F64.sv, abs_div]
      · have := hs2 h0
        rw [signBit_fin] at this
        subst this
        rw [abs_of_pos h0] at hkey
        have e : ((F64.sv false n : ℤ) : ℚ) / (2 ^ 1074 : ℚ) - x = (n : ℚ) / 2 ^ 1074 - x := by
          simp [F64.sv]
        rw [e]; exact hkey
    refine le_trans ?_ hle
    have hu : (1 : ℚ) - roundoff ≤ 1 := by unfold roundoff; norm_num
    rw [← unit64_cast]
    exact mul_le_of_le_one_right (abs_nonneg _) hu

/-- Powers of `1 / (1 - 2⁻⁵³)`. -/
def grow (k : ℕ) : ℚ := ((1 - roundoff) ^ k)⁻¹

theorem grow_ge_one (k : ℕ) : 1 ≤ grow k := one_le_inv₀ (keep_pos k) |>.2 (keep_le_one k)

theorem grow_add (j k : ℕ) : grow (j + k) = grow j * grow k := by
  unfold grow; rw [pow_add, mul_inv]

theorem grow_mono {j k : ℕ} (h : j ≤ k) : grow j ≤ grow k := by
  obtain ⟨d, rfl⟩ := Nat.exists_eq_add_of_le h
  rw [grow_add]
  exact le_mul_of_one_le_right (zero_le_one.trans (grow_ge_one j)) (grow_ge_one d)

theorem grow_le {k : ℕ} (hk : k ≤ 2 ^ 50) : grow k - 1 ≤ k / 2 ^ 52 := by
  have hh := keep_half hk
  have hl := keep_low (k := k)
  have hp := keep_pos k
  have hku : (k : ℚ) * roundoff = k / 2 ^ 53 := by unfold roundoff; ring
  have hk0 : (0 : ℚ) ≤ k := by positivity
  unfold grow
  have : ((1 - roundoff) ^ k)⁻¹ - 1 = (1 - (1 - roundoff) ^ k) / (1 - roundoff) ^ k := by field_simp
  rw [this, div_le_iff₀ hp]
  have h1 : 1 - (1 - roundoff) ^ k ≤ k / 2 ^ 53 := by rw [← hku]; linarith
  have h2 : (k : ℚ) / 2 ^ 52 * (1 / 2) ≤ k / 2 ^ 52 * (1 - roundoff) ^ k :=
    mul_le_mul_of_nonneg_left hh (by positivity)
  have h3 : (k : ℚ) / 2 ^ 52 * (1 / 2) = k / 2 ^ 53 := by ring
  linarith

theorem grow_two {k : ℕ} (hk : k ≤ 2 ^ 50) : grow k ≤ 2 := by
  have := grow_le hk
  have h : (k : ℚ) ≤ 2 ^ 50 := by exact_mod_cast hk
  have : (k : ℚ) / 2 ^ 52 ≤ 1 := by rw [div_le_one (by positivity)]; exact h.trans (by norm_num)
  linarith

/-- `r` is `q` up to `k` roundings of numbers up to `Q`. -/
def Off (k : ℕ) (Q q r : ℚ) : Prop := |q| ≤ Q ∧ |r - q| ≤ Q * (grow k - 1)

theorem Off.nonneg {k : ℕ} {Q q r : ℚ} (h : Off k Q q r) : 0 ≤ Q := (abs_nonneg q).trans h.1

theorem Off.le {k : ℕ} {Q q r : ℚ} (h : Off k Q q r) : |r| ≤ Q * grow k := by
  have : r = q + (r - q) := by ring
  rw [this]
  refine (abs_add_le _ _).trans ?_
  have := h.1; have := h.2
  linarith

theorem Off.mono {j k : ℕ} {Q q r : ℚ} (h : Off j Q q r) (hk : j ≤ k) : Off k Q q r :=
  ⟨h.1, h.2.trans (mul_le_mul_of_nonneg_left (by have := grow_mono hk; linarith) h.nonneg)⟩

theorem Off.neg {k : ℕ} {Q q r : ℚ} (h : Off k Q q r) : Off k Q (-q) (-r) := by
  refine ⟨by rw [abs_neg]; exact h.1, ?_⟩
  rw [show -r - -q = -(r - q) by ring, abs_neg]; exact h.2

theorem Off.add {k : ℕ} {P Q p q r t : ℚ} (h : Off k P p r) (h' : Off k Q q t) :
    Off k (P + Q) (p + q) (r + t) := by
  refine ⟨(abs_add_le _ _).trans (add_le_add h.1 h'.1), ?_⟩
  rw [show r + t - (p + q) = (r - p) + (t - q) by ring, add_mul]
  exact (abs_add_le _ _).trans (add_le_add h.2 h'.2)

theorem Off.mul {j k : ℕ} {P Q p q r t : ℚ} (h : Off j P p r) (h' : Off k Q q t) :
    Off (j + k) (P * Q) (p * q) (r * t) := by
  constructor
  · rw [abs_mul]; exact mul_le_mul h.1 h'.1 (abs_nonneg _) h.nonneg
  · rw [show r * t - p * q = r * (t - q) + (r - p) * q by ring]
    refine (abs_add_le _ _).trans ?_
    rw [abs_mul, abs_mul]
    have hj := grow_ge_one j
    have a1 : |r| * |t - q| ≤ P * grow j * (Q * (grow k - 1)) :=
      mul_le_mul h.le h'.2 (abs_nonneg _) (mul_nonneg h.nonneg (by linarith))
    have a2 : |r - p| * |q| ≤ P * (grow j - 1) * Q :=
      mul_le_mul h.2 h'.1 (abs_nonneg _) (mul_nonneg h.nonneg (by linarith))
    rw [grow_add]
    nlinarith

/-- A relative error is one against the absolute value. -/
theorem Near.off {k : ℕ} {q r : ℚ} (h : Near k q r) : Off k |q| q r := by
  obtain ⟨ρ, rfl, h2, h3⟩ := h
  refine ⟨le_rfl, ?_⟩
  rw [show q * ρ - q = q * (ρ - 1) by ring, abs_mul]
  refine mul_le_mul_of_nonneg_left ?_ (abs_nonneg _)
  have hp := keep_pos k
  have h4 : ρ ≤ grow k := by
    unfold grow
    rw [← one_div, le_div_iff₀ hp]; exact h3
  have h5 : grow k * (1 - roundoff) ^ k = 1 := by unfold grow; field_simp
  have h6 := grow_ge_one k
  rw [abs_le]
  constructor
  · have : 0 ≤ (grow k - 1) * (1 - (1 - roundoff) ^ k) :=
      mul_nonneg (by linarith) (by have := keep_le_one k; linarith)
    nlinarith
  · linarith

/-- A result of an operation, rounded. -/
theorem Off.round {k : ℕ} {Q q y : ℚ} {v : F64} (hr : RoundsTo y v) (h : Off k Q q y) (hk : k ≤ 2 ^ 50)
    (hm : Moderate Q) : ∃ r, value v = some r ∧ Off (k + 1) Q q r := by
  have hy := h.le
  have h0 := h.nonneg
  rcases hm with hm | ⟨m1, m2⟩
  · subst hm
    have hy0 : y = 0 := by rw [zero_mul] at hy; exact abs_eq_zero.1 (le_antisymm hy (abs_nonneg _))
    subst hy0
    refine ⟨0, value_of_rounds hr ⟨F64.f0, value_f0⟩, h.mono (by omega)⟩
  · rw [abs_of_nonneg h0] at m1 m2
    have hg2 := grow_two hk
    have hg1 := grow_ge_one k
    have hy2 : |y| ≤ 2 ^ 1023 := by
      refine hy.trans ((mul_le_mul m2 hg2 (by linarith) (by positivity)).trans (by norm_num))
    obtain ⟨r, h1, h2⟩ := round_abs hr hy2
    refine ⟨r, h1, h.1, ?_⟩
    have hu0 : (0 : ℚ) < roundoff := by unfold roundoff; norm_num
    have hu : (0 : ℚ) < 1 - roundoff := by unfold roundoff; norm_num
    have h3 : |r - y| * (1 - roundoff) ≤ Q * grow k * roundoff := by
      refine h2.trans (max_le (mul_le_mul_of_nonneg_right hy hu0.le) ?_)
      calc (1 : ℚ) / 2 ^ 1074 ≤ 1 / 2 ^ 1000 * 1 * roundoff := by unfold roundoff; norm_num
        _ ≤ Q * grow k * roundoff := by gcongr
    have h4 : grow (k + 1) * (1 - roundoff) = grow k := by
      have : (1 - roundoff) ≠ 0 := hu.ne'
      unfold grow
      rw [pow_succ, mul_inv]
      field_simp
    rw [show r - q = (r - y) + (y - q) by ring]
    refine (abs_add_le _ _).trans ?_
    refine le_of_mul_le_mul_right (a := 1 - roundoff) ?_ hu
    have h5 := mul_le_mul_of_nonneg_right h.2 hu.le
    have e : Q * (grow (k + 1) - 1) * (1 - roundoff) = Q * grow k - Q * (1 - roundoff) := by
      rw [← h4]; ring
    rw [add_mul, e]
    nlinarith

/-- Trees of moderate terms take no doubtful step, and are evaluated with a small error. -/
theorem terms_runs {w : World} {m : HMap F64} {e : Elem} {q Q : ℚ} {k : ℕ} (h : Terms m e q Q k)
    (hk : k ≤ 2 ^ 50) : ∃ v r, Runs w m e v ∧ value v = some r ∧ Off k Q q r := by
  induction h with
  | num h _ => exact ⟨_, _, .num, h, (Near.refl _).off⟩
  | var h1 h2 _ => exact ⟨_, _, .var h1, h2, (Near.refl _).off⟩
  | lit h hm =>
    obtain ⟨r, h2, h3⟩ := round_step h (.refl _) (by omega) hm
    exact ⟨_, r, .num, h2, h3.off⟩
  | input h1 h hm =>
    obtain ⟨r, h2, h3⟩ := round_step h (.refl _) (by omega) hm
    exact ⟨_, r, .var h1, h2, h3.off⟩
  | pos _ ih =>
    obtain ⟨v, r, h1, h2, h3⟩ := ih hk
    exact ⟨v, r, .un h1 .plus, h2, h3⟩
  | neg _ ih =>
    obtain ⟨v, r, h1, h2, h3⟩ := ih hk
    exact ⟨_, _, .un h1 .minus, neg_value h2, h3.neg⟩
  | @plus _ _ _ _ _ _ j k _ _ hm ih1 ih2 =>
    obtain ⟨v, r, h1, h2, h3⟩ := ih1 (by omega)
    obtain ⟨u, t, k1, k2, k3⟩ := ih2 (by omega)
    obtain ⟨x, hx, hw⟩ := ((h3.mono (le_max_left j k)).add (k3.mono (le_max_right j k))).round
      (add_rounds h2 k2) (by omega) hm
    exact ⟨_, x, .bin h1 k1 (.plus (ne_nan_of_value hx)), hx, hw⟩
  | @minus _ _ _ _ _ _ j k _ _ hm ih1 ih2 =>
    obtain ⟨v, r, h1, h2, h3⟩ := ih1 (by omega)
    obtain ⟨u, t, k1, k2, k3⟩ := ih2 (by omega)
    have hw := (h3.mono (le_max_left j k)).add (k3.mono (le_max_right j k)).neg
    rw [← sub_eq_add_neg, ← sub_eq_add_neg] at hw
    obtain ⟨x, hx, hw⟩ := hw.round (sub_rounds h2 k2) (by omega) hm
    exact ⟨_, x, .bin h1 k1 (.minus (ne_nan_of_value hx)), hx, hw⟩
  | times _ _ hm ih1 ih2 =>
    obtain ⟨v, r, h1, h2, h3⟩ := ih1 (by omega)
    obtain ⟨u, t, k1, k2, k3⟩ := ih2 (by omega)
    obtain ⟨x, hx, hw⟩ := (h3.mul k3).round (mul_rounds h2 k2) (by omega) hm
    exact ⟨_, x, .bin h1 k1 (.times (ne_nan_of_value hx)), hx, hw⟩
  | @divide _ _ p P q j k _ ha hq hm ih =>
    obtain ⟨v, r, h1, h2, h3⟩ := ih (by omega)
    obtain ⟨u, t, k1, k2, k3⟩ := approx_runs (w := w) ha (by omega)
    have ht : t ≠ 0 := by
      obtain ⟨ρ, e, h4, -⟩ := k3
      rw [e]
      exact mul_ne_zero hq ((keep_pos _).trans_le h4).ne'
    have hd := h3.mul k3.inv.off
    rw [← div_eq_mul_inv, ← div_eq_mul_inv, abs_inv, ← div_eq_mul_inv] at hd
    obtain ⟨x, hx, hw⟩ := hd.round (div_rounds h2 k2 ht) (by omega) hm
    exact ⟨_, x, .bin h1 k1 (.divide (ne_nan_of_value hx) (not_zero_of_value k2 ht)), hx, hw⟩

theorem off_error {k : ℕ} {Q q r : ℚ} (h : Off k Q q r) (hk : k ≤ 2 ^ 50) : |r - q| ≤ Q * (k / 2 ^ 52) :=
  h.2.trans (mul_le_mul_of_nonneg_left (grow_le hk) h.nonneg)

end Xprs
