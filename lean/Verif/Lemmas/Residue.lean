import Mathlib.Algebra.Order.Group.Unbundled.Int
import Mathlib.Tactic.Linarith
import Mathlib.Tactic.Ring
import Verif.Lemmas.Apart
import Verif.Lemmas.Range
/-
Rounding errors of sums are numbers.
-/
namespace Xprs
open Spec
set_option exponentiation.threshold 4096

/-- Integers whose magnitude is on the grid. -/
def GridZ (z : ℤ) : Prop := ∃ (m : ℤ) (k : ℕ), |m| < 2 ^ 53 ∧ z = m * 2 ^ k

theorem gridZ_iff {z : ℤ} : GridZ z ↔ Grid z.natAbs := by
  constructor
  · rintro ⟨m, k, h, rfl⟩
    refine ⟨m.natAbs, k, ?_, ?_⟩
    · rw [Int.abs_eq_natAbs] at h; exact_mod_cast h
    · rw [Int.natAbs_mul, Int.natAbs_pow]; rfl
  · rintro ⟨m, k, h, e⟩
    rcases Int.natAbs_eq z with hz | hz
    · refine ⟨m, k, ?_, ?_⟩
      · rw [abs_of_nonneg (by positivity)]; exact_mod_cast h
      · rw [hz, e]; push_cast; ring
    · refine ⟨-m, k, ?_, ?_⟩
      · rw [abs_neg, abs_of_nonneg (by positivity)]; exact_mod_cast h
      · rw [hz, e]; push_cast; ring

theorem GridZ.neg {z : ℤ} (h : GridZ z) : GridZ (-z) := by
  obtain ⟨m, k, h, rfl⟩ := h
  exact ⟨-m, k, by rwa [abs_neg], by ring⟩

theorem GridZ.zero : GridZ 0 := ⟨0, 0, by norm_num, by norm_num⟩

/-- `s` is a grid point closest to `t`. -/
structure NearZ (t s : ℤ) : Prop where
  grid : GridZ s
  closest : ∀ g, GridZ g → |s - t| ≤ |g - t|

theorem NearZ.neg {t s : ℤ} (h : NearZ t s) : NearZ (-t) (-s) := by
  refine ⟨h.grid.neg, fun g hg => ?_⟩
  have := h.closest (-g) hg.neg
  rw [show -s - -t = -(s - t) by ring, abs_neg]
  rwa [show -g - t = -(g - -t) by ring, abs_neg] at this

theorem NearZ.exact {t s : ℤ} (h : NearZ t s) (ht : GridZ t) : s = t := by
  have := h.closest t ht
  rw [_root_.sub_self, abs_zero] at this
  have := abs_eq_zero.1 (le_antisymm this (abs_nonneg _))
  omega

theorem NearZ.ge {t s g : ℤ} (h : NearZ t s) (hg : GridZ g) (hle : g ≤ t) : g ≤ s := by
  by_contra hlt
  have := h.closest g hg
  rw [abs_of_neg (by omega), abs_of_nonpos (by omega)] at this
  omega

theorem NearZ.le {t s g : ℤ} (h : NearZ t s) (hg : GridZ g) (hle : t ≤ g) : s ≤ g := by
  have := h.neg.ge hg.neg (by omega)
  omega

/-- A point of the grid nearest to a multiple of `2^j` is a multiple of `2^j`. -/
theorem NearZ.multiple {T s : ℤ} {j : ℕ} (h : NearZ (T * 2 ^ j) s) : ∃ S, s = S * 2 ^ j := by
  by_cases hT : |T| < 2 ^ 53
  · exact ⟨T, h.exact ⟨T, j, hT, rfl⟩⟩
  · have hP : (0 : ℤ) < 2 ^ j := by positivity
    obtain ⟨S, l, hS, rfl⟩ := h.grid
    by_cases hl : j ≤ l
    · obtain ⟨d, rfl⟩ := Nat.exists_eq_add_of_le hl
      exact ⟨S * 2 ^ d, by rw [pow_add]; ring⟩
    · exfalso
      have hl : 2 ^ l ≤ (2 : ℤ) ^ j := pow_le_pow_right₀ (by norm_num) (by omega)
      have hs : |S * 2 ^ l| < 2 ^ 53 * 2 ^ j := by
        rw [abs_mul, abs_of_pos (by positivity : (0 : ℤ) < 2 ^ l)]
        calc |S| * 2 ^ l < 2 ^ 53 * 2 ^ l := mul_lt_mul_of_pos_right hS (by positivity)
          _ ≤ _ := mul_le_mul_of_nonneg_left hl (by positivity)
      rw [not_lt] at hT
      have g : GridZ (2 ^ 53 * 2 ^ j) := ⟨2 ^ 52, j + 1, by norm_num, by rw [pow_succ]; ring⟩
      rcases le_total 0 T with h0 | h0
      · rw [abs_of_nonneg h0] at hT
        have := h.ge g (mul_le_mul_of_nonneg_right hT hP.le)
        exact absurd (le_trans this (le_abs_self _)) (not_le.2 hs)
      · rw [abs_of_nonpos h0] at hT
        have := h.le g.neg (by have := mul_le_mul_of_nonneg_right hT hP.le; linarith)
        have h2 := neg_abs_le (S * 2 ^ l)
        linarith

theorem small_multiple {D : ℤ} {j : ℕ} {a : ℤ} {A : ℤ} (ha : a = A * 2 ^ j) (hA : |A| < 2 ^ 53)
    (h : |D * 2 ^ j| ≤ |a|) : GridZ (D * 2 ^ j) := by
  refine ⟨D, j, ?_, rfl⟩
  have hP : (0 : ℤ) < 2 ^ j := by positivity
  rw [ha, abs_mul, abs_mul, abs_of_pos hP] at h
  exact lt_of_le_of_lt (le_of_mul_le_mul_right h hP) hA

/-- The error of a sum is on the grid. -/
theorem error_gridZ {a b s : ℤ} (ha : GridZ a) (hb : GridZ b) (h : NearZ (a + b) s) :
    GridZ (a + b - s) := by
  have e1 := h.closest a ha
  have e2 := h.closest b hb
  rw [abs_sub_comm s, show a - (a + b) = -b by ring, abs_neg] at e1
  rw [abs_sub_comm s, show b - (a + b) = -a by ring, abs_neg] at e2
  obtain ⟨A, j, hA, ea⟩ := ha
  obtain ⟨B, k, hB, eb⟩ := hb
  rcases le_total j k with hk | hk
  · obtain ⟨d, rfl⟩ := Nat.exists_eq_add_of_le hk
    have et : a + b = (A + B * 2 ^ d) * 2 ^ j := by rw [ea, eb, pow_add]; ring
    obtain ⟨S, rfl⟩ := (et ▸ h).multiple
    have : a + b - S * 2 ^ j = (A + B * 2 ^ d - S) * 2 ^ j := by rw [et]; ring
    rw [this] at e2 ⊢
    exact small_multiple ea hA e2
  · obtain ⟨d, rfl⟩ := Nat.exists_eq_add_of_le hk
    have et : a + b = (A * 2 ^ d + B) * 2 ^ k := by rw [ea, eb, pow_add]; ring
    obtain ⟨S, rfl⟩ := (et ▸ h).multiple
    have : a + b - S * 2 ^ k = (A * 2 ^ d + B - S) * 2 ^ k := by rw [et]; ring
    rw [this] at e1 ⊢
    exact small_multiple eb hB e1

/-- Differences of numbers that are close are on the grid. -/
theorem sterbenz {a b : ℤ} (ha : GridZ a) (hb : GridZ b) (h1 : |a - b| ≤ |a|) (h2 : |a - b| ≤ |b|) :
    GridZ (a - b) := by
  obtain ⟨A, j, hA, ea⟩ := ha
  obtain ⟨B, k, hB, eb⟩ := hb
  rcases le_total j k with hk | hk
  · obtain ⟨d, rfl⟩ := Nat.exists_eq_add_of_le hk
    have et : a - b = (A - B * 2 ^ d) * 2 ^ j := by rw [ea, eb, pow_add]; ring
    rw [et] at h1 ⊢
    exact small_multiple ea hA h1
  · obtain ⟨d, rfl⟩ := Nat.exists_eq_add_of_le hk
    have et : a - b = (A * 2 ^ d - B) * 2 ^ k := by rw [ea, eb, pow_add]; ring
    rw [et] at h2 ⊢
    exact small_multiple eb hB h2

theorem fast_pos {a b s : ℤ} (ha : GridZ a) (hb : GridZ b) (h : NearZ (a + b) s) (h0 : 0 ≤ a)
    (hab : |b| ≤ a) : GridZ (s - a) ∧ |s - a| ≤ a := by
  have hb' := abs_le.1 hab
  rcases le_total 0 b with hb0 | hb0
  · have g2 : GridZ (2 * a) := by
      obtain ⟨A, j, hA, rfl⟩ := ha
      exact ⟨A, j + 1, hA, by rw [pow_succ]; ring⟩
    have h1 := h.ge ha (by omega)
    have h2 := h.le g2 (by omega)
    have hs : |s - a| ≤ a := by rw [abs_of_nonneg (by omega)]; omega
    refine ⟨sterbenz h.grid ha ?_ ?_, hs⟩
    · rw [abs_of_nonneg (by omega : (0 : ℤ) ≤ s)]; omega
    · rw [abs_of_nonneg h0]; exact hs
  · have exact : GridZ (a + b) → GridZ (s - a) ∧ |s - a| ≤ a := fun g => by
      have := h.exact g
      rw [this, show a + b - a = b by ring]
      exact ⟨hb, hab⟩
    by_cases hc : a ≤ 2 * -b
    · apply exact
      rw [show a + b = a - -b by ring]
      apply sterbenz ha hb.neg
      · rw [abs_of_nonneg (by omega), abs_of_nonneg h0]; omega
      · rw [abs_of_nonneg (by omega), abs_of_nonneg (by omega)]; omega
    · obtain ⟨A, j, hA, ea⟩ := id ha
      cases j with
      | zero =>
        apply exact
        refine ⟨a + b, 0, ?_, by ring⟩
        rw [pow_zero, mul_one] at ea
        rw [← ea] at hA
        rw [abs_of_nonneg (by omega)]
        rw [abs_of_nonneg h0] at hA
        omega
      | succ j =>
        have gh : GridZ (A * 2 ^ j) := ⟨A, j, hA, rfl⟩
        have eh : a = 2 * (A * 2 ^ j) := by rw [ea, pow_succ]; ring
        have h1 := h.ge gh (by omega)
        have h2 := h.le ha (by omega)
        have hs : |s - a| ≤ a := by rw [abs_of_nonpos (by omega)]; omega
        refine ⟨sterbenz h.grid ha ?_ ?_, hs⟩
        · rw [abs_of_nonpos (by omega), abs_of_nonneg (by omega)]; omega
        · rw [abs_of_nonneg h0]; exact hs

/-- What a sum has gained over its larger part is on the grid. -/
theorem fast_gridZ {a b s : ℤ} (ha : GridZ a) (hb : GridZ b) (h : NearZ (a + b) s) (hab : |b| ≤ |a|) :
    GridZ (s - a) ∧ |s - a| ≤ |a| := by
  rcases le_total 0 a with h0 | h0
  · rw [abs_of_nonneg h0] at hab ⊢
    exact fast_pos ha hb h h0 hab
  · rw [abs_of_nonpos h0] at hab ⊢
    have h' := h.neg
    rw [show -(a + b) = -a + -b by ring] at h'
    obtain ⟨k1, k2⟩ := fast_pos ha.neg hb.neg h' (by omega) (by rwa [abs_neg])
    rw [show -s - -a = -(s - a) by ring] at k1 k2
    rw [abs_neg] at k2
    have := k1.neg
    rw [_root_.neg_neg] at this
    exact ⟨this, k2⟩

/-! ### Floats -/

theorem gridZ_of_value {x : F64} {p : ℚ} (h : value x = some p) :
    ∃ a : ℤ, p = a / 2 ^ 1074 ∧ GridZ a ∧ |a| < 2 ^ 2098 := by
  obtain ⟨s, n, hn, rfl, rfl⟩ := value_some h
  have hm : maxMag = 2 ^ 2098 := by unfold maxMag; rfl
  refine ⟨F64.sv s n, by rw [unit64_cast], gridZ_iff.2 ?_, ?_⟩
  · have : (F64.sv s n).natAbs = n := by cases s <;> simp [F64.sv]
    rw [this]; exact (grid_iff n).2 hn.2
  · have : |F64.sv s n| = n := by cases s <;> simp [F64.sv]
    rw [this]
    have := hn.1
    rw [hm] at this
    exact_mod_cast this

theorem inF64_of_gridZ {z : ℤ} (h : GridZ z) (hz : |z| < 2 ^ 2098) : InF64 ((z : ℚ) / 2 ^ 1074) := by
  have hm : maxMag = 2 ^ 2098 := by unfold maxMag; rfl
  have hr : Rep z.natAbs := by
    refine ⟨?_, (grid_iff _).1 (gridZ_iff.1 h)⟩
    rw [hm]
    rw [Int.abs_eq_natAbs] at hz
    exact_mod_cast hz
  rcases Int.natAbs_eq z with e | e
  · refine ⟨.fin false z.natAbs hr, ?_⟩
    simp only [value]
    congr 2
    rw [← Int.cast_natCast, ← e]
  · refine ⟨.fin true z.natAbs hr, ?_⟩
    simp only [value]
    congr 2
    have : (z : ℚ) = ((-(z.natAbs : ℤ) : ℤ) : ℚ) := by rw [← e]
    rw [this, Int.cast_neg, Int.cast_natCast]

theorem units_inj {a b : ℤ} : (a : ℚ) / 2 ^ 1074 = b / 2 ^ 1074 ↔ a = b := by
  rw [div_left_inj' (by positivity)]
  exact_mod_cast Iff.rfl

/-- Rounding a multiple of the unit. -/
theorem nearZ_of_rounds {t s : ℤ} {v : F64} (h : RoundsTo ((t : ℚ) / 2 ^ 1074) v)
    (hv : value v = some ((s : ℚ) / 2 ^ 1074)) : NearZ t s := by
  obtain ⟨a, ha, hg, -⟩ := gridZ_of_value hv
  cases units_inj.1 ha
  refine ⟨hg, ?_⟩
  obtain ⟨⟨N, D, hD, hq, n, hn, hv'⟩, h1, h2⟩ := h
  have hn' := nearest_real hD hn
  have hU : (0 : ℚ) < 2 ^ 1074 := by positivity
  have e : ((N : ℝ) / D) = |(t : ℝ)| := by
    have hq : |(t : ℚ)| = N / D := by
      rw [← hq, abs_div, abs_of_pos hU]; field_simp
    have : ((|(t : ℚ)| : ℚ) : ℝ) = ((N / D : ℚ) : ℝ) := by rw [hq]
    push_cast at this
    exact this.symm
  rw [e] at hn'
  have hsn : n = s.natAbs := by
    obtain ⟨sg, k, hk, rfl, ek⟩ := value_some hv
    rw [unit64_cast] at ek
    have ek := units_inj.1 ek
    rcases hv' with ⟨_, hr, hv'⟩ | ⟨_, hv'⟩
    · have : k = n := by
        have : F64.fin false k hk = F64.fin false n hr := hv'
        injection this
      subst this
      rw [ek]; cases sg <;> simp [F64.sv]
    · cases hv'
  subst hsn
  have key : ∀ g : ℤ, GridZ g → |abs s - abs t| ≤ |abs g - abs t| := by
    intro g hg
    have h3 := hn'.closest _ (gridZ_iff.1 hg)
    rw [Nat.cast_natAbs, Nat.cast_natAbs] at h3
    exact_mod_cast h3
  have hsgn : (0 < t → 0 ≤ s) ∧ (t < 0 → s ≤ 0) := by
    obtain ⟨sg, k, hk, rfl, ek⟩ := value_some hv
    rw [unit64_cast] at ek
    have ek := units_inj.1 ek
    constructor
    · intro h0
      have : sg = false := h2 (by positivity)
      subst this
      rw [ek]; simp [F64.sv]
    · intro h0
      have : sg = true := h1 (div_neg_of_neg_of_pos (by exact_mod_cast h0) hU)
      subst this
      rw [ek]; simp [F64.sv]
  intro g hg
  have k1 := key g hg
  have k0 := key 0 GridZ.zero
  rw [abs_zero] at k0
  rcases lt_trichotomy t 0 with h0 | h0 | h0
  · have hs := hsgn.2 h0
    rw [abs_of_nonpos hs, abs_of_neg h0] at k1 k0
    rw [show s - t = -(-s - -t) by ring, abs_neg]
    refine le_trans k1 ?_
    rcases le_total g 0 with hg0 | hg0
    · rw [abs_of_nonpos hg0, show -g - -t = -(g - t) by ring, abs_neg]
    · rw [abs_of_nonneg hg0, abs_of_nonneg (by omega : (0 : ℤ) ≤ g - t)]
      exact abs_le.2 ⟨by omega, by omega⟩
  · subst h0
    simp only [abs_zero, _root_.sub_zero, abs_abs] at *
    exact k1
  · have hs := hsgn.1 h0
    rw [abs_of_nonneg hs, abs_of_pos h0] at k1 k0
    refine le_trans k1 ?_
    rcases le_total g 0 with hg0 | hg0
    · rw [abs_of_nonpos hg0, abs_of_nonpos (by omega : g - t ≤ 0)]
      exact abs_le.2 ⟨by omega, by omega⟩
    · rw [abs_of_nonneg hg0]

end Xprs
