import Verif.Lemmas.Residue
/-
Grid points for C121: the spacing around a number of the format.
-/
namespace Xprs
open Spec
set_option exponentiation.threshold 4096

/-- Numbers of the grid of at least `2^(52+g)` units are multiples of `2^g`. -/
theorem gridZ_multiple {a : ℤ} {g : ℕ} (h : GridZ a) (hg : 2 ^ (52 + g) ≤ |a|) : (2 : ℤ) ^ g ∣ a := by
  obtain ⟨m, k, hm, rfl⟩ := h
  have hkg : g ≤ k := by
    by_contra hlt
    push Not at hlt
    have h1 : |m * 2 ^ k| < 2 ^ 53 * 2 ^ k := by
      rw [abs_mul, abs_of_pos (show (0 : ℤ) < 2 ^ k by positivity)]
      exact (mul_lt_mul_iff_left₀ (by positivity)).2 hm
    have h2 : (2 : ℤ) ^ 53 * 2 ^ k ≤ 2 ^ (52 + g) := by
      rw [← pow_add]
      exact pow_le_pow_right₀ (by norm_num) (by omega)
    linarith
  exact Dvd.dvd.mul_left (pow_dvd_pow 2 hkg) m

/-- Other numbers of the grid are at least `2^g` units from a number above `2^(52+g)` units. -/
theorem gridZ_gap {s x : ℤ} {g : ℕ} (hs : GridZ s) (hx : GridZ x) (h : 2 ^ (52 + g) < |s|) (hne : x ≠ s) :
    (2 : ℤ) ^ g ≤ |x - s| := by
  have d1 := gridZ_multiple hs h.le
  have hp : (0 : ℤ) < 2 ^ g := by positivity
  have d0 : (2 : ℤ) ^ g ∣ 2 ^ (52 + g) := pow_dvd_pow 2 (by omega)
  rcases le_or_gt (2 ^ (52 + g)) |x| with l | l
  · exact Int.le_of_dvd (abs_pos.2 (sub_ne_zero.2 hne)) ((dvd_abs _ _).2 (dvd_sub (gridZ_multiple hx l) d1))
  · have h1 : (2 : ℤ) ^ g ≤ |s| - 2 ^ (52 + g) :=
      Int.le_of_dvd (by linarith) (dvd_sub ((dvd_abs _ _).2 d1) d0)
    have h2 := abs_sub_abs_le_abs_sub s x
    rw [abs_sub_comm] at h2
    linarith

/-- Within `2^g` above a number below `2^(53+g)` units there is a number of the grid. -/
theorem gridZ_next {k : ℤ} {g : ℕ} (h : |k| < 2 ^ (53 + g)) :
    ∃ z, GridZ z ∧ k < z ∧ z ≤ k + 2 ^ g ∧ |z| ≤ 2 ^ (53 + g) := by
  have hp : (0 : ℤ) < 2 ^ g := by positivity
  have e53 : (2 : ℤ) ^ (53 + g) = 2 ^ 53 * 2 ^ g := pow_add ..
  rw [e53] at h ⊢
  obtain ⟨h1, h2⟩ := abs_lt.1 h
  have d1 := Int.emod_add_mul_ediv k (2 ^ g)
  have d2 := Int.emod_nonneg k hp.ne'
  have d3 := Int.emod_lt_of_pos k hp
  generalize k / 2 ^ g = D at *
  generalize k % 2 ^ g = R at *
  have a1 : D < 2 ^ 53 := by
    refine lt_of_mul_lt_mul_right (a := 2 ^ g) ?_ hp.le
    linarith [mul_comm D ((2 : ℤ) ^ g)]
  have a2 : -2 ^ 53 - 1 < D := by
    refine lt_of_mul_lt_mul_right (a := 2 ^ g) ?_ hp.le
    linarith [mul_comm D ((2 : ℤ) ^ g)]
  have ez : (D + 1) * 2 ^ g = 2 ^ g * D + 2 ^ g := by ring
  have hz : |D + 1| ≤ 2 ^ 53 := abs_le.2 ⟨by linarith, by linarith⟩
  refine ⟨(D + 1) * 2 ^ g, ?_, by rw [ez]; linarith, by rw [ez]; linarith, ?_⟩
  · rcases lt_or_eq_of_le hz with l | l
    · exact ⟨D + 1, g, l, rfl⟩
    · rcases (abs_eq (by norm_num)).1 l with e | e
      · exact ⟨2 ^ 52, g + 1, by norm_num, by rw [e, pow_succ]; ring⟩
      · exact ⟨-2 ^ 52, g + 1, by norm_num, by rw [e, pow_succ]; ring⟩
  · rw [abs_mul, abs_of_pos hp]
    exact mul_le_mul_of_nonneg_right hz hp.le

/-- The power of two of `Coarser` in units. -/
theorem coarser_units {S K : ℤ} {e : ℤ} (he : e < 1023) (h1 : (2 : ℚ) ^ e < |(S : ℚ) / 2 ^ 1074|)
    (h2 : |(K : ℚ) / 2 ^ 1074| < 2 ^ (e + 1)) :
    ∃ g : ℕ, g < 2045 ∧ (g = 0 ∨ 2 ^ (52 + g) < |S|) ∧ |K| < 2 ^ (53 + g) := by
  have hU : (0 : ℚ) < 2 ^ 1074 := by positivity
  rw [abs_div, abs_of_pos hU, lt_div_iff₀ hU] at h1
  rw [abs_div, abs_of_pos hU, div_lt_iff₀ hU] at h2
  have e1 : (2 : ℚ) ^ e * 2 ^ 1074 = 2 ^ (e + 1074) := by
    rw [← zpow_natCast, ← zpow_add₀ (by norm_num)]; norm_num
  have e2 : (2 : ℚ) ^ (e + 1) * 2 ^ 1074 = 2 ^ (e + 1075) := by
    rw [← zpow_natCast, ← zpow_add₀ (by norm_num)]; congr 1; push_cast; ring
  rw [e1] at h1
  rw [e2] at h2
  rcases le_or_gt (e + 1074) 52 with l | l
  · refine ⟨0, by omega, .inl rfl, ?_⟩
    have : (2 : ℚ) ^ (e + 1075) ≤ 2 ^ (53 : ℤ) := zpow_le_zpow_right₀ (by norm_num) (by omega)
    have h3 := lt_of_lt_of_le h2 this
    have h4 : ((|K| : ℤ) : ℚ) < ((2 ^ 53 : ℤ) : ℚ) := by
      push_cast; rw [show (53 : ℤ) = ((53 : ℕ) : ℤ) from rfl, zpow_natCast] at h3; exact h3
    exact Int.cast_lt.1 h4
  · obtain ⟨g, hg⟩ := Int.eq_ofNat_of_zero_le (show 0 ≤ e + 1074 - 52 by omega)
    have ea : e + 1074 = ((52 + g : ℕ) : ℤ) := by push_cast; omega
    have eb : e + 1075 = ((53 + g : ℕ) : ℤ) := by push_cast; omega
    rw [ea, zpow_natCast] at h1
    rw [eb, zpow_natCast] at h2
    refine ⟨g, by omega, .inr ?_, ?_⟩
    · exact (Int.cast_lt (R := ℚ)).1 (by push_cast; exact h1)
    · exact (Int.cast_lt (R := ℚ)).1 (by push_cast; exact h2)

/-- If the spacing around `s` is not finer than that around `k`, and `p` is above `s`, there is a
number of the format above `k` that is not above `p + (k - s)`. -/
theorem coarser_next {x z y : F64} {p k s : ℚ} (hx : value x = some p) (hz : value z = some k)
    (hy : value y = some s) (h : ∃ e : ℤ, e < 1023 ∧ (2 : ℚ) ^ e < |s| ∧ |k| < 2 ^ (e + 1)) (hlt : s < p) :
    ∃ r, k < r ∧ r ≤ p + (k - s) ∧ InF64 r := by
  obtain ⟨P, rfl, gP, -⟩ := gridZ_of_value hx
  obtain ⟨K, rfl, gK, -⟩ := gridZ_of_value hz
  obtain ⟨S, rfl, gS, -⟩ := gridZ_of_value hy
  obtain ⟨e, he, h1, h2⟩ := h
  obtain ⟨g, hg, hS, hK⟩ := coarser_units he h1 h2
  have hU : (0 : ℚ) < 2 ^ 1074 := by positivity
  have hPS : S < P := by
    rw [div_lt_div_iff_of_pos_right hU] at hlt
    exact_mod_cast hlt
  obtain ⟨Z, gZ, z1, z2, z3⟩ := gridZ_next hK
  have hd : (2 : ℤ) ^ g ≤ P - S := by
    rcases hS with rfl | hS
    · rw [pow_zero]; omega
    · have := gridZ_gap gS gP hS hPS.ne'
      rwa [abs_of_pos (by omega)] at this
  refine ⟨Z / 2 ^ 1074, ?_, ?_, inF64_of_gridZ gZ (lt_of_le_of_lt z3 ?_)⟩
  · rw [div_lt_div_iff_of_pos_right hU]; exact_mod_cast z1
  · rw [← sub_div, ← add_div, div_le_div_iff_of_pos_right hU]
    have : Z ≤ P + (K - S) := by linarith
    exact_mod_cast this
  · exact pow_lt_pow_right₀ (by norm_num) (by omega)

end Xprs
