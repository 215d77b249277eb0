import Verif.Lemmas.Error
import Verif.Props.Print
/-
A quotient multiplied by its divisor (for C117).
-/
namespace Xprs
open Spec

/-- Numbers of the grid beyond `2⁵² g` are multiples of the power of two `g`. -/
theorem grid_multiple {R b : ℕ} (hR : Grid R) (h : 2 ^ 52 * 2 ^ b ≤ R) : 2 ^ b ∣ R := by
  obtain ⟨m, k, hm, rfl⟩ := hR
  have h1 : 2 ^ (52 + b) < 2 ^ (53 + k) := by
    rw [pow_add, pow_add]
    exact lt_of_le_of_lt h (Nat.mul_lt_mul_of_pos_right hm (by positivity))
  have h2 := (Nat.pow_lt_pow_iff_right (by norm_num : 1 < 2)).1 h1
  exact Dvd.dvd.mul_left (pow_dvd_pow 2 (by omega)) m

theorem grid_top {N D Q G : ℕ} (hD : 0 < D) (hQ : Nearest N D Q) (hG : Grid G) (h : G * D ≤ N) : G ≤ Q := by
  by_contra hc
  have h1 := hQ.closest G hG
  have h2 : Q * D < G * D := Nat.mul_lt_mul_of_pos_right (not_le.1 hc) hD
  unfold Spec.dist at h1
  omega

/-- The unit in the last place of a quotient, and the error of its rounding. -/
theorem quotient_ulp {N D Q : ℕ} (hD : 0 < D) (h : 2 ^ 52 * D ≤ N) (hQ : Nearest N D Q) :
    ∃ a, 2 ^ 52 * 2 ^ a * D ≤ N ∧ 2 ^ a ∣ Q ∧ 2 * Spec.dist (Q * D) N ≤ D * 2 ^ a := by
  have hA : 2 ^ 52 ≤ N / D := (Nat.le_div_iff_mul_le hD).2 h
  obtain ⟨k, hk1, hk2⟩ : ∃ k, 2 ^ 52 * 2 ^ k ≤ N / D ∧ N / D < 2 ^ 53 * 2 ^ k := by
    have h0 : N / D ≠ 0 := by omega
    refine ⟨Nat.log2 (N / D) - 52, ?_, ?_⟩
    · rw [← Nat.pow_add]
      have h1 : 52 ≤ Nat.log2 (N / D) := (Nat.le_log2 h0).2 hA
      rw [Nat.add_sub_cancel' h1]
      exact Nat.log2_self_le h0
    · rw [← Nat.pow_add]
      refine lt_of_lt_of_le Nat.lt_log2_self (Nat.pow_le_pow_right (by decide) (by omega))
  have hlow : 2 ^ 52 * 2 ^ k * D ≤ N := (Nat.le_div_iff_mul_le hD).1 hk1
  have hP : 0 < D * 2 ^ k := by positivity
  have e1 : N / D / 2 ^ k = N / (D * 2 ^ k) := Nat.div_div_eq_div_mul _ _ _
  have hm2 : N / (D * 2 ^ k) < 2 ^ 53 := by
    rw [← e1]; exact (Nat.div_lt_iff_lt_mul (by positivity)).2 hk2
  refine ⟨k, hlow, grid_multiple hQ.grid (grid_top hD hQ ⟨2 ^ 52, k, by norm_num, rfl⟩ hlow), ?_⟩
  have hdm := Nat.div_add_mod N (D * 2 ^ k)
  have hmod := Nat.mod_lt N hP
  generalize N / (D * 2 ^ k) = q at *
  generalize N % (D * 2 ^ k) = r at *
  have hg : Grid ((q + 1) * 2 ^ k) := by
    by_cases hq : q + 1 < 2 ^ 53
    · exact ⟨q + 1, k, hq, rfl⟩
    · have : q + 1 = 2 ^ 53 := by omega
      exact ⟨2 ^ 52, k + 1, by decide, by rw [this]; ring⟩
  have h1 := hQ.closest _ (⟨q, k, hm2, rfl⟩ : Grid (q * 2 ^ k))
  have h2 := hQ.closest _ hg
  rw [show q * 2 ^ k * D = D * 2 ^ k * q by ring] at h1
  rw [show (q + 1) * 2 ^ k * D = D * 2 ^ k * q + D * 2 ^ k by ring] at h2
  generalize Spec.dist (Q * D) N = δ at h1 h2 ⊢
  generalize D * 2 ^ k = P at *
  generalize P * q = T at *
  unfold Spec.dist at h1 h2
  omega

/-- A number of at most 52 binary digits, divided by a number with two binary digits other than zero and
multiplied by it again, with rounding, is that number. -/
theorem nearest_back {X n Q R j d : ℕ} (hX : ∃ M e, M < 2 ^ 52 ∧ X = M * 2 ^ e) (hd : 1 ≤ d)
    (hn : n = 2 ^ j * (2 ^ d + 1)) (h : 2 ^ 52 * n ≤ X) (hQ : Nearest X n Q) (hR : Nearest (Q * n) 1 R) : R = X := by
  have hn0 : 0 < n := by rw [hn]; positivity
  obtain ⟨a, hlow, ⟨K, rfl⟩, herr⟩ := quotient_ulp hn0 h hQ
  obtain ⟨M, e, hM, rfl⟩ := hX
  -- the unit of the last place of `X`
  obtain ⟨g, hg⟩ : ∃ g, g = j + d + a := ⟨_, rfl⟩
  have hgn : 2 ^ 52 * 2 ^ g < 2 ^ 52 * 2 ^ a * n := by
    rw [hn, hg, mul_assoc]
    refine Nat.mul_lt_mul_of_pos_left ?_ (by positivity)
    rw [show 2 ^ a * (2 ^ j * (2 ^ d + 1)) = 2 ^ (j + d + a) + 2 ^ a * 2 ^ j by ring]
    exact Nat.lt_add_of_pos_right (by positivity)
  have hge : g < e := by
    have h1 : 2 ^ 52 * 2 ^ g < 2 ^ 52 * 2 ^ e :=
      lt_of_lt_of_le hgn (hlow.trans (Nat.mul_le_mul_right _ hM.le))
    exact (Nat.pow_lt_pow_iff_right (by norm_num : 1 < 2)).1 (lt_of_mul_lt_mul_left h1 (Nat.zero_le _))
  obtain ⟨t, ht⟩ : ∃ t, M * 2 ^ e = 2 ^ (g + 1) * t := Dvd.dvd.mul_left (pow_dvd_pow 2 hge) M
  have hgrid : Grid (M * 2 ^ e) := ⟨M, e, by omega, rfl⟩
  rw [ht] at herr hlow hgrid ⊢
  have hbig : 2 ^ 52 * 2 ^ g < 2 ^ (g + 1) * t := lt_of_lt_of_le hgn hlow
  -- the product is within half of it
  have hhalf : 2 * Spec.dist (2 ^ a * K * n) (2 ^ (g + 1) * t) ≤ 2 ^ g := by
    obtain ⟨s, hs⟩ : ∃ s, (2 : ℕ) ^ d = 2 * s := ⟨2 ^ (d - 1), by rw [← pow_succ']; congr 1; omega⟩
    have e1 : 2 ^ a * K * n = 2 ^ a * 2 ^ j * (K * (2 ^ d + 1)) := by rw [hn]; ring
    have e2 : 2 ^ (g + 1) * t = 2 ^ a * 2 ^ j * (2 * 2 ^ d * t) := by rw [hg]; ring
    have e3 : n * 2 ^ a = 2 ^ a * 2 ^ j * (2 ^ d + 1) := by rw [hn]; ring
    have e4 : 2 ^ g = 2 ^ a * 2 ^ j * 2 ^ d := by rw [hg]; ring
    have e5 : ∀ p q : ℕ, Spec.dist (2 ^ a * 2 ^ j * p) (2 ^ a * 2 ^ j * q) = 2 ^ a * 2 ^ j * Spec.dist p q := by
      intro p q
      unfold Spec.dist
      rw [← Nat.mul_sub, ← Nat.mul_sub, ← Nat.mul_add]
    rw [e1, e2, e3, e5, Nat.mul_left_comm] at herr
    rw [e1, e2, e4, e5, Nat.mul_left_comm]
    have hp : 0 < 2 ^ a * 2 ^ j := by positivity
    have h1 := Nat.le_of_mul_le_mul_left herr hp
    refine Nat.mul_le_mul_left _ ?_
    rw [hs] at h1 ⊢
    omega
  have hc := hR.closest _ hgrid
  have he := hR.even _ hgrid
  rw [mul_one, mul_one] at hc
  simp only [mul_one] at he
  have hle : 2 ^ 52 * 2 ^ g ≤ R := by
    obtain ⟨T, hT⟩ : ∃ T, T = 2 ^ g * t := ⟨_, rfl⟩
    have e1 : 2 ^ (g + 1) * t = 2 * T := by rw [hT]; ring
    have h2 : 2 ^ 52 * 2 ^ g + 2 ^ g ≤ 2 ^ (g + 1) * t := by
      have e2 : 2 ^ (g + 1) * t = 2 ^ g * (2 * t) := by ring
      rw [e2] at hbig ⊢
      rw [mul_comm (2 ^ 52)] at hbig ⊢
      have := lt_of_mul_lt_mul_left hbig (Nat.zero_le _)
      calc 2 ^ g * 2 ^ 52 + 2 ^ g = 2 ^ g * (2 ^ 52 + 1) := by ring
        _ ≤ _ := Nat.mul_le_mul_left _ this
    generalize 2 ^ (g + 1) * t = X at *
    generalize 2 ^ a * K * n = Y at *
    unfold Spec.dist at *
    omega
  obtain ⟨r, hr⟩ := grid_multiple hR.grid hle
  subst hr
  by_contra hne
  have e2 : 2 ^ (g + 1) * t = 2 ^ g * (2 * t) := by ring
  have hp : 0 < 2 ^ g := by positivity
  have e5 : ∀ p q : ℕ, Spec.dist (2 ^ g * p) (2 ^ g * q) = 2 ^ g * Spec.dist p q := by
    intro p q
    unfold Spec.dist
    rw [← Nat.mul_sub, ← Nat.mul_sub, ← Nat.mul_add]
  -- they are neighbours
  have hd1 : 2 ^ g * Spec.dist (2 * t) r ≤ 2 ^ g := by
    rw [← e5, ← e2]
    generalize 2 ^ (g + 1) * t = X at *
    generalize 2 ^ a * K * n = Y at *
    generalize 2 ^ g * r = R at *
    unfold Spec.dist at *
    omega
  have hd2 : Spec.dist (2 * t) r ≤ 1 := by
    by_contra hc
    have := Nat.mul_le_mul_left (2 ^ g) (not_le.1 hc)
    omega
  have hd3 : Spec.dist (2 * t) r = 1 := by
    have : Spec.dist (2 * t) r ≠ 0 := by
      intro h0
      apply hne
      rw [e2]
      congr 1
      unfold Spec.dist at h0
      omega
    omega
  have hd4 : Spec.dist (2 ^ (g + 1) * t) (2 ^ g * r) = 2 ^ g := by rw [e2, e5, hd3, mul_one]
  have h6 := he (Ne.symm hne) (by
    generalize 2 ^ (g + 1) * t = X at *
    generalize 2 ^ a * K * n = Y at *
    generalize 2 ^ g * r = R at *
    unfold Spec.dist at *
    omega)
  rw [hd4, mul_comm 2] at h6
  have h7 : 2 ∣ r := Nat.dvd_of_mul_dvd_mul_left hp h6
  unfold Spec.dist at hd3
  omega

end Xprs
