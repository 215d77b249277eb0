import Verif.Lemmas.Back
/-
A number of the format times a ratio of two others rounds to itself only if the two are
equal (for C119).  Magnitudes are in units of `2⁻¹⁰⁷⁴`.
-/
namespace Xprs
open Spec

/-- Two numbers of the grid that are at least `2ᵗ` are `2ᵗ⁻⁵²` apart. -/
theorem grid_close {a b t : ℕ} (ha : Grid a) (hb : Grid b) (h1 : 2 ^ t ≤ a) (h2 : a ≤ b)
    (h3 : (b - a) * 2 ^ 52 < 2 ^ t) : a = b := by
  by_cases ht : t < 52
  · have : 2 ^ t < 2 ^ 52 := Nat.pow_lt_pow_right (by decide) ht
    have : (b - a) * 2 ^ 52 < 1 * 2 ^ 52 := by omega
    have := Nat.lt_of_mul_lt_mul_right this
    omega
  · obtain ⟨j, rfl⟩ : ∃ j, t = 52 + j := ⟨t - 52, by omega⟩
    rw [Nat.pow_add] at h1 h3
    have da := grid_multiple ha h1
    have db := grid_multiple hb (h1.trans h2)
    have hd : 2 ^ j ∣ b - a := Nat.dvd_sub db da
    have hl : b - a < 2 ^ j := by
      rw [mul_comm] at h3
      exact Nat.lt_of_mul_lt_mul_left h3
    have := Nat.eq_zero_of_dvd_of_lt hd hl
    omega

theorem unique_of_gap {P S Q κ : ℕ} (hP : Grid P) (hS : Grid S) (hS0 : 0 < S) (h1 : 2 ^ (κ + 52) ≤ Q)
    (g1 : 2 * Spec.dist P S * Q ≤ 2 ^ κ * S) (g2 : P < S → Q = 2 ^ (κ + 52) → 4 * (S - P) * Q ≤ 2 ^ κ * S) :
    P = S := by
  obtain ⟨σ, s1, s2⟩ : ∃ σ, 2 ^ σ ≤ S ∧ S < 2 ^ (σ + 1) :=
    ⟨Nat.log2 S, Nat.log2_self_le hS0.ne', Nat.lt_log2_self⟩
  have hk : 0 < 2 ^ κ := by positivity
  have hQ : 2 ^ κ * 2 ^ 52 ≤ Q := by rw [← Nat.pow_add]; exact h1
  -- the distance is below a unit of the last place of `S`
  have d1 : Spec.dist P S * 2 ^ 53 ≤ S := by
    have : 2 ^ κ * (Spec.dist P S * 2 ^ 53) ≤ 2 ^ κ * S := by
      calc 2 ^ κ * (Spec.dist P S * 2 ^ 53) = 2 * Spec.dist P S * (2 ^ κ * 2 ^ 52) := by ring
        _ ≤ 2 * Spec.dist P S * Q := Nat.mul_le_mul_left _ hQ
        _ ≤ _ := g1
    exact Nat.le_of_mul_le_mul_left this hk
  have d2 : Spec.dist P S * 2 ^ 52 < 2 ^ σ := by rw [Nat.pow_succ] at s2; omega
  have e2 : S - P ≤ Spec.dist P S := by unfold Spec.dist; omega
  have e3 : P - S ≤ Spec.dist P S := by unfold Spec.dist; omega
  rcases Nat.le_total S P with h | h
  · exact (grid_close hS hP s1 h (lt_of_le_of_lt (Nat.mul_le_mul_right _ e3) d2)).symm
  · have d2' : (S - P) * 2 ^ 52 < 2 ^ σ := lt_of_le_of_lt (Nat.mul_le_mul_right _ e2) d2
    by_cases hp : 2 ^ σ ≤ P
    · exact grid_close hP hS hp h d2'
    · by_contra hne
      have hlt : P < S := lt_of_le_of_ne h hne
      have e4 : Spec.dist P S = S - P := by
        unfold Spec.dist; rw [Nat.sub_eq_zero_of_le h, Nat.zero_add]
      -- it is even below half of it
      have d3 : (S - P) * 2 ^ 53 < 2 ^ σ := by
        by_cases hq : Q = 2 ^ (κ + 52)
        · have g := g2 hlt hq
          have : 2 ^ κ * ((S - P) * 2 ^ 54) ≤ 2 ^ κ * S := by
            calc 2 ^ κ * ((S - P) * 2 ^ 54) = 4 * (S - P) * (2 ^ κ * 2 ^ 52) := by ring
              _ = 4 * (S - P) * Q := by rw [hq, Nat.pow_add]
              _ ≤ _ := g
          have := Nat.le_of_mul_le_mul_left this hk
          rw [Nat.pow_succ] at s2
          clear g g1 g2 hQ h1 hq d1 d2 d2' e2 e3 e4 hk
          omega
        · have hS' : S = 2 ^ σ := by
            by_contra hc
            have := grid_close (t := σ) ⟨1, σ, by norm_num, (Nat.one_mul _).symm⟩ hS le_rfl s1
              (lt_of_le_of_lt (Nat.mul_le_mul_right _ (Nat.sub_le_sub_left (not_le.1 hp).le S)) d2')
            exact hc this.symm
          have hq' : 2 ^ κ * 2 ^ 52 < Q := by
            rw [← Nat.pow_add]; exact lt_of_le_of_ne h1 (Ne.symm hq)
          have : 2 ^ κ * ((S - P) * 2 ^ 53) < 2 ^ κ * S := by
            calc 2 ^ κ * ((S - P) * 2 ^ 53) = 2 * (S - P) * (2 ^ κ * 2 ^ 52) := by ring
              _ < 2 * (S - P) * Q := Nat.mul_lt_mul_of_pos_left hq'
                  (Nat.mul_pos (by decide) (Nat.sub_pos_of_lt hlt))
              _ ≤ _ := by rw [← e4]; exact g1
          exact hS' ▸ Nat.lt_of_mul_lt_mul_left this
      clear g1 g2 hQ h1 d1 d2 d2' e2 e3 e4 hk
      obtain ⟨t, rfl⟩ : ∃ t, σ = t + 1 := by
        cases σ with
        | zero => rw [Nat.pow_zero] at *; omega
        | succ t => exact ⟨t, rfl⟩
      rw [pow_succ 2 t] at d3 s1
      have hp' : 2 ^ t ≤ P := by omega
      have d4 : (S - P) * 2 ^ 52 < 2 ^ t := by
        rw [show (2 : ℕ) ^ 53 = 2 ^ 52 * 2 from rfl, ← Nat.mul_assoc] at d3
        exact lt_of_mul_lt_mul_right d3 (Nat.zero_le _)
      exact hne (grid_close (t := t) hP hS hp' h d4)

theorem between_two {u v w y z : ℕ} (hw : 0 < w) (hu : z = u + w) (hd : y + w = u)
    (c1 : Spec.dist u v ≤ Spec.dist z v) (c2 : Spec.dist u v ≤ Spec.dist y v) :
    2 * ((v - u) + (u - v)) ≤ w := by
  unfold Spec.dist at c1 c2
  omega

theorem beside_half {u v w y : ℕ} (hw : 0 < w) (hh : 2 * y + w = 2 * u) (hle : v ≤ u)
    (c3 : Spec.dist u v ≤ Spec.dist y v) : 4 * (u - v) ≤ w := by
  unfold Spec.dist at c3
  omega

/-- `Q·P/S` rounds to `Q` only if `P = S`. -/
theorem nearest_times {P S Q : ℕ} (hP : Grid P) (hS : Grid S) (hS0 : 0 < S) (hQ : 2 ^ 53 ≤ Q)
    (h : Nearest (Q * P) S Q) : P = S := by
  obtain ⟨κ, k1, k2⟩ : ∃ κ, 2 ^ (κ + 53) ≤ Q ∧ Q < 2 ^ (κ + 54) := by
    have h0 : Q ≠ 0 := by rintro rfl; omega
    have h1 : 53 ≤ Nat.log2 Q := (Nat.le_log2 h0).2 hQ
    refine ⟨Nat.log2 Q - 53, ?_, ?_⟩
    · rw [Nat.sub_add_cancel h1]; exact Nat.log2_self_le h0
    · rw [show Nat.log2 Q - 53 + 54 = Nat.log2 Q + 1 by omega]; exact Nat.lt_log2_self
  have e2 : 2 ^ (κ + 1) = 2 * 2 ^ κ := by rw [Nat.pow_succ, mul_comm]
  have hA : 2 ^ (κ + 1) ∣ Q := grid_multiple h.grid (by
    rw [← Nat.pow_add, show 52 + (κ + 1) = κ + 53 by omega]; exact k1)
  obtain ⟨K, rfl⟩ := hA
  have K1 : 2 ^ 52 ≤ K := by
    rw [show κ + 53 = (κ + 1) + 52 by omega, Nat.pow_add] at k1
    exact le_of_mul_le_mul_left k1 (by positivity)
  have K2 : K < 2 ^ 53 := by
    rw [show κ + 54 = (κ + 1) + 53 by omega, pow_add 2 (κ + 1) 53] at k2
    exact lt_of_mul_lt_mul_left k2 (Nat.zero_le _)
  have up : Grid (2 ^ (κ + 1) * (K + 1)) := by
    by_cases hq : K + 1 < 2 ^ 53
    · exact ⟨K + 1, κ + 1, hq, Nat.mul_comm _ _⟩
    · have : K + 1 = 2 ^ 53 := by omega
      exact ⟨2 ^ 52, κ + 2, by norm_num, by rw [this]; ring⟩
  have down : Grid (2 ^ (κ + 1) * (K - 1)) := ⟨K - 1, κ + 1, by omega, Nat.mul_comm _ _⟩
  have c1 := h.closest _ up
  have c2 := h.closest _ down
  have hu : 2 ^ (κ + 1) * (K + 1) * S = 2 ^ (κ + 1) * K * S + 2 ^ (κ + 1) * S := by ring
  have hd : 2 ^ (κ + 1) * (K - 1) * S + 2 ^ (κ + 1) * S = 2 ^ (κ + 1) * K * S := by
    obtain ⟨j, rfl⟩ : ∃ j, K = j + 1 := ⟨K - 1, by omega⟩
    simp only [Nat.add_sub_cancel]; ring
  have hx : ∀ a b : ℕ, (2 ^ (κ + 1) * K) * (a - b) = 2 ^ (κ + 1) * K * a - 2 ^ (κ + 1) * K * b :=
    fun a b => Nat.mul_sub _ _ _
  have hw : 0 < 2 ^ (κ + 1) * S := by positivity
  refine unique_of_gap (Q := 2 ^ (κ + 1) * K) (κ := κ + 1) hP hS hS0 ?_ ?_ ?_
  · rw [Nat.pow_add (2) (κ + 1)]; exact Nat.mul_le_mul_left _ K1
  · have : 2 * Spec.dist P S * (2 ^ (κ + 1) * K) =
        2 * ((2 ^ (κ + 1) * K) * (P - S) + (2 ^ (κ + 1) * K) * (S - P)) := by
      unfold Spec.dist; ring
    rw [this, hx, hx]
    exact between_two hw hu hd c1 c2
  · intro hl hq
    have hK : K = 2 ^ 52 := by
      rw [Nat.pow_add (2) (κ + 1)] at hq
      exact Nat.eq_of_mul_eq_mul_left (by positivity) hq
    have half : Grid (2 ^ κ * (2 ^ 53 - 1)) := ⟨2 ^ 53 - 1, κ, by norm_num, Nat.mul_comm _ _⟩
    have c3 := h.closest _ half
    have hh : 2 * (2 ^ κ * (2 ^ 53 - 1) * S) + 2 ^ (κ + 1) * S = 2 * (2 ^ (κ + 1) * K * S) := by
      rw [hK, e2]
      have : (2 ^ 53 - 1 : ℕ) + 1 = 2 * 2 ^ 52 := by norm_num
      calc 2 * (2 ^ κ * (2 ^ 53 - 1) * S) + 2 * 2 ^ κ * S = 2 * 2 ^ κ * S * ((2 ^ 53 - 1) + 1) := by ring
        _ = _ := by rw [this]; ring
    have : 4 * (S - P) * (2 ^ (κ + 1) * K) = 4 * ((2 ^ (κ + 1) * K) * (S - P)) := by ring
    rw [this, hx]
    have hle : 2 ^ (κ + 1) * K * P ≤ 2 ^ (κ + 1) * K * S := Nat.mul_le_mul_left _ hl.le
    exact beside_half hw hh hle c3

end Xprs
