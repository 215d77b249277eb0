import Verif.F64
/-
Helper lemmas about the rounding function of `Verif/F64.lean`.
-/
namespace Xprs

/-! ### `rne` -/

theorem rne_ge (N D : Nat) : N / D ≤ rne N D := by
  unfold rne; dsimp only; grind

theorem rne_le (N D : Nat) : rne N D ≤ N / D + 1 := by
  unfold rne; dsimp only; grind

theorem rne_mul (n D : Nat) (hD : 0 < D) : rne (n * D) D = n := by
  unfold rne; dsimp only
  rw [Nat.mul_div_cancel _ hD, Nat.mul_mod_left]
  simp [hD]

theorem rne_le_of (N D M : Nat) (hD : 0 < D) (h : N ≤ M * D) : rne N D ≤ M := by
  by_cases e : N = M * D
  · rw [e, rne_mul _ _ hD]; exact Nat.le_refl _
  · have : N / D < M := by
      rw [Nat.div_lt_iff_lt_mul hD]; omega
    have := rne_le N D
    omega

theorem le_rne_of (N D M : Nat) (hD : 0 < D) (h : M * D ≤ N) : M ≤ rne N D := by
  have := rne_ge N D
  have : M ≤ N / D := by rwa [Nat.le_div_iff_mul_le hD]
  omega

theorem rne_mono (N N' D : Nat) (h : N ≤ N') : rne N D ≤ rne N' D := by
  by_cases e : N / D = N' / D
  · have h1 := Nat.div_add_mod N D
    have h2 := Nat.div_add_mod N' D
    rw [e] at h1
    have : N % D ≤ N' % D := by omega
    unfold rne; dsimp only
    rw [e]
    split <;> split <;> try omega
    all_goals (try split) <;> (try split) <;> (try split) <;> omega
  · have : N / D ≤ N' / D := Nat.div_le_div_right h
    have := rne_le N D
    have := rne_ge N' D
    omega

theorem rne_scale (N D c : Nat) (hc : 0 < c) : rne (N * c) (D * c) = rne N D := by
  unfold rne; dsimp only
  rw [Nat.mul_div_mul_right _ _ hc, Nat.mul_mod_mul_right]
  have e1 : (2 * (N % D * c) < D * c) = (2 * (N % D) < D) := by
    rw [← Nat.mul_assoc, Nat.mul_lt_mul_right hc]
  have e2 : (D * c < 2 * (N % D * c)) = (D < 2 * (N % D)) := by
    rw [← Nat.mul_assoc, Nat.mul_lt_mul_right hc]
  simp only [e1, e2]

/-! ### `ulpExp` and representability -/

theorem lt_two_pow_ulpExp (n : Nat) : n < 2 ^ (53 + ulpExp n) := by
  have h := @Nat.lt_log2_self n
  refine Nat.lt_of_lt_of_le h (Nat.pow_le_pow_right (by decide) ?_)
  unfold ulpExp; omega

theorem ulpExp_le_of_lt {n k : Nat} (h : n < 2 ^ (53 + k)) : ulpExp n ≤ k := by
  unfold ulpExp
  by_cases h0 : n = 0
  · subst h0; simp
  · have := (Nat.log2_lt h0).2 h
    omega

theorem le_of_ulpExp_pos {n : Nat} (h : 0 < ulpExp n) : 2 ^ (52 + ulpExp n) ≤ n := by
  unfold ulpExp at h ⊢
  have h0 : n ≠ 0 := by rintro rfl; simp at h
  have : 52 + (n.log2 - 52) = n.log2 := by omega
  rw [this]
  exact Nat.log2_self_le h0

theorem mod_ulpExp_of_mul {m k : Nat} (h : m ≤ 2 ^ 53) :
    (m * 2 ^ k) % 2 ^ ulpExp (m * 2 ^ k) = 0 := by
  apply Nat.mod_eq_zero_of_dvd
  by_cases e : m = 2 ^ 53
  · subst e
    rw [← Nat.pow_add]
    apply Nat.pow_dvd_pow
    have : ulpExp (2 ^ (53 + k)) ≤ k + 1 := ulpExp_le_of_lt (Nat.pow_lt_pow_right (by decide) (by omega))
    omega
  · have hlt : m * 2 ^ k < 2 ^ (53 + k) := by
      rw [Nat.pow_add]
      exact Nat.mul_lt_mul_of_pos_right (by omega) (Nat.two_pow_pos _)
    exact Nat.dvd_trans (Nat.pow_dvd_pow 2 (ulpExp_le_of_lt hlt)) (Nat.dvd_mul_left _ _)

theorem roundMag_mantissa (N D : Nat) (hD : 0 < D) :
    rne N (D * 2 ^ ulpExp (N / D)) ≤ 2 ^ 53 := by
  apply rne_le_of
  · exact Nat.mul_pos hD (Nat.two_pow_pos _)
  · have h := lt_two_pow_ulpExp (N / D)
    have h2 : N < 2 ^ (53 + ulpExp (N / D)) * D := (Nat.div_lt_iff_lt_mul hD).1 h
    rw [Nat.pow_add, Nat.mul_assoc] at h2
    rw [Nat.mul_comm D]
    exact Nat.le_of_lt h2

theorem roundMag_mod (N D : Nat) (hD : 0 < D) :
    roundMag N D % 2 ^ ulpExp (roundMag N D) = 0 :=
  mod_ulpExp_of_mul (roundMag_mantissa N D hD)

/-- Rounding fails to be representable only by overflow. -/
theorem rep_roundMag (N D : Nat) (hD : 0 < D) : Rep (roundMag N D) ↔ roundMag N D < maxMag :=
  ⟨fun h => h.1, fun h => ⟨h, roundMag_mod N D hD⟩⟩

/-- Rounding a representable value (given as a quotient) returns it unchanged. -/
theorem roundMag_mul (n D : Nat) (hD : 0 < D) (h : n % 2 ^ ulpExp n = 0) :
    roundMag (n * D) D = n := by
  unfold roundMag; dsimp only
  rw [Nat.mul_div_cancel _ hD]
  obtain ⟨c, hc⟩ := Nat.dvd_of_mod_eq_zero h
  generalize ulpExp n = k at *
  subst hc
  have : 2 ^ k * c * D = c * (D * 2 ^ k) := by
    rw [Nat.mul_comm (2 ^ k) c, Nat.mul_assoc, Nat.mul_comm (2 ^ k) D]
  rw [this, rne_mul _ _ (Nat.mul_pos hD (Nat.two_pow_pos _)), Nat.mul_comm]

theorem roundMag_one (n : Nat) (h : n % 2 ^ ulpExp n = 0) : roundMag n 1 = n := by
  have := roundMag_mul n 1 (by decide) h
  rwa [Nat.mul_one] at this

theorem roundMag_zero (D : Nat) : roundMag 0 D = 0 := by
  simp [roundMag, rne]

theorem roundMag_scale (N D c : Nat) (hc : 0 < c) : roundMag (N * c) (D * c) = roundMag N D := by
  unfold roundMag; dsimp only
  rw [Nat.mul_div_mul_right _ _ hc]
  have : D * c * 2 ^ ulpExp (N / D) = D * 2 ^ ulpExp (N / D) * c := by
    rw [Nat.mul_assoc, Nat.mul_comm c, ← Nat.mul_assoc]
  rw [this, rne_scale _ _ _ hc]

theorem ulpExp_mono {a b : Nat} (h : a ≤ b) : ulpExp a ≤ ulpExp b :=
  ulpExp_le_of_lt (Nat.lt_of_le_of_lt h (lt_two_pow_ulpExp b))

/-- A representable lower bound survives rounding. -/
theorem le_roundMag_of_rep {N D m : Nat} (hD : 0 < D) (hm : m % 2 ^ ulpExp m = 0) (h : m * D ≤ N) :
    m ≤ roundMag N D := by
  unfold roundMag; dsimp only
  generalize hk : ulpExp (N / D) = k
  by_cases hmk : 2 ^ k ∣ m
  · obtain ⟨c, rfl⟩ := hmk
    rw [Nat.mul_comm]
    apply Nat.mul_le_mul_right
    apply le_rne_of
    · exact Nat.mul_pos hD (Nat.two_pow_pos _)
    · calc c * (D * 2 ^ k) = 2 ^ k * c * D := by
            rw [Nat.mul_comm D, ← Nat.mul_assoc, Nat.mul_comm c]
        _ ≤ N := h
  · -- `m` has a finer ulp than `N/D`, hence `m < 2^(52+k) ≤ result`
    have hlt : ulpExp m < k := by
      apply Nat.lt_of_not_le
      intro hle
      exact hmk (Nat.dvd_trans (Nat.pow_dvd_pow 2 hle) (Nat.dvd_of_mod_eq_zero hm))
    have h1 : m < 2 ^ (52 + k) :=
      Nat.lt_of_lt_of_le (lt_two_pow_ulpExp m) (Nat.pow_le_pow_right (by decide) (by omega))
    have h2 : 2 ^ (52 + k) ≤ N / D := by
      rw [← hk]; apply le_of_ulpExp_pos; omega
    have h3 : 2 ^ 52 ≤ rne N (D * 2 ^ k) := by
      apply le_rne_of
      · exact Nat.mul_pos hD (Nat.two_pow_pos _)
      · have := (Nat.le_div_iff_mul_le hD).1 h2
        rw [Nat.pow_add, Nat.mul_assoc] at this
        rwa [Nat.mul_comm D]
    calc m ≤ 2 ^ (52 + k) := Nat.le_of_lt h1
      _ = 2 ^ 52 * 2 ^ k := Nat.pow_add ..
      _ ≤ _ := Nat.mul_le_mul_right _ h3

/-- A representable upper bound survives rounding. -/
theorem roundMag_le_of_rep {N D m : Nat} (hD : 0 < D) (hm : m % 2 ^ ulpExp m = 0) (h : N ≤ m * D) :
    roundMag N D ≤ m := by
  unfold roundMag; dsimp only
  generalize hk : ulpExp (N / D) = k
  have hle : ulpExp (N / D) ≤ ulpExp m := by
    apply ulpExp_mono
    calc N / D ≤ m * D / D := Nat.div_le_div_right h
      _ = m := Nat.mul_div_cancel _ hD
  have hmk : 2 ^ k ∣ m := by
    rw [← hk]
    exact Nat.dvd_trans (Nat.pow_dvd_pow 2 hle) (Nat.dvd_of_mod_eq_zero hm)
  obtain ⟨c, rfl⟩ := hmk
  rw [Nat.mul_comm]
  apply Nat.mul_le_mul_left
  apply rne_le_of
  · exact Nat.mul_pos hD (Nat.two_pow_pos _)
  · calc N ≤ 2 ^ k * c * D := h
      _ = c * (D * 2 ^ k) := by rw [Nat.mul_comm D, ← Nat.mul_assoc, Nat.mul_comm c]

/-- Rounding is monotone. -/
theorem roundMag_mono {N N' D : Nat} (hD : 0 < D) (h : N ≤ N') : roundMag N D ≤ roundMag N' D := by
  by_cases e : ulpExp (N / D) = ulpExp (N' / D)
  · unfold roundMag; dsimp only
    rw [e]
    exact Nat.mul_le_mul_right _ (rne_mono _ _ _ h)
  · have hlt : ulpExp (N / D) < ulpExp (N' / D) := by
      have := ulpExp_mono (Nat.div_le_div_right (c := D) h)
      omega
    -- separated by the power of two `2^(52 + ulp N')`
    have hb : (2 ^ (52 + ulpExp (N' / D))) % 2 ^ ulpExp (2 ^ (52 + ulpExp (N' / D))) = 0 := by
      rw [Nat.pow_add]; exact mod_ulpExp_of_mul (by decide)
    have h2 : 2 ^ (52 + ulpExp (N' / D)) ≤ N' / D := le_of_ulpExp_pos (by omega)
    have h3 : N / D < 2 ^ (52 + ulpExp (N' / D)) :=
      Nat.lt_of_lt_of_le (lt_two_pow_ulpExp _) (Nat.pow_le_pow_right (by decide) (by omega))
    calc roundMag N D ≤ 2 ^ (52 + ulpExp (N' / D)) :=
          roundMag_le_of_rep hD hb (Nat.le_of_lt ((Nat.div_lt_iff_lt_mul hD).1 h3))
      _ ≤ roundMag N' D := le_roundMag_of_rep hD hb ((Nat.le_div_iff_mul_le hD).1 h2)

end Xprs
