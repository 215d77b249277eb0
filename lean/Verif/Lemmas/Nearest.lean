import Verif.Spec.Round
import Verif.F64Lemmas
import Verif.Lemmas.Float
/-
The rounding of the model is rounding to the nearest point of the grid.
-/
namespace Xprs
open Spec

theorem dist_comm (a b : Nat) : dist a b = dist b a := by unfold Spec.dist; omega

/-- The specification determines the result. -/
theorem nearest_unique {N D n m : Nat} (hn : Nearest N D n) (hm : Nearest N D m) : n = m := by
  by_cases h : n = m
  · exact h
  · exfalso
    have e : dist (m * D) N = dist (n * D) N :=
      Nat.le_antisymm (hm.closest n hn.grid) (hn.closest m hm.grid)
    have h1 := hn.even m hm.grid (Ne.symm h) e
    have h2 := hm.even n hn.grid h e.symm
    rw [dist_comm n m] at h2
    have h3 : 2 * dist m n ∣ dist m n := by
      unfold Spec.dist
      rcases Nat.le_total m n with hle | hle
      · have := Nat.dvd_sub h1 h2
        rw [Nat.sub_eq_zero_of_le hle, Nat.zero_add]
        unfold Spec.dist at this
        rwa [Nat.sub_eq_zero_of_le hle, Nat.zero_add] at this
      · have := Nat.dvd_sub h2 h1
        rw [Nat.sub_eq_zero_of_le hle, Nat.add_zero]
        unfold Spec.dist at this
        rwa [Nat.sub_eq_zero_of_le hle, Nat.add_zero] at this
    have h4 : 0 < dist m n := by unfold Spec.dist; omega
    have := Nat.le_of_dvd h4 h3
    omega

theorem grid_iff (n : Nat) : Grid n ↔ n % 2 ^ ulpExp n = 0 := by
  constructor
  · rintro ⟨m, k, hm, rfl⟩
    exact mod_ulpExp_of_mul (Nat.le_of_lt hm)
  · intro h
    obtain ⟨c, hc⟩ := Nat.dvd_of_mod_eq_zero h
    refine ⟨c, ulpExp n, ?_, by rw [Nat.mul_comm]; exact hc⟩
    have h1 := lt_two_pow_ulpExp n
    rw [Nat.pow_add, Nat.mul_comm] at h1
    rw [hc] at h1
    have h2 : 2 ^ ulpExp (2 ^ ulpExp n * c) = 2 ^ ulpExp n := by rw [← hc]
    rw [h2] at h1
    exact Nat.lt_of_mul_lt_mul_left h1

/-- `rne` rounds to the nearest integer, ties to even. -/
theorem rne_nearest {N D : Nat} (hD : 0 < D) (c : Nat) :
    dist (rne N D * D) N ≤ dist (c * D) N ∧
    (c ≠ rne N D → dist (c * D) N = dist (rne N D * D) N → dist c (rne N D) = 1 ∧ 2 ∣ rne N D) := by
  have h0 := Nat.div_add_mod N D
  have h1 := Nat.mod_lt N hD
  generalize hq : N / D = q at *
  generalize hr : N % D = r at *
  -- the four multiples of interest
  have hcq : c * D = q * D ∨ c * D = (q + 1) * D ∨ (c + 1 ≤ q) ∨ (q + 2 ≤ c) := by
    rcases Nat.lt_trichotomy c q with h | h | h
    · right; right; left; omega
    · left; rw [h]
    · by_cases h' : c = q + 1
      · right; left; rw [h']
      · right; right; right; omega
  have e1 : (q + 1) * D = q * D + D := Nat.succ_mul q D
  have e0 : D * q = q * D := Nat.mul_comm _ _
  have lo : c + 1 ≤ q → c * D + D ≤ q * D := by
    intro h; have := Nat.mul_le_mul_right D h; rwa [Nat.succ_mul] at this
  have hi : q + 2 ≤ c → q * D + D + D ≤ c * D := by
    intro h
    have := Nat.mul_le_mul_right D h
    rw [Nat.add_mul] at this; omega
  have inj : ∀ a b : Nat, a * D = b * D → a = b := fun a b h => Nat.eq_of_mul_eq_mul_right hD h
  have hrn : rne N D = if 2 * r < D then q else if D < 2 * r then q + 1 else if q % 2 = 0 then q else q + 1 := by
    unfold rne; simp only [hq, hr]
  rw [hrn]
  unfold Spec.dist
  split
  · constructor
    · rcases hcq with h | h | h | h
      · rw [h]; omega
      · rw [h, e1]; omega
      · have := lo h; omega
      · have := hi h; omega
    · intro hne he
      exfalso
      rcases hcq with h | h | h | h
      · exact hne (inj _ _ h)
      · rw [h, e1] at he; omega
      · have := lo h; omega
      · have := hi h; omega
  · split
    · rw [e1]
      constructor
      · rcases hcq with h | h | h | h
        · rw [h]; omega
        · rw [h, e1]; omega
        · have := lo h; omega
        · have := hi h; omega
      · intro hne he
        exfalso
        rcases hcq with h | h | h | h
        · rw [h] at he; omega
        · exact hne (inj _ _ h)
        · have := lo h; omega
        · have := hi h; omega
    · split
      · rename_i hev
        constructor
        · rcases hcq with h | h | h | h
          · rw [h]; omega
          · rw [h, e1]; omega
          · have := lo h; omega
          · have := hi h; omega
        · intro hne he
          rcases hcq with h | h | h | h
          · exact absurd (inj _ _ h) hne
          · have := inj _ _ h
            refine ⟨by omega, Nat.dvd_of_mod_eq_zero hev⟩
          · have := lo h; omega
          · have := hi h; omega
      · rename_i hev
        rw [e1]
        constructor
        · rcases hcq with h | h | h | h
          · rw [h]; omega
          · rw [h, e1]; omega
          · have := lo h; omega
          · have := hi h; omega
        · intro hne he
          rcases hcq with h | h | h | h
          · have := inj _ _ h
            refine ⟨by omega, by omega⟩
          · exact absurd (inj _ _ h) hne
          · have := lo h; omega
          · have := hi h; omega

/-- The rounding of the model is to the nearest point of the grid. -/
theorem roundMag_nearest {N D : Nat} (hD : 0 < D) : Nearest N D (roundMag N D) := by
  have hgrid : Grid (roundMag N D) := (grid_iff _).2 (roundMag_mod N D hD)
  have hpos : 0 < D * 2 ^ ulpExp (N / D) := Nat.mul_pos hD (Nat.two_pow_pos _)
  have hval : roundMag N D = rne N (D * 2 ^ ulpExp (N / D)) * 2 ^ ulpExp (N / D) := rfl
  have hmulD : ∀ c : Nat, c * 2 ^ ulpExp (N / D) * D = c * (D * 2 ^ ulpExp (N / D)) := by
    intro c; rw [Nat.mul_assoc, Nat.mul_comm (2 ^ _) D]
  have main : ∀ m, Grid m → dist (roundMag N D * D) N ≤ dist (m * D) N ∧
      (m ≠ roundMag N D → dist (m * D) N = dist (roundMag N D * D) N →
        2 * dist m (roundMag N D) ∣ roundMag N D) := by
    intro m hm
    by_cases hmk : 2 ^ ulpExp (N / D) ∣ m
    · obtain ⟨c, rfl⟩ := hmk
      rw [Nat.mul_comm (2 ^ _) c]
      obtain ⟨h1, h2⟩ := rne_nearest (N := N) hpos c
      rw [hval, hmulD, hmulD]
      refine ⟨h1, fun hne he => ?_⟩
      obtain ⟨h3, h4⟩ := h2 (fun h => hne (by rw [h])) he
      have e : dist (c * 2 ^ ulpExp (N / D)) (rne N (D * 2 ^ ulpExp (N / D)) * 2 ^ ulpExp (N / D)) =
          dist c (rne N (D * 2 ^ ulpExp (N / D))) * 2 ^ ulpExp (N / D) := by
        unfold Spec.dist; rw [Nat.add_mul, Nat.sub_mul, Nat.sub_mul]
      rw [e, h3, Nat.one_mul]
      exact Nat.mul_dvd_mul_right h4 _
    · generalize hk : ulpExp (N / D) = k at *
      have hm' := (grid_iff m).1 hm
      have hlt : ulpExp m < k := by
        apply Nat.lt_of_not_le
        intro hle
        exact hmk (Nat.dvd_trans (Nat.pow_dvd_pow 2 hle) (Nat.dvd_of_mod_eq_zero hm'))
      have h1 : m < 2 ^ (52 + k) :=
        Nat.lt_of_lt_of_le (lt_two_pow_ulpExp m) (Nat.pow_le_pow_right (by decide) (by omega))
      have h2 : 2 ^ (52 + k) ≤ N / D := by
        rw [← hk]; apply le_of_ulpExp_pos; omega
      have h3 : 2 ^ (52 + k) * D ≤ N := (Nat.le_div_iff_mul_le hD).1 h2
      obtain ⟨h4, _⟩ := rne_nearest (N := N) hpos (2 ^ 52)
      rw [← hmulD, ← hmulD, ← hval, ← Nat.pow_add] at h4
      have h5 : m * D < 2 ^ (52 + k) * D := Nat.mul_lt_mul_of_pos_right h1 hD
      have h6 : dist (2 ^ (52 + k) * D) N < dist (m * D) N := by unfold Spec.dist; omega
      exact ⟨by omega, fun _ he => by omega⟩
  exact ⟨hgrid, fun m hm => (main m hm).1, fun m hm => (main m hm).2⟩

theorem ofMag_nearest {N D : Nat} (hD : 0 < D) : NearestF64 N D (F64.ofMag false N D) := by
  refine ⟨roundMag N D, roundMag_nearest hD, ?_⟩
  unfold F64.ofMag
  by_cases h : Rep (roundMag N D)
  · rw [dif_pos h]
    exact .inl ⟨maxMag_eq ▸ h.1, h, rfl⟩
  · rw [dif_neg h]
    refine .inr ⟨?_, rfl⟩
    rw [rep_roundMag N D hD, maxMag_eq] at h
    omega

/-- `ofDecimal` gives the number nearest to `M · 10^E`. -/
theorem ofDecimal_nearest (M : Nat) (E : Int) :
    NearestF64 (decNum M E * 2 ^ 1074) (decDen E) (F64.ofDecimal M E) := by
  unfold F64.ofDecimal decNum decDen
  split
  · rename_i h
    have : (-E).toNat = 0 := by omega
    rw [this, Nat.pow_zero, ← unit64_eq]
    exact ofMag_nearest (by decide)
  · rename_i h
    have : E.toNat = 0 := by omega
    rw [this, Nat.pow_zero, Nat.mul_one, ← unit64_eq]
    exact ofMag_nearest (Nat.pow_pos (by decide))

/-- The nearest number is unique. -/
theorem nearestF64_unique {N D : Nat} {v v' : F64} (h : NearestF64 N D v) (h' : NearestF64 N D v') :
    v = v' := by
  obtain ⟨n, hn, h⟩ := h
  obtain ⟨m, hm, h'⟩ := h'
  obtain rfl := nearest_unique hn hm
  rcases h with ⟨h1, _, rfl⟩ | ⟨h1, rfl⟩ <;> rcases h' with ⟨h2, _, rfl⟩ | ⟨h2, rfl⟩
  · rfl
  · omega
  · omega
  · rfl

end Xprs
