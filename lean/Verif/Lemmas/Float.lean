import Verif.F64Lemmas
/-
Facts about the float operations.
-/
namespace Xprs
set_option exponentiation.threshold 4096

theorem unit64_eq : unit64 = 2 ^ 1074 := by unfold unit64; rfl
theorem maxMag_eq : maxMag = 2 ^ 2098 := by unfold maxMag; rfl

theorem Rep.dvd {n : Nat} (h : Rep n) : 2 ^ ulpExp n ∣ n := Nat.dvd_of_mod_eq_zero h.2

/-- A smaller magnitude on the grid of a representable one is representable. -/
theorem Rep.of_dvd {n m : Nat} (h : Rep n) (hle : m ≤ n) (hd : 2 ^ ulpExp n ∣ m) : Rep m := by
  refine ⟨Nat.lt_of_le_of_lt hle h.1, Nat.mod_eq_zero_of_dvd ?_⟩
  exact Nat.dvd_trans (Nat.pow_dvd_pow 2 (ulpExp_mono hle)) hd

theorem Rep.trunc {n : Nat} (h : Rep n) : Rep (n / unit64 * unit64) := by
  rcases Nat.le_total (ulpExp n) 1074 with hk | hk
  · refine h.of_dvd (Nat.div_mul_le_self _ _) ?_
    have : 2 ^ ulpExp n ∣ unit64 := by rw [unit64_eq]; exact Nat.pow_dvd_pow 2 hk
    exact Nat.dvd_trans this (Nat.dvd_mul_left _ _)
  · have : unit64 ∣ n := by
      rw [unit64_eq]; exact Nat.dvd_trans (Nat.pow_dvd_pow 2 hk) h.dvd
    rw [Nat.div_mul_cancel this]; exact h

theorem Rep.mod_unit {n : Nat} (h : Rep n) : Rep (n % unit64) := by
  rcases Nat.le_total (ulpExp n) 1074 with hk | hk
  · refine h.of_dvd (Nat.mod_le _ _) ?_
    have : 2 ^ ulpExp n ∣ unit64 := by rw [unit64_eq]; exact Nat.pow_dvd_pow 2 hk
    exact (Nat.dvd_mod_iff this).2 h.dvd
  · have : unit64 ∣ n := by
      rw [unit64_eq]; exact Nat.dvd_trans (Nat.pow_dvd_pow 2 hk) h.dvd
    rw [Nat.mod_eq_zero_of_dvd this]; exact F64.rep_zero

theorem F64.ofMag_rep (s : Bool) {n : Nat} (h : Rep n) : F64.ofMag s n 1 = .fin s n h := by
  have hr : roundMag n 1 = n := roundMag_one n h.2
  unfold F64.ofMag
  split
  · congr
  · rename_i h'; rw [hr] at h'; exact absurd h h'

theorem F64.ofMag_of_eq (s : Bool) {N D m : Nat} (h : roundMag N D = m) (hr : Rep m) :
    F64.ofMag s N D = .fin s m hr := by
  subst h
  unfold F64.ofMag
  rw [dif_pos hr]

theorem F64.fin_congr {s : Bool} {n m : Nat} (h : Rep n) (e : n = m) :
    F64.fin s n h = .fin s m (e ▸ h) := by subst e; rfl

theorem F64.trunc_fin (s : Bool) {n : Nat} (h : Rep n) :
    F64.trunc (.fin s n h) = .fin s (n / unit64 * unit64) h.trunc := F64.ofMag_rep _ _

theorem sv_neg (s : Bool) (n : Nat) : F64.sv (!s) n = - F64.sv s n := by
  cases s <;> simp [F64.sv]

/-- `fract` is the exact fractional part (with sign; zero is `+0`). -/
theorem F64.fract_fin (s : Bool) {n : Nat} (h : Rep n) :
    F64.fract (.fin s n h) =
      if n % unit64 = 0 then F64.zero false else .fin s (n % unit64) h.mod_unit := by
  have hdm := Nat.div_add_mod n unit64
  have hmul : unit64 * (n / unit64) = n / unit64 * unit64 := Nat.mul_comm _ _
  unfold F64.fract F64.sub
  rw [F64.trunc_fin, F64.neg, F64.add, sv_neg]
  by_cases h0 : n % unit64 = 0
  · have : F64.sv s n + -F64.sv s (n / unit64 * unit64) = 0 := by
      have : n / unit64 * unit64 = n := by omega
      rw [this]; omega
    simp [this, h0]
  · have hz : F64.sv s n + -F64.sv s (n / unit64 * unit64) = F64.sv s (n % unit64) := by
      generalize n / unit64 * unit64 = q at *
      generalize n % unit64 = r at *
      unfold F64.sv
      split <;> omega
    rw [hz]
    have hne : F64.sv s (n % unit64) ≠ 0 := by
      generalize n % unit64 = r at *
      unfold F64.sv
      split <;> omega
    have hab : (F64.sv s (n % unit64)).natAbs = n % unit64 := by
      generalize n % unit64 = r at *
      unfold F64.sv
      split <;> omega
    have hs : decide (F64.sv s (n % unit64) < 0) = s := by
      generalize n % unit64 = r at *
      cases s <;> simp [F64.sv]
      · omega
    simp only [if_neg hne, if_neg h0, hab, hs]
    exact F64.ofMag_rep s h.mod_unit

theorem F64.ofNat_eq {k : Nat} (h : Rep (k * unit64)) : F64.ofNat k = .fin false (k * unit64) h :=
  F64.ofMag_rep false h

/-- Whole numbers up to `2⁵³` are representable. -/
theorem rep_nat {k : Nat} (hk : k ≤ 2 ^ 53) : Rep (k * unit64) := by
  rw [unit64_eq]
  refine ⟨?_, mod_ulpExp_of_mul hk⟩
  rw [maxMag_eq]
  calc k * 2 ^ 1074 ≤ 2 ^ 53 * 2 ^ 1074 := Nat.mul_le_mul_right _ hk
    _ < 2 ^ 2098 := by rw [← Nat.pow_add]; exact Nat.pow_lt_pow_right (by decide) (by decide)

theorem F64.f1_eq : F64.f1 = .fin false (1 * unit64) (rep_nat (by decide)) := F64.ofNat_eq _

end Xprs
