import Verif.Lemmas.Accuracy
import Verif.Lemmas.RoundOrder
import Verif.Lemmas.Exact
import Verif.Lemmas.Scale
/-
Differences and quotients of numbers that are not the same.
-/
namespace Xprs
open Spec
set_option exponentiation.threshold 4096

theorem rounds_self {u : F64} {q : ℚ} (h : value u = some q) : RoundsTo q u := by
  obtain ⟨s, n, hn, rfl, rfl⟩ := value_some h
  have hU := unit64_pos_rat
  refine ⟨⟨n, 1, by decide, ?_, nearest_self hn⟩, fun h => ?_, fun h => ?_⟩
  · rw [abs_div, abs_sv, abs_of_pos hU, ← unit64_cast]
    field_simp; simp
  · cases s with
    | true => rfl
    | false =>
      have : (0 : ℚ) ≤ (F64.sv false n : ℚ) / (unit64 : ℕ) := by
        apply div_nonneg _ hU.le; simp [F64.sv]
      linarith
  · cases s with
    | false => rfl
    | true =>
      have : (F64.sv true n : ℚ) / (unit64 : ℕ) ≤ 0 := by
        apply div_nonpos_of_nonpos_of_nonneg _ hU.le; simp [F64.sv]
      linarith

/-- The smallest positive number. -/
def tiny : F64 := .fin false 1 (by decide +kernel)
theorem value_tiny : value tiny = some (1 / 2 ^ 1074) := by
  simp [tiny, value]

/-- The numbers next to one. -/
def belowOne : F64 := .fin false (2 ^ 1074 - 2 ^ 1021) (by decide +kernel)
def aboveOne : F64 := .fin false (2 ^ 1074 + 2 ^ 1022) (by decide +kernel)

theorem value_belowOne : value belowOne = some (1 - 1 / 2 ^ 53) := by
  simp only [belowOne, value]; norm_num
theorem value_aboveOne : value aboveOne = some (1 + 1 / 2 ^ 52) := by
  simp only [aboveOne, value]; norm_num

/-- Values are multiples of `2⁻¹⁰⁷⁴`. -/
theorem value_units {x : F64} {q : ℚ} (h : value x = some q) : ∃ z : ℤ, q = z / 2 ^ 1074 := by
  obtain ⟨s, n, hn, rfl, rfl⟩ := value_some h
  exact ⟨F64.sv s n, by rw [unit64_cast]⟩

theorem values_gap {x y : F64} {p q : ℚ} (hx : value x = some p) (hy : value y = some q) (h : p < q) :
    p + 1 / 2 ^ 1074 ≤ q := by
  obtain ⟨a, rfl⟩ := value_units hx
  obtain ⟨b, rfl⟩ := value_units hy
  have hU : (0 : ℚ) < 2 ^ 1074 := by positivity
  have : a < b := by
    have := (div_lt_div_iff_of_pos_right hU).1 h
    exact_mod_cast this
  rw [← add_div, div_le_div_iff_of_pos_right hU]
  exact_mod_cast this

theorem grid_of_value {x : F64} {q : ℚ} (h : value x = some q) :
    ∃ n : ℕ, Grid n ∧ |q| = n / 2 ^ 1074 := by
  obtain ⟨s, n, hn, rfl, rfl⟩ := value_some h
  refine ⟨n, (nearest_self hn).elim fun k hk => ?_, ?_⟩
  · rcases hk.2 with ⟨_, _, e⟩ | ⟨_, e⟩
    · injection e with _ e; subst e; exact hk.1.grid
    · cases e
  · rw [abs_div, abs_sv, unit64_cast]; congr 1

/-- Two numbers of the grid are at least one part in `2⁵³` apart. -/
theorem grid_parted {n m : ℕ} (hn : Grid n) (hm : Grid m) (h : n < m) : m ≤ (m - n) * 2 ^ 53 := by
  obtain ⟨N, j, hN, rfl⟩ := hn
  obtain ⟨M, k, hM, rfl⟩ := hm
  rcases le_total k j with hk | hk
  · obtain ⟨d, rfl⟩ := Nat.exists_eq_add_of_le hk
    have e : N * 2 ^ (k + d) = (N * 2 ^ d) * 2 ^ k := by rw [pow_add]; ring
    rw [e] at h ⊢
    have hlt : N * 2 ^ d < M := lt_of_mul_lt_mul_right h (Nat.zero_le _)
    rw [← Nat.sub_mul]
    have h1 : 1 ≤ M - N * 2 ^ d := by omega
    calc M * 2 ^ k ≤ 2 ^ 53 * 2 ^ k := Nat.mul_le_mul_right _ hM.le
      _ = 1 * 2 ^ k * 2 ^ 53 := by ring
      _ ≤ _ := Nat.mul_le_mul_right _ (Nat.mul_le_mul_right _ h1)
  · obtain ⟨d, rfl⟩ := Nat.exists_eq_add_of_le hk
    have e : M * 2 ^ (j + d) = (M * 2 ^ d) * 2 ^ j := by rw [pow_add]; ring
    rw [e] at h ⊢
    generalize M * 2 ^ d = m at *
    have hlt : N < m := lt_of_mul_lt_mul_right h (Nat.zero_le _)
    rw [← Nat.sub_mul, Nat.mul_right_comm]
    refine Nat.mul_le_mul_right _ ?_
    omega

theorem quotient_below {x y : F64} {p q : ℚ} (hx : value x = some p) (hy : value y = some q)
    (h : |p| < |q|) : |p| / |q| ≤ 1 - 1 / 2 ^ 53 := by
  obtain ⟨n, gn, e⟩ := grid_of_value hx
  obtain ⟨m, gm, e'⟩ := grid_of_value hy
  have hU : (0 : ℚ) < 2 ^ 1074 := by positivity
  rw [e, e'] at h ⊢
  have hlt : n < m := by
    have := (div_lt_div_iff_of_pos_right hU).1 h
    exact_mod_cast this
  have hg := grid_parted gn gm hlt
  have hm : (0 : ℚ) < m := by exact_mod_cast (by omega : 0 < m)
  rw [div_div_div_cancel_right₀ hU.ne', div_le_iff₀ hm]
  have : (m : ℚ) ≤ (m - n) * 2 ^ 53 := by
    have h2 : ((m - n : ℕ) : ℚ) = m - n := by push_cast [hlt.le]; ring
    rw [← h2]; exact_mod_cast hg
  have h3 : (m : ℚ) / 2 ^ 53 ≤ m - n := by
    rw [div_le_iff₀ (by positivity)]; exact this
  have h4 : (1 - 1 / 2 ^ 53 : ℚ) * m = m - m / 2 ^ 53 := by ring
  rw [h4]; linarith

theorem above_rounds : RoundsTo (1 + 1 / 2 ^ 53 + 1 / 2 ^ 106) aboveOne := by
  have h : F64.ofMag false (2 ^ 968 * (2 ^ 106 + 2 ^ 53 + 1)) 1 = aboveOne := by decide +kernel
  rw [← h]
  refine roundsTo_ofMag (by decide) ?_ (fun h => ?_) (fun _ => rfl)
  · rw [abs_of_pos (by positivity)]; norm_num
  · exact absurd h (not_lt.2 (by positivity))

theorem leF_not {a b : F64} {p q : ℚ} (ha : value a = some p) (hb : value b = some q) (h : q < p) :
    ¬ LeF a b := fun hl => absurd (leF_values hl ha hb) (not_le.2 h)

end Xprs
