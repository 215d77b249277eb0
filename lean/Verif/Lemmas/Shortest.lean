import Verif.Lemmas.Print
/-
The shortest decimal numbers (for C72).
-/
namespace Xprs
open Spec
set_option exponentiation.threshold 4096

theorem searchStart (n : Nat) (h : 0 < n) (E : Int) (hE : ((decimal (n / unit64)).length : Int) < E)
    (M : Nat) : ¬ Nearest (M * scaleA E) (scaleB E) n := by
  have h1 := decVal_lt (decimal_digit (n / unit64))
  rw [decimal_val] at h1
  generalize (decimal (n / unit64)).length = k at *
  have hB : scaleB E = 1 := by
    unfold scaleB
    rw [show (-E).toNat = 0 by omega]
    rfl
  rcases Nat.eq_zero_or_pos M with rfl | hM
  · intro hN
    have := hN.closest 0 ⟨0, 0, by decide, rfl⟩
    rw [hB] at this
    unfold Spec.dist at this
    omega
  · refine not_nearest_double h (scaleB_pos E) ?_
    rw [hB, Nat.mul_one]
    have hu : 0 < unit64 := by decide +kernel
    have h2 : n < 10 ^ k * unit64 := (Nat.div_lt_iff_lt_mul hu).1 h1
    have h3 : 10 ^ k * 2 ≤ 10 ^ E.toNat := by
      calc 10 ^ k * 2 ≤ 10 ^ k * 10 := Nat.mul_le_mul_left _ (by decide)
        _ = 10 ^ (k + 1) := (Nat.pow_succ ..).symm
        _ ≤ 10 ^ E.toNat := Nat.pow_le_pow_right (by decide) (by omega)
    calc 2 * n ≤ 2 * (10 ^ k * unit64) := by omega
      _ = unit64 * (10 ^ k * 2) := by ring
      _ ≤ unit64 * 10 ^ E.toNat := Nat.mul_le_mul_left _ h3
      _ ≤ M * (unit64 * 10 ^ E.toNat) := Nat.le_mul_of_pos_left _ hM

/-- What is printed. -/
theorem shortest_spec {n : Nat} (h : Rep n) (hn : 0 < n) :
    candidate n (shortest n).2 = some (shortest n).1 ∧
    ∀ E' M', (shortest n).2 < E' → ¬ Nearest (M' * scaleA E') (scaleB E') n := by
  obtain ⟨f, E, e, hf, h0, hE⟩ : ∃ (f : Nat) (E : Int), shortest n = searchFrom n f E ∧
      E = (f : Int) - 1075 ∧ 0 < f ∧ E = ((decimal (n / unit64)).length : Int) := by
    refine ⟨(decimal (n / unit64)).length + 1075, (decimal (n / unit64)).length, ?_, ?_, ?_, rfl⟩
    · delta shortest
      rw [if_neg (Nat.pos_iff_ne_zero.1 hn)]
    · push_cast
      exact (Int.add_sub_cancel _ _).symm
    · exact Nat.succ_pos _
  rw [e]
  obtain ⟨h1, h2, h3⟩ := searchFrom_spec h f E hf h0
  refine ⟨h1, fun E' M' hlt => ?_⟩
  by_cases hle : E' ≤ E
  · exact candidate_none h (h3 E' hlt hle) M'
  · exact searchStart n hn E' (by omega) M'

theorem abs_dist (a b : Nat) : |(a : ℚ) - b| = ((Spec.dist a b : ℕ) : ℚ) := by
  unfold Spec.dist
  rcases Nat.le_total a b with h | h
  · rw [abs_of_nonpos (by simpa using h), Nat.sub_eq_zero_of_le h, Nat.zero_add, Nat.cast_sub h]
    ring
  · rw [abs_of_nonneg (by simpa using h), Nat.sub_eq_zero_of_le h, Nat.add_zero, Nat.cast_sub h]

theorem dist_rat (n M : Nat) (E : Int) :
    |(decNum M E : ℚ) / decDen E - (n : ℚ) / 2 ^ 1074| =
      ((Spec.dist (M * scaleA E) (n * scaleB E) : ℕ) : ℚ) / (2 ^ 1074 * scaleB E) := by
  rw [← abs_dist]
  have hB : (0 : ℚ) < scaleB E := by exact_mod_cast scaleB_pos E
  have hP : (0 : ℚ) < 2 ^ 1074 := by positivity
  have e : ((M * scaleA E : ℕ) : ℚ) = decNum M E * 2 ^ 1074 := by
    rw [← scale_num]
    push_cast
    rfl
  rw [e, scale_den, ← abs_of_pos (mul_pos hP hB), ← abs_div]
  congr 1
  push_cast
  rw [sub_div]
  field_simp

theorem shortest_correct {n : Nat} (h : Rep n) (hn : 0 < n) :
    Shortest (.fin false n h) (shortest n).1 (shortest n).2 := by
  obtain ⟨h1, h2⟩ := shortest_spec h hn
  obtain ⟨h3, -, h5⟩ := candidate_some h h1
  refine ⟨(readsTo_iff h _ _).2 h3, fun M' E' hE hr => h2 E' M' hE ((readsTo_iff h _ _).1 hr), ?_⟩
  intro M' x hr hx
  simp only [value, Option.some.injEq] at hx
  subst hx
  rw [dist_rat, dist_rat]
  have := h5 M' ((readsTo_iff h _ _).1 hr)
  gcongr

/-- Seventeen digits suffice. -/
theorem shortest_digits {n : Nat} (h : Rep n) (hn : 0 < n) : (shortest n).1 < 10 ^ 17 := by
  obtain ⟨h1, h2⟩ := shortest_spec h hn
  obtain ⟨h3, h4, -⟩ := candidate_some h h1
  generalize (shortest n).1 = M at *
  generalize (shortest n).2 = E at *
  by_contra hM
  have hA := scaleA_pos E
  have hB := scaleB_pos E
  have hA' := scaleA_pos (E + 1)
  have hB' := scaleB_pos (E + 1)
  have hx : scaleA (E + 1) * scaleB E = 10 * (scaleA E * scaleB (E + 1)) := by
    unfold scaleA scaleB
    rcases lt_or_ge E 0 with hE | hE
    · rw [show (-E).toNat = (-(E + 1)).toNat + 1 by omega, show (E + 1).toNat = 0 by omega,
        show E.toNat = 0 by omega, Nat.pow_succ]
      ring
    · rw [show (-E).toNat = 0 by omega, show (-(E + 1)).toNat = 0 by omega,
        show (E + 1).toNat = E.toNat + 1 by omega, Nat.pow_succ]
      ring
  -- the number is large, compared with `10^(E+1)`
  have h6 : (10 ^ 17 - 1) * scaleA E ≤ n * scaleB E := by
    have h7 : 10 ^ 17 * scaleA E ≤ M * scaleA E := Nat.mul_le_mul_right _ (by omega)
    unfold Spec.dist at h4
    rw [Nat.sub_mul, Nat.one_mul]
    omega
  have h7 : (10 ^ 17 - 1) * scaleA (E + 1) ≤ 10 * (n * scaleB (E + 1)) := by
    refine Nat.le_of_mul_le_mul_right ?_ hB
    calc (10 ^ 17 - 1) * scaleA (E + 1) * scaleB E
        = (10 ^ 17 - 1) * scaleA E * (10 * scaleB (E + 1)) := by rw [Nat.mul_assoc, hx]; ring
      _ ≤ n * scaleB E * (10 * scaleB (E + 1)) := Nat.mul_le_mul_right _ h6
      _ = 10 * (n * scaleB (E + 1)) * scaleB E := by ring
  -- so the closest multiple of it is read as the number
  have hg : Grid n := (grid_iff n).2 h.2
  generalize hA1 : scaleA (E + 1) = A at *
  generalize hB1 : scaleB (E + 1) = B at *
  have e := Nat.div_add_mod (n * B) A
  have hlt := Nat.mod_lt (n * B) hA'
  have e1 : (n * B / A + 1) * A = n * B / A * A + A := Nat.succ_mul _ A
  have e0 : A * (n * B / A) = n * B / A * A := Nat.mul_comm _ _
  by_cases hr : 2 * (n * B % A) < A
  · refine h2 (E + 1) (n * B / A) (by omega) ?_
    rw [hA1, hB1]
    refine nearest_close hg ?_
    unfold Spec.dist
    omega
  · refine h2 (E + 1) (n * B / A + 1) (by omega) ?_
    rw [hA1, hB1]
    refine nearest_close hg ?_
    unfold Spec.dist
    omega

end Xprs
