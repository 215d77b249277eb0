import Verif.Lemmas.FactorialTable
/-
Properties C40, C41, C42: the factorial operator.
-/
namespace Xprs
namespace Props
set_option exponentiation.threshold 4096

/-! ### C40 -/

/-- C40: for every `f64`.  `n · 2⁻¹⁰⁷⁴` is the value of `fin _ n`, so `2¹⁰⁷⁴ ∣ n` says
that it is a whole number and `k * 2¹⁰⁷⁴` is the whole number `k`. -/
theorem C40_factorial :
    factorial .nan = .ok .nan ∧
    factorial (.inf true) = .ok .nan ∧
    factorial (.inf false) = .ok (.inf false) ∧
    (∀ n h, 0 < n → factorial (.fin true n h) = .ok .nan) ∧
    (∀ n h, ¬ 2 ^ 1074 ∣ n → factorial (.fin false n h) = .ok .nan) ∧
    (∀ k h, 170 < k → factorial (.fin false (k * 2 ^ 1074) h) = .ok (.inf false)) ∧
    (∀ s k h, k ≤ 170 → (s = false ∨ k = 0) →
      ∃ M E, factorialLits[k]? = some (M, E) ∧
        factorial (.fin s (k * 2 ^ 1074) h) = .ok (F64.ofDecimal M E)) := by
  rw [← unit64_eq]
  refine ⟨factorial_nan, factorial_neg_inf, factorial_inf, fun n h hn => factorial_neg h hn,
    fun n h hn => factorial_fract h (fun h' => hn (Nat.dvd_of_mod_eq_zero h')),
    fun k h hk => factorial_big h hk, ?_⟩
  intro s k h hk hs
  have hl : factorialLits.length = 171 := by decide +kernel
  refine ⟨(factorialLits[k]'(by omega)).1, (factorialLits[k]'(by omega)).2,
    List.getElem?_eq_getElem _, ?_⟩
  rw [factorial_table h hk hs]
  simp [factorialTable]

/-- Every `f64` falls under one of the cases of `C40_factorial`. -/
theorem C40_cases (x : F64) :
    x = .nan ∨ x = .inf true ∨ x = .inf false ∨
    (∃ n h, 0 < n ∧ x = .fin true n h) ∨
    (∃ n h, ¬ 2 ^ 1074 ∣ n ∧ x = .fin false n h) ∨
    (∃ s k h, (s = false ∨ k = 0) ∧ x = .fin s (k * 2 ^ 1074) h) := by
  cases x with
  | nan => simp
  | inf s => cases s <;> simp
  | fin s n h =>
    by_cases hd : 2 ^ 1074 ∣ n
    · obtain ⟨k, hk⟩ := hd
      have hk' : n = k * 2 ^ 1074 := by rw [hk, Nat.mul_comm]
      subst hk'
      by_cases hs : s = false ∨ k = 0
      · right; right; right; right; right; exact ⟨s, k, h, hs, rfl⟩
      · right; right; right; left
        have hs' : s = true := by
          cases s with
          | false => exact absurd (Or.inl rfl) hs
          | true => rfl
        have hk0 : 0 < k := by
          rcases Nat.eq_zero_or_pos k with h | h
          · exact absurd (Or.inr h) hs
          · exact h
        subst hs'
        exact ⟨_, h, Nat.mul_pos hk0 (Nat.two_pow_pos _), rfl⟩
    · cases s with
      | false => right; right; right; right; left; exact ⟨n, h, hd, rfl⟩
      | true =>
        right; right; right; left
        refine ⟨n, h, ?_, rfl⟩
        rcases Nat.eq_zero_or_pos n with h | h
        · subst h; exact absurd (Nat.dvd_zero _) hd
        · exact h

/-- 5! = 120, 2.5! = NaN, (-1)! = NaN, 171! = ∞, (-0.0)! = 1. -/
example : factorial (F64.ofNat 5) = .ok (F64.ofNat 120) := by decide +kernel
example : factorial (F64.ofDecimal 25 (-1)) = .ok .nan := by decide +kernel
example : factorial (F64.neg F64.f1) = .ok .nan := by decide +kernel
example : factorial (F64.ofNat 171) = .ok (.inf false) := by decide +kernel
example : factorial (F64.zero true) = .ok F64.f1 := by decide +kernel

/-! ### C41 -/

open Spec (fact)

/-- The full claim of C41 for the table part (false, see `C41_refuted`): `n!` is the
`f64` nearest to the factorial. -/
def C41_claim : Prop := ∀ n, n ≤ 170 → factorial (F64.ofNat n) = .ok (F64.ofNat (fact n))

/-- C41, exactly: the result is the nearest `f64` for the 53 indices listed in
`nearestIdx` and for no other. -/
theorem C41_nearest : ∀ n, n ≤ 170 →
    (factorial (F64.ofNat n) = .ok (F64.ofNat (fact n)) ↔ n ∈ nearestIdx) := by
  intro n hn
  obtain ⟨hr, hh⟩ := factorial_row n (by omega)
  rw [hh, ← row_nearest n (by omega)]
  constructor
  · intro h
    have h := Except.ok.inj h
    unfold F64.ofNat F64.ofMag at h
    split at h
    · have := (F64.fin.inj h).2
      exact this.symm
    · cases h
  · intro h
    unfold F64.ofNat
    rw [F64.ofMag_of_eq false h hr]

/-- C41 is false: `28!` is not correctly rounded. -/
theorem C41_refuted : ¬ C41_claim := by
  intro h
  have := (C41_nearest 28 (by decide)).mp (h 28 (by decide))
  revert this
  decide +kernel

/-- C41, what holds: every table value is positive, finite and within a relative error
of 2⁻⁵⁰ of the true factorial.  Missing from the full claim: the entries are not all
the *nearest* `f64` (see `C41_nearest`, `C41_refuted`). -/
theorem C41_table_partial : ∀ n, n ≤ 170 → ∃ m h,
    factorial (F64.ofNat n) = .ok (.fin false (m * 2 ^ 1074) h) ∧
    m * 2 ^ 50 < fact n * (2 ^ 50 + 1) ∧
    fact n * (2 ^ 50 - 1) < m * 2 ^ 50 := by
  rw [← unit64_eq]
  intro n hn
  obtain ⟨hr, hh⟩ := factorial_row n (by omega)
  have h1 := row_near n (by omega)
  unfold nearFact at h1
  rw [Bool.and_eq_true, Nat.blt_eq, Nat.blt_eq] at h1
  exact ⟨_, hr, hh, h1.1, h1.2⟩

/-- The recurrence `n! = n · (n-1)!` holds in `f64` arithmetic along the table. -/
theorem C41_recurrence : ∀ n, n < 170 → ∃ a b,
    factorial (F64.ofNat n) = .ok a ∧ factorial (F64.ofNat (n + 1)) = .ok b ∧
    b = F64.mul (F64.ofNat (n + 1)) a := by
  intro n hn
  obtain ⟨ha, hha⟩ := factorial_row n (by omega)
  obtain ⟨hb, hhb⟩ := factorial_row (n + 1) (by omega)
  refine ⟨_, _, hha, hhb, ?_⟩
  have h := row_rec n hn
  rw [F64.ofNat_eq (rep_nat (by omega))]
  exact (F64.ofMag_of_eq false h hb).symm

/-- The first values, and the first one that is off by one unit in the last place. -/
example : factorial (F64.ofNat 27) = .ok (F64.ofNat (fact 27)) := by decide +kernel
example : factorial (F64.ofNat 28) ≠ .ok (F64.ofNat (fact 28)) := by decide +kernel

theorem fact_pos : ∀ n, 0 < fact n
  | 0 => by decide
  | n + 1 => Nat.mul_pos (by omega) (fact_pos n)

theorem fact_mono {n m : Nat} (h : n ≤ m) : fact n ≤ fact m := by
  induction h with
  | refl => exact Nat.le_refl _
  | step _ ih =>
    refine Nat.le_trans ih ?_
    rw [fact]
    exact Nat.le_mul_of_pos_left _ (by omega)

/-- C41, overflow part: from 171 on the true factorial rounds to infinity. -/
theorem C41_overflow : ∀ n, 171 ≤ n → F64.ofNat (fact n) = .inf false := by
  intro n hn
  have h1 : maxMag ≤ roundMag (fact 171 * unit64) 1 := by decide +kernel
  have h2 : roundMag (fact 171 * unit64) 1 ≤ roundMag (fact n * unit64) 1 :=
    roundMag_mono (by decide) (Nat.mul_le_mul_right _ (fact_mono hn))
  unfold F64.ofNat F64.ofMag
  split
  · rename_i h; have := h.1; omega
  · rfl

/-- … and the model returns infinity there. -/
theorem C41_overflow_result : ∀ n, 171 ≤ n → factorial (F64.ofNat n) = .ok (.inf false) := by
  intro n hn
  unfold F64.ofNat F64.ofMag
  split
  · rename_i h
    -- a rounded whole number is a whole number
    have hge : 171 * unit64 ≤ roundMag (n * unit64) 1 := by
      have := le_roundMag_of_rep (N := n * unit64) (D := 1) (m := 171 * unit64) (by decide)
        (rep_nat (by decide)).2 (by
          rw [Nat.mul_one]; exact Nat.mul_le_mul_right _ hn)
      exact this
    have hd : unit64 ∣ roundMag (n * unit64) 1 := by
      unfold roundMag
      simp only [Nat.div_one, Nat.one_mul]
      rcases Nat.le_total 1074 (ulpExp (n * unit64)) with hk | hk
      · refine Nat.dvd_trans ?_ (Nat.dvd_mul_left _ _)
        rw [unit64_eq]; rw [unit64_eq] at hk; exact Nat.pow_dvd_pow 2 hk
      · have e : n * unit64 = n * 2 ^ (1074 - ulpExp (n * unit64)) * 2 ^ ulpExp (n * unit64) := by
          rw [Nat.mul_assoc, ← Nat.pow_add, unit64_eq]
          rw [unit64_eq] at hk
          rw [Nat.sub_add_cancel hk]
        generalize hu : ulpExp (n * unit64) = k at *
        rw [e, rne_mul _ _ (Nat.two_pow_pos _), ← e]
        exact Nat.dvd_mul_left _ _
    obtain ⟨k, hk⟩ := hd
    have hk' : roundMag (n * unit64) 1 = k * unit64 := by rw [hk, Nat.mul_comm]
    rw [F64.fin_congr h hk']
    apply factorial_big
    rw [hk'] at hge
    have := Nat.le_of_mul_le_mul_right hge unit64_pos
    omega
  · exact factorial_inf

/-! ### C42 -/

/-- C42: for every `f64` the computation neither has undefined behaviour (an
unrepresentable value given to `to_int_unchecked`), nor indexes outside the table, nor
panics in any other way: it returns a value. -/
theorem C42_factorial_safe (x : F64) :
    (∃ v, factorial x = .ok v) ∧ factorial x ≠ .error .ub ∧ factorial x ≠ .error .index := by
  obtain ⟨v, hv⟩ := factorial_ok x
  exact ⟨⟨v, hv⟩, by simp [hv], by simp [hv]⟩

/-- The conversion really is dangerous: outside the guarded range it is undefined. -/
example : toUsizeUnchecked (.inf false) = .error .ub := rfl
example : toUsizeUnchecked (F64.neg F64.f1) = .error .ub := by decide +kernel

end Props
end Xprs
