import Verif.Spec.Choose
import Verif.Props.Factorial
import Verif.Props.Single
import Mathlib.Data.Nat.Choose.Basic
import Mathlib.Data.Nat.Factorial.Basic
/-
Property C131: counting with factorials.
-/
namespace Xprs
namespace Props
open _root_.Xprs.Spec
set_option exponentiation.threshold 4096

theorem fact_factorial : ∀ n, fact n = n.factorial
  | 0 => rfl
  | n + 1 => by rw [Nat.factorial_succ, ← fact_factorial n]; rfl

theorem rat_of_units {m : ℕ} (h : Rep (m * unit64)) : value (.fin false (m * unit64) h) = some (m : ℚ) := by
  rw [value_fin]
  have hU := unit64_pos_rat
  simp only [F64.sv]
  congr 1
  push_cast
  field_simp

theorem factorial_same' {x y : F64} (h : Same x y) : factorial x = factorial y := by
  rcases h with rfl | ⟨⟨s, rfl⟩, ⟨t, rfl⟩⟩
  · rfl
  · have e : ∀ s, factorial (F64.zero s) = .ok F64.f1 := by decide +kernel
    rw [e, e]

/-- The divisors of `22!` are numbers of `f64`. -/
theorem divisor_inF64 {d : ℕ} (h : d ∣ (22).factorial) : InF64 (d : ℚ) := by
  have e : (22).factorial = 2 ^ 19 * 2143861251406875 := by decide +kernel
  rw [e, Nat.dvd_mul] at h
  obtain ⟨a, b, ha, hb, rfl⟩ := h
  obtain ⟨t, ht, rfl⟩ := (Nat.dvd_prime_pow Nat.prime_two).1 ha
  have hb' : b ≤ 2143861251406875 := Nat.le_of_dvd (by norm_num) hb
  have e : (((b : ℤ) * 2 ^ (t + 1074) : ℤ) : ℚ) / 2 ^ 1074 = ((2 ^ t * b : ℕ) : ℚ) := by
    push_cast
    rw [pow_add]
    field_simp
  rw [← e]
  have hB : |(b : ℤ)| < 2 ^ 53 := by rw [abs_of_nonneg (by omega)]; omega
  refine inF64_of_gridZ ⟨b, t + 1074, hB, rfl⟩ ?_
  rw [abs_mul, abs_of_pos (show (0 : ℤ) < 2 ^ (t + 1074) by positivity)]
  calc |(b : ℤ)| * 2 ^ (t + 1074) < 2 ^ 53 * 2 ^ (t + 1074) := mul_lt_mul_of_pos_right hB (by positivity)
    _ = 2 ^ (53 + (t + 1074)) := by rw [← pow_add]
    _ ≤ 2 ^ 2098 := pow_le_pow_right₀ (by norm_num) (by omega)

theorem small_dvd {n : ℕ} (h : n < 23) : n.factorial ∣ (22).factorial := Nat.factorial_dvd_factorial (by omega)

/-- The factorials up to 22 are computed exactly. -/
theorem fact_small (n : ℕ) (h : n < 23) : factorial (F64.ofNat n) = .ok (F64.ofNat (fact n)) ∧
    value (F64.ofNat (fact n)) = some ((fact n : ℕ) : ℚ) := by
  refine ⟨(C41_nearest n (by omega)).2 ?_, ?_⟩
  · unfold nearestIdx
    rw [List.mem_append, List.mem_range]
    left; omega
  · refine value_of_rounds (ofNat_rounds _) ?_
    rw [fact_factorial]
    exact divisor_inF64 (small_dvd h)

/-- What is computed for `n!`. -/
theorem fact_value {x : F64} {n : ℕ} (h : value x = some (n : ℚ)) (hn : n ≤ 170) :
    ∃ v q, factorial x = .ok v ∧ value v = some q ∧ Near 9 (n.factorial : ℚ) q ∧ (n < 23 → q = n.factorial) := by
  have hv : value (F64.ofNat n) = some (n : ℚ) := by
    rw [F64.ofNat_eq (rep_nat (by omega))]
    exact rat_of_units _
  rw [factorial_same' (same_of_value h hv)]
  have T := C41_table_partial n hn
  rw [← unit64_eq] at T
  obtain ⟨M, hM, e, h1, h2⟩ := T
  rw [fact_factorial] at h1 h2
  refine ⟨_, _, e, rat_of_units hM, ?_, fun hs => ?_⟩
  · have hp : (0 : ℚ) < n.factorial := by exact_mod_cast Nat.factorial_pos n
    have k1 : (M : ℚ) * 2 ^ 50 < n.factorial * (2 ^ 50 + 1) := by exact_mod_cast h1
    have k2 : (n.factorial : ℚ) * (2 ^ 50 - 1) < M * 2 ^ 50 := by
      have : ((n.factorial * (2 ^ 50 - 1) : ℕ) : ℚ) < ((M * 2 ^ 50 : ℕ) : ℚ) := by exact_mod_cast h2
      norm_num at this ⊢
      linarith
    refine ⟨M / n.factorial, by field_simp, ?_, ?_⟩
    · rw [le_div_iff₀ hp]
      have : (1 - roundoff) ^ 9 ≤ ((2 : ℚ) ^ 50 - 1) / 2 ^ 50 := by unfold roundoff; norm_num
      nlinarith
    · rw [div_mul_eq_mul_div, div_le_one hp]
      have h3 : (1 - roundoff) ^ 9 * ((2 : ℚ) ^ 50 + 1) ≤ 2 ^ 50 := by unfold roundoff; norm_num
      have h4 := keep_pos 9
      nlinarith
  · obtain ⟨e', e''⟩ := fact_small n hs
    rw [e] at e'
    have e' := Except.ok.inj e'
    have := rat_of_units hM
    rw [e', e'', fact_factorial] at this
    exact (Option.some.inj this).symm

theorem near_bounds {k : ℕ} {q r : ℚ} (h : Near k q r) (hk : k ≤ 40) (hq : 0 < q) : q / 2 ≤ r ∧ r ≤ 2 * q := by
  obtain ⟨ρ, rfl, h2, h3⟩ := h.mono hk
  have h4 : (1 : ℚ) / 2 ≤ (1 - roundoff) ^ 40 := by unfold roundoff; norm_num
  constructor
  · nlinarith
  · have : ρ ≤ 2 := by nlinarith
    nlinarith

theorem fact_170 : ((170).factorial : ℚ) ≤ 2 ^ 1020 := by
  have h : Nat.ble (170).factorial (2 ^ 1020) = true := by decide +kernel
  exact_mod_cast Nat.le_of_ble_eq_true h

theorem fact_le {n : ℕ} (h : n ≤ 170) : (n.factorial : ℚ) ≤ 2 ^ 1020 :=
  le_trans (by exact_mod_cast Nat.factorial_le h) fact_170

/-- One more rounding, of a number that is not too large or small. -/
theorem near_round {k : ℕ} {q r : ℚ} {v : F64} (h : Near k q r) (hk : k ≤ 40) (h1 : 1 ≤ q) (h2 : q ≤ 2 ^ 1020)
    (hv : RoundsTo r v) : ∃ r', value v = some r' ∧ Near (k + 1) q r' := by
  obtain ⟨b1, b2⟩ := near_bounds h hk (by linarith)
  have hr : |r| = r := abs_of_pos (by linarith)
  have t1 : (1 : ℚ) / 2 ^ 1022 ≤ 1 / 2 := by
    apply one_div_le_one_div_of_le (by norm_num)
    calc (2 : ℚ) = 2 ^ 1 := by norm_num
      _ ≤ 2 ^ 1022 := pow_le_pow_right₀ (by norm_num) (by norm_num)
  have t2 : 2 * (2 : ℚ) ^ 1020 ≤ 2 ^ 1023 := by
    rw [← pow_succ']
    exact pow_le_pow_right₀ (by norm_num) (by norm_num)
  obtain ⟨r', e, h'⟩ := round_within hv (by rw [hr]; linarith) (by rw [hr]; linarith)
  exact ⟨r', e, h.trans h'⟩

theorem sub_whole {x y : F64} {n k : ℕ} (hx : value x = some (n : ℚ)) (hy : value y = some (k : ℚ)) (hk : k ≤ n)
    (hn : n ≤ 170) : value (F64.sub x y) = some ((n - k : ℕ) : ℚ) := by
  have h : InF64 (((n : ℤ) - k : ℤ) : ℚ) := inF64_int (by rw [abs_lt]; omega)
  push_cast at h
  rw [Nat.cast_sub hk]
  exact sub_exact hx hy h

/-- The steps of `a! / (b! * (a - b)!)`. -/
theorem choose_steps {x y : F64} {n k : ℕ} (hx : value x = some (n : ℚ)) (hy : value y = some (k : ℚ)) (hk : k ≤ n)
    (hn : n ≤ 170) : ∃ A B D p q, factorial x = .ok A ∧ factorial y = .ok B ∧ factorial (F64.sub x y) = .ok D ∧
      value (F64.mul B D) = some p ∧ p ≠ 0 ∧ value (F64.div A (F64.mul B D)) = some q ∧
      Near 29 (n.choose k : ℚ) q ∧ (n < 23 → q = n.choose k) := by
  have hd := sub_whole hx hy hk hn
  obtain ⟨A, a, eA, vA, nA, xA⟩ := fact_value hx hn
  obtain ⟨B, b, eB, vB, nB, xB⟩ := fact_value hy (hk.trans hn)
  obtain ⟨D, d, eD, vD, nD, xD⟩ := fact_value hd (by omega)
  have hc : (n.choose k : ℚ) * (k.factorial * (n - k).factorial) = n.factorial := by
    rw [← mul_assoc]; exact_mod_cast Nat.choose_mul_factorial_mul_factorial hk
  have p1 : (1 : ℚ) ≤ k.factorial * (n - k).factorial := by
    exact_mod_cast Nat.succ_le_of_lt (Nat.mul_pos (Nat.factorial_pos k) (Nat.factorial_pos (n - k)))
  have c1 : (1 : ℚ) ≤ n.choose k := by exact_mod_cast Nat.succ_le_of_lt (Nat.choose_pos hk)
  have hf := fact_le hn
  have p2 : (k.factorial : ℚ) * (n - k).factorial ≤ 2 ^ 1020 := by nlinarith
  have c2 : (n.choose k : ℚ) ≤ 2 ^ 1020 := by nlinarith
  obtain ⟨p, vP, nP⟩ := near_round (nB.mul nD) (by norm_num) p1 p2 (_root_.Xprs.mul_rounds vB vD)
  have hp0 : p ≠ 0 := by
    have := (near_bounds nP (by norm_num) (by linarith)).1
    intro h; linarith
  have e : (n.choose k : ℚ) = n.factorial / (k.factorial * (n - k).factorial) := by
    rw [eq_div_iff (by linarith)]; exact hc
  have nQ := nA.div nP
  rw [← e] at nQ
  obtain ⟨q, vQ, nQ'⟩ := near_round nQ (by norm_num) c1 c2 (_root_.Xprs.div_rounds vA vP hp0)
  refine ⟨A, B, D, p, q, eA, eB, eD, vP, hp0, vQ, nQ', fun hs => ?_⟩
  have i1 : InF64 ((k.factorial * (n - k).factorial : ℕ) : ℚ) :=
    divisor_inF64 ((Nat.factorial_mul_factorial_dvd_factorial hk).trans (small_dvd hs))
  have i2 : InF64 ((n.choose k : ℕ) : ℚ) := divisor_inF64 (Dvd.dvd.trans
    ⟨k.factorial * (n - k).factorial, by rw [← Nat.mul_assoc]; exact (Nat.choose_mul_factorial_mul_factorial hk).symm⟩
    (small_dvd hs))
  push_cast at i1
  rw [xB (by omega)] at vB
  rw [xD (by omega)] at vD
  rw [xA hs] at vA
  have hP := mul_exact vB vD i1
  have hQ := div_exact vA hP (by linarith) (by rw [← e]; exact i2)
  rw [← e, vQ] at hQ
  exact Option.some.inj hQ

/-- The steps of `a! / (a - b)!`. -/
theorem arrange_steps {x y : F64} {n k : ℕ} (hx : value x = some (n : ℚ)) (hy : value y = some (k : ℚ)) (hk : k ≤ n)
    (hn : n ≤ 170) : ∃ A D p q, factorial x = .ok A ∧ factorial (F64.sub x y) = .ok D ∧ value D = some p ∧ p ≠ 0 ∧
      value (F64.div A D) = some q ∧ Near 29 (n.descFactorial k : ℚ) q ∧ (n < 23 → q = n.descFactorial k) := by
  have hd := sub_whole hx hy hk hn
  obtain ⟨A, a, eA, vA, nA, xA⟩ := fact_value hx hn
  obtain ⟨D, d, eD, vD, nD, xD⟩ := fact_value hd (by omega)
  have hc : (n.descFactorial k : ℚ) * (n - k).factorial = n.factorial := by
    rw [mul_comm]; exact_mod_cast Nat.factorial_mul_descFactorial hk
  have p1 : (1 : ℚ) ≤ (n - k).factorial := by exact_mod_cast Nat.succ_le_of_lt (Nat.factorial_pos (n - k))
  have c0 : (0 : ℚ) < n.descFactorial k := by
    have h1 : (0 : ℚ) < n.factorial := by exact_mod_cast Nat.factorial_pos n
    have h2 : (0 : ℚ) ≤ n.descFactorial k := Nat.cast_nonneg _
    rcases h2.lt_or_eq with h | h
    · exact h
    · rw [← h, MulZeroClass.zero_mul] at hc; linarith
  have c1 : (1 : ℚ) ≤ n.descFactorial k := by exact_mod_cast Nat.succ_le_of_lt (by exact_mod_cast c0)
  have hf := fact_le hn
  have c2 : (n.descFactorial k : ℚ) ≤ 2 ^ 1020 := by nlinarith
  have hp0 : d ≠ 0 := by
    have := (near_bounds nD (by norm_num) (by linarith)).1
    intro h; linarith
  have e : (n.descFactorial k : ℚ) = n.factorial / (n - k).factorial := by
    rw [eq_div_iff (by linarith)]; exact hc
  have nQ := nA.div nD
  rw [← e] at nQ
  obtain ⟨q, vQ, nQ'⟩ := near_round nQ (by norm_num) c1 c2 (_root_.Xprs.div_rounds vA vD hp0)
  refine ⟨A, D, d, q, eA, eD, vD, hp0, vQ, nQ'.mono (by norm_num), fun hs => ?_⟩
  have i2 : InF64 ((n.descFactorial k : ℕ) : ℚ) := divisor_inF64 (Dvd.dvd.trans
    ⟨(n - k).factorial, by rw [Nat.mul_comm]; exact (Nat.factorial_mul_descFactorial hk).symm⟩ (small_dvd hs))
  rw [xD (by omega)] at vD
  rw [xA hs] at vA
  have hQ := div_exact vA vD (by linarith) (by rw [← e]; exact i2)
  rw [← e, vQ] at hQ
  exact Option.some.inj hQ

theorem near_48 {q r : ℚ} (h : Near 29 q r) (hq : 0 ≤ q) : |r - q| * 2 ^ 48 ≤ q := by
  obtain ⟨ρ, rfl, h2, h3⟩ := h
  have h4 : 1 - 15 / 2 ^ 52 ≤ (1 - roundoff) ^ 29 := by unfold roundoff; norm_num
  have h5 : |ρ - 1| * 2 ^ 48 ≤ 1 := by
    have : |ρ - 1| ≤ 1 / 2 ^ 48 := by
      rw [abs_le]
      constructor
      · have : (15 : ℚ) / 2 ^ 52 ≤ 1 / 2 ^ 48 := by norm_num
        linarith
      · have h6 : (1 + 1 / 2 ^ 48) * (1 - 15 / 2 ^ 52 : ℚ) ≥ 1 := by norm_num
        by_contra hc
        have : ρ * (1 - 15 / 2 ^ 52) ≤ 1 := by nlinarith [keep_pos 29]
        nlinarith
    calc |ρ - 1| * 2 ^ 48 ≤ 1 / 2 ^ 48 * 2 ^ 48 := mul_le_mul_of_nonneg_right this (by norm_num)
      _ = 1 := by norm_num
  rw [show q * ρ - q = q * (ρ - 1) by ring, abs_mul, abs_of_nonneg hq, mul_assoc]
  nlinarith

/-- What the two formulas compute. -/
theorem counts_runs {w : World} {m : HMap F64} {n N : ℕ} {e : Elem} (h : Ways w m n N e) :
    ∃ v q, Runs w m e v ∧ value v = some q ∧ Near 29 (N : ℚ) q ∧ (n < 23 → q = N) := by
  cases h with
  | choose ra rb hx hy hk hn =>
    obtain ⟨A, B, D, p, q, eA, eB, eD, vP, hp, vQ, h1, h2⟩ := choose_steps hx hy hk hn
    exact ⟨_, q, .bin (.un ra (.factorial eA)) (.bin (.un rb (.factorial eB))
      (.un (.bin ra rb (.minus (ne_nan' (sub_whole hx hy hk hn)))) (.factorial eD)) (.times (ne_nan' vP)))
      (.divide (ne_nan' vQ) (not_zero_of_value vP hp)), vQ, h1, h2⟩
  | arrange ra rb hx hy hk hn =>
    obtain ⟨A, D, p, q, eA, eD, vP, hp, vQ, h1, h2⟩ := arrange_steps hx hy hk hn
    exact ⟨_, q, .bin (.un ra (.factorial eA))
      (.un (.bin ra rb (.minus (ne_nan' (sub_whole hx hy hk hn)))) (.factorial eD))
      (.divide (ne_nan' vQ) (not_zero_of_value vP hp)), vQ, h1, h2⟩

/-- C131: up to 22 things both formulas are exact. -/
theorem C131_exact (w : World) (m : HMap F64) (n N : ℕ) (e : Elem) (h : Ways w m n N e) (hn : n ≤ 22) :
    ∃ v, eval w m e = .ok v ∧ value v = some (N : ℚ) := by
  obtain ⟨v, q, h1, h2, -, h3⟩ := counts_runs h
  exact ⟨v, runs_eval _ h1, by rw [h2, h3 (by omega)]⟩

/-- C131: up to 170 things they are right but for a relative error of `2⁻⁴⁸`. -/
theorem C131_near (w : World) (m : HMap F64) (n N : ℕ) (e : Elem) (h : Ways w m n N e) :
    ∃ v q, eval w m e = .ok v ∧ value v = some q ∧ |q - N| * 2 ^ 48 ≤ N := by
  obtain ⟨v, q, h1, h2, h3, -⟩ := counts_runs h
  exact ⟨v, q, runs_eval _ h1, h2, near_48 h3 (Nat.cast_nonneg _)⟩

theorem round_counts {q : ℚ} {N : ℕ} (h : |q - N| * 2 ^ 48 ≤ N) (hN : N < 2 ^ 47) :
    (if 0 ≤ q then ⌊q + 1 / 2⌋ else ⌈q - 1 / 2⌉ : ℤ) = N := by
  have hN' : (N : ℚ) < 2 ^ 47 := by exact_mod_cast hN
  have h1 : |q - N| < 1 / 2 := by
    by_contra hc
    have : (1 : ℚ) / 2 * 2 ^ 48 ≤ |q - N| * 2 ^ 48 := mul_le_mul_of_nonneg_right (not_lt.1 hc) (by norm_num)
    have e : (1 : ℚ) / 2 * 2 ^ 48 = 2 ^ 47 := by norm_num
    linarith
  rw [abs_lt] at h1
  have hq : 0 ≤ q := by
    by_contra hc
    have h0 : (0 : ℚ) ≤ N := Nat.cast_nonneg _
    have h2 : |q - N| = N - q := by rw [abs_of_nonpos (by linarith)]; ring
    rw [h2] at h
    nlinarith
  rw [if_pos hq, Int.floor_eq_iff]
  push_cast
  constructor <;> linarith

/-- C131: up to 170 things and fewer than `2⁴⁷` choices, `round` gives the number of choices. -/
theorem C131_round (w : World) (m : HMap F64) (n N : ℕ) (e : Elem) (h : Ways w m n N e) (hN : N < 2 ^ 47) :
    ∃ v, eval w m (app .round e) = .ok v ∧ value v = some (N : ℚ) := by
  obtain ⟨v, q, h1, h2, h3⟩ := C131_near w m n N e h
  refine ⟨_, app_eval h1 rfl, ?_⟩
  rw [(round_value h2).1, round_counts h3 hN]
  rfl

theorem factorial_beyond {x : F64} {n : ℕ} (hx : value x = some (n : ℚ)) (hn : 170 < n) : factorial x = .ok (.inf false) := by
  obtain ⟨s, k, hk, rfl, e⟩ := value_some hx
  have hU := unit64_pos_rat
  have h1 : (F64.sv s k : ℚ) = ((n * unit64 : ℕ) : ℚ) := by
    push_cast
    rw [e]; field_simp
  have h2 : F64.sv s k = ((n * unit64 : ℕ) : ℤ) := by exact_mod_cast h1
  have hp : 0 < n * unit64 := Nat.mul_pos (by omega) unit64_pos
  cases s with
  | true => simp only [F64.sv, if_true] at h2; omega
  | false =>
    have h3 : k = n * unit64 := by
      simp only [F64.sv, Bool.false_eq_true, if_false] at h2
      exact_mod_cast h2
    subst h3
    exact factorial_big hk hn

theorem inf_div (z : F64) : F64.div (.inf false) z = .nan ∨ F64.div (.inf false) z = .inf false ∨
    F64.div (.inf false) z = .inf true := by
  cases z with
  | nan => exact .inl rfl
  | inf s => exact .inl rfl
  | fin s k h => cases s <;> simp [F64.div]

/-- C131: beyond 170 things there is no number. -/
theorem C131_beyond (w : World) (m : HMap F64) (a b : Elem) (x y : F64) (n : ℕ) (ha : eval w m a = .ok x)
    (hb : eval w m b = .ok y) (hx : value x = some (n : ℚ)) (hn : 170 < n) :
    (∃ v, eval w m (chooseTree a b) = .ok v ∧ (v = .nan ∨ v = .inf false ∨ v = .inf true)) ∧
      ∃ v, eval w m (arrangeTree a b) = .ok v ∧ (v = .nan ∨ v = .inf false ∨ v = .inf true) := by
  obtain ⟨⟨B, eB⟩, -⟩ := C42_factorial_safe y
  obtain ⟨⟨D, eD⟩, -⟩ := C42_factorial_safe (F64.sub x y)
  have hA : eval w m (.un .factorial a) = .ok (.inf false) := eval_un_ok.2 ⟨x, ha, factorial_beyond hx hn⟩
  have hB : eval w m (.un .factorial b) = .ok B := eval_un_ok.2 ⟨y, hb, eB⟩
  have hD : eval w m (.un .factorial (.bin .minus a b)) = .ok D :=
    eval_un_ok.2 ⟨_, eval_bin_ok.2 ⟨x, y, ha, hb, rfl⟩, eD⟩
  exact ⟨⟨_, eval_bin_ok.2 ⟨_, _, hA, eval_bin_ok.2 ⟨_, _, hB, hD, rfl⟩, rfl⟩, inf_div _⟩,
    ⟨_, eval_bin_ok.2 ⟨_, _, hA, hD, rfl⟩, inf_div _⟩⟩

theorem factorial_negative {z : F64} {q : ℚ} (h : RoundsTo q z) (hq : q ≤ -1) : factorial z = .ok .nan := by
  have h1 : value (F64.neg F64.f1) = some (-1) := by decide +kernel
  have hl := roundsTo_mono h (rounds_self h1) hq
  have hs := h.2.1 (by linarith)
  cases z with
  | nan => exact factorial_nan
  | inf s => cases s with
    | true => exact factorial_neg_inf
    | false => simp [signBit] at hs
  | fin s k hk =>
    have hv := value_fin s hk
    have := leF_values hl hv h1
    cases s with
    | false => simp [signBit] at hs
    | true =>
      apply factorial_neg
      rcases Nat.eq_zero_or_pos k with rfl | h
      · simp [F64.sv] at this
        linarith
      · exact h

theorem times_nan' (a : F64) : F64.mul a .nan = .nan := by cases a <;> rfl
theorem over_nan' (a : F64) : F64.div a .nan = .nan := by cases a <;> rfl

/-- C131: more things cannot be chosen than there are; then the result is not zero but NaN. -/
theorem C131_above (w : World) (m : HMap F64) (a b : Elem) (x y : F64) (n k : ℕ) (ha : eval w m a = .ok x)
    (hb : eval w m b = .ok y) (hx : value x = some (n : ℚ)) (hy : value y = some (k : ℚ)) (hn : n < k) :
    eval w m (chooseTree a b) = .ok .nan ∧ eval w m (arrangeTree a b) = .ok .nan := by
  obtain ⟨⟨A, eA⟩, -⟩ := C42_factorial_safe x
  obtain ⟨⟨B, eB⟩, -⟩ := C42_factorial_safe y
  have hq : (n : ℚ) - k ≤ -1 := by
    have : (n : ℚ) + 1 ≤ k := by exact_mod_cast hn
    linarith
  have eD := factorial_negative (sub_rounds hx hy) hq
  have hA : eval w m (.un .factorial a) = .ok A := eval_un_ok.2 ⟨x, ha, eA⟩
  have hB : eval w m (.un .factorial b) = .ok B := eval_un_ok.2 ⟨y, hb, eB⟩
  have hD : eval w m (.un .factorial (.bin .minus a b)) = .ok .nan :=
    eval_un_ok.2 ⟨_, eval_bin_ok.2 ⟨x, y, ha, hb, rfl⟩, eD⟩
  refine ⟨eval_bin_ok.2 ⟨_, _, hA, eval_bin_ok.2 ⟨_, _, hB, hD, rfl⟩, ?_⟩, eval_bin_ok.2 ⟨_, _, hA, hD, ?_⟩⟩
  · show Except.ok (F64.div A (F64.mul B .nan)) = _
    rw [times_nan', over_nan']
  · show Except.ok (F64.div A .nan) = _
    rw [over_nan']

theorem round_call {w : World} {v : F64} {q : ℚ} (h : value v = some q) : CallStep w Builtin.round.toFunc [v] (F64.round v) := by
  refine ⟨rfl, fun us hs => ?_⟩
  cases hs with
  | cons h1 h2 =>
    cases h2
    refine ⟨_, rfl, ?_⟩
    exact same_of_value (round_value h).1 (round_value (value_same h h1)).1

theorem ways_round_runs {w : World} {m : HMap F64} {n N : ℕ} {e : Elem} (h : Ways w m n N e) (hN : N < 2 ^ 47) :
    ∃ v, Runs w m (app .round e) v ∧ value v = some (N : ℚ) := by
  obtain ⟨v, q, h1, h2, h3, -⟩ := counts_runs h
  refine ⟨_, .call (.cons h1 .nil) (round_call h2), ?_⟩
  rw [(round_value h2).1, round_counts (near_48 h3 (Nat.cast_nonneg _)) hN]
  rfl

theorem ways_exact_runs {w : World} {m : HMap F64} {n N : ℕ} {e : Elem} (h : Ways w m n N e) (hn : n ≤ 22) :
    ∃ v, Runs w m e v ∧ value v = some (N : ℚ) := by
  obtain ⟨v, q, h1, h2, -, h3⟩ := counts_runs h
  exact ⟨v, h1, by rw [h2, h3 (by omega)]⟩

/-- The exact formula with up to 22 things, or `round` of the formula with fewer than `2⁴⁷` choices. -/
def CountsRight (w : World) (m : HMap F64) (N : ℕ) (t : Elem) : Prop :=
  ∃ n e, Ways w m n N e ∧ (t = e ∧ n ≤ 22 ∨ t = app .round e ∧ N < 2 ^ 47)

theorem countsRight_runs {w : World} {m : HMap F64} {N : ℕ} {t : Elem} (h : CountsRight w m N t) :
    ∃ v, Runs w m t v ∧ value v = some (N : ℚ) := by
  obtain ⟨n, e, h1, ⟨rfl, h2⟩ | ⟨rfl, h2⟩⟩ := h
  · exact ways_exact_runs h1 h2
  · exact ways_round_runs h1 h2

/-- C131: simplification, in every build, keeps the numbers. -/
theorem C131_simplified (cfg : Cfg) (w : World) (m : HMap F64) (N : ℕ) (e e' : Elem) (h : CountsRight w m N e)
    (hw : NoPower e ∨ PowLaws w) (hs : simplify cfg w e = .ok e') :
    ∃ v, eval w m e' = .ok v ∧ value v = some (N : ℚ) := by
  obtain ⟨v, h1, h2⟩ := countsRight_runs h
  obtain ⟨u, h4, h5⟩ := simplify_runs' hw h1 hs
  exact ⟨u, runs_eval _ h4, value_same h2 h5⟩

/-- C131: the same for `simplify_for`. -/
theorem C131_fixed (cfg : Cfg) (w : World) (m : HMap F64) (e e' : Xpr) (n : Bytes) (c : F64) (N : ℕ)
    (hw : NoPower e.root ∨ PowLaws w) (h : CountsRight w (m.insert n c) N e.root)
    (hs : e.simplifyFor cfg w n c = .ok e') : ∃ v, e'.eval w m = .ok v ∧ value v = some (N : ℚ) := by
  obtain ⟨v, h1, h2⟩ := countsRight_runs h
  obtain ⟨-, u, h4, h5⟩ := C29_partial cfg w m e e' n c v hw h1 hs
  exact ⟨u, h4, value_same h2 h5⟩

/-- C131 for texts, in every build. -/
theorem C131_builds (cfg cfg' : Cfg) (w : World) (o o' : Oracle) (ctx : Context) (input : Bytes)
    (x y : Xpr) (m : HMap F64) (N : ℕ) (hp : cfg.pejmdas = cfg'.pejmdas) (ho : cfg.opt = false)
    (hw : NoPower x.root ∨ PowLaws w) (hn : ∀ ts, Lex input ts → ParensApart ts)
    (h : parse cfg w o ctx input = .ok x) (h' : parse cfg' w o' ctx input = .ok y) (hd : CountsRight w m N x.root) :
    (∃ v, x.eval w m = .ok v ∧ value v = some (N : ℚ)) ∧ ∃ v, y.eval w m = .ok v ∧ value v = some (N : ℚ) := by
  obtain ⟨v, h1, h2⟩ := countsRight_runs hd
  obtain ⟨h4, u, h5, h6⟩ := C16_value_partial cfg cfg' w o o' ctx input x y m v hp ho hw hn h h' h1
  exact ⟨⟨v, h4, h2⟩, u, h5, value_same h2 h6⟩

/-- Six out of 49: the formula as it is read without optimisation, and its value in both builds. -/
example : parse0 cfgPlain b!"round(x!/(6!*(x-6)!))" = .ok ⟨app .round (chooseTree vx (.num (F64.ofNat 6))), [b!"x"]⟩ ∧
    Ways w0 (mx (F64.ofNat 49)) 49 13983816 (chooseTree vx (.num (F64.ofNat 6))) ∧
    (∀ c ∈ [cfgPlain, cfgOpt], (match parse0 c b!"round(x!/(6!*(x-6)!))" with
      | .ok x => decide (x.eval w0 (mx (F64.ofNat 49)) = .ok (F64.ofNat 13983816))
      | _ => false) = true) := by
  refine ⟨by decide +kernel, ?_, by decide +kernel⟩
  have h : (49 : ℕ).choose 6 = 13983816 := by decide +kernel
  rw [← h]
  exact .choose (.var rfl) .num (by decide +kernel) (by decide +kernel) (by decide) (by decide)

/-- Without `round` the number of choices can be missed by 24 things: `floor` gives 23 for one out of 24. -/
example : parse0 cfgPlain b!"floor(x!/(1!*(x-1)!))" = .ok ⟨app .floor (chooseTree vx (.num F64.f1)), [b!"x"]⟩ ∧
    eval w0 (mx (F64.ofNat 24)) (app .floor (chooseTree vx (.num F64.f1))) = .ok (F64.ofNat 23) := by
  constructor <;> decide +kernel

/-- A bound on the number of choices is needed: 24 out of 56 are 4355031703297275, which is a number of `f64`. -/
example : eval w0 (mx (F64.ofNat 56)) (app .round (chooseTree vx (.num (F64.ofNat 24)))) =
      .ok (F64.ofNat 4355031703297276) ∧ (56 : ℕ).choose 24 = 4355031703297275 ∧ 4355031703297275 < 2 ^ 53 := by
  refine ⟨by decide +kernel, by decide +kernel, by norm_num⟩

/-- More than there are, and more than 170. -/
example : eval w0 (mx (F64.ofNat 3)) (chooseTree vx (.num (F64.ofNat 4))) = .ok .nan ∧
    eval w0 (mx (F64.ofNat 171)) (chooseTree vx (.num (F64.ofNat 2))) = .ok (.inf false) ∧
    eval w0 (mx (F64.ofNat 200)) (chooseTree vx (.num (F64.ofNat 2))) = .ok .nan := by
  refine ⟨by decide +kernel, by decide +kernel, by decide +kernel⟩

end Props
end Xprs
