import Verif.Lemmas.Ieee
import Verif.Lemmas.Safe
import Verif.Lemmas.FactorialTable
import Verif.Spec.Exact
/-
Exact results are found exactly (for C67).
-/
namespace Xprs
open Spec
set_option exponentiation.threshold 4096

/-- A result that needs no rounding is exact. -/
theorem value_of_rounds {q : ℚ} {v : F64} (h : RoundsTo q v) (hf : InF64 q) :
    value v = some q := by
  obtain ⟨f, hf⟩ := hf
  obtain ⟨s, n, hn, rfl, rfl⟩ := value_some hf
  obtain ⟨⟨N, D, hD, hq, hN⟩, h1, h2⟩ := h
  have hU := unit64_pos_rat
  have hDq : (0 : ℚ) < (D : ℚ) := by exact_mod_cast hD
  have habs : |(F64.sv s n : ℚ) / (unit64 : ℕ)| * 2 ^ 1074 = (n : ℚ) := by
    rw [abs_div, ← unit64_cast, abs_of_pos hU, div_mul_cancel₀ _ hU.ne']
    cases s <;> simp [F64.sv]
  have e : N = n * D := by
    rw [habs, eq_div_iff hDq.ne'] at hq
    exact_mod_cast hq.symm
  have ha : F64.abs v = .fin false n hn := by
    rw [nearestF64_unique hN (ofMag_nearest hD), e]
    exact F64.ofMag_of_eq false (roundMag_mul n D hD hn.2) hn
  cases v with
  | nan => cases ha
  | inf t => cases ha
  | fin t m hm =>
    have hm' : m = n := by
      simp only [F64.abs, F64.fin.injEq] at ha
      exact ha.2
    subst hm'
    rw [value_fin]
    by_cases hz : m = 0
    · subst hz; cases s <;> cases t <;> simp [F64.sv]
    · have hmq : (0 : ℚ) < (m : ℚ) := by exact_mod_cast Nat.pos_of_ne_zero hz
      cases s
      · have : (0 : ℚ) < (F64.sv false m : ℚ) / (unit64 : ℕ) := by
          simp only [F64.sv, Bool.false_eq_true, if_false]
          push_cast
          positivity
        have ht := h2 this
        rw [signBit_fin] at ht
        rw [ht]
      · have : (F64.sv true m : ℚ) / (unit64 : ℕ) < 0 := by
          simp only [F64.sv, if_true]
          push_cast
          rw [neg_div]
          have : 0 < (m : ℚ) / (unit64 : ℕ) := by positivity
          linarith
        have ht := h1 this
        rw [signBit_fin] at ht
        rw [ht]

theorem add_exact {a b : F64} {p q : ℚ} (ha : value a = some p) (hb : value b = some q)
    (h : InF64 (p + q)) : value (F64.add a b) = some (p + q) := by
  have k := adds a b
  generalize F64.add a b = r at k
  cases k <;> simp_all [value]
  exact value_of_rounds (by assumption) h

theorem sub_exact {a b : F64} {p q : ℚ} (ha : value a = some p) (hb : value b = some q)
    (h : InF64 (p - q)) : value (F64.sub a b) = some (p - q) := by
  rw [sub_eq_add_neg] at h ⊢
  exact add_exact ha (neg_value hb) h

theorem mul_exact {a b : F64} {p q : ℚ} (ha : value a = some p) (hb : value b = some q)
    (h : InF64 (p * q)) : value (F64.mul a b) = some (p * q) := by
  have k := muls a b
  generalize F64.mul a b = r at k
  cases k <;> simp_all [value]
  exact value_of_rounds (by assumption) h

theorem div_exact {a b : F64} {p q : ℚ} (ha : value a = some p) (hb : value b = some q)
    (hq : q ≠ 0) (h : InF64 (p / q)) : value (F64.div a b) = some (p / q) := by
  have k := divs a b
  generalize F64.div a b = r at k
  cases k <;> simp_all [value]
  exact value_of_rounds (by assumption) h

theorem rem_exact {a b : F64} {p q : ℚ} (ha : value a = some p) (hb : value b = some q)
    (hq : q ≠ 0) : value (F64.rem a b) = some (p - q * truncRat (p / q)) := by
  have k := rems a b
  generalize F64.rem a b = r at k
  cases k <;> simp_all [value]

/-- Exact trees are evaluated exactly. -/
theorem exact_eval {w : World} {m : HMap F64} {e : Elem} {q : ℚ} (h : Exact m e q) :
    ∃ v, eval w m e = .ok v ∧ value v = some q := by
  induction h with
  | num h => exact ⟨_, rfl, h⟩
  | var h1 h2 => exact ⟨_, by rw [eval]; unfold HMap.get; rw [h1], h2⟩
  | pos _ ih =>
    obtain ⟨v, h1, h2⟩ := ih
    exact ⟨v, by rw [eval, h1]; rfl, h2⟩
  | neg _ ih =>
    obtain ⟨v, h1, h2⟩ := ih
    exact ⟨_, by rw [eval, h1]; rfl, neg_value h2⟩
  | plus _ _ h ih1 ih2 =>
    obtain ⟨v, h1, h2⟩ := ih1
    obtain ⟨u, h3, h4⟩ := ih2
    exact ⟨_, by rw [eval, h1]; simp only [h3]; rfl, add_exact h2 h4 h⟩
  | minus _ _ h ih1 ih2 =>
    obtain ⟨v, h1, h2⟩ := ih1
    obtain ⟨u, h3, h4⟩ := ih2
    exact ⟨_, by rw [eval, h1]; simp only [h3]; rfl, sub_exact h2 h4 h⟩
  | times _ _ h ih1 ih2 =>
    obtain ⟨v, h1, h2⟩ := ih1
    obtain ⟨u, h3, h4⟩ := ih2
    exact ⟨_, by rw [eval, h1]; simp only [h3]; rfl, mul_exact h2 h4 h⟩
  | divide _ _ h0 h ih1 ih2 =>
    obtain ⟨v, h1, h2⟩ := ih1
    obtain ⟨u, h3, h4⟩ := ih2
    exact ⟨_, by rw [eval, h1]; simp only [h3]; rfl, div_exact h2 h4 h0 h⟩
  | modulo _ _ h0 ih1 ih2 =>
    obtain ⟨v, h1, h2⟩ := ih1
    obtain ⟨u, h3, h4⟩ := ih2
    exact ⟨_, by rw [eval, h1]; simp only [h3]; rfl, rem_exact h2 h4 h0⟩

/-- Small integers are numbers of `f64`. -/
theorem small_inF64 {z : ℤ} (h : Small z) : InF64 (z : ℚ) := by
  have hk : z.natAbs ≤ 2 ^ 53 := by
    unfold Small at h
    rw [Int.abs_eq_natAbs] at h
    omega
  refine ⟨.fin (decide (z < 0)) (z.natAbs * unit64) (rep_nat hk), ?_⟩
  rw [value_whole]
  congr 2
  unfold F64.sv
  split
  · rename_i hz; simp only [decide_eq_true_eq] at hz; omega
  · rename_i hz; simp only [decide_eq_true_eq] at hz; omega

theorem whole_of_value {a : F64} {z : ℤ} (h : value a = some (z : ℚ)) : Whole a := by
  obtain ⟨s, n, hn, rfl, e⟩ := value_some h
  have hU := unit64_pos_rat
  rw [eq_div_iff hU.ne'] at e
  have e' : z * (unit64 : ℕ) = F64.sv s n := by exact_mod_cast e
  have hn' : n = z.natAbs * unit64 := by
    have := congrArg Int.natAbs e'
    rw [Int.natAbs_mul, Int.natAbs_natCast, sv_natAbs] at this
    exact this.symm
  subst hn'
  exact ⟨s, z.natAbs, by rw [← unit64_eq]; exact hn, by
    congr 1
    rw [unit64_eq]⟩

theorem not_zero_of_value {a : F64} {q : ℚ} (h : value a = some q) (hq : q ≠ 0) : ¬ IsZero a := by
  rintro ⟨s, rfl⟩
  rw [value_zero] at h
  cases h
  exact hq rfl

theorem ne_nan_of_value {a : F64} {q : ℚ} (h : value a = some q) : a ≠ .nan := by
  rintro rfl; cases h

theorem trunc_tmod (a b : ℤ) (hb : b ≠ 0) :
    (a : ℚ) - b * truncRat ((a : ℚ) / b) = ((a.tmod b : ℤ) : ℚ) := by
  have h : truncRat ((a : ℚ) / b) = a.tdiv b := by
    have fl : ∀ n k : ℕ, ⌊((n : ℚ) / (k : ℚ))⌋ = ((n / k : ℕ) : ℤ) := fun n k => by
      have := Rat.floor_intCast_div_natCast (n : ℤ) k
      push_cast at this ⊢
      exact this
    have nn : ∀ n k : ℕ, (0 : ℚ) ≤ (n : ℚ) / (k : ℚ) := fun n k => by positivity
    have cl : ∀ n k : ℕ, truncRat (-((n : ℚ) / (k : ℚ))) = -((n / k : ℕ) : ℤ) := fun n k => by
      unfold truncRat
      split
      · rename_i h
        have h0 : (n : ℚ) / (k : ℚ) = 0 := le_antisymm (by linarith) (nn n k)
        have := fl n k
        rw [h0] at this ⊢
        simp only [Int.floor_zero] at this
        rw [← this]; simp
      · rw [Int.ceil_neg, fl]
    have ps : ∀ n k : ℕ, truncRat ((n : ℚ) / (k : ℚ)) = ((n / k : ℕ) : ℤ) := fun n k => by
      unfold truncRat
      rw [if_pos (nn n k), fl]
    obtain ⟨n, rfl | rfl⟩ := a.eq_nat_or_neg <;> obtain ⟨k, rfl | rfl⟩ := b.eq_nat_or_neg
    · rw [Int.cast_natCast, Int.cast_natCast, ps, Int.ofNat_tdiv]
    · rw [Int.cast_neg, Int.cast_natCast, Int.cast_natCast, div_neg, cl, Int.tdiv_neg, Int.ofNat_tdiv]
    · rw [Int.cast_neg, Int.cast_natCast, Int.cast_natCast, neg_div, cl, Int.neg_tdiv, Int.ofNat_tdiv]
    · rw [Int.cast_neg, Int.cast_neg, Int.cast_natCast, Int.cast_natCast, neg_div_neg_eq, ps,
        Int.tdiv_neg, Int.neg_tdiv, neg_neg, Int.ofNat_tdiv]
  rw [h, Int.tmod_def]
  push_cast
  ring

/-- Floats of the same value are the same up to the sign of zero. -/
theorem same_of_value {a b : F64} {q : ℚ} (h : value a = some q) (k : value b = some q) :
    Same a b := by
  obtain ⟨s, n, hn, rfl, rfl⟩ := value_some h
  obtain ⟨t, m, hm, rfl, e⟩ := value_some k
  have hU := unit64_pos_rat
  have e : F64.sv s n = F64.sv t m := by
    have : ((F64.sv s n : ℤ) : ℚ) = (F64.sv t m : ℤ) := by
      field_simp at e
      exact e
    exact_mod_cast this
  have h1 := sv_natAbs s n
  have h2 := sv_natAbs t m
  have e2 : n = m := by rw [← h1, e, h2]
  subst e2
  by_cases hz : n = 0
  · subst hz
    exact .inr ⟨⟨s, rfl⟩, ⟨t, rfl⟩⟩
  · left
    have : s = t := by
      cases s <;> cases t <;> simp [F64.sv] at e <;> first | rfl | omega
    subst this
    rfl

theorem value_same {a b : F64} {q : ℚ} (h : value a = some q) (k : Same a b) :
    value b = some q := by
  rcases k with rfl | ⟨⟨s, rfl⟩, ⟨t, rfl⟩⟩
  · exact h
  · rw [value_zero] at h ⊢
    exact h

theorem factorial_18 : ∀ n ≤ 18, factorial (F64.ofNat n) = .ok (F64.ofNat n.factorial) := by
  decide +kernel

theorem factorial_exact {a : F64} {n : ℕ} (h : value a = some ((n : ℤ) : ℚ))
    (hs : Small n.factorial) :
    ∃ v, factorial a = .ok v ∧ value v = some ((n.factorial : ℤ) : ℚ) := by
  have hs' : n.factorial ≤ 2 ^ 53 := by
    unfold Small at hs
    rw [Int.abs_eq_natAbs, Int.natAbs_natCast] at hs
    exact_mod_cast hs
  have hn : n ≤ 18 := by
    by_contra hc
    have h1 : Nat.factorial 19 ≤ n.factorial := Nat.factorial_le (by omega)
    have h2 : (2 : ℕ) ^ 53 < Nat.factorial 19 := by decide +kernel
    omega
  have hv : value (F64.ofNat n.factorial) = some ((n.factorial : ℤ) : ℚ) := by
    rw [F64.ofNat_eq (rep_nat hs'), value_whole]
    rfl
  refine ⟨_, ?_, hv⟩
  rw [← factorial_18 n hn]
  have hb : value (F64.ofNat n) = some ((n : ℤ) : ℚ) := by
    rw [F64.ofNat_eq (rep_nat (by omega)), value_whole]
    rfl
  exact factorial_congr (same_of_value h hb)

/-- Integer arithmetic takes no doubtful step. -/
theorem counts_runs {w : World} {m : HMap F64} {e : Elem} {z : ℤ} (h : Counts m e z) :
    ∃ v, Runs w m e v ∧ value v = some (z : ℚ) := by
  induction h with
  | num h _ => exact ⟨_, .num, h⟩
  | var h1 h2 _ => exact ⟨_, .var h1, h2⟩
  | pos _ ih =>
    obtain ⟨v, h1, h2⟩ := ih
    exact ⟨v, .un h1 .plus, h2⟩
  | neg _ ih =>
    obtain ⟨v, h1, h2⟩ := ih
    exact ⟨_, .un h1 .minus, by push_cast; exact neg_value h2⟩
  | factorial _ hs ih =>
    obtain ⟨v, h1, h2⟩ := ih
    obtain ⟨u, h3, h4⟩ := factorial_exact h2 hs
    exact ⟨u, .un h1 (.factorial h3), h4⟩
  | plus _ _ h ih1 ih2 =>
    obtain ⟨v, h1, h2⟩ := ih1
    obtain ⟨u, h3, h4⟩ := ih2
    have k := add_exact h2 h4 (by have := small_inF64 h; push_cast at this; exact this)
    exact ⟨_, .bin h1 h3 (.plus (ne_nan_of_value k)), by push_cast; exact k⟩
  | minus _ _ h ih1 ih2 =>
    obtain ⟨v, h1, h2⟩ := ih1
    obtain ⟨u, h3, h4⟩ := ih2
    have k := sub_exact h2 h4 (by have := small_inF64 h; push_cast at this; exact this)
    exact ⟨_, .bin h1 h3 (.minus (ne_nan_of_value k)), by push_cast; exact k⟩
  | times _ _ h ih1 ih2 =>
    obtain ⟨v, h1, h2⟩ := ih1
    obtain ⟨u, h3, h4⟩ := ih2
    have k := mul_exact h2 h4 (by have := small_inF64 h; push_cast at this; exact this)
    exact ⟨_, .bin h1 h3 (.times (ne_nan_of_value k)), by push_cast; exact k⟩
  | @divide l r a b _ _ h0 h ih1 ih2 =>
    obtain ⟨v, h1, h2⟩ := ih1
    obtain ⟨u, h3, h4⟩ := ih2
    have hb : (b : ℚ) ≠ 0 := by exact_mod_cast h0
    have e : ((a * b : ℤ) : ℚ) / b = a := by push_cast; field_simp
    have k := div_exact h2 h4 hb (by rw [e]; exact small_inF64 h)
    exact ⟨_, .bin h1 h3 (.divide (ne_nan_of_value k) (not_zero_of_value h4 hb)), by rw [k, e]⟩
  | @modulo l r a b _ _ h0 ih1 ih2 =>
    obtain ⟨v, h1, h2⟩ := ih1
    obtain ⟨u, h3, h4⟩ := ih2
    have hb : (b : ℚ) ≠ 0 := by exact_mod_cast h0
    have k := rem_exact h2 h4 hb
    rw [trunc_tmod a b h0] at k
    exact ⟨_, .bin h1 h3 (.modulo (ne_nan_of_value k) fun _ => whole_of_value h2), k⟩

end Xprs
