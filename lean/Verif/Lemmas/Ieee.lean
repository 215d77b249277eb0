import Verif.Spec.Ieee
import Verif.Lemmas.Minmax
/-
The arithmetic of the float model is that of IEEE 754.
-/
namespace Xprs
open Spec
set_option exponentiation.threshold 4096

theorem fin_cases (a : F64) : a = .nan ∨ (∃ s, a = .inf s) ∨ ∃ p, value a = some p := by
  cases a with
  | nan => exact .inl rfl
  | inf s => exact .inr (.inl ⟨s, rfl⟩)
  | fin s n h => exact .inr (.inr ⟨_, value_fin s h⟩)

theorem value_zero_iff {s : Bool} {n : Nat} {h : Rep n} : value (.fin s n h) = some 0 ↔ n = 0 := by
  rw [value_fin]
  have hU := unit64_pos_rat
  constructor
  · intro e
    injection e with e
    rcases div_eq_zero_iff.1 e with e | e
    · have : F64.sv s n = 0 := by exact_mod_cast e
      have := sv_natAbs s n
      omega
    · exact absurd e hU.ne'
  · rintro rfl
    cases s <;> simp [F64.sv]

theorem adds (a b : F64) : Adds a b (F64.add a b) := by
  cases a with
  | nan => cases b <;> exact .nanL
  | inf s =>
    cases b with
    | nan => exact .nanR
    | inf t =>
      cases s <;> cases t
      · exact .infL (by simp) (by simp)
      · exact .opposite
      · exact .opposite
      · exact .infL (by simp) (by simp)
    | fin t m hm => exact .infL (by simp) (by simp)
  | fin s n hn =>
    cases b with
    | nan => exact .nanR
    | inf t => exact .infR (by simp) (by simp)
    | fin t m hm =>
      refine .finite (value_fin s hn) (value_fin t hm) (add_rounds (value_fin s hn) (value_fin t hm)) ?_
      intro h
      have hz : F64.sv s n + F64.sv t m = 0 := by
        rw [← add_div] at h
        rcases div_eq_zero_iff.1 h with h | h
        · exact_mod_cast h
        · exact absurd h unit64_pos_rat.ne'
      simp only [F64.add, hz, if_true]
      rfl

theorem value_zero (s : Bool) : value (F64.zero s) = some 0 := by
  unfold F64.zero; exact value_zero_iff.2 rfl

theorem muls (a b : F64) : Muls a b (F64.mul a b) := by
  cases a with
  | nan => cases b <;> exact .nanL
  | inf s =>
    cases b with
    | nan => exact .nanR
    | inf t => exact .infL (by simp) (by simp [value])
    | fin t m hm =>
      simp only [F64.mul]
      split
      · rename_i h; exact .infZero (value_zero_iff.2 h)
      · rename_i h; exact .infL (b := .fin t m hm) (by simp) (fun e => h (value_zero_iff.1 e))
  | fin s n hn =>
    cases b with
    | nan => exact .nanR
    | inf t =>
      simp only [F64.mul]
      split
      · rename_i h; exact .zeroInf (value_zero_iff.2 h)
      · rename_i h; exact .infR (a := .fin s n hn) (by simp) (fun e => h (value_zero_iff.1 e))
    | fin t m hm =>
      exact .finite (value_fin s hn) (value_fin t hm) (mul_rounds (value_fin s hn) (value_fin t hm))
        (signBit_ofMag _ _ _)

theorem divs (a b : F64) : Divs a b (F64.div a b) := by
  cases a with
  | nan => cases b <;> exact .nanL
  | inf s =>
    cases b with
    | nan => exact .nanR
    | inf t => exact .infInf
    | fin t m hm => exact .infL (value_fin t hm)
  | fin s n hn =>
    cases b with
    | nan => exact .nanR
    | inf t => exact .infR (value_fin s hn) (value_zero _) rfl
    | fin t m hm =>
      by_cases h : m = 0
      · by_cases h0 : n = 0
        · have : F64.div (.fin s n hn) (.fin t m hm) = .nan := by
            simp [F64.div, h, h0]
          rw [this]
          exact .zeroZero (value_zero_iff.2 h0) (value_zero_iff.2 h)
        · have : F64.div (.fin s n hn) (.fin t m hm) = .inf (s != t) := by
            simp [F64.div, h, h0]
          rw [this]
          refine .byZero (a := .fin s n hn) (b := .fin t m hm) (value_fin s hn) ?_ (value_zero_iff.2 h)
          intro e
          exact h0 (value_zero_iff.1 ((value_fin s hn).trans (by rw [e])))
      · have hq : ((F64.sv t m : ℤ) : ℚ) / (unit64 : ℕ) ≠ 0 := fun e =>
          h (value_zero_iff.1 ((value_fin t hm).trans (by rw [e])))
        refine .finite (value_fin s hn) (value_fin t hm) hq
          (div_rounds (value_fin s hn) (value_fin t hm) hq) ?_
        simp only [F64.div, if_neg h]
        exact signBit_ofMag _ _ _

theorem rems (a b : F64) : Rems a b (F64.rem a b) := by
  cases a with
  | nan => cases b <;> exact .nanL
  | inf s => cases b <;> exact .infL
  | fin s n hn =>
    cases b with
    | nan => exact .nanR
    | inf t => exact .infR (value_fin s hn)
    | fin t m hm =>
      by_cases h : m = 0
      · have : F64.rem (.fin s n hn) (.fin t m hm) = .nan := by simp [F64.rem, h]
        rw [this]
        exact .byZero (value_zero_iff.2 h)
      · have hq : ((F64.sv t m : ℤ) : ℚ) / (unit64 : ℕ) ≠ 0 := fun e =>
          h (value_zero_iff.1 ((value_fin t hm).trans (by rw [e])))
        obtain ⟨h1, h2⟩ := rem_value (value_fin s hn) (value_fin t hm) hq
        exact .finite (value_fin s hn) (value_fin t hm) hq h1 h2

theorem sumsTo (xs : List F64) : ∀ a, SumsTo a xs (xs.foldl F64.add a) := by
  induction xs with
  | nil => exact fun _ => .nil
  | cons x xs ih => exact fun a => .cons (adds a x) (ih _)

/-- A correctly rounded result is determined by the exact value, up to the sign of zero. -/
theorem roundsTo_unique {q : ℚ} {u v : F64} (h : RoundsTo q u) (k : RoundsTo q v)
    (hz : q = 0 → signBit u = signBit v) : u = v := by
  obtain ⟨⟨N, D, hD, hq, hN⟩, h1, h2⟩ := h
  obtain ⟨⟨M, E, hE, hq', hM⟩, k1, k2⟩ := k
  have hDq : (0 : ℚ) < (D : ℚ) := by exact_mod_cast hD
  have hEq : (0 : ℚ) < (E : ℚ) := by exact_mod_cast hE
  have hs : signBit u = signBit v := by
    rcases lt_trichotomy q 0 with h | h | h
    · rw [h1 h, k1 h]
    · exact hz h
    · rw [h2 h, k2 h]
  have ha : F64.abs u = F64.abs v := by
    rw [nearestF64_unique hN (ofMag_nearest hD), nearestF64_unique hM (ofMag_nearest hE)]
    have e : N * E = M * D := by
      have : (N : ℚ) / D = M / E := hq.symm.trans hq'
      rw [div_eq_div_iff hDq.ne' hEq.ne'] at this
      exact_mod_cast this
    have e1 : F64.ofMag false N D = F64.ofMag false (N * E) (D * E) := by
      unfold F64.ofMag; rw [roundMag_scale _ _ _ hE]
    have e2 : F64.ofMag false M E = F64.ofMag false (M * D) (E * D) := by
      unfold F64.ofMag; rw [roundMag_scale _ _ _ hD]
    rw [e1, e2, e, Nat.mul_comm D E]
  cases u with
  | nan =>
    cases v with
    | nan => rfl
    | inf t => cases ha
    | fin t m h => cases ha
  | inf s =>
    cases v with
    | nan => cases ha
    | inf t => cases hs; rfl
    | fin t m h => cases ha
  | fin s n h =>
    cases v with
    | nan => cases ha
    | inf t => cases ha
    | fin t m h => cases hs; cases ha; rfl

theorem value_ne_nan {a : F64} {q : ℚ} (h : value a = some q) : ∃ s n k, a = .fin s n k :=
  let ⟨s, n, k, e, _⟩ := value_some h
  ⟨s, n, k, e⟩

theorem Spec.Adds.eq {a b r : F64} (h : Adds a b r) : r = F64.add a b := by
  cases h with
  | nanL => cases b <;> rfl
  | nanR => cases a <;> rfl
  | @opposite s => cases s <;> rfl
  | @infL s b h1 h2 =>
    cases b with
    | nan => exact absurd rfl h1
    | inf t => cases s <;> cases t <;> first | rfl | exact absurd rfl h2
    | fin t m hm => rfl
  | @infR s b h1 h2 =>
    cases a with
    | nan => exact absurd rfl h1
    | inf t => cases s <;> cases t <;> first | rfl | exact absurd rfl h2
    | fin t m hm => rfl
  | finite h1 h2 h3 h4 =>
    refine roundsTo_unique h3 (add_rounds h1 h2) ?_
    intro hz
    rw [h4 hz]
    obtain ⟨s, n, hn, rfl, rfl⟩ := value_some h1
    obtain ⟨t, m, hm, rfl, rfl⟩ := value_some h2
    have hz' : F64.sv s n + F64.sv t m = 0 := by
      rw [← add_div] at hz
      rcases div_eq_zero_iff.1 hz with h | h
      · exact_mod_cast h
      · exact absurd h unit64_pos_rat.ne'
    simp only [F64.add, hz', if_true]
    rfl

theorem Spec.Muls.eq {a b r : F64} (h : Muls a b r) : r = F64.mul a b := by
  cases h with
  | nanL => cases b <;> rfl
  | nanR => cases a <;> rfl
  | infZero h =>
    obtain ⟨s, n, hn, rfl⟩ := value_ne_nan h
    simp [F64.mul, value_zero_iff.1 h]
  | zeroInf h =>
    obtain ⟨s, n, hn, rfl⟩ := value_ne_nan h
    simp [F64.mul, value_zero_iff.1 h]
  | @infL s b h1 h2 =>
    cases b with
    | nan => exact absurd rfl h1
    | inf t => rfl
    | fin t m hm =>
      have : m ≠ 0 := fun e => h2 (value_zero_iff.2 e)
      simp [F64.mul, this, signBit]
  | @infR s a h1 h2 =>
    cases a with
    | nan => exact absurd rfl h1
    | inf t => rfl
    | fin t m hm =>
      have : m ≠ 0 := fun e => h2 (value_zero_iff.2 e)
      simp [F64.mul, this, signBit]
  | finite h1 h2 h3 h4 =>
    refine roundsTo_unique h3 (mul_rounds h1 h2) ?_
    intro hz
    rw [h4]
    obtain ⟨s, n, hn, rfl, rfl⟩ := value_some h1
    obtain ⟨t, m, hm, rfl, rfl⟩ := value_some h2
    exact (signBit_ofMag _ _ _).symm

theorem eq_zero_of_value {r : F64} (h : value r = some 0) : r = F64.zero (signBit r) := by
  obtain ⟨s, n, hn, rfl⟩ := value_ne_nan h
  have := value_zero_iff.1 h
  subst this
  rfl

theorem Spec.Divs.eq {a b r : F64} (h : Divs a b r) : r = F64.div a b := by
  cases h with
  | nanL => cases b <;> rfl
  | nanR => cases a <;> rfl
  | infInf => rfl
  | zeroZero h1 h2 =>
    obtain ⟨s, n, hn, rfl⟩ := value_ne_nan h1
    obtain ⟨t, m, hm, rfl⟩ := value_ne_nan h2
    simp [F64.div, value_zero_iff.1 h1, value_zero_iff.1 h2]
  | infL h1 =>
    obtain ⟨t, m, hm, rfl⟩ := value_ne_nan h1
    rfl
  | infR h1 h2 h3 =>
    obtain ⟨t, m, hm, rfl⟩ := value_ne_nan h1
    rw [eq_zero_of_value h2, h3]
    rfl
  | byZero h1 h2 h3 =>
    obtain ⟨s, n, hn, rfl⟩ := value_ne_nan h1
    obtain ⟨t, m, hm, rfl⟩ := value_ne_nan h3
    have h0 : n ≠ 0 := by
      intro e
      have := value_zero_iff (s := s) (h := hn).2 e
      rw [h1] at this
      injection this with this
      exact h2 this
    simp [F64.div, value_zero_iff.1 h3, h0, signBit]
  | finite h1 h2 hq h3 h4 =>
    refine roundsTo_unique h3 (div_rounds h1 h2 hq) ?_
    intro hz
    rw [h4]
    obtain ⟨s, n, hn, rfl, rfl⟩ := value_some h1
    obtain ⟨t, m, hm, rfl, rfl⟩ := value_some h2
    have h0 : m ≠ 0 := by
      intro e
      have := value_zero_iff (s := t) (h := hm).2 e
      rw [h2] at this
      injection this with this
      exact hq this
    simp only [F64.div, if_neg h0]
    exact (signBit_ofMag _ _ _).symm

theorem value_inj {a b : F64} {q : ℚ} (h : value a = some q) (k : value b = some q)
    (hs : signBit a = signBit b) : a = b := by
  obtain ⟨s, n, hn, rfl, rfl⟩ := value_some h
  obtain ⟨t, m, hm, rfl, e⟩ := value_some k
  cases hs
  have hU := unit64_pos_rat
  have : F64.sv s n = F64.sv s m := by
    have : ((F64.sv s n : ℤ) : ℚ) = (F64.sv s m : ℤ) := by
      field_simp at e
      exact e
    exact_mod_cast this
  have h1 := sv_natAbs s n
  have h2 := sv_natAbs s m
  have : n = m := by rw [← h1, this, h2]
  subst this
  rfl

theorem Spec.Rems.eq {a b r : F64} (h : Rems a b r) : r = F64.rem a b := by
  cases h with
  | nanL => cases b <;> rfl
  | nanR => cases a <;> rfl
  | infL => cases b <;> rfl
  | byZero h =>
    obtain ⟨t, m, hm, rfl⟩ := value_ne_nan h
    have := value_zero_iff.1 h
    cases a <;> simp [F64.rem, this]
  | infR h =>
    obtain ⟨t, m, hm, rfl⟩ := value_ne_nan h
    rfl
  | finite h1 h2 hq h3 h4 =>
    obtain ⟨k1, k2⟩ := rem_value h1 h2 hq
    exact value_inj h3 k1 (h4.trans k2.symm)

end Xprs
