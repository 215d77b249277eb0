import Verif.Lemmas.Value
import Verif.Lemmas.Nearest
import Verif.Lemmas.Same
import Mathlib.Algebra.BigOperators.Group.List.Basic
/-
The arithmetic of the float model is correctly rounded.
-/
namespace Xprs
open Spec
set_option exponentiation.threshold 4096

theorem abs_ofMag (s : Bool) (N D : Nat) : F64.abs (F64.ofMag s N D) = F64.ofMag false N D := by
  unfold F64.ofMag
  split <;> rfl

theorem signBit_ofMag (s : Bool) (N D : Nat) : signBit (F64.ofMag s N D) = s := by
  unfold F64.ofMag
  split <;> rfl

theorem roundsTo_ofMag {q : ℚ} {s : Bool} {N D : Nat} (hD : 0 < D)
    (hq : |q| * 2 ^ 1074 = (N : ℚ) / (D : ℚ)) (hn : q < 0 → s = true) (hp : 0 < q → s = false) :
    RoundsTo q (F64.ofMag s N D) := by
  refine ⟨⟨N, D, hD, hq, ?_⟩, ?_, ?_⟩
  · rw [abs_ofMag]; exact ofMag_nearest hD
  · rw [signBit_ofMag]; exact hn
  · rw [signBit_ofMag]; exact hp

theorem roundsTo_zero (s : Bool) : RoundsTo 0 (F64.zero s) := by
  have := roundsTo_ofMag (q := 0) (s := s) (N := 0) (D := 1) (by decide) (by simp) (by simp) (by simp)
  rwa [ofMag_zero] at this

theorem pow_ne : (2 : ℚ) ^ 1074 ≠ 0 := by positivity

/-- A float is nearest to itself. -/
theorem nearest_self {n : Nat} (h : Rep n) : NearestF64 n 1 (.fin false n h) := by
  have := ofMag_nearest (N := n) (D := 1) (by decide)
  rwa [F64.ofMag_rep false h] at this

theorem abs_sv (s : Bool) (n : Nat) : |(F64.sv s n : ℚ)| = (n : ℚ) := by
  cases s <;> simp [F64.sv]

/-- Results that are floats are exact. -/
theorem roundsTo_exact {q : ℚ} {v u : F64} (h : RoundsTo q v) (hu : value u = some q) :
    value v = some q := by
  obtain ⟨s, n, hn, rfl, rfl⟩ := value_some hu
  obtain ⟨⟨N, D, hD, hq, hN⟩, h1, h2⟩ := h
  have hU := unit64_pos_rat
  have hqn : (n : ℚ) = (N : ℚ) / (D : ℚ) := by
    rw [← hq, abs_div, abs_sv, abs_of_pos hU, ← unit64_cast]
    field_simp
  have hDq : (0 : ℚ) < (D : ℚ) := by exact_mod_cast hD
  have hND : N = n * D := by
    have : (N : ℚ) = (n : ℚ) * (D : ℚ) := by rw [hqn]; field_simp
    exact_mod_cast this
  have hs := ofMag_nearest (N := N) (D := D) hD
  have hr : F64.ofMag false N D = .fin false n hn := by
    rw [F64.ofMag_of_eq false (m := n)]
    rw [hND]; exact roundMag_mul n D hD hn.2
  rw [hr] at hs
  have hv := nearestF64_unique hN hs
  cases v with
  | nan => cases hv
  | inf t => cases hv
  | fin t m hm =>
    injection hv with _ hmn
    subst hmn
    rw [value_fin]
    congr 2
    by_cases h0 : m = 0
    · subst h0; cases t <;> cases s <;> rfl
    · have hpos : (0 : ℚ) < m := by exact_mod_cast Nat.pos_of_ne_zero h0
      cases s with
      | false =>
        have := h2 (by simp only [F64.sv]; exact div_pos (by simpa using hpos) hU)
        cases t with
        | false => rfl
        | true => cases this
      | true =>
        have := h1 (by
          simp only [F64.sv, if_true]
          exact div_neg_of_neg_of_pos (by push_cast; linarith) hU)
        cases t with
        | true => rfl
        | false => cases this

theorem sv_natAbs (s : Bool) (n : Nat) : (F64.sv s n).natAbs = n := by
  cases s <;> simp [F64.sv]

theorem add_rounds {a b : F64} {p q : ℚ} (ha : value a = some p) (hb : value b = some q) :
    RoundsTo (p + q) (F64.add a b) := by
  obtain ⟨s, n, hn, rfl, rfl⟩ := value_some ha
  obtain ⟨t, m, hm, rfl, rfl⟩ := value_some hb
  rw [← add_div]
  rw [show ((F64.sv s n : ℚ) + (F64.sv t m : ℚ)) = ((F64.sv s n + F64.sv t m : ℤ) : ℚ) by push_cast; rfl]
  simp only [F64.add]
  generalize F64.sv s n + F64.sv t m = z
  have hU := unit64_pos_rat
  split
  · rename_i h; subst h; simpa using roundsTo_zero _
  · refine roundsTo_ofMag (by decide) ?_ ?_ ?_
    · rw [abs_div, abs_of_pos hU, ← unit64_cast, Nat.cast_natAbs]
      push_cast
      field_simp
    · intro h
      have : (z : ℚ) < 0 := by
        rcases div_neg_iff.1 h with h | h
        · exact absurd h.2 (by linarith)
        · exact h.1
      simpa using (by exact_mod_cast this : z < 0)
    · intro h
      have : (0 : ℚ) < z := by
        rcases div_pos_iff.1 h with h | h
        · exact h.1
        · exact absurd h.2 (by linarith)
      have : 0 < z := by exact_mod_cast this
      simp; omega

theorem neg_value {a : F64} {p : ℚ} (ha : value a = some p) : value (F64.neg a) = some (-p) := by
  obtain ⟨s, n, hn, rfl, rfl⟩ := value_some ha
  show value (.fin (!s) n hn) = _
  rw [value_fin, sv_neg]
  congr 1
  push_cast; ring

theorem sub_rounds {a b : F64} {p q : ℚ} (ha : value a = some p) (hb : value b = some q) :
    RoundsTo (p - q) (F64.sub a b) := by
  rw [sub_eq_add_neg]
  exact add_rounds ha (neg_value hb)

theorem sv_mul (s t : Bool) (n m : Nat) : F64.sv s n * F64.sv t m = F64.sv (s != t) (n * m) := by
  cases s <;> cases t <;> simp [F64.sv]

theorem sv_lt {s : Bool} {n : Nat} (h : F64.sv s n < 0) : s = true := by
  cases s with
  | true => rfl
  | false => simp only [F64.sv] at h; simp at h; omega

theorem sv_gt {s : Bool} {n : Nat} (h : 0 < F64.sv s n) : s = false := by
  cases s with
  | false => rfl
  | true => simp only [F64.sv, if_true] at h; omega

theorem mul_rounds {a b : F64} {p q : ℚ} (ha : value a = some p) (hb : value b = some q) :
    RoundsTo (p * q) (F64.mul a b) := by
  obtain ⟨s, n, hn, rfl, rfl⟩ := value_some ha
  obtain ⟨t, m, hm, rfl, rfl⟩ := value_some hb
  have hU := unit64_pos_rat
  have e : (F64.sv s n : ℚ) / (unit64 : ℕ) * ((F64.sv t m : ℚ) / (unit64 : ℕ)) =
      ((F64.sv (s != t) (n * m) : ℤ) : ℚ) / ((unit64 : ℕ) * (unit64 : ℕ)) := by
    rw [← sv_mul]; push_cast; field_simp
  rw [e]
  refine roundsTo_ofMag unit64_pos ?_ ?_ ?_
  · rw [abs_div, abs_sv, abs_of_pos (mul_pos hU hU), ← unit64_cast]
    push_cast
    field_simp
  · intro h
    have h' : ((F64.sv (s != t) (n * m) : ℤ) : ℚ) < 0 := by
      rcases div_neg_iff.1 h with h | h
      · exact absurd h.2 (by have := mul_pos hU hU; linarith)
      · exact h.1
    exact sv_lt (by exact_mod_cast h')
  · intro h
    have h' : (0 : ℚ) < ((F64.sv (s != t) (n * m) : ℤ) : ℚ) := by
      rcases div_pos_iff.1 h with h | h
      · exact h.1
      · exact absurd h.2 (by have := mul_pos hU hU; linarith)
    exact sv_gt (by exact_mod_cast h')

theorem div_rounds {a b : F64} {p q : ℚ} (ha : value a = some p) (hb : value b = some q) (hq : q ≠ 0) :
    RoundsTo (p / q) (F64.div a b) := by
  obtain ⟨s, n, hn, rfl, rfl⟩ := value_some ha
  obtain ⟨t, m, hm, rfl, rfl⟩ := value_some hb
  have hU := unit64_pos_rat
  have hm0 : m ≠ 0 := by
    rintro rfl
    apply hq
    cases t <;> simp [F64.sv]
  have hmq : (0 : ℚ) < (m : ℚ) := by exact_mod_cast Nat.pos_of_ne_zero hm0
  have e : (F64.sv s n : ℚ) / (unit64 : ℕ) / ((F64.sv t m : ℚ) / (unit64 : ℕ)) =
      ((F64.sv (s != t) n : ℤ) : ℚ) / (m : ℚ) := by
    cases s <;> cases t <;> simp [F64.sv] <;> field_simp
  rw [e]
  simp only [F64.div, if_neg hm0]
  refine roundsTo_ofMag (Nat.pos_of_ne_zero hm0) ?_ ?_ ?_
  · rw [abs_div, abs_sv, abs_of_pos hmq, ← unit64_cast]
    push_cast
    field_simp
  · intro h
    have h' : ((F64.sv (s != t) n : ℤ) : ℚ) < 0 := by
      rcases div_neg_iff.1 h with h | h
      · exact absurd h.2 (by linarith)
      · exact h.1
    exact sv_lt (by exact_mod_cast h')
  · intro h
    have h' : (0 : ℚ) < ((F64.sv (s != t) n : ℤ) : ℚ) := by
      rcases div_pos_iff.1 h with h | h
      · exact h.1
      · exact absurd h.2 (by linarith)
    exact sv_gt (by exact_mod_cast h')

/-- The remainder of two floats is a float. -/
theorem Rep.mod {n m : Nat} (hn : Rep n) (hm : Rep m) (h0 : m ≠ 0) : Rep (n % m) := by
  have hlt := Nat.mod_lt n (Nat.pos_of_ne_zero h0)
  rcases Nat.lt_or_ge (ulpExp n) (ulpExp m) with h | h
  · have h1 := lt_two_pow_ulpExp n
    have h2 := le_of_ulpExp_pos (n := m) (by omega)
    have h3 : 2 ^ (53 + ulpExp n) ≤ 2 ^ (52 + ulpExp m) := Nat.pow_le_pow_right (by decide) (by omega)
    rw [Nat.mod_eq_of_lt (by omega)]
    exact hn
  · refine hm.of_dvd (by omega) ?_
    exact (Nat.dvd_mod_iff hm.dvd).2 (Nat.dvd_trans (Nat.pow_dvd_pow 2 h) hn.dvd)

theorem rem_value {a b : F64} {p q : ℚ} (ha : value a = some p) (hb : value b = some q) (hq : q ≠ 0) :
    value (F64.rem a b) = some (p - q * truncRat (p / q)) ∧ signBit (F64.rem a b) = signBit a := by
  obtain ⟨s, n, hn, rfl, rfl⟩ := value_some ha
  obtain ⟨t, m, hm, rfl, rfl⟩ := value_some hb
  have hU := unit64_pos_rat
  have hm0 : m ≠ 0 := by
    rintro rfl
    apply hq
    cases t <;> simp [F64.sv]
  have hmq : (0 : ℚ) < (m : ℚ) := by exact_mod_cast Nat.pos_of_ne_zero hm0
  have hr : F64.rem (.fin s n hn) (.fin t m hm) = .fin s (n % m) (hn.mod hm hm0) := by
    simp only [F64.rem, if_neg hm0]
    exact F64.ofMag_rep _ _
  rw [hr, value_fin]
  refine ⟨?_, rfl⟩
  congr 1
  have e : (F64.sv s n : ℚ) / (unit64 : ℕ) / ((F64.sv t m : ℚ) / (unit64 : ℕ)) =
      ((F64.sv (s != t) n : ℤ) : ℚ) / (m : ℚ) := by
    cases s <;> cases t <;> simp [F64.sv] <;> field_simp
  have hfl : ⌊(n : ℚ) / (m : ℚ)⌋ = ((n / m : ℕ) : ℤ) := by
    have := Rat.floor_intCast_div_natCast (n : ℤ) m
    push_cast at this ⊢
    exact this
  have ht : truncRat (((F64.sv (s != t) n : ℤ) : ℚ) / (m : ℚ)) = F64.sv (s != t) (n / m) := by
    unfold truncRat
    cases hst : (s != t) with
    | false =>
      have h0 : (0 : ℚ) ≤ ((F64.sv false n : ℤ) : ℚ) / (m : ℚ) := by
        simp only [F64.sv]; exact div_nonneg (by simp) hmq.le
      rw [if_pos h0]
      simpa [F64.sv] using hfl
    | true =>
      have hneg : ((F64.sv true n : ℤ) : ℚ) / (m : ℚ) = -((n : ℚ) / (m : ℚ)) := by
        simp only [F64.sv, if_true]; push_cast; ring
      rw [hneg]
      split
      · rename_i h0
        have h1 : (0 : ℚ) ≤ (n : ℚ) / (m : ℚ) := div_nonneg (by simp) hmq.le
        have h2 : (n : ℚ) / (m : ℚ) = 0 := by linarith
        have h3 : n = 0 := by
          rcases div_eq_zero_iff.1 h2 with h | h
          · exact_mod_cast h
          · exact absurd h hmq.ne'
        subst h3
        simp [F64.sv]
      · rw [Int.ceil_neg, hfl]; simp [F64.sv]
  rw [e, ht]
  have hdm := Nat.div_add_mod n m
  have hz : F64.sv s (n % m) = F64.sv s n - F64.sv t m * F64.sv (s != t) (n / m) := by
    rw [sv_mul]
    have : (t != (s != t)) = s := by cases s <;> cases t <;> rfl
    rw [this]
    generalize m * (n / m) = k at hdm ⊢
    generalize n % m = r at hdm ⊢
    unfold F64.sv
    split <;> omega
  rw [hz]
  push_cast
  field_simp

/-! ### Order -/

theorem leF_iff {a b : F64} : LeF a b ↔ ∃ x y, F64.key a = some x ∧ F64.key b = some y ∧ x ≤ y := by
  have hU := unit64_pos_rat
  have bound : ∀ (s : Bool) {n : Nat}, Rep n → -(maxMag : Int) ≤ F64.sv s n ∧ F64.sv s n ≤ maxMag := by
    intro s n h
    have := h.1
    cases s <;> simp only [F64.sv, if_true] <;> constructor <;> simp <;> omega
  have cmp : ∀ (x y : Int), ((x : ℚ) / (unit64 : ℕ) ≤ (y : ℚ) / (unit64 : ℕ)) ↔ x ≤ y := by
    intro x y
    rw [div_le_div_iff_of_pos_right hU]
    exact_mod_cast Iff.rfl
  have hM := maxMag_pos
  constructor
  · intro h
    cases h with
    | bot hb =>
      cases b with
      | nan => exact absurd rfl hb
      | inf s => exact ⟨_, _, rfl, rfl, by cases s <;> simp [F64.sv]⟩
      | fin s n h => exact ⟨_, _, rfl, rfl, by simpa [F64.sv] using (bound s h).1⟩
    | top ha =>
      cases a with
      | nan => exact absurd rfl ha
      | inf s => exact ⟨_, _, rfl, rfl, by cases s <;> simp [F64.sv]⟩
      | fin s n h => exact ⟨_, _, rfl, rfl, by simpa [F64.sv] using (bound s h).2⟩
    | fin ha hb hle =>
      obtain ⟨s, n, hn, rfl, rfl⟩ := value_some ha
      obtain ⟨t, m, hm, rfl, rfl⟩ := value_some hb
      exact ⟨_, _, rfl, rfl, (cmp _ _).1 hle⟩
  · rintro ⟨x, y, h1, h2, h3⟩
    cases a with
    | nan => cases h1
    | inf s =>
      cases s with
      | true => exact .bot (by rintro rfl; cases h2)
      | false =>
        cases h1
        cases b with
        | nan => cases h2
        | inf t =>
          cases t with
          | false => exact .top (by simp)
          | true => cases h2; simp [F64.sv] at h3; omega
        | fin t m hm =>
          cases h2
          have := hm.1
          cases t <;> simp [F64.sv] at h3 <;> omega
    | fin s n hn =>
      cases b with
      | nan => cases h2
      | inf t =>
        cases t with
        | false => exact .top (by simp)
        | true =>
          cases h1; cases h2
          have := hn.1
          cases s <;> simp [F64.sv] at h3 <;> omega
      | fin t m hm =>
        cases h1; cases h2
        exact .fin (value_fin s hn) (value_fin t hm) ((cmp _ _).2 h3)

theorem key_none {a : F64} : F64.key a = none ↔ a = .nan := by cases a <;> simp [F64.key]

theorem key_same {a b : F64} (ha : a ≠ .nan) : F64.key a = F64.key b ↔ Same a b := by
  have := beq_iff (a := a) (b := b)
  constructor
  · intro h
    refine (this.1 ?_).2
    unfold F64.beq
    rw [← h]
    cases hk : F64.key a with
    | none => exact absurd (key_none.1 hk) ha
    | some x => simp
  · intro h
    have hb := this.2 ⟨ha, h⟩
    unfold F64.beq at hb
    cases hk : F64.key a with
    | none => exact absurd (key_none.1 hk) ha
    | some x =>
      cases hk' : F64.key b with
      | none => simp [hk, hk'] at hb
      | some y => simpa [hk, hk'] using hb

end Xprs
