import Verif.Spec.Scale
import Verif.Lemmas.RoundOrder
/-
Rounding commutes with multiplication by powers of two (for C95).
-/
namespace Xprs
open Spec
set_option exponentiation.threshold 4096

theorem grid_scale {n : Nat} (h : Grid n) (j : Nat) : Grid (n * 2 ^ j) := by
  obtain ⟨m, k, hm, rfl⟩ := h
  exact ⟨m, k + j, hm, by rw [Nat.pow_add, Nat.mul_assoc]⟩

/-- A point of the grid is a multiple of `2^j`, or below `2^(52+j)`. -/
theorem grid_split {n : Nat} (h : Grid n) (j : Nat) :
    (∃ m, Grid m ∧ n = m * 2 ^ j) ∨ n < 2 ^ 52 * 2 ^ j := by
  obtain ⟨m, k, hm, rfl⟩ := h
  rcases Nat.lt_or_ge k j |>.symm with hk | hk
  · left
    refine ⟨m * 2 ^ (k - j), ⟨m, k - j, hm, rfl⟩, ?_⟩
    rw [Nat.mul_assoc, ← Nat.pow_add, Nat.sub_add_cancel hk]
  · right
    have h1 : m * 2 ^ k < 2 ^ 53 * 2 ^ k := Nat.mul_lt_mul_of_pos_right hm (Nat.two_pow_pos k)
    have h2 : (2 : Nat) ^ 53 * 2 ^ k ≤ 2 ^ 52 * 2 ^ j := by
      rw [← Nat.pow_add, ← Nat.pow_add]
      exact Nat.pow_le_pow_right (by decide) (by omega)
    omega

theorem dist_scale (m n c : Nat) : Spec.dist (m * c) (n * c) = Spec.dist m n * c := by
  unfold Spec.dist
  rw [Nat.add_mul, Nat.sub_mul, Nat.sub_mul]

/-- Rounding commutes with multiplication by powers of two. -/
theorem nearestReal_scale {t : ℝ} {n : Nat} (h : NearestReal t n) (ht : 2 ^ 52 ≤ t) (j : Nat) :
    NearestReal (t * 2 ^ j) (n * 2 ^ j) := by
  have hp : (0 : ℝ) < 2 ^ j := by positivity
  have key : ∀ m : Nat, |((m * 2 ^ j : Nat) : ℝ) - t * 2 ^ j| = |(m : ℝ) - t| * 2 ^ j := by
    intro m
    push_cast
    rw [← sub_mul, abs_mul, abs_of_pos hp]
  have h52 : Grid (2 ^ 52) := grid_pow 52
  have small : ∀ m : Nat, m < 2 ^ 52 * 2 ^ j → |((n * 2 ^ j : Nat) : ℝ) - t * 2 ^ j| < |(m : ℝ) - t * 2 ^ j| := by
    intro m hm
    have hm' : (m : ℝ) < 2 ^ 52 * 2 ^ j := by exact_mod_cast hm
    have h1 := h.closest _ h52
    rw [Nat.cast_pow, Nat.cast_ofNat, abs_of_nonpos (a := (2 : ℝ) ^ 52 - t) (by linarith)] at h1
    rw [key]
    have h2 : (2 : ℝ) ^ 52 * 2 ^ j ≤ t * 2 ^ j := mul_le_mul_of_nonneg_right ht hp.le
    have h3 : |(n : ℝ) - t| * 2 ^ j ≤ (t - 2 ^ 52) * 2 ^ j :=
      mul_le_mul_of_nonneg_right (by linarith) hp.le
    rw [abs_of_neg (a := (m : ℝ) - t * 2 ^ j) (by linarith)]
    rw [sub_mul] at h3
    linarith
  refine ⟨grid_scale h.grid j, fun m hm => ?_, fun m hm hne he => ?_⟩
  · rcases grid_split hm j with ⟨m, hg, rfl⟩ | hlt
    · rw [key, key]
      exact mul_le_mul_of_nonneg_right (h.closest m hg) hp.le
    · exact (small m hlt).le
  · rcases grid_split hm j with ⟨m, hg, rfl⟩ | hlt
    · rw [key, key] at he
      have he := mul_right_cancel₀ hp.ne' he
      rw [dist_scale, ← Nat.mul_assoc]
      exact Nat.mul_dvd_mul_right (h.even m hg (fun e => hne (by rw [e])) he) _
    · exact absurd he (small m hlt).ne'

theorem nearestReal_self {n : Nat} (h : Grid n) : NearestReal (n : ℝ) n := by
  refine ⟨h, fun m _ => by simp, fun m _ hne he => ?_⟩
  rw [_root_.sub_self, abs_zero, abs_eq_zero, sub_eq_zero] at he
  exact absurd (by exact_mod_cast he) hne

/-- A finite result of rounding `p`, by its magnitude. -/
theorem rounds_mag {p a : ℚ} {r : F64} (h : RoundsTo p r) (ha : value r = some a) :
    ∃ n : Nat, NearestReal (|(p : ℝ)| * 2 ^ 1074) n ∧ |a| = n / 2 ^ 1074 ∧
      (0 ≤ p → a = n / 2 ^ 1074) ∧ (p ≤ 0 → a = -(n / 2 ^ 1074)) := by
  obtain ⟨n, h1, h2, h3⟩ := roundsTo_key h
  obtain ⟨s, k, hk, rfl, rfl⟩ := value_some ha
  have hmin : k = n := by
    have hlt : k < maxMag := hk.1
    have hkey : F64.key (.fin s k hk) = some (F64.sv s k) := rfl
    rcases le_total 0 p with hp | hp
    · have := h2 hp
      rw [hkey] at this
      have := Option.some.inj this
      generalize maxMag = M at *
      cases s <;> simp only [F64.sv, Bool.false_eq_true, if_false, if_true] at this <;> omega
    · have := h3 hp
      rw [hkey] at this
      have := Option.some.inj this
      generalize maxMag = M at *
      cases s <;> simp only [F64.sv, Bool.false_eq_true, if_false, if_true] at this <;> omega
  subst hmin
  have hmin : min k maxMag = k := Nat.min_eq_left (Nat.le_of_lt hk.1)
  rw [hmin] at h2 h3
  refine ⟨k, h1, ?_, fun hp => ?_, fun hp => ?_⟩
  · rw [abs_div, abs_sv, abs_of_pos unit64_pos_rat, unit64_cast]
  · have := Option.some.inj (h2 hp)
    rw [this, unit64_cast]; simp
  · have := Option.some.inj (h3 hp)
    rw [this, unit64_cast]; push_cast; rw [neg_div]

/-- Rounding a larger number that is a power of two times as large. -/
theorem scale_up {p a b : ℚ} {r r' : F64} {j : Nat} (h : RoundsTo p r) (ha : value r = some a)
    (hc : a = p ∨ 1 / 2 ^ 1022 ≤ |p|) (h' : RoundsTo (p * 2 ^ j) r') (hb : value r' = some b) :
    b = a * 2 ^ j := by
  obtain ⟨n, n1, n2, n3, n4⟩ := rounds_mag h ha
  obtain ⟨n', m1, m2, m3, m4⟩ := rounds_mag h' hb
  have hj : (0 : ℚ) < 2 ^ j := by positivity
  have hn' : n' = n * 2 ^ j := by
    refine nearestReal_unique m1 ?_
    have e : |((p * 2 ^ j : ℚ) : ℝ)| * 2 ^ 1074 = |(p : ℝ)| * 2 ^ 1074 * 2 ^ j := by
      push_cast
      rw [abs_mul, abs_of_pos (a := (2 : ℝ) ^ j) (by positivity)]
      ring
    rw [e]
    rcases hc with rfl | hc
    · have : |(a : ℝ)| * 2 ^ 1074 = n := by
        have h0 : |a| * 2 ^ 1074 = n := by rw [n2]; field_simp
        exact_mod_cast h0
      rw [this]
      have := nearestReal_self (grid_scale n1.grid j)
      push_cast at this
      exact this
    · refine nearestReal_scale n1 ?_ j
      have h0 : (1 : ℝ) / 2 ^ 1022 ≤ |(p : ℝ)| := by
        have : (((1 : ℚ) / 2 ^ 1022 : ℚ) : ℝ) ≤ ((|p| : ℚ) : ℝ) := Rat.cast_le.2 hc
        push_cast at this
        exact this
      calc (2 : ℝ) ^ 52 = 1 / 2 ^ 1022 * 2 ^ 1074 := by rw [show (1074 : ℕ) = 1022 + 52 from rfl, pow_add]; field_simp
        _ ≤ _ := mul_le_mul_of_nonneg_right h0 (by positivity)
  rcases le_total 0 p with hp | hp
  · rw [n3 hp, m3 (mul_nonneg hp hj.le), hn']
    push_cast; ring
  · rw [n4 hp, m4 (mul_nonpos_of_nonpos_of_nonneg hp hj.le), hn']
    push_cast; ring

theorem scale_rounds {p a b : ℚ} {r r' : F64} {j : ℤ} (h : RoundsTo p r) (ha : value r = some a)
    (hc : a = p ∨ 1 / 2 ^ 1022 ≤ |p|) (h' : RoundsTo (p * 2 ^ j) r') (hb : value r' = some b)
    (hc' : b = p * 2 ^ j ∨ 1 / 2 ^ 1022 ≤ |p * 2 ^ j|) : b = a * 2 ^ j := by
  rcases le_total 0 j with hj | hj
  · obtain ⟨k, rfl⟩ := Int.eq_ofNat_of_zero_le hj
    simp only [zpow_natCast] at *
    exact scale_up h ha hc h' hb
  · obtain ⟨k, hk⟩ := Int.eq_ofNat_of_zero_le (Int.neg_nonneg.2 hj)
    obtain rfl : j = -(k : ℤ) := by omega
    have e : p * 2 ^ (-(k : ℤ)) * 2 ^ k = p := by
      rw [zpow_neg, zpow_natCast]; field_simp
    have := scale_up (j := k) h' hb hc' (by rw [e]; exact h) ha
    rw [this, zpow_neg, zpow_natCast]; field_simp

/-! ### Operations -/

theorem scaled_of {j : ℤ} {a b : F64} {q : ℚ} (h : value a = some q) (h' : value b = some (q * 2 ^ j))
    (hs : signBit b = signBit a) : Scaled j a b := .inr (.inr ⟨q, h, h', hs⟩)

theorem scaled_round {j : ℤ} {p p' : ℚ} {r r' : F64} (e : p' = p * 2 ^ j) (h : RoundsTo p r) (hc : Calm p r)
    (h' : RoundsTo p' r') (hc' : Calm p' r') (hs : p = 0 → signBit r' = signBit r) :
    Scaled j r r' := by
  subst e
  obtain ⟨a, ha, hc⟩ := hc
  obtain ⟨b, hb, hc'⟩ := hc'
  have hj : (0 : ℚ) < 2 ^ j := zpow_pos (by norm_num) j
  refine scaled_of ha (by rw [hb, scale_rounds h ha hc h' hb hc']) ?_
  rcases lt_trichotomy p 0 with hp | hp | hp
  · rw [h.2.1 hp, h'.2.1 (mul_neg_of_neg_of_pos hp hj)]
  · exact hs hp
  · rw [h.2.2 hp, h'.2.2 (mul_pos hp hj)]

theorem scaled_value {j : ℤ} {a b : F64} {p : ℚ} (h : Scaled j a b) (ha : value a = some p) :
    value b = some (p * 2 ^ j) ∧ signBit b = signBit a := by
  rcases h with ⟨rfl, rfl⟩ | ⟨s, rfl, rfl⟩ | ⟨q, h1, h2, h3⟩
  · cases ha
  · cases ha
  · rw [ha] at h1; cases h1; exact ⟨h2, h3⟩

theorem scaled_refl (a : F64) : Scaled 0 a a := by
  rcases fin_cases a with rfl | ⟨s, rfl⟩ | ⟨q, hq⟩
  · exact .inl ⟨rfl, rfl⟩
  · exact .inr (.inl ⟨s, rfl, rfl⟩)
  · exact scaled_of hq (by simpa using hq) rfl

theorem scaled_zero {a b : F64} (h : Scaled 0 a b) : b = a := by
  rcases h with ⟨rfl, rfl⟩ | ⟨s, rfl, rfl⟩ | ⟨q, h1, h2, h3⟩
  · rfl
  · rfl
  · exact value_inj (by simpa using h2) h1 h3

theorem scaled_unitless {j : ℤ} {a : F64} (h : Unitless a) : Scaled j a a := by
  rcases fin_cases a with rfl | ⟨s, rfl⟩ | ⟨q, hq⟩
  · exact .inl ⟨rfl, rfl⟩
  · exact .inr (.inl ⟨s, rfl, rfl⟩)
  · have := h q hq
    subst this
    exact scaled_of hq (by simpa using hq) rfl

theorem scaled_neg {j : ℤ} {a b : F64} (h : Scaled j a b) : Scaled j (F64.neg a) (F64.neg b) := by
  rcases h with ⟨rfl, rfl⟩ | ⟨s, rfl, rfl⟩ | ⟨q, h1, h2, h3⟩
  · exact .inl ⟨rfl, rfl⟩
  · exact .inr (.inl ⟨!s, rfl, rfl⟩)
  · refine scaled_of (neg_value h1) (by rw [neg_value h2, neg_mul]) ?_
    obtain ⟨s, n, k, rfl⟩ := value_ne_nan h1
    obtain ⟨s', n', k', rfl⟩ := value_ne_nan h2
    simp only [signBit] at h3
    simp [F64.neg, signBit, h3]

theorem scaled_cases {j : ℤ} {a b : F64} (h : Scaled j a b) :
    (a = .nan ∧ b = .nan) ∨ (∃ s, a = .inf s ∧ b = .inf s) ∨
      ∃ s n k n' k' q, a = .fin s n k ∧ b = .fin s n' k' ∧ (n = 0 ↔ n' = 0) ∧ value a = some q ∧
        value b = some (q * 2 ^ j) := by
  rcases h with h | h | ⟨q, h1, h2, h3⟩
  · exact .inl h
  · exact .inr (.inl h)
  · obtain ⟨s, n, k, rfl⟩ := value_ne_nan h1
    obtain ⟨s', n', k', rfl⟩ := value_ne_nan h2
    obtain rfl : s' = s := h3
    refine .inr (.inr ⟨_, _, _, _, _, q, rfl, rfl, ?_, h1, h2⟩)
    rw [← value_zero_iff (s := s') (h := k), ← value_zero_iff (s := s') (h := k'), h1, h2]
    have hj : (2 : ℚ) ^ j ≠ 0 := (zpow_pos (by norm_num) j).ne'
    simp [hj]

theorem inf_scaled {j : ℤ} (s : Bool) : Scaled j (.inf s) (.inf s) := .inr (.inl ⟨s, rfl, rfl⟩)
theorem nan_scaled {j : ℤ} : Scaled j .nan .nan := .inl ⟨rfl, rfl⟩

theorem scaled_add {j : ℤ} {a a' b b' : F64} (ha : Scaled j a a') (hb : Scaled j b b')
    (hc : CalmBin .plus a b (F64.add a b)) (hc' : CalmBin .plus a' b' (F64.add a' b')) :
    Scaled j (F64.add a b) (F64.add a' b') := by
  rcases scaled_cases ha with ⟨rfl, rfl⟩ | ⟨s, rfl, rfl⟩ | ⟨s, n, k, n', k', p, rfl, rfl, h0, h1, h2⟩
  · simp only [F64.add]; exact nan_scaled
  · rcases scaled_cases hb with ⟨rfl, rfl⟩ | ⟨t, rfl, rfl⟩ | ⟨t, m, i, m', i', q, rfl, rfl, g0, g1, g2⟩
    · exact nan_scaled
    · simp only [F64.add]
      split
      · exact inf_scaled _
      · exact nan_scaled
    · exact inf_scaled _
  · rcases scaled_cases hb with ⟨rfl, rfl⟩ | ⟨t, rfl, rfl⟩ | ⟨t, m, i, m', i', q, rfl, rfl, g0, g1, g2⟩
    · exact nan_scaled
    · exact inf_scaled _
    · refine scaled_round (p := p + q) (p' := p * 2 ^ j + q * 2 ^ j) (add_mul p q _).symm (add_rounds h1 g1)
        ((hc p q h1 g1).1 rfl) (add_rounds h2 g2) ((hc' _ _ h2 g2).1 rfl) ?_
      intro hz
      have z1 : signBit (F64.add (.fin s n k) (.fin t m i)) = (s && t) := by
        have := adds (.fin s n k) (.fin t m i)
        generalize F64.add (.fin s n k) (.fin t m i) = r at this
        cases this with
        | finite u1 u2 u3 u4 =>
          rw [h1] at u1; rw [g1] at u2; cases u1; cases u2
          exact u4 hz
      have z2 : signBit (F64.add (.fin s n' k') (.fin t m' i')) = (s && t) := by
        have := adds (.fin s n' k') (.fin t m' i')
        generalize F64.add (.fin s n' k') (.fin t m' i') = r at this
        cases this with
        | finite u1 u2 u3 u4 =>
          rw [h2] at u1; rw [g2] at u2; cases u1; cases u2
          exact u4 (by rw [← add_mul, hz, zero_mul])
      rw [z1, z2]

theorem calm_sub {a b r : F64} (h : CalmBin .minus a b r) : CalmBin .plus a (F64.neg b) r := by
  intro p q hp hq
  have hb : value b = some (-q) := by
    have := neg_value hq
    rwa [neg_neg'] at this
  have := (h p (-q) hp hb).2.1 rfl
  rw [sub_neg_eq_add] at this
  exact ⟨fun _ => this, by simp, by simp, by simp⟩

theorem scaled_sub {j : ℤ} {a a' b b' : F64} (ha : Scaled j a a') (hb : Scaled j b b')
    (hc : CalmBin .minus a b (F64.sub a b)) (hc' : CalmBin .minus a' b' (F64.sub a' b')) :
    Scaled j (F64.sub a b) (F64.sub a' b') :=
  scaled_add ha (scaled_neg hb) (calm_sub hc) (calm_sub hc')

theorem scaled_mul {i j : ℤ} {a a' b b' : F64} (ha : Scaled i a a') (hb : Scaled j b b')
    (hc : CalmBin .times a b (F64.mul a b)) (hc' : CalmBin .times a' b' (F64.mul a' b')) :
    Scaled (i + j) (F64.mul a b) (F64.mul a' b') := by
  rcases scaled_cases ha with ⟨rfl, rfl⟩ | ⟨s, rfl, rfl⟩ | ⟨s, n, k, n', k', p, rfl, rfl, h0, h1, h2⟩
  · simp only [F64.mul]; exact nan_scaled
  · rcases scaled_cases hb with ⟨rfl, rfl⟩ | ⟨t, rfl, rfl⟩ | ⟨t, m, i, m', i', q, rfl, rfl, g0, g1, g2⟩
    · exact nan_scaled
    · exact inf_scaled _
    · simp only [F64.mul, g0]
      split
      · exact nan_scaled
      · exact inf_scaled _
  · rcases scaled_cases hb with ⟨rfl, rfl⟩ | ⟨t, rfl, rfl⟩ | ⟨t, m, u, m', u', q, rfl, rfl, g0, g1, g2⟩
    · exact nan_scaled
    · simp only [F64.mul, h0]
      split
      · exact nan_scaled
      · exact inf_scaled _
    · refine scaled_round (p := p * q) (p' := p * 2 ^ i * (q * 2 ^ j)) ?_ (mul_rounds h1 g1)
        ((hc p q h1 g1).2.2.1 rfl) (mul_rounds h2 g2) ((hc' _ _ h2 g2).2.2.1 rfl) ?_
      · rw [zpow_add₀ (by norm_num)]; ring
      · intro _
        simp only [F64.mul, signBit_ofMag]

theorem scaled_div {i j : ℤ} {a a' b b' : F64} (ha : Scaled i a a') (hb : Scaled j b b')
    (hc : CalmBin .divide a b (F64.div a b)) (hc' : CalmBin .divide a' b' (F64.div a' b')) :
    Scaled (i - j) (F64.div a b) (F64.div a' b') := by
  have hj : (2 : ℚ) ^ j ≠ 0 := (zpow_pos (by norm_num) j).ne'
  rcases scaled_cases ha with ⟨rfl, rfl⟩ | ⟨s, rfl, rfl⟩ | ⟨s, n, k, n', k', p, rfl, rfl, h0, h1, h2⟩
  · simp only [F64.div]; exact nan_scaled
  · rcases scaled_cases hb with ⟨rfl, rfl⟩ | ⟨t, rfl, rfl⟩ | ⟨t, m, i, m', i', q, rfl, rfl, g0, g1, g2⟩
    · exact nan_scaled
    · exact nan_scaled
    · exact inf_scaled _
  · rcases scaled_cases hb with ⟨rfl, rfl⟩ | ⟨t, rfl, rfl⟩ | ⟨t, m, u, m', u', q, rfl, rfl, g0, g1, g2⟩
    · exact nan_scaled
    · exact scaled_unitless fun q hq => by
        have := value_zero (s != t)
        simp only [F64.div] at hq
        rw [this] at hq; exact (Option.some.inj hq).symm
    · by_cases hm : m = 0
      · have hm' := g0.1 hm
        simp only [F64.div, hm, hm', if_true, h0]
        split
        · exact nan_scaled
        · exact inf_scaled _
      · have hq : q ≠ 0 := by
          rintro rfl
          exact hm (value_zero_iff.1 g1)
        refine scaled_round (p := p / q) (p' := p * 2 ^ i / (q * 2 ^ j)) ?_ (div_rounds h1 g1 hq)
          ((hc p q h1 g1).2.2.2 rfl hq) (div_rounds h2 g2 (mul_ne_zero hq hj))
          ((hc' _ _ h2 g2).2.2.2 rfl (mul_ne_zero hq hj)) ?_
        · rw [zpow_sub₀ (by norm_num)]; field_simp
        · intro _
          simp only [F64.div, hm, mt g0.2 hm, if_false, signBit_ofMag]

theorem scaled_rem {j : ℤ} {a a' b b' : F64} (ha : Scaled j a a') (hb : Scaled j b b') :
    Scaled j (F64.rem a b) (F64.rem a' b') := by
  have hj : (2 : ℚ) ^ j ≠ 0 := (zpow_pos (by norm_num) j).ne'
  rcases scaled_cases ha with ⟨rfl, rfl⟩ | ⟨s, rfl, rfl⟩ | ⟨s, n, k, n', k', p, rfl, rfl, h0, h1, h2⟩
  · simp only [F64.rem]; exact nan_scaled
  · rcases scaled_cases hb with ⟨rfl, rfl⟩ | ⟨t, rfl, rfl⟩ | ⟨t, m, i, m', i', q, rfl, rfl, g0, g1, g2⟩
    · exact nan_scaled
    · exact nan_scaled
    · exact nan_scaled
  · rcases scaled_cases hb with ⟨rfl, rfl⟩ | ⟨t, rfl, rfl⟩ | ⟨t, m, u, m', u', q, rfl, rfl, g0, g1, g2⟩
    · exact nan_scaled
    · exact ha
    · by_cases hm : m = 0
      · have hm' := g0.1 hm
        simp only [F64.rem, hm, hm', if_true]
        exact nan_scaled
      · have hq : q ≠ 0 := by
          rintro rfl
          exact hm (value_zero_iff.1 g1)
        obtain ⟨r1, r2⟩ := rem_value h1 g1 hq
        obtain ⟨r3, r4⟩ := rem_value h2 g2 (mul_ne_zero hq hj)
        refine scaled_of r1 ?_ (r4.trans r2.symm)
        rw [r3, mul_div_mul_right _ _ hj]
        congr 1; ring

theorem scaled_abs {j : ℤ} {a b : F64} (h : Scaled j a b) : Scaled j (F64.abs a) (F64.abs b) := by
  have hj : (0 : ℚ) < 2 ^ j := zpow_pos (by norm_num) j
  rcases scaled_cases h with ⟨rfl, rfl⟩ | ⟨s, rfl, rfl⟩ | ⟨s, n, k, n', k', p, rfl, rfl, h0, h1, h2⟩
  · exact nan_scaled
  · exact inf_scaled _
  · have e1 := abs_value h1
    have e2 := abs_value h2
    refine scaled_of e1.1 ?_ rfl
    rw [e2.1, abs_mul, abs_of_pos hj]

/-- The root of a positive float is far from underflow. -/
theorem root_ge {x : F64} {p : ℚ} (h : value x = some p) (hp : 0 < p) :
    (2 : ℝ) ^ 52 ≤ √(p : ℝ) * 2 ^ 1074 := by
  obtain ⟨s, n, k, rfl, rfl⟩ := value_some h
  have hU := unit64_pos_rat
  have hz : 0 < F64.sv s n := by
    have := (div_pos_iff_of_pos_right hU).1 hp
    exact_mod_cast this
  have h1 : (1 : ℝ) / 2 ^ 1074 ≤ (((F64.sv s n : ℚ) / (unit64 : ℕ) : ℚ) : ℝ) := by
    have : (1 : ℚ) / 2 ^ 1074 ≤ (F64.sv s n : ℚ) / (unit64 : ℕ) := by
      rw [unit64_cast]
      refine div_le_div_of_nonneg_right ?_ (by positivity)
      exact_mod_cast hz
    have := (Rat.cast_le (K := ℝ)).2 this
    push_cast at this ⊢
    exact this
  have h2 : (1 : ℝ) / 2 ^ 537 ≤ √(((F64.sv s n : ℚ) / (unit64 : ℕ) : ℚ) : ℝ) := by
    refine Real.le_sqrt_of_sq_le (le_trans (le_of_eq ?_) h1)
    rw [div_pow, one_pow, ← pow_mul]
  calc (2 : ℝ) ^ 52 ≤ 2 ^ 537 := pow_le_pow_right₀ (by norm_num) (by norm_num)
    _ = 1 / 2 ^ 537 * 2 ^ 1074 := by rw [show (1074 : ℕ) = 537 + 537 from rfl, pow_add]; field_simp
    _ ≤ _ := mul_le_mul_of_nonneg_right h2 (by positivity)

theorem scaled_sqrt {j : ℤ} {a b : F64} (h : Scaled (2 * j) a b) :
    Scaled j (F64.sqrt a) (F64.sqrt b) := by
  have hj : (0 : ℚ) < 2 ^ (2 * j) := zpow_pos (by norm_num) _
  rcases scaled_cases h with ⟨rfl, rfl⟩ | ⟨s, rfl, rfl⟩ | ⟨s, n, k, n', k', p, rfl, rfl, h0, h1, h2⟩
  · exact nan_scaled
  · simp only [F64.sqrt]
    split
    · exact nan_scaled
    · exact inf_scaled _
  · by_cases hn : n = 0
    · have hn' := h0.1 hn
      subst hn hn'
      simp only [F64.sqrt, if_true]
      exact scaled_unitless fun q hq => by
        rw [value_zero_iff.2 rfl] at hq; exact (Option.some.inj hq).symm
    · have hn' := mt h0.2 hn
      cases s with
      | true =>
        simp only [F64.sqrt, hn, hn', if_false, if_true]
        exact nan_scaled
      | false =>
        have hp : 0 < p := by
          rw [value_fin] at h1
          rw [← Option.some.inj h1]
          refine div_pos ?_ unit64_pos_rat
          simpa [F64.sv] using Nat.pos_of_ne_zero hn
        have hp' : 0 < p * 2 ^ (2 * j) := mul_pos hp hj
        have r1 := roots (.fin false n k)
        have r2 := roots (.fin false n' k')
        generalize F64.sqrt (.fin false n k) = u at r1 ⊢
        generalize F64.sqrt (.fin false n' k') = v at r2 ⊢
        cases r1 with
        | zero h => rw [h1] at h; exact absurd (Option.some.inj h) hp.ne'
        | negative h g => rw [h1] at h; cases h; exact absurd g (not_lt.2 hp.le)
        | positive g1 g2 g3 g4 =>
          rename_i q N hN
          rw [h1] at g1; cases g1
          cases r2 with
          | zero h => rw [h2] at h; exact absurd (Option.some.inj h) hp'.ne'
          | negative h g => rw [h2] at h; cases h; exact absurd g (not_lt.2 hp'.le)
          | positive e1 e2 e3 e4 =>
            rename_i q' N' hN'
            rw [h2] at e1; cases e1
            subst g3 e3
            have f1 := root_ge h1 hp
            have f2 := root_ge h2 hp'
            have hroot : √((p * 2 ^ (2 * j) : ℚ) : ℝ) = √(p : ℝ) * 2 ^ j := by
              push_cast
              rw [Real.sqrt_mul (by exact_mod_cast hp.le), mul_comm 2 j, zpow_mul]
              congr 1
              exact_mod_cast Real.sqrt_sq (zpow_pos (by norm_num) j).le
            rw [hroot] at e4 f2
            have key : (N' : ℚ) = N * 2 ^ j := by
              rcases le_total 0 j with hj | hj
              · obtain ⟨k, rfl⟩ := Int.eq_ofNat_of_zero_le hj
                simp only [zpow_natCast] at *
                have := nearestReal_scale g4 f1 k
                rw [mul_right_comm] at this
                have := nearestReal_unique e4 this
                rw [this]; push_cast; ring
              · obtain ⟨k, hk⟩ := Int.eq_ofNat_of_zero_le (Int.neg_nonneg.2 hj)
                obtain rfl : j = -(k : ℤ) := by omega
                have := nearestReal_scale e4 f2 k
                have e : √(p : ℝ) * 2 ^ (-(k : ℤ)) * 2 ^ 1074 * 2 ^ k = √(p : ℝ) * 2 ^ 1074 := by
                  rw [zpow_neg, zpow_natCast]; field_simp
                rw [e] at this
                have := nearestReal_unique g4 this
                rw [this, zpow_neg, zpow_natCast]; push_cast; field_simp
            refine scaled_of (value_fin false _) ?_ rfl
            rw [value_fin]
            congr 1
            simp only [F64.sv, Bool.false_eq_true, if_false]
            push_cast
            rw [key]; ring

theorem scaled_blt {j : ℤ} {a a' b b' : F64} (ha : Scaled j a a') (hb : Scaled j b b') :
    F64.blt a b = F64.blt a' b' := by
  have hj : (0 : ℚ) < 2 ^ j := zpow_pos (by norm_num) j
  have hU := unit64_pos_rat
  have bound : ∀ (s : Bool) {n : Nat}, Rep n → -(maxMag : Int) < F64.sv s n ∧ F64.sv s n < maxMag := by
    intro s n h
    have := h.1
    generalize maxMag = M at *
    cases s <;> simp only [F64.sv, Bool.false_eq_true, if_false, if_true] <;> omega
  have top : F64.sv false maxMag = (maxMag : Int) := rfl
  have bot : F64.sv true maxMag = -(maxMag : Int) := rfl
  rcases scaled_cases ha with ⟨rfl, rfl⟩ | ⟨s, rfl, rfl⟩ | ⟨s, n, k, n', k', p, rfl, rfl, h0, h1, h2⟩
  · rfl
  · rcases scaled_cases hb with ⟨rfl, rfl⟩ | ⟨t, rfl, rfl⟩ | ⟨t, m, i, m', i', q, rfl, rfl, g0, g1, g2⟩
    · rfl
    · rfl
    · have b1 := bound t i
      have b2 := bound t i'
      simp only [F64.blt, F64.key, decide_eq_decide]
      cases s
      · rw [top]; omega
      · rw [bot]; omega
  · rcases scaled_cases hb with ⟨rfl, rfl⟩ | ⟨t, rfl, rfl⟩ | ⟨t, m, i, m', i', q, rfl, rfl, g0, g1, g2⟩
    · rfl
    · have b1 := bound s k
      have b2 := bound s k'
      simp only [F64.blt, F64.key, decide_eq_decide]
      cases t
      · rw [top]; omega
      · rw [bot]; omega
    · simp only [F64.blt, F64.key, decide_eq_decide]
      rw [value_fin] at h1 h2 g1 g2
      have e1 := Option.some.inj h1
      have e2 := Option.some.inj h2
      have e3 := Option.some.inj g1
      have e4 := Option.some.inj g2
      have l1 : F64.sv s n < F64.sv t m ↔ p < q := by
        rw [← e1, ← e3, div_lt_div_iff_of_pos_right hU]; norm_cast
      have l2 : F64.sv s n' < F64.sv t m' ↔ p * 2 ^ j < q * 2 ^ j := by
        rw [← e2, ← e4, div_lt_div_iff_of_pos_right hU]; norm_cast
      rw [l1, l2, mul_lt_mul_iff_left₀ hj]

theorem scaled_isNan {j : ℤ} {a b : F64} (h : Scaled j a b) : F64.isNan a = F64.isNan b := by
  rcases scaled_cases h with ⟨rfl, rfl⟩ | ⟨s, rfl, rfl⟩ | ⟨s, n, k, n', k', p, rfl, rfl, _, _, _⟩ <;> rfl

theorem scaled_fmin {j : ℤ} {a a' b b' : F64} (ha : Scaled j a a') (hb : Scaled j b b') :
    Scaled j (F64.fmin a b) (F64.fmin a' b') := by
  unfold F64.fmin
  rw [← scaled_isNan ha, ← scaled_isNan hb, ← scaled_blt hb ha]
  split
  · exact hb
  · split
    · exact ha
    · split
      · exact hb
      · exact ha

theorem scaled_fmax {j : ℤ} {a a' b b' : F64} (ha : Scaled j a a') (hb : Scaled j b b') :
    Scaled j (F64.fmax a b) (F64.fmax a' b') := by
  unfold F64.fmax
  rw [← scaled_isNan ha, ← scaled_isNan hb, ← scaled_blt ha hb]
  split
  · exact hb
  · split
    · exact ha
    · split
      · exact hb
      · exact ha

theorem scaled_fold {j : ℤ} {f : F64 → F64 → F64}
    (hf : ∀ {a a' b b'}, Scaled j a a' → Scaled j b b' → Scaled j (f a b) (f a' b')) :
    ∀ {vs vs' : List F64}, List.Forall₂ (Scaled j) vs vs' → ∀ {a a' : F64}, Scaled j a a' →
      Scaled j (vs.foldl f a) (vs'.foldl f a')
  | _, _, .nil, _, _, h => h
  | _, _, .cons h1 h2, _, _, h => scaled_fold hf h2 (hf h h1)

theorem scaled_sum {j : ℤ} : ∀ {vs vs' : List F64}, List.Forall₂ (Scaled j) vs vs' →
    ∀ {a a' : F64}, Scaled j a a' → CalmSum a vs → CalmSum a' vs' →
      Scaled j (vs.foldl F64.add a) (vs'.foldl F64.add a')
  | _, _, .nil, _, _, h, _, _ => h
  | _, _, .cons h1 h2, _, _, h, .cons c1 c2 c3, .cons d1 d2 d3 => by
    obtain rfl := c1.eq
    obtain rfl := d1.eq
    exact scaled_sum h2 (scaled_add h h1 c2 d2) c3 d3

theorem zero_scaled {j : ℤ} (s : Bool) : Scaled j (F64.zero s) (F64.zero s) :=
  scaled_unitless fun q hq => by rw [value_zero] at hq; exact (Option.some.inj hq).symm

theorem ofNat_rounds (n : Nat) : RoundsTo (n : ℚ) (F64.ofNat n) := by
  unfold F64.ofNat
  refine roundsTo_ofMag (by decide) ?_ ?_ ?_
  · rw [abs_of_nonneg (Nat.cast_nonneg n)]; push_cast; rw [unit64_cast]; simp
  · intro h; exact absurd h (not_lt.2 (Nat.cast_nonneg n))
  · intro _; rfl

theorem one_value : value F64.f1 = some 1 := by
  rw [F64.f1_eq, value_fin]
  have := unit64_pos_rat.ne'
  simp [F64.sv, this]

theorem scaled_recip {j : ℤ} {a b : F64} (h : Scaled j a b)
    (hc : ∀ q, value a = some q → q ≠ 0 → Calm (1 / q) (F64.recip a))
    (hc' : ∀ q, value b = some q → q ≠ 0 → Calm (1 / q) (F64.recip b)) :
    Scaled (-j) (F64.recip a) (F64.recip b) := by
  have bin : ∀ {x : F64}, (∀ q, value x = some q → q ≠ 0 → Calm (1 / q) (F64.recip x)) →
      CalmBin .divide F64.f1 x (F64.div F64.f1 x) := by
    intro x hx p q hp hq
    rw [one_value] at hp
    cases hp
    exact ⟨by simp, by simp, by simp, fun _ h0 => hx q hq h0⟩
  have := scaled_div (scaled_refl F64.f1) h (bin hc) (bin hc')
  rwa [_root_.zero_sub] at this

/-! ### Calls -/

theorem head_forall₂ {j : ℤ} {vs vs' : List F64} (h : List.Forall₂ (Scaled j) vs vs') :
    (vs = [] ∧ vs' = []) ∨ ∃ x xs x' xs', vs = x :: xs ∧ vs' = x' :: xs' ∧ Scaled j x x' := by
  cases h with
  | nil => exact .inl ⟨rfl, rfl⟩
  | cons h1 h2 => exact .inr ⟨_, _, _, _, rfl, rfl, h1⟩

theorem scaled_call_keep {w : World} {f : Func} {b : Builtin} {j : ℤ} {vs vs' : List F64} {v : F64}
    (hf : f.func = .builtin b) (hb : b ∈ [Builtin.abs, .min, .max, .sum, .mean])
    (h : List.Forall₂ (Scaled j) vs vs') (hv : callFn w f vs = .ok v)
    (hc : CalmCall w b vs v) (hc' : ∀ v', callFn w f vs' = .ok v' → CalmCall w b vs' v') :
    ∃ v', callFn w f vs' = .ok v' ∧ Scaled j v v' := by
  unfold callFn at *
  rw [hf] at *
  simp only at *
  have hlen := h.length_eq
  simp only [List.mem_cons, List.not_mem_nil, or_false] at hb
  rcases hb with rfl | rfl | rfl | rfl | rfl
  · rcases head_forall₂ h with ⟨rfl, rfl⟩ | ⟨x, xs, x', xs', rfl, rfl, hx⟩
    · cases hv
    · cases hv
      exact ⟨_, rfl, scaled_abs hx⟩
  · cases hv
    exact ⟨_, rfl, scaled_fold scaled_fmin h (inf_scaled _)⟩
  · cases hv
    exact ⟨_, rfl, scaled_fold scaled_fmax h (inf_scaled _)⟩
  · cases hv
    exact ⟨_, rfl, scaled_sum h (zero_scaled _) (hc.2.1 (.inl rfl)) ((hc' _ rfl).2.1 (.inl rfl))⟩
  · cases hv
    refine ⟨_, rfl, ?_⟩
    have hs : Scaled j (sumF w vs) (sumF w vs') :=
      scaled_sum h (zero_scaled _) (hc.2.1 (.inr rfl)) ((hc' _ rfl).2.1 (.inr rfl))
    have c1 := hc.2.2 rfl _ _ (sumsTo vs _) (ofNat_rounds _)
    have c2 := (hc' _ rfl).2.2 rfl _ _ (sumsTo vs' _) (ofNat_rounds _)
    rw [← hlen] at c2 ⊢
    have := scaled_div hs (scaled_refl (F64.ofNat vs.length)) c1 c2
    rwa [_root_.sub_zero] at this

theorem scaled_call_recip {w : World} {f : Func} {j : ℤ} {vs vs' : List F64} {v : F64}
    (hf : f.func = .builtin .recip) (h : List.Forall₂ (Scaled j) vs vs') (hv : callFn w f vs = .ok v)
    (hc : CalmCall w .recip vs v) (hc' : ∀ v', callFn w f vs' = .ok v' → CalmCall w .recip vs' v') :
    ∃ v', callFn w f vs' = .ok v' ∧ Scaled (-j) v v' := by
  unfold callFn at *
  rw [hf] at *
  simp only at *
  rcases head_forall₂ h with ⟨rfl, rfl⟩ | ⟨x, xs, x', xs', rfl, rfl, hx⟩
  · cases hv
  · cases hv
    exact ⟨_, rfl, scaled_recip hx (fun q hq h0 => hc.1 rfl x q rfl hq h0)
      (fun q hq h0 => (hc' _ rfl).1 rfl x' q rfl hq h0)⟩

theorem scaled_call_sqrt {w : World} {f : Func} {j : ℤ} {vs vs' : List F64} {v : F64}
    (hf : f.func = .builtin .sqrt) (h : List.Forall₂ (Scaled (2 * j)) vs vs')
    (hv : callFn w f vs = .ok v) : ∃ v', callFn w f vs' = .ok v' ∧ Scaled j v v' := by
  unfold callFn at *
  rw [hf] at *
  simp only at *
  rcases head_forall₂ h with ⟨rfl, rfl⟩ | ⟨x, xs, x', xs', rfl, rfl, hx⟩
  · cases hv
  · cases hv
    exact ⟨_, rfl, scaled_sqrt hx⟩

theorem forall₂_zero : ∀ {vs vs' : List F64}, List.Forall₂ (Scaled 0) vs vs' → vs' = vs
  | _, _, .nil => rfl
  | _, _, .cons h1 h2 => by rw [scaled_zero h1, forall₂_zero h2]

end Xprs
