import Verif.Lemmas.Same
import Verif.Lemmas.Value
import Verif.Lemmas.Ieee
import Verif.Lemmas.Root
import Verif.Lemmas.Minmax
/-
Correctly rounded operations preserve the order.
-/
namespace Xprs
open Spec
set_option exponentiation.threshold 4096

/-- The nearest point grows with the number. -/
theorem nearestReal_mono {t t' : ℝ} {n n' : Nat} (h : NearestReal t n) (h' : NearestReal t' n')
    (ht : t ≤ t') : n ≤ n' := by
  by_contra hlt
  rw [Nat.not_le] at hlt
  have hlt' : (n' : ℝ) < n := by exact_mod_cast hlt
  have h1 := h.closest n' h'.grid
  have h2 := h'.closest n h.grid
  have a1 : ((n : ℝ) + n') / 2 ≤ t := by
    by_contra hc
    rw [not_le] at hc
    have : |(n : ℝ) - t| = n - t := abs_of_pos (by linarith)
    rw [this] at h1
    rcases le_abs'.1 h1 with h | h <;> linarith
  have a2 : t' ≤ ((n : ℝ) + n') / 2 := by
    by_contra hc
    rw [not_le] at hc
    have : |(n' : ℝ) - t'| = t' - n' := by rw [abs_sub_comm]; exact abs_of_pos (by linarith)
    rw [this] at h2
    rcases le_abs'.1 h2 with h | h <;> linarith
  have : t = t' := by linarith
  subst this
  have := nearestReal_unique h h'
  omega

theorem nearest_real {N D n : Nat} (hD : 0 < D) (h : Nearest N D n) :
    NearestReal ((N : ℝ) / D) n := by
  have hD' : (0 : ℝ) < D := by exact_mod_cast hD
  have key : ∀ m : Nat, ((Spec.dist (m * D) N : Nat) : ℝ) = |(m : ℝ) - N / D| * D := by
    intro m
    rw [dist_cast, ← abs_of_pos hD', ← abs_mul, abs_of_pos hD']
    congr 1
    push_cast
    field_simp
  refine ⟨h.grid, fun m hm => ?_, fun m hm hne he => ?_⟩
  · have := h.closest m hm
    have : ((Spec.dist (n * D) N : Nat) : ℝ) ≤ ((Spec.dist (m * D) N : Nat) : ℝ) := by
      exact_mod_cast this
    rw [key, key] at this
    exact le_of_mul_le_mul_right this hD'
  · refine h.even m hm hne ?_
    have : ((Spec.dist (m * D) N : Nat) : ℝ) = ((Spec.dist (n * D) N : Nat) : ℝ) := by
      rw [key, key, he]
    exact_mod_cast this

/-- A correctly rounded number, by its place in the order. -/
theorem roundsTo_key {q : ℚ} {r : F64} (h : RoundsTo q r) :
    ∃ n : Nat, NearestReal (|(q : ℝ)| * 2 ^ 1074) n ∧
      (0 ≤ q → F64.key r = some ((min n maxMag : Nat) : Int)) ∧
      (q ≤ 0 → F64.key r = some (-((min n maxMag : Nat) : Int))) := by
  obtain ⟨⟨N, D, hD, hq, n, hn, hv⟩, h1, h2⟩ := h
  have hn' := nearest_real hD hn
  have e : ((N : ℝ) / D) = |(q : ℝ)| * 2 ^ 1074 := by
    have : ((|q| * 2 ^ 1074 : ℚ) : ℝ) = ((N / D : ℚ) : ℝ) := by rw [hq]
    push_cast at this
    exact this.symm
  rw [e] at hn'
  refine ⟨n, hn', ?_⟩
  have hz : q = 0 → n = 0 := by
    rintro rfl
    have g0 : Grid 0 := ⟨0, 0, by decide, by simp⟩
    have := hn'.closest 0 g0
    simp at this
    exact this
  have hm : maxMag = 2 ^ 2098 := by unfold maxMag; rfl
  rcases hv with ⟨hlt, hr, hv⟩ | ⟨hge, hv⟩
  · have hmin : min n maxMag = n := by rw [hm]; exact Nat.min_eq_left (Nat.le_of_lt hlt)
    rw [hmin]
    cases r with
    | nan => cases hv
    | inf s => cases hv
    | fin s k hk =>
      injection hv with hv _
      have hv : k = n := by injection hv
      subst hv
      have key : F64.key (.fin s k hk) = some (F64.sv s k) := rfl
      rw [key]
      constructor
      · intro h0
        rcases lt_or_eq_of_le h0 with h0 | h0
        · rw [show s = false from h2 h0]; rfl
        · rw [hz h0.symm]; cases s <;> rfl
      · intro h0
        rcases lt_or_eq_of_le h0 with h0 | h0
        · rw [show s = true from h1 h0]; rfl
        · rw [hz h0]; cases s <;> rfl
  · have hmin : min n maxMag = maxMag := by rw [hm]; exact Nat.min_eq_right hge
    rw [hmin]
    have hne : q ≠ 0 := by
      intro h0
      rw [hz h0] at hge
      exact absurd hge (by rw [Nat.not_le]; exact Nat.two_pow_pos _)
    cases r with
    | nan => cases hv
    | fin s k hk => cases hv
    | inf s =>
      have key : F64.key (.inf s) = some (F64.sv s maxMag) := rfl
      rw [key]
      constructor
      · intro h0
        rw [show s = false from h2 (lt_of_le_of_ne h0 hne.symm)]; rfl
      · intro h0
        rw [show s = true from h1 (lt_of_le_of_ne h0 hne)]; rfl

/-- Rounding preserves the order. -/
theorem roundsTo_mono {p q : ℚ} {r s : F64} (hr : RoundsTo p r) (hs : RoundsTo q s) (h : p ≤ q) :
    LeF r s := by
  obtain ⟨n, h1, h2, h3⟩ := roundsTo_key hr
  obtain ⟨m, k1, k2, k3⟩ := roundsTo_key hs
  have hR : (p : ℝ) ≤ q := by exact_mod_cast h
  have hpos : (0 : ℝ) < 2 ^ 1074 := by positivity
  rcases le_total 0 p with hp | hp
  · have hq := le_trans hp h
    refine leF_iff.2 ⟨_, _, h2 hp, k2 hq, ?_⟩
    have hp' : (0 : ℝ) ≤ p := by exact_mod_cast hp
    have := nearestReal_mono h1 k1 (by
      rw [abs_of_nonneg hp', abs_of_nonneg (le_trans hp' hR)]
      exact mul_le_mul_of_nonneg_right hR hpos.le)
    have : min n maxMag ≤ min m maxMag := by omega
    exact_mod_cast this
  · rcases le_total 0 q with hq | hq
    · refine leF_iff.2 ⟨_, _, h3 hp, k2 hq, ?_⟩
      have a : (0 : Int) ≤ ((min n maxMag : Nat) : Int) := Int.natCast_nonneg _
      have b : (0 : Int) ≤ ((min m maxMag : Nat) : Int) := Int.natCast_nonneg _
      omega
    · refine leF_iff.2 ⟨_, _, h3 hp, k3 hq, ?_⟩
      have hp' : (p : ℝ) ≤ 0 := by exact_mod_cast hp
      have hq' : (q : ℝ) ≤ 0 := by exact_mod_cast hq
      have := nearestReal_mono k1 h1 (by
        rw [abs_of_nonpos hp', abs_of_nonpos hq']
        exact mul_le_mul_of_nonneg_right (by linarith) hpos.le)
      have : min m maxMag ≤ min n maxMag := by omega
      have : ((min m maxMag : Nat) : Int) ≤ ((min n maxMag : Nat) : Int) := by exact_mod_cast this
      omega

/-! ### Operations -/

theorem leF_fin {a b : F64} (h : LeF a b) (ha : a ≠ .inf true) (hb : b ≠ .inf false) :
    ∃ p q, value a = some p ∧ value b = some q ∧ p ≤ q := by
  cases h with
  | bot _ => exact absurd rfl ha
  | top _ => exact absurd rfl hb
  | fin h1 h2 h3 => exact ⟨_, _, h1, h2, h3⟩

theorem leF_values {a b : F64} {p q : ℚ} (h : LeF a b) (hp : value a = some p)
    (hq : value b = some q) : p ≤ q := by
  cases h with
  | bot _ => cases hp
  | top _ => cases hq
  | fin h1 h2 h3 =>
    rw [h1] at hp; rw [h2] at hq
    cases hp; cases hq; exact h3

theorem leF_finite {a b : F64} {p : ℚ} (h : LeF a b) (hp : value a = some p) (hb : b ≠ .inf false) :
    ∃ q, value b = some q ∧ p ≤ q := by
  obtain ⟨p', q, h1, h2, h3⟩ := leF_fin h (by rintro rfl; cases hp) hb
  rw [hp] at h1; cases h1
  exact ⟨q, h2, h3⟩

theorem neg_mono {a b : F64} (h : LeF a b) : LeF (F64.neg b) (F64.neg a) := by
  obtain ⟨x, y, h1, h2, h3⟩ := leF_iff.1 h
  have key : ∀ {a : F64} {x : Int}, F64.key a = some x → F64.key (F64.neg a) = some (-x) := by
    intro a x h
    cases a with
    | nan => cases h
    | inf s => cases s <;> simp [F64.key, F64.neg, F64.sv] at h ⊢ <;> omega
    | fin s n k => cases s <;> simp [F64.key, F64.neg, F64.sv] at h ⊢ <;> omega
  exact leF_iff.2 ⟨-y, -x, key h2, key h1, by omega⟩

theorem add_top {b : F64} (h : F64.add (.inf false) b ≠ .nan) : F64.add (.inf false) b = .inf false := by
  cases b with
  | nan => exact absurd rfl h
  | inf s => cases s <;> first | rfl | exact absurd rfl h
  | fin s n k => rfl

theorem add_top' {a : F64} (h : F64.add a (.inf false) ≠ .nan) : F64.add a (.inf false) = .inf false := by
  cases a with
  | nan => exact absurd rfl h
  | inf s => cases s <;> first | rfl | exact absurd rfl h
  | fin s n k => rfl

theorem add_bot {b : F64} (h : F64.add (.inf true) b ≠ .nan) : F64.add (.inf true) b = .inf true := by
  cases b with
  | nan => exact absurd rfl h
  | inf s => cases s <;> first | rfl | exact absurd rfl h
  | fin s n k => rfl

theorem add_bot' {a : F64} (h : F64.add a (.inf true) ≠ .nan) : F64.add a (.inf true) = .inf true := by
  cases a with
  | nan => exact absurd rfl h
  | inf s => cases s <;> first | rfl | exact absurd rfl h
  | fin s n k => rfl

/-- Sums. -/
theorem add_mono {a a' b b' : F64} (ha : LeF a a') (hb : LeF b b') (h : F64.add a b ≠ .nan)
    (h' : F64.add a' b' ≠ .nan) : LeF (F64.add a b) (F64.add a' b') := by
  by_cases h1 : a' = .inf false
  · subst h1; rw [add_top h']; exact .top h
  by_cases h2 : b' = .inf false
  · subst h2; rw [add_top' h']; exact .top h
  by_cases h3 : a = .inf true
  · subst h3; rw [add_bot h]; exact .bot h'
  by_cases h4 : b = .inf true
  · subst h4; rw [add_bot' h]; exact .bot h'
  obtain ⟨p, p', p1, p2, p3⟩ := leF_fin ha h3 h1
  obtain ⟨q, q', q1, q2, q3⟩ := leF_fin hb h4 h2
  exact roundsTo_mono (add_rounds p1 q1) (add_rounds p2 q2) (by linarith)

theorem sub_mono {a a' b b' : F64} (ha : LeF a a') (hb : LeF b' b) (h : F64.sub a b ≠ .nan)
    (h' : F64.sub a' b' ≠ .nan) : LeF (F64.sub a b) (F64.sub a' b') :=
  add_mono ha (neg_mono hb) h h'

theorem value_of_sign {a : F64} (h : signBit a = false) (hn : a ≠ .nan) (hi : a ≠ .inf false) :
    ∃ p, value a = some p ∧ 0 ≤ p := by
  cases a with
  | nan => exact absurd rfl hn
  | inf s => cases h; exact absurd rfl hi
  | fin s n k =>
    cases h
    exact ⟨_, value_fin false k, by
      have := unit64_pos_rat
      have h2 : (0 : ℚ) ≤ ((F64.sv false n : ℤ) : ℚ) := by simp [F64.sv]
      positivity⟩

theorem mul_sign {a b : F64} (h : F64.mul a b ≠ .nan) :
    signBit (F64.mul a b) = (signBit a != signBit b) := by
  have hm := muls a b
  generalize F64.mul a b = r at h hm
  cases hm with
  | nanL => exact absurd rfl h
  | nanR => exact absurd rfl h
  | infZero _ => exact absurd rfl h
  | zeroInf _ => exact absurd rfl h
  | infL _ _ => rfl
  | infR _ _ => rfl
  | finite _ _ _ h => exact h

theorem div_sign {a b : F64} (h : F64.div a b ≠ .nan) :
    signBit (F64.div a b) = (signBit a != signBit b) := by
  have hm := divs a b
  generalize F64.div a b = r at h hm
  cases hm with
  | nanL => exact absurd rfl h
  | nanR => exact absurd rfl h
  | infInf => exact absurd rfl h
  | zeroZero _ _ => exact absurd rfl h
  | infL _ => rfl
  | infR _ _ h => exact h
  | byZero _ _ _ => rfl
  | finite _ _ _ _ h => exact h

theorem add_sign {a b : F64} (ha : signBit a = false) (hb : signBit b = false) :
    signBit (F64.add a b) = false := by
  have hm := adds a b
  generalize F64.add a b = r at hm
  cases hm with
  | nanL => rfl
  | nanR => rfl
  | opposite => rfl
  | infL _ _ => exact ha
  | infR _ _ => exact hb
  | @finite _ _ _ p q h1 h2 h3 h4 =>
    have nn : ∀ {x : F64} {p : ℚ}, signBit x = false → value x = some p → 0 ≤ p := by
      intro x p hs hv
      obtain ⟨p', h, h'⟩ := value_of_sign hs (by rintro rfl; cases hv) (by rintro rfl; cases hv)
      rw [hv] at h; cases h; exact h'
    have := nn ha h1
    have := nn hb h2
    rcases lt_or_eq_of_le (show 0 ≤ p + q by linarith) with h0 | h0
    · exact h3.2.2 h0
    · rw [h4 h0.symm, ha]; rfl

theorem mul_inf {s : Bool} {b : F64} (h : F64.mul (.inf s) b ≠ .nan) :
    F64.mul (.inf s) b = .inf (s != signBit b) := by
  cases b with
  | nan => exact absurd rfl h
  | inf t => rfl
  | fin t m k =>
    simp only [F64.mul] at h ⊢
    split
    · rename_i h0; rw [if_pos h0] at h; exact absurd rfl h
    · rfl

theorem sign_of_value {x : F64} {q : ℚ} (h : value x = some q) :
    (q < 0 → signBit x = true) ∧ (0 < q → signBit x = false) := by
  have hU := unit64_pos_rat
  obtain ⟨s, n, hn, rfl, rfl⟩ := value_some h
  constructor
  · intro h0
    cases s with
    | true => rfl
    | false =>
      exact absurd h0 (not_lt.2 (div_nonneg (by simp [F64.sv]) hU.le))
  · intro h0
    cases s with
    | false => rfl
    | true =>
      exact absurd h0 (not_lt.2 (div_nonpos_of_nonpos_of_nonneg (by simp [F64.sv]) hU.le))

theorem mul_inf_zero {s : Bool} {b : F64} (h : value b = some 0) : F64.mul (.inf s) b = .nan := by
  obtain ⟨t, n, k, rfl⟩ := value_ne_nan h
  have h := value_zero_iff.1 h
  simp [F64.mul, h]

/-- Multiples by a number that is not negative. -/
theorem mul_mono_left {c x x' : F64} (hc : signBit c = false) (hx : LeF x x')
    (h : F64.mul c x ≠ .nan) (h' : F64.mul c x' ≠ .nan) : LeF (F64.mul c x) (F64.mul c x') := by
  by_cases h1 : x' = .inf false
  · subst h1
    rw [fmul_comm c (.inf false)] at h' ⊢
    rw [mul_inf h', hc]; exact .top h
  by_cases h2 : x = .inf true
  · subst h2
    rw [fmul_comm c (.inf true)] at h ⊢
    rw [mul_inf h, hc]; exact .bot h'
  obtain ⟨q, q', q1, q2, q3⟩ := leF_fin hx h2 h1
  by_cases h3 : c = .inf false
  · subst h3
    rw [mul_inf h, mul_inf h']
    have hq : q ≠ 0 := by rintro rfl; exact h (mul_inf_zero q1)
    rcases lt_or_gt_of_ne hq with h0 | h0
    · rw [(sign_of_value q1).1 h0]; exact .bot (by simp)
    · rw [(sign_of_value q2).2 (lt_of_lt_of_le h0 q3)]; exact .top (by simp)
  · obtain ⟨p, p1, p2⟩ := value_of_sign hc (by rintro rfl; exact h rfl) h3
    exact roundsTo_mono (mul_rounds p1 q1) (mul_rounds p1 q2) (mul_le_mul_of_nonneg_left q3 p2)

/-- Products of numbers that are not negative. -/
theorem mul_mono {a a' b b' : F64} (sa : signBit a = false) (sb : signBit b = false)
    (sa' : signBit a' = false) (sb' : signBit b' = false)
    (ha : LeF a a') (hb : LeF b b') (h : F64.mul a b ≠ .nan) (h' : F64.mul a' b' ≠ .nan) :
    LeF (F64.mul a b) (F64.mul a' b') := by
  by_cases h1 : a' = .inf false
  · subst h1; rw [mul_inf h', sb']; exact .top h
  by_cases h2 : b' = .inf false
  · subst h2; rw [fmul_comm a' (.inf false)] at h' ⊢; rw [mul_inf h', sa']; exact .top h
  obtain ⟨p, p', p1, p2, p3⟩ := leF_fin ha (by rintro rfl; cases sa) h1
  obtain ⟨q, q', q1, q2, q3⟩ := leF_fin hb (by rintro rfl; cases sb) h2
  obtain ⟨q0, q4, q5⟩ := value_of_sign sb (by rintro rfl; cases q1) (by rintro rfl; cases q1)
  rw [q1] at q4; cases q4
  obtain ⟨p0, p4, p5⟩ := value_of_sign sa' (by rintro rfl; cases p2) (by rintro rfl; cases p2)
  rw [p2] at p4; cases p4
  exact roundsTo_mono (mul_rounds p1 q1) (mul_rounds p2 q2) (mul_le_mul p3 q3 q5 p5)

theorem div_inf {x : F64} {p : ℚ} (s : Bool) (h : value x = some p) :
    value (F64.div x (.inf s)) = some 0 := by
  obtain ⟨t, n, k, rfl⟩ := value_ne_nan h
  exact value_zero _

theorem inf_div {s : Bool} {b : F64} (h : F64.div (.inf s) b ≠ .nan) :
    F64.div (.inf s) b = .inf (s != signBit b) := by
  cases b with
  | nan => exact absurd rfl h
  | inf t => exact absurd rfl h
  | fin t m k => rfl

theorem div_zero' {a b : F64} {p : ℚ} (ha : value a = some p) (hb : value b = some 0)
    (h : F64.div a b ≠ .nan) : F64.div a b = .inf (signBit a != signBit b) ∧ p ≠ 0 := by
  have hm := divs a b
  generalize F64.div a b = r at h hm
  cases hm with
  | nanL => exact absurd rfl h
  | nanR => exact absurd rfl h
  | infInf => exact absurd rfl h
  | zeroZero _ _ => exact absurd rfl h
  | infL _ => cases ha
  | infR _ _ h => cases hb
  | byZero h1 h2 _ => rw [h1] at ha; cases ha; exact ⟨rfl, h2⟩
  | finite _ h1 h2 _ _ => rw [h1] at hb; cases hb; exact absurd rfl h2

theorem leF_zero_left {a b : F64} (ha : value a = some 0) (hb : signBit b = false) (hn : b ≠ .nan) :
    LeF a b := by
  by_cases h : b = .inf false
  · subst h; exact .top (by rintro rfl; cases ha)
  · obtain ⟨q, h1, h2⟩ := value_of_sign hb hn h
    exact .fin ha h1 h2

/-- Quotients of numbers that are not negative. -/
theorem div_mono {a a' b b' : F64} (sa' : signBit a' = false) (sb : signBit b = false)
    (sb' : signBit b' = false) (sa : signBit a = false)
    (ha : LeF a a') (hb : LeF b' b) (h : F64.div a b ≠ .nan) (h' : F64.div a' b' ≠ .nan) :
    LeF (F64.div a b) (F64.div a' b') := by
  have hs' : signBit (F64.div a' b') = false := by rw [div_sign h', sa', sb']; rfl
  by_cases h1 : a' = .inf false
  · subst h1; rw [inf_div h', sb']; exact .top h
  obtain ⟨p, p', p1, p2, p3⟩ := leF_fin ha (by rintro rfl; cases sa) h1
  by_cases h2 : b = .inf false
  · subst h2
    exact leF_zero_left (div_inf false p1) hs' h'
  obtain ⟨q', q, q2, q1, q3⟩ := leF_fin hb (by rintro rfl; cases sb') h2
  obtain ⟨q0, q4, q5⟩ := value_of_sign sb' (by rintro rfl; cases q2) (by rintro rfl; cases q2)
  rw [q2] at q4; cases q4
  rcases lt_or_eq_of_le q5 with h0 | h0
  · obtain ⟨p0, p4, p5⟩ := value_of_sign sa' (by rintro rfl; cases p2) (by rintro rfl; cases p2)
    rw [p2] at p4; cases p4
    refine roundsTo_mono (div_rounds p1 q1 ?_) (div_rounds p2 q2 h0.ne') ?_
    · exact (lt_of_lt_of_le h0 q3).ne'
    · exact div_le_div₀ p5 p3 h0 q3
  · subst h0
    rw [(div_zero' p2 q2 h').1, sa', sb']; exact .top h

/-- Quotients by a number that is not negative. -/
theorem div_mono_left {c x x' : F64} (hc : signBit c = false) (hx : LeF x x')
    (h : F64.div x c ≠ .nan) (h' : F64.div x' c ≠ .nan) : LeF (F64.div x c) (F64.div x' c) := by
  by_cases h1 : x' = .inf false
  · subst h1; rw [inf_div h', hc]; exact .top h
  by_cases h2 : x = .inf true
  · subst h2; rw [inf_div h, hc]; exact .bot h'
  obtain ⟨q, q', q1, q2, q3⟩ := leF_fin hx h2 h1
  by_cases h3 : c = .inf false
  · subst h3
    exact .fin (div_inf false q1) (div_inf false q2) le_rfl
  · obtain ⟨p, p1, p2⟩ := value_of_sign hc (by rintro rfl; cases x <;> exact h rfl) h3
    rcases lt_or_eq_of_le p2 with h0 | h0
    · exact roundsTo_mono (div_rounds q1 p1 h0.ne') (div_rounds q2 p1 h0.ne')
        (div_le_div_of_nonneg_right q3 h0.le)
    · subst h0
      obtain ⟨e1, hq⟩ := div_zero' q1 p1 h
      obtain ⟨e2, hq'⟩ := div_zero' q2 p1 h'
      rw [e1, e2, hc]
      rcases lt_or_gt_of_ne hq with h0 | h0
      · rw [(sign_of_value q1).1 h0]; exact .bot (by simp)
      · rw [(sign_of_value q2).2 (lt_of_lt_of_le h0 q3)]; exact .top (by simp)

theorem neg_nan {a : F64} : F64.neg a = .nan ↔ a = .nan := by cases a <;> simp [F64.neg]

theorem neg_neg' (a : F64) : F64.neg (F64.neg a) = a := by cases a <;> simp [F64.neg]


/-- Multiples by a number that is negative. -/
theorem mul_anti_left {c x x' : F64} (hc : signBit c = true) (hx : LeF x x')
    (h : F64.mul c x ≠ .nan) (h' : F64.mul c x' ≠ .nan) : LeF (F64.mul c x') (F64.mul c x) := by
  rw [← fmul_neg_neg c x] at h ⊢
  rw [← fmul_neg_neg c x'] at h' ⊢
  exact mul_mono_left (by cases c <;> simp_all [F64.neg, signBit]) (neg_mono hx) h' h

/-- Quotients by a number that is negative. -/
theorem div_anti_left {c x x' : F64} (hc : signBit c = true) (hx : LeF x x')
    (h : F64.div x c ≠ .nan) (h' : F64.div x' c ≠ .nan) : LeF (F64.div x' c) (F64.div x c) := by
  rw [← fdiv_neg_neg x c] at h ⊢
  rw [← fdiv_neg_neg x' c] at h' ⊢
  exact div_mono_left (by cases c <;> simp_all [F64.neg, signBit]) (neg_mono hx) h' h

/-- A function that rounds finite numbers by a monotone rule. -/
theorem rounding_mono {r : ℚ → ℤ} {f : F64 → F64} (hr : ∀ p q, p ≤ q → r p ≤ r q)
    (hf : ∀ x q, value x = some q → value (f x) = some (r q : ℚ))
    (hi : ∀ s, f (.inf s) = .inf s) {x x' : F64} (h : LeF x x') : LeF (f x) (f x') := by
  have hn : ∀ y, y ≠ .nan → f y ≠ .nan := by
    intro y hy hy'
    cases y with
    | nan => exact hy rfl
    | inf s => rw [hi] at hy'; cases hy'
    | fin s n k =>
      have := hf (.fin s n k) _ (value_fin s k)
      rw [hy'] at this; cases this
  cases h with
  | fin h1 h2 h3 => exact .fin (hf _ _ h1) (hf _ _ h2) (by exact_mod_cast hr _ _ h3)
  | bot h => rw [hi]; exact .bot (hn _ h)
  | top h => rw [hi]; exact .top (hn _ h)

theorem truncRat_mono {p q : ℚ} (h : p ≤ q) : truncRat p ≤ truncRat q := by
  unfold truncRat
  split <;> split
  · exact Int.floor_le_floor h
  · linarith
  · rename_i h1 h2
    have : ⌈p⌉ ≤ 0 := Int.ceil_le.2 (by push_cast; linarith)
    exact this.trans (Int.floor_nonneg.2 h2)
  · exact Int.ceil_le_ceil h

theorem roundRat_mono {p q : ℚ} (h : p ≤ q) :
    (if 0 ≤ p then ⌊p + 1 / 2⌋ else ⌈p - 1 / 2⌉) ≤ (if 0 ≤ q then ⌊q + 1 / 2⌋ else ⌈q - 1 / 2⌉) := by
  split <;> split
  · exact Int.floor_le_floor (by linarith)
  · linarith
  · rename_i h1 h2
    have : ⌈p - 1 / 2⌉ ≤ 0 := Int.ceil_le.2 (by push_cast; linarith)
    exact this.trans (Int.floor_nonneg.2 (by linarith))
  · exact Int.ceil_le_ceil (by linarith)

theorem floor_mono {x x' : F64} (h : LeF x x') : LeF (F64.floor x) (F64.floor x') :=
  rounding_mono (r := fun q => ⌊q⌋) (fun _ _ h => Int.floor_le_floor h)
    (fun _ _ h => (floor_value h).1) (fun _ => rfl) h

theorem ceil_mono {x x' : F64} (h : LeF x x') : LeF (F64.ceil x) (F64.ceil x') :=
  rounding_mono (r := fun q => ⌈q⌉) (fun _ _ h => Int.ceil_le_ceil h)
    (fun _ _ h => (ceil_value h).1) (fun _ => rfl) h

theorem trunc_mono {x x' : F64} (h : LeF x x') : LeF (F64.trunc x) (F64.trunc x') :=
  rounding_mono (r := truncRat) (fun _ _ h => truncRat_mono h)
    (fun _ _ h => (trunc_value h).1) (fun _ => rfl) h

theorem round_mono {x x' : F64} (h : LeF x x') : LeF (F64.round x) (F64.round x') :=
  rounding_mono (r := fun q => if 0 ≤ q then ⌊q + 1 / 2⌋ else ⌈q - 1 / 2⌉)
    (fun _ _ h => roundRat_mono h) (fun _ _ h => (round_value h).1) (fun _ => rfl) h

theorem sqrt_sign {x : F64} (h : signBit x = false) : signBit (F64.sqrt x) = false := by
  have hr := roots x
  generalize F64.sqrt x = r at hr
  cases hr with
  | nan => rfl
  | inf => rfl
  | negInf => rfl
  | zero _ => exact h
  | negative _ _ => rfl
  | positive _ _ h _ => rw [h]; rfl

theorem sqrt_mono {x x' : F64} (h : LeF x x') (hn : F64.sqrt x ≠ .nan) (hn' : F64.sqrt x' ≠ .nan) :
    LeF (F64.sqrt x) (F64.sqrt x') := by
  have hU := unit64_pos_rat
  have hr := roots x
  have hr' := roots x'
  generalize F64.sqrt x = r at hr hn
  generalize F64.sqrt x' = r' at hr' hn'
  cases hr with
  | nan => exact absurd rfl hn
  | negInf => exact absurd rfl hn
  | negative _ _ => exact absurd rfl hn
  | inf =>
    cases h with
    | fin h1 _ _ => cases h1
    | top _ => cases hr' with
      | inf => exact .top (by simp)
      | zero h => cases h
      | negative h _ => cases h
      | positive h _ _ _ => cases h
  | zero h0 =>
    cases hr' with
    | nan => exact absurd rfl hn'
    | negInf => exact absurd rfl hn'
    | negative _ _ => exact absurd rfl hn'
    | inf => exact h
    | zero _ => exact h
    | positive h1 h2 h3 h4 => subst h3; exact leF_zero_left h0 rfl (by simp)
  | @positive _ _ q n hn1 h1 h2 h3 h4 =>
    cases hr' with
    | nan => exact absurd rfl hn'
    | negInf => exact absurd rfl hn'
    | negative _ _ => exact absurd rfl hn'
    | inf => subst h3; exact .top (by simp)
    | zero h0 => have := leF_values h h1 h0; linarith
    | @positive _ _ q' n' hn1' k1 k2 k3 k4 =>
      subst h3 k3
      have hq : q ≤ q' := leF_values h h1 k1
      have hq' : (q : ℝ) ≤ q' := by exact_mod_cast hq
      have : n ≤ n' := nearestReal_mono h4 k4
        (mul_le_mul_of_nonneg_right (Real.sqrt_le_sqrt hq') (by positivity))
      refine .fin (value_fin _ _) (value_fin _ _) ?_
      apply div_le_div_of_nonneg_right _ hU.le
      simpa [F64.sv] using this

theorem foldl_add_nan (vs : List F64) : vs.foldl F64.add .nan = .nan := by
  induction vs with
  | nil => rfl
  | cons x xs ih => exact ih

theorem fold_add_mono {vs vs' : List F64} (h : List.Forall₂ LeF vs vs') :
    ∀ {a a' : F64}, LeF a a' → vs.foldl F64.add a ≠ .nan → vs'.foldl F64.add a' ≠ .nan →
      LeF (vs.foldl F64.add a) (vs'.foldl F64.add a') := by
  induction h with
  | nil => exact fun h _ _ => h
  | cons h1 _ ih =>
    intro a a' ha hn hn'
    simp only [List.foldl_cons] at hn hn' ⊢
    refine ih (add_mono ha h1 ?_ ?_) hn hn'
    · intro h; rw [h] at hn; exact hn (foldl_add_nan _)
    · intro h; rw [h] at hn'; exact hn' (foldl_add_nan _)

theorem fold_add_sign {vs : List F64} (h : ∀ v ∈ vs, signBit v = false) :
    ∀ {a : F64}, signBit a = false → signBit (vs.foldl F64.add a) = false := by
  induction vs with
  | nil => exact id
  | cons x xs ih =>
    intro a ha
    exact ih (fun v hv => h v (List.mem_cons_of_mem _ hv)) (add_sign ha (h x List.mem_cons_self))

theorem forall₂_left {R : F64 → F64 → Prop} {vs vs' : List F64} (h : List.Forall₂ R vs vs') :
    ∀ {v}, v ∈ vs → ∃ v' ∈ vs', R v v' := by
  induction h with
  | nil => intro v h; cases h
  | cons h1 _ ih =>
    intro v hv
    rcases List.mem_cons.1 hv with rfl | hv
    · exact ⟨_, List.mem_cons_self, h1⟩
    · obtain ⟨v', h2, h3⟩ := ih hv
      exact ⟨v', List.mem_cons_of_mem _ h2, h3⟩

theorem forall₂_right {R : F64 → F64 → Prop} {vs vs' : List F64} (h : List.Forall₂ R vs vs') :
    ∀ {v'}, v' ∈ vs' → ∃ v ∈ vs, R v v' := by
  intro v' hv
  exact forall₂_left (R := fun a b => R b a) h.flip hv

theorem min_mono {vs vs' : List F64} (h : List.Forall₂ LeF vs vs') :
    LeF (vs.foldl F64.fmin (.inf false)) (vs'.foldl F64.fmin (.inf false)) := by
  have h1 := min_fold vs
  have h2 := min_fold vs'
  cases h with
  | nil => exact .top (by simp [List.foldl])
  | @cons a b l l' hab hl =>
    have h := List.Forall₂.cons hab hl
    obtain ⟨-, k1, k2⟩ := h1.2 ⟨a, List.mem_cons_self, leF_left hab⟩
    obtain ⟨k3, -, -⟩ := h2.2 ⟨b, List.mem_cons_self, leF_right hab⟩
    obtain ⟨x, hx, hx'⟩ := forall₂_right h k3
    exact leF_trans (k2 x hx (leF_left hx')) hx'

theorem max_mono {vs vs' : List F64} (h : List.Forall₂ LeF vs vs') :
    LeF (vs.foldl F64.fmax (.inf true)) (vs'.foldl F64.fmax (.inf true)) := by
  have h1 := max_fold vs
  have h2 := max_fold vs'
  cases h with
  | nil => exact .bot (by simp [List.foldl])
  | @cons a b l l' hab hl =>
    have h := List.Forall₂.cons hab hl
    obtain ⟨k1, -, -⟩ := h1.2 ⟨a, List.mem_cons_self, leF_left hab⟩
    obtain ⟨-, k3, k4⟩ := h2.2 ⟨b, List.mem_cons_self, leF_right hab⟩
    obtain ⟨x, hx, hx'⟩ := forall₂_left h k1
    exact leF_trans hx' (k4 x hx (leF_right hx'))

end Xprs
