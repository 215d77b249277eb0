import Verif.Lemmas.Error
import Verif.Lemmas.Root
import Verif.Lemmas.Minmax
import Verif.Spec.Accuracy
/-
Relative errors over the real numbers (for C91).
-/
namespace Xprs
open Spec
set_option exponentiation.threshold 4096

theorem keep_gt : (0 : ℝ) < keep := by unfold keep; norm_num
theorem keep_lt : keep ≤ 1 := by unfold keep; norm_num
theorem keepk_pos (k : ℕ) : (0 : ℝ) < keep ^ k := pow_pos keep_gt k

theorem Spec.Close.refl (q : ℝ) : Close 0 q q := ⟨1, by ring, by simp, by simp⟩

theorem close_zero {q v : ℝ} (h : Close 0 q v) : v = q := by
  obtain ⟨ρ, h1, h2, h3⟩ := h
  rw [pow_zero] at h2 h3
  have : ρ = 1 := le_antisymm (by linarith) h2
  rw [h1, this, mul_one]

theorem Spec.Close.mono {j k : ℕ} {q v : ℝ} (h : Close j q v) (hk : j ≤ k) : Close k q v := by
  obtain ⟨ρ, h1, h2, h3⟩ := h
  have h4 : keep ^ k ≤ keep ^ j := pow_le_pow_of_le_one keep_gt.le keep_lt hk
  have h5 : 0 ≤ ρ := (keepk_pos j).le.trans h2
  exact ⟨ρ, h1, h4.trans h2, (mul_le_mul_of_nonneg_left h4 h5).trans h3⟩

theorem Spec.Close.neg {k : ℕ} {q v : ℝ} (h : Close k q v) : Close k (-q) (-v) := by
  obtain ⟨ρ, h1, h2, h3⟩ := h
  exact ⟨ρ, by rw [h1]; ring, h2, h3⟩

theorem Spec.Close.abs {k : ℕ} {q v : ℝ} (h : Close k q v) : Close k |q| |v| := by
  obtain ⟨ρ, h1, h2, h3⟩ := h
  exact ⟨ρ, by rw [h1, abs_mul, abs_of_pos ((keepk_pos k).trans_le h2)], h2, h3⟩

theorem Spec.Close.mul {j k : ℕ} {p q u v : ℝ} (h : Close j p u) (h' : Close k q v) :
    Close (j + k) (p * q) (u * v) := by
  obtain ⟨ρ, h1, h2, h3⟩ := h
  obtain ⟨τ, k1, k2, k3⟩ := h'
  refine ⟨ρ * τ, by rw [h1, k1]; ring, ?_, ?_⟩
  · rw [pow_add]
    exact mul_le_mul h2 k2 (keepk_pos k).le ((keepk_pos j).le.trans h2)
  · rw [pow_add]
    have h5 : 0 ≤ τ * keep ^ k := mul_nonneg ((keepk_pos k).le.trans k2) (keepk_pos k).le
    calc ρ * τ * (keep ^ j * keep ^ k) = ρ * keep ^ j * (τ * keep ^ k) := by ring
      _ ≤ 1 * 1 := mul_le_mul h3 k3 h5 (by norm_num)
      _ = 1 := by norm_num

theorem Spec.Close.inv {k : ℕ} {q v : ℝ} (h : Close k q v) : Close k q⁻¹ v⁻¹ := by
  obtain ⟨ρ, h1, h2, h3⟩ := h
  have h5 : 0 < ρ := (keepk_pos k).trans_le h2
  refine ⟨ρ⁻¹, by rw [h1, mul_inv], ?_, ?_⟩
  · rw [le_inv_comm₀ (keepk_pos k) h5, ← one_div, le_div_iff₀ (keepk_pos k)]
    exact h3
  · rw [inv_mul_le_iff₀ h5, mul_one]
    exact h2

theorem Spec.Close.div {j k : ℕ} {p q u v : ℝ} (h : Close j p u) (h' : Close k q v) :
    Close (j + k) (p / q) (u / v) := by
  rw [div_eq_mul_inv, div_eq_mul_inv]
  exact h.mul h'.inv

theorem Spec.Close.trans {j k : ℕ} {p q r : ℝ} (h : Close j p q) (h' : Close k q r) :
    Close (j + k) p r := by
  obtain ⟨ρ, h1, h2, h3⟩ := h
  obtain ⟨τ, k1, k2, k3⟩ := h'
  have := Close.mul (p := p) (q := 1) ⟨ρ, h1, h2, h3⟩ (⟨τ, by ring, k2, k3⟩ : Close k 1 τ)
  rw [mul_one] at this
  rw [k1]
  exact this

theorem Spec.Close.sqrt {j : ℕ} {q v : ℝ} (h : Close j q v) (hq : 0 ≤ q) :
    Close ((j + 1) / 2) √q √v := by
  obtain ⟨ρ, h1, h2, h3⟩ := (h.mono (show j ≤ 2 * ((j + 1) / 2) by omega))
  rw [pow_mul'] at h2 h3
  have h0 := keepk_pos ((j + 1) / 2)
  unfold Close
  generalize keep ^ ((j + 1) / 2) = c at *
  have hr : 0 ≤ ρ := (by positivity : (0 : ℝ) ≤ c ^ 2).trans h2
  refine ⟨√ρ, by rw [h1, Real.sqrt_mul hq], Real.le_sqrt_of_sq_le h2, ?_⟩
  have : √ρ * c = √(ρ * c ^ 2) := by rw [Real.sqrt_mul hr, Real.sqrt_sq h0.le]
  rw [this]
  exact Real.sqrt_le_one.2 h3

/-- No cancellation: the error of a sum is not larger than that of its parts. -/
theorem Spec.Close.add {k : ℕ} {p q u v : ℝ} (h : Close k p u) (h' : Close k q v)
    (hs : 0 ≤ p * q) : Close k (p + q) (u + v) := by
  by_cases hz : p + q = 0
  · have hp : p = 0 := by
      have : q = -p := by linarith
      rw [this] at hs
      nlinarith [sq_nonneg p]
    have hq : q = 0 := by linarith
    subst hp hq
    obtain ⟨ρ, h1, -, -⟩ := h
    obtain ⟨τ, k1, -, -⟩ := h'
    rw [zero_mul] at h1 k1
    rw [h1, k1]
    exact (Close.refl _).mono (Nat.zero_le _)
  · obtain ⟨ρ, h1, h2, h3⟩ := h
    obtain ⟨τ, k1, k2, k3⟩ := h'
    have hsq : 0 < (p + q) * (p + q) := mul_self_pos.2 hz
    have e1 : p / (p + q) = p * (p + q) / ((p + q) * (p + q)) := by field_simp
    have e2 : q / (p + q) = q * (p + q) / ((p + q) * (p + q)) := by field_simp
    have l1 : 0 ≤ p / (p + q) := by
      rw [e1]
      exact div_nonneg (by nlinarith [sq_nonneg p]) hsq.le
    have l2 : 0 ≤ q / (p + q) := by
      rw [e2]
      exact div_nonneg (by nlinarith [sq_nonneg q]) hsq.le
    have l3 : p / (p + q) + q / (p + q) = 1 := by field_simp
    refine ⟨p / (p + q) * ρ + q / (p + q) * τ, by rw [h1, k1]; field_simp, ?_, ?_⟩
    · calc keep ^ k = (p / (p + q) + q / (p + q)) * keep ^ k := by rw [l3, one_mul]
        _ = p / (p + q) * keep ^ k + q / (p + q) * keep ^ k := by ring
        _ ≤ _ := add_le_add (mul_le_mul_of_nonneg_left h2 l1) (mul_le_mul_of_nonneg_left k2 l2)
    · calc (p / (p + q) * ρ + q / (p + q) * τ) * keep ^ k
          = p / (p + q) * (ρ * keep ^ k) + q / (p + q) * (τ * keep ^ k) := by ring
        _ ≤ p / (p + q) * 1 + q / (p + q) * 1 :=
          add_le_add (mul_le_mul_of_nonneg_left h3 l1) (mul_le_mul_of_nonneg_left k3 l2)
        _ = 1 := by rw [mul_one, mul_one, l3]

/-- Closeness as an interval. -/
theorem close_iff {k : ℕ} {q v : ℝ} : Close k q v ↔
    min (q * keep ^ k) (q / keep ^ k) ≤ v ∧ v ≤ max (q * keep ^ k) (q / keep ^ k) := by
  have h0 := keepk_pos k
  have h1 : keep ^ k ≤ 1 := pow_le_one₀ keep_gt.le keep_lt
  unfold Close
  generalize keep ^ k = c at *
  have hc : c ≤ 1 / c := by rw [le_div_iff₀ h0]; nlinarith
  rcases lt_trichotomy q 0 with hq | hq | hq
  · have e : q / c ≤ q * c := by
      rw [div_eq_mul_one_div]
      exact mul_le_mul_of_nonpos_left hc hq.le
    rw [min_eq_right e, max_eq_left e]
    constructor
    · rintro ⟨ρ, rfl, a, b⟩
      refine ⟨?_, mul_le_mul_of_nonpos_left a hq.le⟩
      rw [div_eq_mul_one_div]
      exact mul_le_mul_of_nonpos_left (by rw [le_div_iff₀ h0]; exact b) hq.le
    · rintro ⟨a, b⟩
      refine ⟨v / q, by rw [mul_div_cancel₀ _ hq.ne], ?_, ?_⟩
      · rw [le_div_iff_of_neg hq, mul_comm]; exact b
      · rw [div_mul_eq_mul_div, div_le_one_of_neg hq]
        rw [div_le_iff₀ h0] at a
        exact a
  · subst hq
    have e : (0 : ℝ) / c = 0 := _root_.zero_div c
    rw [e, zero_mul, min_self, max_self]
    constructor
    · rintro ⟨ρ, rfl, -, -⟩
      rw [zero_mul]
      exact ⟨le_refl _, le_refl _⟩
    · rintro ⟨a, b⟩
      exact ⟨1, by rw [zero_mul]; exact le_antisymm b a, h1, by linarith⟩
  · have e : q * c ≤ q / c := by
      rw [div_eq_mul_one_div q c]
      exact mul_le_mul_of_nonneg_left hc hq.le
    rw [min_eq_left e, max_eq_right e]
    constructor
    · rintro ⟨ρ, rfl, a, b⟩
      refine ⟨mul_le_mul_of_nonneg_left a hq.le, ?_⟩
      rw [div_eq_mul_one_div q c]
      exact mul_le_mul_of_nonneg_left (by rw [le_div_iff₀ h0]; exact b) hq.le
    · rintro ⟨a, b⟩
      refine ⟨v / q, by field_simp, ?_, ?_⟩
      · rw [le_div_iff₀ hq, mul_comm]; exact a
      · rw [div_mul_eq_mul_div, div_le_one hq]
        rw [le_div_iff₀ h0] at b
        exact b

/-- A number between two close ones, where the true value is between the true values. -/
theorem close_between {k : ℕ} {q q' v v' : ℝ} (hv : v ≤ v')
    (h' : Close k q' v) (h2 : q ≤ q') (h3 : Close k q v') : Close k q v := by
  rw [close_iff] at h' h3 ⊢
  refine ⟨?_, hv.trans h3.2⟩
  have h0 := keepk_pos k
  refine le_trans ?_ h'.1
  exact min_le_min (mul_le_mul_of_nonneg_right h2 h0.le) (div_le_div_of_nonneg_right h2 h0.le)

theorem near_close {k : ℕ} {q v : ℚ} (h : Near k q v) : Close k (q : ℝ) (v : ℝ) := by
  obtain ⟨ρ, h1, h2, h3⟩ := h
  have e : ((1 - roundoff : ℚ) : ℝ) = keep := by
    unfold roundoff keep; push_cast; rfl
  refine ⟨ρ, by rw [h1]; push_cast; rfl, ?_, ?_⟩
  · rw [← e]; exact_mod_cast h2
  · rw [← e]; exact_mod_cast h3

theorem keepk_low {k : ℕ} : 1 - k * (1 / 2 ^ 53) ≤ keep ^ k := by
  have := one_add_mul_le_pow (a := -(1 / 2 ^ 53 : ℝ)) (by norm_num) k
  have e : (1 : ℝ) + k * -(1 / 2 ^ 53) = 1 - k * (1 / 2 ^ 53) := by ring
  rw [e, ← sub_eq_add_neg] at this
  exact this

theorem keepk_half {k : ℕ} (hk : k ≤ 2 ^ 50) : (1 : ℝ) / 2 ≤ keep ^ k := by
  refine le_trans ?_ keepk_low
  have : (k : ℝ) ≤ 2 ^ 50 := by exact_mod_cast hk
  linarith

theorem close_factor {k : ℕ} {x y : ℝ} (h : Close k x y) (hk : k ≤ 2 ^ 50) :
    |x| * (1 / 2) ≤ |y| ∧ |y| ≤ |x| * 2 := by
  obtain ⟨ρ, h1, h2, h3⟩ := h
  have hh := keepk_half hk
  have r1 : (1 : ℝ) / 2 ≤ ρ := hh.trans h2
  have r0 : 0 < ρ := by linarith
  have r2 : ρ ≤ 2 := by
    have : ρ * (1 / 2) ≤ ρ * keep ^ k := mul_le_mul_of_nonneg_left hh r0.le
    linarith
  rw [h1, abs_mul, abs_of_pos r0]
  exact ⟨mul_le_mul_of_nonneg_left r1 (abs_nonneg _), mul_le_mul_of_nonneg_left r2 (abs_nonneg _)⟩

theorem close_range {k : ℕ} {x y : ℝ} (h : Close k x y) (hk : k ≤ 2 ^ 50) (hx : x ≠ 0)
    (hm : Middling x) : 1 / 2 ^ 1022 ≤ |y| ∧ |y| ≤ 2 ^ 1023 := by
  rcases hm with hm | ⟨m1, m2⟩
  · exact absurd hm hx
  obtain ⟨h1, h2⟩ := close_factor h hk
  constructor
  · refine le_trans ?_ h1
    calc (1 : ℝ) / 2 ^ 1022 ≤ 1 / 2 ^ 1000 * (1 / 2) := by norm_num
      _ ≤ |x| * (1 / 2) := by gcongr
  · refine le_trans h2 ?_
    calc |x| * 2 ≤ 2 ^ 1000 * 2 := by gcongr
      _ ≤ 2 ^ 1023 := by norm_num

theorem close_eq_zero {k : ℕ} {y : ℝ} (h : Close k 0 y) : y = 0 := by
  obtain ⟨ρ, h1, -, -⟩ := h
  rw [h1, zero_mul]

theorem close_ne_zero {k : ℕ} {x y : ℝ} (h : Close k x y) (hx : x ≠ 0) : y ≠ 0 := by
  obtain ⟨ρ, h1, h2, -⟩ := h
  rw [h1]
  exact mul_ne_zero hx ((keepk_pos k).trans_le h2).ne'

/-- A result of an operation, rounded. -/
theorem close_round {k : ℕ} {x : ℝ} {y : ℚ} {v : F64} (hr : RoundsTo y v) (h : Close k x y)
    (hk : k ≤ 2 ^ 50) (hm : Middling x) : CloseTo (k + 1) x v := by
  by_cases hx : x = 0
  · subst hx
    have hy : y = 0 := by exact_mod_cast close_eq_zero h
    subst hy
    exact ⟨0, value_of_rounds hr ⟨F64.f0, value_f0⟩, by
      rw [Rat.cast_zero]; exact (Close.refl 0).mono (Nat.zero_le _)⟩
  · obtain ⟨h1, h2⟩ := close_range h hk hx hm
    have e1 : ((1 / 2 ^ 1022 : ℚ) : ℝ) ≤ ((|y| : ℚ) : ℝ) := by push_cast; exact h1
    have e2 : ((|y| : ℚ) : ℝ) ≤ ((2 ^ 1023 : ℚ) : ℝ) := by push_cast; exact h2
    obtain ⟨r, h3, h4⟩ := round_within hr (Rat.cast_le.1 e1) (Rat.cast_le.1 e2)
    exact ⟨r, h3, h.trans (near_close h4)⟩

theorem Spec.CloseTo.mono {j k : ℕ} {q : ℝ} {x : F64} (h : CloseTo j q x) (hk : j ≤ k) : CloseTo k q x := by
  obtain ⟨r, h1, h2⟩ := h
  exact ⟨r, h1, h2.mono hk⟩

theorem closeTo_add {j : ℕ} {p q : ℝ} {x y : F64} (h : CloseTo j p x) (h' : CloseTo j q y)
    (hs : 0 ≤ p * q) (hj : j ≤ 2 ^ 50) (hm : Middling (p + q)) : CloseTo (j + 1) (p + q) (F64.add x y) := by
  obtain ⟨r, h1, h2⟩ := h
  obtain ⟨t, k1, k2⟩ := h'
  exact close_round (add_rounds h1 k1) (by push_cast; exact h2.add k2 hs) hj hm

theorem Spec.CloseTo.ne_nan {k : ℕ} {q : ℝ} {x : F64} (h : CloseTo k q x) : x ≠ .nan := by
  obtain ⟨r, h1, -⟩ := h
  exact ne_nan_of_value h1

theorem Spec.CloseTo.same {k : ℕ} {q : ℝ} {x y : F64} (h : CloseTo k q x) (hs : Same x y) : CloseTo k q y := by
  obtain ⟨r, h1, h2⟩ := h
  exact ⟨r, value_same h1 hs, h2⟩

theorem runsL_of {w : World} {m : HMap F64} : ∀ {es : List Elem} {ps : List (ℝ × ℕ)},
    es.length = ps.length →
    (∀ i (h : i < es.length) (h' : i < ps.length), ∃ v, Runs w m es[i] v ∧ CloseTo ps[i].2 ps[i].1 v) →
    ∃ vs, RunsL w m es vs ∧ List.Forall₂ (fun p v => CloseTo p.2 p.1 v) ps vs
  | [], [], _, _ => ⟨[], .nil, .nil⟩
  | e :: es, p :: ps, hl, h => by
    obtain ⟨v, h1, h2⟩ := h 0 (by simp) (by simp)
    obtain ⟨vs, h3, h4⟩ := runsL_of (es := es) (ps := ps) (by simpa using hl)
      (fun i hi hi' => h (i + 1) (by simpa using hi) (by simpa using hi'))
    exact ⟨v :: vs, .cons h1 h3, .cons h2 h4⟩

/-- Trees that track real numbers take no doubtful step and end close to the number. -/
theorem tracks_runs {w : World} {m : HMap F64} {e : Elem} {q : ℝ} {k : ℕ} (h : Tracks w m e q k) :
    k ≤ 2 ^ 50 → ∃ v, Runs w m e v ∧ CloseTo k q v := by
  induction h with
  | num h => exact fun _ => ⟨_, .num, h⟩
  | var h1 h2 => exact fun _ => ⟨_, .var h1, h2⟩
  | pos _ ih =>
    intro hk
    obtain ⟨v, h1, h2⟩ := ih hk
    exact ⟨v, .un h1 .plus, h2⟩
  | neg _ ih =>
    intro hk
    obtain ⟨v, h1, r, h2, h3⟩ := ih hk
    exact ⟨_, .un h1 .minus, _, neg_value h2, by push_cast; exact h3.neg⟩
  | @plus _ _ _ _ j k _ _ hs hm ih1 ih2 =>
    intro hk
    obtain ⟨v, h1, h2⟩ := ih1 (by omega)
    obtain ⟨u, k1, k2⟩ := ih2 (by omega)
    have hx := closeTo_add (h2.mono (le_max_left j k)) (k2.mono (le_max_right j k)) hs (by omega) hm
    exact ⟨_, .bin h1 k1 (.plus hx.ne_nan), hx⟩
  | @minus _ _ p q j k _ _ hs hm ih1 ih2 =>
    intro hk
    obtain ⟨v, h1, r, h2, h3⟩ := ih1 (by omega)
    obtain ⟨u, k1, t, k2, k3⟩ := ih2 (by omega)
    have hw := (h3.mono (le_max_left j k)).add (k3.mono (le_max_right j k)).neg (by linarith)
    rw [← sub_eq_add_neg, ← sub_eq_add_neg] at hw
    have hx := close_round (sub_rounds h2 k2) (by push_cast; exact hw) (by omega) hm
    exact ⟨_, .bin h1 k1 (.minus hx.ne_nan), hx⟩
  | times _ _ hm ih1 ih2 =>
    intro hk
    obtain ⟨v, h1, r, h2, h3⟩ := ih1 (by omega)
    obtain ⟨u, k1, t, k2, k3⟩ := ih2 (by omega)
    have hx := close_round (mul_rounds h2 k2) (by push_cast; exact h3.mul k3) (by omega) hm
    exact ⟨_, .bin h1 k1 (.times hx.ne_nan), hx⟩
  | divide _ _ hq hm ih1 ih2 =>
    intro hk
    obtain ⟨v, h1, r, h2, h3⟩ := ih1 (by omega)
    obtain ⟨u, k1, t, k2, k3⟩ := ih2 (by omega)
    have ht : t ≠ 0 := by
      have := close_ne_zero k3 hq
      exact_mod_cast this
    have hx := close_round (div_rounds h2 k2 ht) (by push_cast; exact h3.div k3) (by omega) hm
    exact ⟨_, .bin h1 k1 (.divide hx.ne_nan (not_zero_of_value k2 ht)), hx⟩
  | call hl hj _ ha ih =>
    intro hk
    obtain ⟨vs, h1, h2⟩ := runsL_of hl (fun i h h' => ih i h h' (hj _ (List.getElem_mem h')))
    obtain ⟨v, h3, h4⟩ := ha vs h2
    exact ⟨v, .call h1 h3, h4⟩

/-- The relative error. -/
theorem close_error {k : ℕ} {q r : ℝ} (h : Close k q r) (hk : k ≤ 2 ^ 50) :
    |r - q| ≤ |q| * (k / 2 ^ 52) := by
  obtain ⟨ρ, rfl, h2, h3⟩ := h
  have e : q * ρ - q = q * (ρ - 1) := by ring
  rw [e, abs_mul]
  refine mul_le_mul_of_nonneg_left ?_ (abs_nonneg _)
  have hl := keepk_low (k := k)
  have hh := keepk_half hk
  have r0 : 0 < ρ := (keepk_pos k).trans_le h2
  have hku : (k : ℝ) * (1 / 2 ^ 53) = k / 2 ^ 53 := by ring
  have hk0 : (0 : ℝ) ≤ k := by positivity
  have r2 : ρ ≤ 2 := by
    have : ρ * (1 / 2) ≤ ρ * keep ^ k := mul_le_mul_of_nonneg_left hh r0.le
    linarith
  have hk2 : (k : ℝ) / 2 ^ 52 = 2 * (k / 2 ^ 53) := by ring
  rw [hk2, abs_le]
  constructor
  · have : 1 - (k : ℝ) / 2 ^ 53 ≤ ρ := by rw [← hku]; exact hl.trans h2
    have : (0 : ℝ) ≤ k / 2 ^ 53 := div_nonneg hk0 (by norm_num)
    linarith
  · have h5 : ρ * (1 - k / 2 ^ 53) ≤ 1 := by
      refine le_trans ?_ h3
      rw [← hku]
      exact mul_le_mul_of_nonneg_left hl r0.le
    have h6 : ρ * (k / 2 ^ 53) ≤ 2 * (k / 2 ^ 53) := mul_le_mul_of_nonneg_right r2 (div_nonneg hk0 (by norm_num))
    linarith

theorem sameL_forall {ps : List (ℝ × ℕ)} {vs us : List F64}
    (h : List.Forall₂ (fun p v => CloseTo p.2 p.1 v) ps vs) (hs : SameL vs us) :
    List.Forall₂ (fun p v => CloseTo p.2 p.1 v) ps us := by
  induction hs generalizing ps with
  | nil => exact h
  | cons h1 _ ih =>
    cases h with
    | cons h3 h4 => exact .cons (h3.same h1) (ih h4)

/-! ### The functions -/

theorem abs_same {a b : F64} (h : Same a b) : Same (F64.abs a) (F64.abs b) := by
  rcases h with rfl | ⟨⟨s, rfl⟩, ⟨t, rfl⟩⟩
  · exact .refl _
  · exact .refl _

theorem foldl_add_same {vs us : List F64} (h : SameL vs us) : ∀ {a b : F64}, Same a b →
    Same (vs.foldl F64.add a) (us.foldl F64.add b) := by
  induction h with
  | nil => exact fun h => h
  | cons h1 _ ih => exact fun h => ih (add_congr h h1)

theorem middling_part {σ a p t : ℝ} (hσ : σ = 1 ∨ σ = -1) (ha : Middling a) (hp : Middling p)
    (ha0 : 0 ≤ σ * a) (hp0 : 0 ≤ σ * p) (ht0 : 0 ≤ σ * t) (ht : σ * (a + p + t) ≤ 2 ^ 1000) :
    Middling (a + p) := by
  have e : ∀ x : ℝ, |σ * x| = |x| := by
    intro x
    rcases hσ with rfl | rfl
    · rw [one_mul]
    · rw [neg_one_mul, abs_neg]
  have hs : |a + p| = σ * a + σ * p := by
    rw [← e, mul_add, abs_of_nonneg (by linarith)]
  have h2 : |a + p| ≤ 2 ^ 1000 := by rw [hs]; linarith
  rcases hp with hp | ⟨hp, -⟩
  · subst hp
    rw [add_zero]; exact ha
  · refine .inr ⟨?_, h2⟩
    rw [hs]
    rw [← e, abs_of_nonneg hp0] at hp
    linarith

theorem sum_close {σ : ℝ} (hσ : σ = 1 ∨ σ = -1) {ps : List (ℝ × ℕ)} {vs : List F64}
    (h : List.Forall₂ (fun p v => CloseTo p.2 p.1 v) ps vs) : ∀ {j : ℕ} {a : ℝ} {acc : F64},
    CloseTo j a acc → Middling a → 0 ≤ σ * a → (∀ p ∈ ps, p.2 ≤ j ∧ Middling p.1 ∧ 0 ≤ σ * p.1) →
    j + ps.length ≤ 2 ^ 50 → σ * (a + (ps.map Prod.fst).sum) ≤ 2 ^ 1000 →
    CloseTo (j + ps.length) (a + (ps.map Prod.fst).sum) (vs.foldl F64.add acc) := by
  induction h with
  | nil => intro j a acc h _ _ _ _ _; simpa using h
  | @cons p v ps vs hp _ ih =>
    intro j a acc h hm ha hps hj ht
    obtain ⟨p1, p2, p3⟩ := hps p List.mem_cons_self
    rw [List.map_cons, List.sum_cons, ← add_assoc] at ht ⊢
    rw [List.length_cons] at hj ⊢
    have ht0 : 0 ≤ σ * (ps.map Prod.fst).sum := by
      have : ∀ l : List (ℝ × ℕ), (∀ p ∈ l, 0 ≤ σ * p.1) → 0 ≤ σ * (l.map Prod.fst).sum := by
        intro l
        induction l with
        | nil => simp
        | cons x l ih =>
          intro h
          rw [List.map_cons, List.sum_cons, mul_add]
          exact add_nonneg (h x List.mem_cons_self) (ih fun p hp => h p (List.mem_cons_of_mem _ hp))
      exact this ps fun p hp => (hps p (List.mem_cons_of_mem _ hp)).2.2
    have hm' := middling_part hσ hm p2 ha p3 ht0 ht
    have hs : 0 ≤ a * p.1 := by
      have : a * p.1 = (σ * a) * (σ * p.1) := by
        rcases hσ with rfl | rfl <;> ring
      rw [this]
      exact mul_nonneg ha p3
    have hx := closeTo_add h (hp.mono p1) hs (by omega) hm'
    have := ih (j := j + 1) hx hm' (by rw [mul_add]; linarith)
      (fun p hp => ⟨(hps p (List.mem_cons_of_mem _ hp)).1.trans (by omega),
        (hps p (List.mem_cons_of_mem _ hp)).2⟩) (by omega) ht
    rw [List.foldl_cons, show j + (ps.length + 1) = j + 1 + ps.length by omega]
    exact this

theorem closeTo_zero (j : ℕ) (s : Bool) : CloseTo j 0 (F64.zero s) :=
  ⟨0, value_zero s, by rw [Rat.cast_zero]; exact (Close.refl 0).mono (Nat.zero_le _)⟩

/-! ### Roundings of real numbers -/

/-- From `2⁵²` units on some number of the grid is near. -/
theorem grid_near_real {t : ℝ} (h : 2 ^ 52 ≤ t) : ∃ g : ℕ, Grid g ∧ |(g : ℝ) - t| ≤ t / 2 ^ 53 := by
  have ht : 0 ≤ t := le_trans (by norm_num) h
  have hA : 2 ^ 52 ≤ ⌊t⌋₊ := Nat.le_floor (by exact_mod_cast h)
  obtain ⟨k, hk1, hk2⟩ : ∃ k, 2 ^ 52 * 2 ^ k ≤ ⌊t⌋₊ ∧ ⌊t⌋₊ + 1 ≤ 2 ^ 53 * 2 ^ k := by
    have h0 : ⌊t⌋₊ ≠ 0 := by omega
    refine ⟨Nat.log2 ⌊t⌋₊ - 52, ?_, ?_⟩
    · rw [← Nat.pow_add]
      have h1 : 52 ≤ Nat.log2 ⌊t⌋₊ := (Nat.le_log2 h0).2 hA
      rw [Nat.add_sub_cancel' h1]
      exact Nat.log2_self_le h0
    · rw [← Nat.pow_add]
      exact lt_of_lt_of_le Nat.lt_log2_self (Nat.pow_le_pow_right (by decide) (by omega))
  have l1 : (2 : ℝ) ^ 52 * 2 ^ k ≤ t := by
    have : ((2 ^ 52 * 2 ^ k : ℕ) : ℝ) ≤ (⌊t⌋₊ : ℝ) := by exact_mod_cast hk1
    rw [Nat.cast_mul, Nat.cast_pow, Nat.cast_pow, Nat.cast_ofNat] at this
    exact this.trans (Nat.floor_le ht)
  have l2 : t < 2 ^ 53 * 2 ^ k := by
    have : ((⌊t⌋₊ + 1 : ℕ) : ℝ) ≤ ((2 ^ 53 * 2 ^ k : ℕ) : ℝ) := by exact_mod_cast hk2
    rw [Nat.cast_mul, Nat.cast_pow, Nat.cast_pow, Nat.cast_ofNat, Nat.cast_add, Nat.cast_one] at this
    exact lt_of_lt_of_le (Nat.lt_floor_add_one t) this
  have hP : (0 : ℝ) < 2 ^ k := by positivity
  have hx : 0 ≤ t / 2 ^ k + 1 / 2 := by positivity
  have f1 := Nat.floor_le hx
  have f2 := Nat.lt_floor_add_one (t / 2 ^ k + 1 / 2)
  have hle : ⌊t / 2 ^ k + 1 / 2⌋₊ ≤ 2 ^ 53 := by
    have : t / 2 ^ k < 2 ^ 53 := by rw [div_lt_iff₀ hP]; exact l2
    have h3 : ⌊t / 2 ^ k + 1 / 2⌋₊ < 2 ^ 53 + 1 := by
      rw [Nat.floor_lt hx]; push_cast; linarith
    omega
  generalize ⌊t / 2 ^ k + 1 / 2⌋₊ = q at *
  refine ⟨q * 2 ^ k, ?_, ?_⟩
  · by_cases hq : q < 2 ^ 53
    · exact ⟨q, k, hq, rfl⟩
    · have : q = 2 ^ 53 := by omega
      exact ⟨2 ^ 52, k + 1, by decide, by rw [this]; ring⟩
  · have e : t = t / 2 ^ k * 2 ^ k := by field_simp
    have hb : |(q : ℝ) - t / 2 ^ k| ≤ 1 / 2 := by rw [abs_le]; constructor <;> linarith
    have : |((q * 2 ^ k : ℕ) : ℝ) - t| = |(q : ℝ) - t / 2 ^ k| * 2 ^ k := by
      push_cast
      rw [← abs_of_pos hP, ← abs_mul, sub_mul, abs_of_pos hP, ← e]
    rw [this, le_div_iff₀ (by positivity)]
    calc |(q : ℝ) - t / 2 ^ k| * 2 ^ k * 2 ^ 53 ≤ 1 / 2 * 2 ^ k * 2 ^ 53 := by gcongr
      _ = 2 ^ 52 * 2 ^ k := by ring
      _ ≤ t := l1

theorem nearestReal_close {t : ℝ} {n : ℕ} (h : NearestReal t n) (ht : 2 ^ 52 ≤ t) : Close 1 t n := by
  obtain ⟨g, hg, hd⟩ := grid_near_real ht
  have h0 : (0 : ℝ) < t := lt_of_lt_of_le (by norm_num) ht
  have h1 := (h.closest g hg).trans hd
  rw [abs_le] at h1
  refine ⟨n / t, by field_simp, ?_, ?_⟩
  · rw [le_div_iff₀ h0, pow_one, keep]
    linarith [h1.1]
  · have h5 : (n : ℝ) / t ≤ 1 + 1 / 2 ^ 53 := by
      rw [div_le_iff₀ h0]
      linarith [h1.2]
    rw [pow_one, keep]
    calc (n : ℝ) / t * (1 - 1 / 2 ^ 53) ≤ (1 + 1 / 2 ^ 53) * (1 - 1 / 2 ^ 53) := by gcongr
      _ ≤ 1 := by norm_num

theorem grid_gap {M k m : ℕ} (h1 : 2 ^ 52 < M) (hm : Grid m) (hne : m ≠ M * 2 ^ k) :
    m + 2 ^ k ≤ M * 2 ^ k ∨ M * 2 ^ k + 2 ^ k ≤ m := by
  have hP : 0 < 2 ^ k := by positivity
  by_cases hlo : m < 2 ^ 52 * 2 ^ k
  · left
    have : (2 ^ 52 + 1) * 2 ^ k ≤ M * 2 ^ k := Nat.mul_le_mul_right _ h1
    rw [Nat.add_mul, Nat.one_mul] at this
    omega
  · obtain ⟨c, rfl⟩ : ∃ c, m = c * 2 ^ k := by
      obtain ⟨a, b, ha, rfl⟩ := hm
      have hb : k ≤ b := by
        by_contra hc
        have h3 : 2 ^ b * 2 ≤ 2 ^ k := by
          rw [← Nat.pow_succ]
          exact Nat.pow_le_pow_right (by decide) (by omega)
        have h4 : 0 < 2 ^ b := by positivity
        have h5 : a * 2 ^ b < 2 ^ 53 * 2 ^ b := Nat.mul_lt_mul_of_pos_right ha h4
        have h6 : 2 ^ 52 * (2 ^ b * 2) ≤ 2 ^ 52 * 2 ^ k := Nat.mul_le_mul_left _ h3
        generalize a * 2 ^ b = x at *
        generalize 2 ^ 52 * 2 ^ k = y at *
        omega
      refine ⟨a * 2 ^ (b - k), ?_⟩
      rw [Nat.mul_assoc, ← Nat.pow_add, Nat.sub_add_cancel hb]
    rcases Nat.lt_trichotomy c M with h | h | h
    · left
      have := Nat.mul_le_mul_right (2 ^ k) (show c + 1 ≤ M from h)
      rw [Nat.add_mul, Nat.one_mul] at this
      exact this
    · exact absurd (by rw [h]) hne
    · right
      have := Nat.mul_le_mul_right (2 ^ k) (show M + 1 ≤ c from h)
      rw [Nat.add_mul, Nat.one_mul] at this
      exact this

/-- What is less than half a gap away is the nearest. -/
theorem nearestReal_of {t : ℝ} {M k : ℕ} (h1 : 2 ^ 52 < M) (h2 : M < 2 ^ 53)
    (h : |((M * 2 ^ k : ℕ) : ℝ) - t| < 2 ^ k / 2) : NearestReal t (M * 2 ^ k) := by
  have key : ∀ m : ℕ, Grid m → m ≠ M * 2 ^ k → |((M * 2 ^ k : ℕ) : ℝ) - t| < |(m : ℝ) - t| := by
    intro m hm hne
    rw [abs_lt] at h
    have hP : (0 : ℝ) < 2 ^ k := by positivity
    rcases grid_gap h1 hm hne with hc | hc
    · have hc' : (m : ℝ) + 2 ^ k ≤ ((M * 2 ^ k : ℕ) : ℝ) := by exact_mod_cast hc
      have : |(m : ℝ) - t| = t - m := by rw [abs_sub_comm, abs_of_nonneg]; linarith [h.1, h.2]
      rw [this, abs_lt]; constructor <;> linarith [h.1, h.2]
    · have hc' : ((M * 2 ^ k : ℕ) : ℝ) + 2 ^ k ≤ (m : ℝ) := by exact_mod_cast hc
      have : |(m : ℝ) - t| = m - t := abs_of_nonneg (by linarith [h.1, h.2])
      rw [this, abs_lt]; constructor <;> linarith [h.1, h.2]
  refine ⟨⟨M, k, h2, rfl⟩, fun m hm => ?_, fun m hm hne he => ?_⟩
  · by_cases hne : m = M * 2 ^ k
    · rw [hne]
    · exact (key m hm hne).le
  · exact absurd he (key m hm hne).ne'

end Xprs
