import Verif.Spec.Steady
import Verif.Lemmas.Accuracy
import Verif.Lemmas.Terms
/-
Absolute errors against real numbers (for C111).
-/
namespace Xprs
open Spec
set_option exponentiation.threshold 4096

theorem keepk_le_one (k : ℕ) : keep ^ k ≤ 1 := pow_le_one₀ keep_gt.le keep_lt

theorem growth_ge_one (k : ℕ) : 1 ≤ growth k := one_le_inv₀ (keepk_pos k) |>.2 (keepk_le_one k)

theorem growth_add (j k : ℕ) : growth (j + k) = growth j * growth k := by
  unfold growth; rw [pow_add, mul_inv]

theorem growth_mono {j k : ℕ} (h : j ≤ k) : growth j ≤ growth k := by
  obtain ⟨d, rfl⟩ := Nat.exists_eq_add_of_le h
  rw [growth_add]
  exact le_mul_of_one_le_right (zero_le_one.trans (growth_ge_one j)) (growth_ge_one d)

theorem growth_cast (k : ℕ) : ((grow k : ℚ) : ℝ) = growth k := by
  have e : ((1 - roundoff : ℚ) : ℝ) = keep := by
    unfold roundoff keep; push_cast; rfl
  unfold grow growth
  rw [Rat.cast_inv, Rat.cast_pow, e]

theorem growth_le {k : ℕ} (hk : k ≤ 2 ^ 50) : growth k - 1 ≤ k / 2 ^ 52 := by
  have := (Rat.cast_le (K := ℝ)).2 (grow_le hk)
  rw [← growth_cast]
  push_cast at this
  exact this

theorem growth_two {k : ℕ} (hk : k ≤ 2 ^ 50) : growth k ≤ 2 := by
  have := grow_two hk
  rw [← growth_cast]
  exact_mod_cast this

theorem Spec.OffBy.nonneg {k : ℕ} {Q q r : ℝ} (h : OffBy k Q q r) : 0 ≤ Q := (abs_nonneg q).trans h.1

theorem Spec.OffBy.le {k : ℕ} {Q q r : ℝ} (h : OffBy k Q q r) : |r| ≤ Q * growth k := by
  have : r = q + (r - q) := by ring
  rw [this]
  refine (abs_add_le _ _).trans ?_
  have := h.1; have := h.2
  linarith

theorem Spec.OffBy.mono {j k : ℕ} {Q q r : ℝ} (h : OffBy j Q q r) (hk : j ≤ k) : OffBy k Q q r :=
  ⟨h.1, h.2.trans (mul_le_mul_of_nonneg_left (by have := growth_mono hk; linarith) h.nonneg)⟩

theorem Spec.OffBy.widen {k : ℕ} {P Q q r : ℝ} (h : OffBy k P q r) (hQ : P ≤ Q) : OffBy k Q q r :=
  ⟨h.1.trans hQ, h.2.trans (mul_le_mul_of_nonneg_right hQ (by have := growth_ge_one k; linarith))⟩

theorem Spec.OffBy.neg {k : ℕ} {Q q r : ℝ} (h : OffBy k Q q r) : OffBy k Q (-q) (-r) := by
  refine ⟨by rw [abs_neg]; exact h.1, ?_⟩
  rw [show -r - -q = -(r - q) by ring, abs_neg]; exact h.2

theorem Spec.OffBy.abs {k : ℕ} {Q q r : ℝ} (h : OffBy k Q q r) : OffBy k Q |q| |r| :=
  ⟨by rw [abs_abs]; exact h.1, (abs_abs_sub_abs_le _ _).trans h.2⟩

theorem Spec.OffBy.add {k : ℕ} {P Q p q r t : ℝ} (h : OffBy k P p r) (h' : OffBy k Q q t) :
    OffBy k (P + Q) (p + q) (r + t) := by
  refine ⟨(abs_add_le _ _).trans (add_le_add h.1 h'.1), ?_⟩
  rw [show r + t - (p + q) = (r - p) + (t - q) by ring, add_mul]
  exact (abs_add_le _ _).trans (add_le_add h.2 h'.2)

theorem Spec.OffBy.mul {j k : ℕ} {P Q p q r t : ℝ} (h : OffBy j P p r) (h' : OffBy k Q q t) :
    OffBy (j + k) (P * Q) (p * q) (r * t) := by
  constructor
  · rw [abs_mul]; exact mul_le_mul h.1 h'.1 (abs_nonneg _) h.nonneg
  · rw [show r * t - p * q = r * (t - q) + (r - p) * q by ring]
    refine (abs_add_le _ _).trans ?_
    rw [abs_mul, abs_mul]
    have hj := growth_ge_one j
    have a1 : |r| * |t - q| ≤ P * growth j * (Q * (growth k - 1)) :=
      mul_le_mul h.le h'.2 (abs_nonneg _) (mul_nonneg h.nonneg (by linarith))
    have a2 : |r - p| * |q| ≤ P * (growth j - 1) * Q :=
      mul_le_mul h.2 h'.1 (abs_nonneg _) (mul_nonneg h.nonneg (by linarith))
    rw [growth_add]
    nlinarith

/-- A relative error is one against the absolute value. -/
theorem Spec.Close.off {k : ℕ} {q r : ℝ} (h : Close k q r) : OffBy k |q| q r := by
  obtain ⟨ρ, rfl, h2, h3⟩ := h
  refine ⟨le_rfl, ?_⟩
  rw [show q * ρ - q = q * (ρ - 1) by ring, abs_mul]
  refine mul_le_mul_of_nonneg_left ?_ (abs_nonneg _)
  have hp := keepk_pos k
  have h4 : ρ ≤ growth k := by
    unfold growth
    rw [← one_div, le_div_iff₀ hp]; exact h3
  have h5 : growth k * keep ^ k = 1 := by unfold growth; field_simp
  have h6 := growth_ge_one k
  rw [abs_le]
  constructor
  · have : 0 ≤ (growth k - 1) * (1 - keep ^ k) :=
      mul_nonneg (by linarith) (by have := keepk_le_one k; linarith)
    nlinarith
  · linarith

/-- A result of an operation, rounded. -/
theorem Spec.OffBy.round {k : ℕ} {Q q : ℝ} {y : ℚ} {v : F64} (hr : RoundsTo y v) (h : OffBy k Q q y)
    (hk : k ≤ 2 ^ 50) (hm : Middling Q) : OffTo (k + 1) Q q v := by
  have hy := h.le
  have h0 := h.nonneg
  rcases hm with hm | ⟨m1, m2⟩
  · subst hm
    have hy0 : (y : ℝ) = 0 := by rw [zero_mul] at hy; exact abs_eq_zero.1 (le_antisymm hy (abs_nonneg _))
    have hy0 : y = 0 := by exact_mod_cast hy0
    subst hy0
    exact ⟨0, value_of_rounds hr ⟨F64.f0, value_f0⟩, h.mono (by omega)⟩
  · rw [abs_of_nonneg h0] at m1 m2
    have hg2 := growth_two hk
    have hg1 := growth_ge_one k
    have hy2 : |(y : ℝ)| ≤ 2 ^ 1023 := by
      refine hy.trans ((mul_le_mul m2 hg2 (by linarith) (by positivity)).trans (by norm_num))
    obtain ⟨r, h1, h2⟩ := round_abs hr (by exact_mod_cast hy2)
    refine ⟨r, h1, h.1, ?_⟩
    have hu0 : (0 : ℝ) < 1 / 2 ^ 53 := by norm_num
    have hu := keep_gt
    have ek : keep = 1 - 1 / 2 ^ 53 := rfl
    have h2 : |(r : ℝ) - y| * keep ≤ max (|(y : ℝ)| * (1 / 2 ^ 53)) (1 / 2 ^ 1074) := by
      have := (Rat.cast_le (K := ℝ)).2 h2
      rw [ek]
      unfold roundoff at this
      push_cast at this
      exact this
    have h3 : |(r : ℝ) - y| * keep ≤ Q * growth k * (1 / 2 ^ 53) := by
      refine h2.trans (max_le (mul_le_mul_of_nonneg_right hy hu0.le) ?_)
      calc (1 : ℝ) / 2 ^ 1074 ≤ 1 / 2 ^ 1000 * 1 * (1 / 2 ^ 53) := by norm_num
        _ ≤ Q * growth k * (1 / 2 ^ 53) := by gcongr
    have h4 : growth (k + 1) * keep = growth k := by
      have : keep ≠ 0 := hu.ne'
      unfold growth
      rw [pow_succ, mul_inv]
      field_simp
    rw [show (r : ℝ) - q = (r - y) + (y - q) by ring]
    refine (abs_add_le _ _).trans ?_
    refine le_of_mul_le_mul_right (a := keep) ?_ hu
    have h5 := mul_le_mul_of_nonneg_right h.2 hu.le
    have e : Q * (growth (k + 1) - 1) * keep = Q * growth k - Q * keep := by
      rw [← h4]; ring
    rw [add_mul, e]
    rw [ek] at *
    nlinarith

theorem Spec.OffTo.mono {j k : ℕ} {Q q : ℝ} {x : F64} (h : OffTo j Q q x) (hk : j ≤ k) : OffTo k Q q x := by
  obtain ⟨r, h1, h2⟩ := h
  exact ⟨r, h1, h2.mono hk⟩

theorem Spec.OffTo.widen {k : ℕ} {P Q q : ℝ} {x : F64} (h : OffTo k P q x) (hQ : P ≤ Q) : OffTo k Q q x := by
  obtain ⟨r, h1, h2⟩ := h
  exact ⟨r, h1, h2.widen hQ⟩

theorem Spec.OffTo.ne_nan {k : ℕ} {Q q : ℝ} {x : F64} (h : OffTo k Q q x) : x ≠ .nan := by
  obtain ⟨r, h1, -⟩ := h
  exact ne_nan_of_value h1

theorem offTo_add {j : ℕ} {P Q p q : ℝ} {x y : F64} (h : OffTo j P p x) (h' : OffTo j Q q y)
    (hj : j ≤ 2 ^ 50) (hm : Middling (P + Q)) : OffTo (j + 1) (P + Q) (p + q) (F64.add x y) := by
  obtain ⟨r, h1, h2⟩ := h
  obtain ⟨t, k1, k2⟩ := h'
  exact (by push_cast; exact h2.add k2 : OffBy j (P + Q) (p + q) ((r + t : ℚ) : ℝ)).round (add_rounds h1 k1) hj hm

theorem runsL_known {w : World} {m : HMap F64} : ∀ {es : List Elem} {ps : List Estimate},
    es.length = ps.length →
    (∀ i (h : i < es.length) (h' : i < ps.length), ∃ v, Runs w m es[i] v ∧ OffTo ps[i].steps ps[i].size ps[i].val v) →
    ∃ vs, RunsL w m es vs ∧ List.Forall₂ (fun p v => OffTo p.steps p.size p.val v) ps vs
  | [], [], _, _ => ⟨[], .nil, .nil⟩
  | e :: es, p :: ps, hl, h => by
    obtain ⟨v, h1, h2⟩ := h 0 (by simp) (by simp)
    obtain ⟨vs, h3, h4⟩ := runsL_known (es := es) (ps := ps) (by simpa using hl)
      fun i hi hi' => h (i + 1) (by simpa using hi) (by simpa using hi')
    exact ⟨v :: vs, .cons h1 h3, .cons h2 h4⟩

/-- Such trees take no doubtful step, and are evaluated with a small error. -/
theorem cancels_runs {w : World} {m : HMap F64} {e : Elem} {q Q : ℝ} {k : ℕ} (h : Cancels w m e q Q k) :
    k ≤ 2 ^ 50 → ∃ v, Runs w m e v ∧ OffTo k Q q v := by
  induction h with
  | num h => exact fun _ => ⟨_, .num, h⟩
  | var h1 h2 => exact fun _ => ⟨_, .var h1, h2⟩
  | exact h =>
    intro hk
    obtain ⟨v, h1, r, h2, h3⟩ := tracks_runs h hk
    exact ⟨v, h1, r, h2, h3.off⟩
  | pos _ ih =>
    intro hk
    obtain ⟨v, h1, h2⟩ := ih hk
    exact ⟨v, .un h1 .plus, h2⟩
  | neg _ ih =>
    intro hk
    obtain ⟨v, h1, r, h2, h3⟩ := ih hk
    exact ⟨_, .un h1 .minus, -r, neg_value h2, by push_cast; exact h3.neg⟩
  | @plus _ _ _ _ _ _ j k _ _ hm ih1 ih2 =>
    intro hk
    obtain ⟨v, h1, h2⟩ := ih1 (by omega)
    obtain ⟨u, k1, k2⟩ := ih2 (by omega)
    have hx := offTo_add (h2.mono (le_max_left j k)) (k2.mono (le_max_right j k)) (by omega) hm
    exact ⟨_, .bin h1 k1 (.plus hx.ne_nan), hx⟩
  | @minus _ _ p P q Q j k _ _ hm ih1 ih2 =>
    intro hk
    obtain ⟨v, h1, r, h2, h3⟩ := ih1 (by omega)
    obtain ⟨u, k1, t, k2, k3⟩ := ih2 (by omega)
    have hw := (h3.mono (le_max_left j k)).add (k3.mono (le_max_right j k)).neg
    rw [← sub_eq_add_neg, ← sub_eq_add_neg] at hw
    have hx := (by push_cast; exact hw : OffBy (max j k) (P + Q) (p - q) ((r - t : ℚ) : ℝ)).round
      (sub_rounds h2 k2) (by omega) hm
    exact ⟨_, .bin h1 k1 (.minus hx.ne_nan), hx⟩
  | @times _ _ p P q Q j k _ _ hm ih1 ih2 =>
    intro hk
    obtain ⟨v, h1, r, h2, h3⟩ := ih1 (by omega)
    obtain ⟨u, k1, t, k2, k3⟩ := ih2 (by omega)
    have hx := (by push_cast; exact h3.mul k3 : OffBy (j + k) (P * Q) (p * q) ((r * t : ℚ) : ℝ)).round
      (mul_rounds h2 k2) (by omega) hm
    exact ⟨_, .bin h1 k1 (.times hx.ne_nan), hx⟩
  | @divide _ _ p P q j k _ ha hq hm ih =>
    intro hk
    obtain ⟨v, h1, r, h2, h3⟩ := ih (by omega)
    obtain ⟨u, k1, t, k2, k3⟩ := tracks_runs (w := w) ha (by omega)
    have ht : t ≠ 0 := by
      have := close_ne_zero k3 hq
      exact_mod_cast this
    have hd := h3.mul k3.inv.off
    rw [← div_eq_mul_inv, ← div_eq_mul_inv, abs_inv, ← div_eq_mul_inv] at hd
    have hx := (by push_cast; exact hd : OffBy (j + k) (P / |q|) (p / q) ((r / t : ℚ) : ℝ)).round
      (div_rounds h2 k2 ht) (by omega) hm
    exact ⟨_, .bin h1 k1 (.divide hx.ne_nan (not_zero_of_value k2 ht)), hx⟩
  | @call f es q Q k ps hl hps _ hs ih =>
    intro hk
    obtain ⟨vs, h1, h2⟩ := runsL_known hl fun i h h' => ih i h h' (hps _ (List.getElem_mem h'))
    obtain ⟨v, h3, h4⟩ := hs vs h2
    exact ⟨v, .call h1 h3, h4⟩

theorem off_by_error {k : ℕ} {Q q r : ℝ} (h : OffBy k Q q r) (hk : k ≤ 2 ^ 50) : |r - q| ≤ Q * (k / 2 ^ 52) :=
  h.2.trans (mul_le_mul_of_nonneg_left (growth_le hk) h.nonneg)

/-- The sum of a list, with the terms cancelling or not. -/
theorem sum_off {ps : List Estimate} {vs : List F64}
    (h : List.Forall₂ (fun p v => OffTo p.steps p.size p.val v) ps vs) : ∀ {j : ℕ} {a A : ℝ} {acc : F64},
    OffTo j A a acc → Middling A → (∀ p ∈ ps, p.steps ≤ j ∧ Middling p.size) →
    j + ps.length ≤ 2 ^ 50 → A + (ps.map Estimate.size).sum ≤ 2 ^ 1000 →
    OffTo (j + ps.length) (A + (ps.map Estimate.size).sum) (a + (ps.map Estimate.val).sum) (vs.foldl F64.add acc) := by
  induction h with
  | nil => intro j a A acc h _ _ _ _; simpa using h
  | @cons p v ps vs hp hall ih =>
    intro j a A acc h hm hps hj ht
    obtain ⟨p1, p2⟩ := hps p List.mem_cons_self
    rw [List.map_cons, List.sum_cons, ← add_assoc] at ht ⊢
    rw [List.map_cons, List.sum_cons, ← add_assoc]
    rw [List.length_cons] at hj ⊢
    have hA0 : 0 ≤ A := by obtain ⟨r, -, h⟩ := h; exact h.nonneg
    have hp0 : 0 ≤ p.size := by obtain ⟨r, -, h⟩ := hp; exact h.nonneg
    have ht0 : 0 ≤ (ps.map Estimate.size).sum := by
      clear ih ht hps hj
      induction hall with
      | nil => simp
      | cons h _ ih =>
        rw [List.map_cons, List.sum_cons]
        obtain ⟨r, -, h⟩ := h
        exact add_nonneg h.nonneg ih
    have hm' : Middling (A + p.size) := by
      rcases p2 with p2 | ⟨p2, -⟩
      · rw [p2, add_zero]; exact hm
      · refine .inr ⟨?_, ?_⟩
        · rw [abs_of_nonneg hp0] at p2
          rw [abs_of_nonneg (by linarith)]
          linarith
        · rw [abs_of_nonneg (by linarith)]
          linarith
    have hx := offTo_add h (hp.mono p1) (by omega) hm'
    have := ih (j := j + 1) hx hm' (fun p hp => ⟨(hps p (List.mem_cons_of_mem _ hp)).1.trans (by omega),
        (hps p (List.mem_cons_of_mem _ hp)).2⟩) (by omega) ht
    rw [List.foldl_cons, show j + (ps.length + 1) = j + 1 + ps.length by omega]
    exact this

theorem offTo_zero (j : ℕ) (s : Bool) : OffTo j 0 0 (F64.zero s) :=
  ⟨0, value_zero s, by rw [Rat.cast_zero]; exact ⟨by simp, by simp⟩⟩

end Xprs
