import Verif.Props.Rearrange
import Verif.Props.Square
import Verif.Lemmas.Terms
/-
Property C107, continued: how far the mean may lie outside.
-/
namespace Xprs
namespace Props
open _root_.Xprs.Spec
set_option exponentiation.threshold 4096

/-- C107, partial: the mean of `n` numbers, each zero or at least `2^-1000` in magnitude and together not too large,
lies between the bounds up to `(n+1) / 2^52` times the largest magnitude.  (Missing: nothing that holds;
the mean may lie outside by a rounding error, see `C107_refuted`.) -/
theorem C107_near_partial (w : World) (vs : List F64) (lo hi M : ℚ) (hne : vs ≠ []) (hn : vs.length ≤ 2 ^ 50)
    (hv : ∀ v ∈ vs, ∃ q, value v = some q ∧ (q = 0 ∨ 1 / 2 ^ 1000 ≤ |q|) ∧ lo ≤ q ∧ q ≤ hi ∧ |q| ≤ M)
    (hM : vs.length * M ≤ 2 ^ 1000) :
    ∃ (v : F64) (q : ℚ), Gives w b!"mean" vs v ∧ value v = some q ∧
      lo - M * ((vs.length + 1) / 2 ^ 52) ≤ q ∧ q ≤ hi + M * ((vs.length + 1) / 2 ^ 52) := by
  have hlen : (1 : ℚ) ≤ vs.length := by exact_mod_cast List.length_pos_of_ne_nil hne
  have hpos : (0 : ℚ) < vs.length := by linarith
  have hlen2 : (vs.length : ℚ) ≤ 2 ^ 50 := by exact_mod_cast hn
  have hsums : ∀ us : List F64, (∀ v ∈ us, v ∈ vs) → amount us ≤ us.length * M ∧
      us.length * lo ≤ (us.map fun v => (value v).getD 0).sum ∧
      (us.map fun v => (value v).getD 0).sum ≤ us.length * hi := by
    intro us
    induction us with
    | nil => intro _; simp [amount]
    | cons u us ih =>
      intro h
      obtain ⟨h1, h2, h3⟩ := ih fun v hv => h v (List.mem_cons_of_mem _ hv)
      obtain ⟨q, hq, -, h4, h5, h6⟩ := hv u (h u List.mem_cons_self)
      unfold amount at h1 ⊢
      simp only [List.map_cons, List.sum_cons, hq, Option.getD_some, List.length_cons]
      push_cast
      exact ⟨by linarith, by linarith, by linarith⟩
  obtain ⟨ha, hS1, hS2⟩ := hsums vs fun _ h => h
  obtain ⟨s, hs, hd⟩ := sum_known w vs (fun v h => by obtain ⟨q, h1, h2, -⟩ := hv v h; exact ⟨q, h1, h2⟩)
    (ha.trans hM) hn
  have hM0 : 0 ≤ M := by
    obtain ⟨v, hv'⟩ := List.exists_mem_of_ne_nil vs hne
    obtain ⟨q, -, -, -, -, h⟩ := hv v hv'
    exact (abs_nonneg q).trans h
  have habs : |(vs.map fun v => (value v).getD 0).sum| ≤ amount vs := by
    unfold amount
    have : ∀ us : List F64, |(us.map fun v => (value v).getD 0).sum| ≤ (us.map fun v => |(value v).getD 0|).sum := by
      intro us
      induction us with
      | nil => simp
      | cons u us ih => simp only [List.map_cons, List.sum_cons]; exact (abs_add_le _ _).trans (by linarith)
    exact this vs
  generalize (vs.map fun v => (value v).getD 0).sum = S at *
  have hd2 : |s - S| ≤ vs.length * M * (vs.length / 2 ^ 52) :=
    hd.trans (mul_le_mul_of_nonneg_right ha (by positivity))
  have hr := div_rounds hs (ofNat_value (n := vs.length) (by omega)) hpos.ne'
  -- the quotient before rounding
  have hx : |s / vs.length - S / vs.length| ≤ M * (vs.length / 2 ^ 52) := by
    rw [← sub_div, abs_div, abs_of_pos hpos, div_le_iff₀ hpos]
    calc _ ≤ _ := hd2
      _ = _ := by ring
  have hb : M * ((vs.length : ℚ) / 2 ^ 52) ≤ M * (1 / 4) :=
    mul_le_mul_of_nonneg_left (by rw [div_le_iff₀ (by positivity)]; linarith) hM0
  have hS : |S / vs.length| ≤ M := by
    rw [abs_div, abs_of_pos hpos, div_le_iff₀ hpos]; linarith
  have hl : lo ≤ S / vs.length := by rw [le_div_iff₀ hpos]; linarith
  have hh : S / vs.length ≤ hi := by rw [div_le_iff₀ hpos]; linarith
  have hx2 : |s / vs.length| ≤ M * (5 / 4) := by
    have := abs_sub_abs_le_abs_sub (s / vs.length : ℚ) (S / vs.length)
    linarith
  have hMle : M ≤ 2 ^ 1000 := le_trans (by nlinarith) hM
  obtain ⟨r, h1, h2⟩ := round_abs hr (hx2.trans (by
    have : (2 : ℚ) ^ 1000 * (5 / 4) ≤ 2 ^ 1023 := by norm_num
    linarith))
  have hclose : |r - s / vs.length| ≤ M * (1 / 2 ^ 52) := by
    by_cases h0 : ∀ v ∈ vs, value v = some 0
    · have hs0 : s = 0 := by
        have : amount vs = 0 := by
          unfold amount
          refine List.sum_eq_zero fun x hx => ?_
          obtain ⟨v, hv', rfl⟩ := List.mem_map.1 hx
          rw [h0 v hv']
          simp
        rw [this, zero_mul] at hd
        rw [this] at habs
        have h3 := abs_nonpos_iff.1 habs
        have := abs_nonpos_iff.1 hd
        linarith
      have := roundsTo_exact hr (u := F64.zero false) (by rw [hs0, _root_.zero_div]; exact value_zero _)
      rw [h1] at this
      cases this
      rw [_root_.sub_self, abs_zero]
      positivity
    · have hMl : 1 / 2 ^ 1000 ≤ M := by
        by_contra hc
        refine h0 fun v hv' => ?_
        obtain ⟨q, h3, h4 | h4, -, -, h5⟩ := hv v hv'
        · rw [h3, h4]
        · exact absurd (h4.trans h5) hc
      have hu : (1 : ℚ) - roundoff ≥ 99 / 100 := by unfold roundoff; norm_num
      have h3 : max (|s / vs.length| * roundoff) (1 / 2 ^ 1074) ≤ M * (3 / 4 * (1 / 2 ^ 52)) := by
        refine max_le ?_ ?_
        · unfold roundoff
          have := mul_le_mul_of_nonneg_right hx2 (show (0 : ℚ) ≤ 1 / 2 ^ 53 by positivity)
          linarith
        · have : (1 : ℚ) / 2 ^ 1074 = 1 / 2 ^ 1000 * (1 / 2 ^ 74) := by norm_num
          rw [this]
          refine mul_le_mul hMl ?_ (by positivity) hM0
          norm_num
      have h4 := abs_nonneg (r - s / vs.length)
      nlinarith
  refine ⟨_, r, ⟨_, rfl, rfl⟩, h1, ?_, ?_⟩
  · have h3 := (abs_le.1 hclose).1
    have h4 := (abs_le.1 hx).1
    have h5 : M * ((vs.length + 1) / 2 ^ 52) = M * (vs.length / 2 ^ 52) + M * (1 / 2 ^ 52) := by ring
    linarith
  · have h3 := (abs_le.1 hclose).2
    have h4 := (abs_le.1 hx).2
    have h5 : M * ((vs.length + 1) / 2 ^ 52) = M * (vs.length / 2 ^ 52) + M * (1 / 2 ^ 52) := by ring
    linarith

/-- The mean of `0.1`, `0.1` and `0.1`, which lies outside (`C107_refuted`), does so by at most `2^-50`. -/
example : ∃ (v : F64) (q p : ℚ), Gives w0 b!"mean" [F64.ofDecimal 1 (-1), F64.ofDecimal 1 (-1), F64.ofDecimal 1 (-1)] v ∧
    value v = some q ∧ value (F64.ofDecimal 1 (-1)) = some p ∧ p * (1 - 1 / 2 ^ 50) ≤ q ∧ q ≤ p * (1 + 1 / 2 ^ 50) := by
  obtain ⟨p, hp⟩ : ∃ p, value (F64.ofDecimal 1 (-1)) = some p := Option.isSome_iff_exists.1 (by decide +kernel)
  have hp1 : 0 < p ∧ 1 / 2 ^ 1000 ≤ p ∧ p ≤ 1 := by
    have h : (value (F64.ofDecimal 1 (-1))).any (fun p => decide (0 < p ∧ 1 / 2 ^ 1000 ≤ p ∧ p ≤ 1)) = true := by
      decide +kernel
    rw [hp] at h
    simpa using h
  obtain ⟨v, q, h1, h2, h3, h4⟩ := C107_near_partial w0 [F64.ofDecimal 1 (-1), F64.ofDecimal 1 (-1), F64.ofDecimal 1 (-1)]
    p p p (by simp) (by norm_num) (by
      intro v hv
      simp only [List.mem_cons, List.not_mem_nil, or_false, or_self] at hv
      subst hv
      exact ⟨p, hp, .inr (by rw [abs_of_pos hp1.1]; exact hp1.2.1), le_rfl, le_rfl, (abs_of_pos hp1.1).le⟩)
    (by
      have : (3 : ℚ) ≤ 2 ^ 1000 := by norm_num
      simp only [List.length_cons, List.length_nil]
      push_cast
      linarith [hp1.2.2])
  refine ⟨v, q, p, h1, h2, hp, ?_, ?_⟩
  · simp only [List.length_cons, List.length_nil] at h3
    push_cast at h3
    linarith
  · simp only [List.length_cons, List.length_nil] at h4
    push_cast at h4
    linarith

end Props
end Xprs
