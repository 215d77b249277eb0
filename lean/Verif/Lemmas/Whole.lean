import Verif.Spec.Whole
import Verif.Lemmas.Exact
import Verif.Lemmas.Terms
import Verif.Lemmas.Scale
import Verif.Lemmas.Residue
/-
Quotients of whole numbers, rounded (for C115).
-/
namespace Xprs
open Spec
set_option exponentiation.threshold 4096

/-- The relative error of a rounding. -/
theorem round_rel {x r : ℚ} {v : F64} (h : RoundsTo x v) (hv : value v = some r) (h1 : 1 / 2 ^ 1022 ≤ |x|)
    (h2 : |x| ≤ 2 ^ 1023) : |r - x| * 2 ^ 53 ≤ |x| := by
  obtain ⟨r', h3, ρ, h4, h5, h6⟩ := round_within h h1 h2
  rw [hv] at h3
  cases h3
  obtain ⟨⟨N, D, hD, hq, n, hn, hf⟩, hs1, hs2⟩ := h
  have hDq : (0 : ℚ) < (D : ℚ) := by exact_mod_cast hD
  have hNq : (N : ℚ) = |x| * 2 ^ 1074 * D := by rw [hq]; field_simp
  have hlow : 2 ^ 52 * D ≤ N := by
    have : ((2 ^ 52 * D : ℕ) : ℚ) ≤ (N : ℚ) := by
      rw [hNq]
      push_cast
      have : (2 : ℚ) ^ 52 ≤ |x| * 2 ^ 1074 := by
        calc (2 : ℚ) ^ 52 = 1 / 2 ^ 1022 * 2 ^ 1074 := by norm_num
          _ ≤ _ := by gcongr
      exact mul_le_mul_of_nonneg_right this hDq.le
    exact_mod_cast this
  have hd := nearest_near hD hlow hn
  obtain ⟨s, k, hk, rfl, e⟩ := value_some hv
  have hkn : k = n := by
    rcases hf with ⟨-, h', hv⟩ | ⟨-, hv⟩
    · simp only [F64.abs, F64.fin.injEq] at hv; exact hv.2
    · cases hv
  subst hkn
  have hra : |r| = k / 2 ^ 1074 := by rw [e, abs_div, abs_sv, abs_of_pos unit64_pos_rat, unit64_cast]
  have hρ : 0 ≤ ρ := le_trans (keep_pos 1).le h5
  have hrx : |r - x| = |(|r| - |x|)| := by
    rw [h4, abs_mul, abs_of_nonneg hρ, show x * ρ - x = x * (ρ - 1) by ring, show |x| * ρ - |x| = |x| * (ρ - 1) by ring,
      abs_mul, abs_mul, abs_abs]
  have hdq : |(k * D : ℚ) - N| * 2 ^ 53 ≤ N := by
    have h7 := le_of_dist (Nat.le_refl (dist (k * D) N))
    have h8 : ((k * D : ℕ) : ℚ) ≤ N + Spec.dist (k * D) N := by exact_mod_cast h7.1
    have h9 : (N : ℚ) ≤ (k * D : ℕ) + Spec.dist (k * D) N := by exact_mod_cast h7.2
    have h10 : ((Spec.dist (k * D) N : ℕ) : ℚ) * 2 ^ 53 ≤ N := by exact_mod_cast hd
    push_cast at h8 h9
    have : |(k * D : ℚ) - N| ≤ Spec.dist (k * D) N := abs_le.2 ⟨by linarith, by linarith⟩
    linarith
  rw [hrx, hra]
  have e2 : (k * D : ℚ) - N = ((k : ℚ) / 2 ^ 1074 - |x|) * (2 ^ 1074 * D) := by
    rw [hNq]; field_simp
  have hP : (0 : ℚ) < 2 ^ 1074 * D := by positivity
  rw [e2, abs_mul, abs_of_pos hP, hNq] at hdq
  have : (|((k : ℚ) / 2 ^ 1074 - |x|)| * 2 ^ 53) * (2 ^ 1074 * D) ≤ |x| * (2 ^ 1074 * D) := by linarith
  exact le_of_mul_le_mul_right this hP

/-- The rounding error of a quotient of whole numbers is smaller than its distance to other whole
(or, for smaller numerators, half) numbers. -/
theorem quotient_near {i j : ℤ} {c : ℕ} {r : ℚ} {v : F64} (hj : j ≠ 0) (hj2 : InF64 (j : ℚ)) (hc : 1 ≤ c) (hc2 : c ≤ 2)
    (hi : |i| * c < 2 ^ 53) (h : RoundsTo ((i : ℚ) / j) v) (hv : value v = some r) :
    |r - i / j| * (c * |(j : ℚ)|) < 1 := by
  have hjq : (j : ℚ) ≠ 0 := by exact_mod_cast hj
  have hja : 0 < |(j : ℚ)| := abs_pos.2 hjq
  have hj1 : 1 ≤ |(j : ℚ)| := by exact_mod_cast Int.one_le_abs hj
  have hcq : (1 : ℚ) ≤ c := by exact_mod_cast hc
  have hcq2 : (c : ℚ) ≤ 2 := by exact_mod_cast hc2
  have hiq : |(i : ℚ)| * c < 2 ^ 53 := by exact_mod_cast hi
  have hi0 := abs_nonneg (i : ℚ)
  have hx : |(i : ℚ) / j| = |(i : ℚ)| / |(j : ℚ)| := abs_div _ _
  have hxle : |(i : ℚ) / j| ≤ 2 ^ 1023 := by
    rw [hx, div_le_iff₀ hja]
    have : (2 : ℚ) ^ 53 ≤ 2 ^ 1023 := pow_le_pow_right₀ (by norm_num) (by norm_num)
    nlinarith
  by_cases h1 : 1 / 2 ^ 1022 ≤ |(i : ℚ) / j|
  · have h2 := round_rel h hv h1 hxle
    rw [hx, le_div_iff₀ hja] at h2
    have h3 : |r - i / j| * |(j : ℚ)| * c * 2 ^ 53 ≤ |(i : ℚ)| * c := by nlinarith
    have h4 : |r - i / j| * |(j : ℚ)| * c * 2 ^ 53 < 2 ^ 53 := lt_of_le_of_lt h3 hiq
    have h5 : (0 : ℚ) < 2 ^ 53 := by positivity
    nlinarith
  · obtain ⟨r', h2, h3⟩ := round_abs h hxle
    rw [hv] at h2
    cases h2
    have hjb : |(j : ℚ)| ≤ 2 ^ 1024 := by
      obtain ⟨f, hf⟩ := hj2
      obtain ⟨s, n, hn, rfl, e⟩ := value_some hf
      have hn2 : n < 2 ^ 2098 := by rw [← maxMag_eq]; exact hn.1
      rw [e, abs_div, abs_sv, abs_of_pos unit64_pos_rat, unit64_cast, div_le_iff₀ (by positivity), ← pow_add]
      exact_mod_cast hn2.le
    have hu : (1 : ℚ) - roundoff ≥ 1 / 2 := by unfold roundoff; norm_num
    have h4 : |r - i / j| * (1 / 2) ≤ 1 / 2 ^ 1074 := by
      have h5 : max (|(i : ℚ) / j| * roundoff) (1 / 2 ^ 1074) ≤ 1 / 2 ^ 1074 := by
        refine max_le ?_ le_rfl
        rw [not_le] at h1
        unfold roundoff
        calc |(i : ℚ) / j| * (1 / 2 ^ 53) ≤ 1 / 2 ^ 1022 * (1 / 2 ^ 53) := by gcongr
          _ ≤ 1 / 2 ^ 1074 := by norm_num
      have := abs_nonneg (r - (i : ℚ) / j)
      nlinarith
    have h6 : |r - i / j| ≤ 1 / 2 ^ 1073 := by
      have : (1 : ℚ) / 2 ^ 1073 = 2 * (1 / 2 ^ 1074) := by norm_num
      linarith
    calc |r - i / j| * (c * |(j : ℚ)|) ≤ 1 / 2 ^ 1073 * (2 * 2 ^ 1024) := by gcongr
      _ < 1 := by norm_num

/-- A number near a quotient lies on the same side of every whole (or half) number. -/
theorem same_side {i j M : ℤ} {c : ℕ} {r : ℚ} (hj : j ≠ 0) (hc : 1 ≤ c) (h : |r - i / j| * (c * |(j : ℚ)|) < 1)
    (he : (i : ℚ) / j = M / c → r = M / c) :
    ((M : ℚ) / c ≤ r ↔ (M : ℚ) / c ≤ i / j) ∧ (r ≤ (M : ℚ) / c ↔ (i : ℚ) / j ≤ M / c) := by
  have hjq : (j : ℚ) ≠ 0 := by exact_mod_cast hj
  have hja : 0 < |(j : ℚ)| := abs_pos.2 hjq
  have hcq : (0 : ℚ) < c := by exact_mod_cast hc
  have hP : 0 < c * |(j : ℚ)| := by positivity
  have hne : (i : ℚ) / j ≠ M / c → 1 ≤ |(i : ℚ) / j - M / c| * (c * |(j : ℚ)|) := by
    intro hn
    have e : ((i : ℚ) / j - M / c) * (c * j) = ((i * c - M * j : ℤ) : ℚ) := by
      push_cast
      field_simp
    have e2 : |(i : ℚ) / j - M / c| * (c * |(j : ℚ)|) = |((i * c - M * j : ℤ) : ℚ)| := by
      rw [← e, abs_mul, abs_mul, abs_of_pos hcq]
    rw [e2]
    have h0 : i * c - M * j ≠ 0 := by
      intro h0
      rw [h0, Int.cast_zero] at e
      rcases mul_eq_zero.1 e with h | h
      · exact hn (sub_eq_zero.1 h)
      · exact absurd h (mul_ne_zero hcq.ne' hjq)
    exact_mod_cast Int.one_le_abs h0
  rcases lt_trichotomy ((i : ℚ) / j) (M / c) with hl | hq | hg
  · have h1 := lt_of_lt_of_le h (hne hl.ne)
    have h2 := lt_of_mul_lt_mul_right h1 hP.le
    rw [abs_of_neg (sub_neg.2 hl)] at h2
    have h3 := (abs_lt.1 h2).2
    have : r < M / c := by linarith
    exact ⟨⟨fun h => absurd h (not_le.2 this), fun h => absurd h (not_le.2 hl)⟩, fun _ => hl.le, fun _ => this.le⟩
  · rw [he hq, hq]
    exact ⟨Iff.rfl, Iff.rfl⟩
  · have h1 := lt_of_lt_of_le h (hne hg.ne')
    have h2 := lt_of_mul_lt_mul_right h1 hP.le
    rw [abs_of_pos (sub_pos.2 hg)] at h2
    have h3 := (abs_lt.1 h2).1
    have : M / c < r := by linarith
    exact ⟨⟨fun _ => hg.le, fun _ => this.le⟩, fun h => absurd h (not_le.2 this), fun h => absurd h (not_le.2 hg)⟩

/-- What `trunc` makes of a number, by intervals. -/
theorem trunc_iff {r : ℚ} {N : ℤ} : Picks .trunc r N ↔
    (0 < N ∧ (N : ℚ) ≤ r ∧ r < (N + 1 : ℤ)) ∨ (N = 0 ∧ ((-1 : ℤ) : ℚ) < r ∧ r < (1 : ℤ)) ∨
      (N < 0 ∧ ((N - 1 : ℤ) : ℚ) < r ∧ r ≤ N) := by
  show |(N : ℚ)| ≤ |r| ∧ |r - N| < 1 ↔ _
  push_cast
  rw [abs_lt]
  rcases lt_trichotomy N 0 with h | rfl | h
  · have hN : (N : ℚ) ≤ -1 := by exact_mod_cast Int.le_sub_one_of_lt h
    rw [abs_of_neg (by linarith : (N : ℚ) < 0)]
    constructor
    · rintro ⟨h1, h2, h3⟩
      have hr : r < 0 := by linarith
      rw [abs_of_neg hr] at h1
      exact .inr (.inr ⟨h, by linarith, by linarith⟩)
    · rintro (h1 | h1 | h1)
      · omega
      · omega
      · rw [abs_of_neg (by linarith : r < 0)]
        exact ⟨by linarith, by linarith, by linarith⟩
  · simp only [Int.cast_zero, abs_zero, abs_nonneg, true_and, lt_self_iff_false, false_and, or_false, false_or, _root_.sub_zero]
  · have hN : (1 : ℚ) ≤ N := by exact_mod_cast h
    rw [abs_of_pos (by linarith : (0 : ℚ) < N)]
    constructor
    · rintro ⟨h1, h2, h3⟩
      have hr : 0 < r := by linarith
      rw [abs_of_pos hr] at h1
      exact .inl ⟨h, by linarith, by linarith⟩
    · rintro (h1 | h1 | h1)
      · rw [abs_of_pos (by linarith : 0 < r)]
        exact ⟨by linarith, by linarith, by linarith⟩
      · omega
      · omega

/-- What `round` makes of a number, by intervals. -/
theorem round_iff {r : ℚ} {N : ℤ} : Picks .round r N ↔
    (0 < N ∧ ((2 * N - 1 : ℤ) : ℚ) / (2 : ℕ) ≤ r ∧ r < ((2 * N + 1 : ℤ) : ℚ) / (2 : ℕ)) ∨
      (N = 0 ∧ ((-1 : ℤ) : ℚ) / (2 : ℕ) < r ∧ r < ((1 : ℤ) : ℚ) / (2 : ℕ)) ∨
      (N < 0 ∧ ((2 * N - 1 : ℤ) : ℚ) / (2 : ℕ) < r ∧ r ≤ ((2 * N + 1 : ℤ) : ℚ) / (2 : ℕ)) := by
  show |r - N| ≤ 1 / 2 ∧ (|r - N| = 1 / 2 → |r| < |(N : ℚ)|) ↔ _
  push_cast
  rcases lt_trichotomy N 0 with h | rfl | h
  · have hN : (N : ℚ) ≤ -1 := by exact_mod_cast Int.le_sub_one_of_lt h
    rw [abs_of_neg (by linarith : (N : ℚ) < 0), abs_le]
    constructor
    · rintro ⟨⟨h1, h2⟩, h3⟩
      rw [abs_of_neg (by linarith : r < 0)] at h3
      refine .inr (.inr ⟨h, lt_of_le_of_ne (by linarith) fun he => ?_, by linarith⟩)
      have := h3 (by rw [← he, abs_of_neg (by linarith)]; ring)
      linarith
    · rintro (h1 | h1 | ⟨-, h1, h2⟩)
      · omega
      · omega
      · refine ⟨⟨by linarith, by linarith⟩, fun he => ?_⟩
        rw [abs_of_neg (by linarith : r < 0)]
        rcases abs_eq (by norm_num : (0 : ℚ) ≤ 1 / 2) |>.1 he with he | he <;> linarith
  · simp only [Int.cast_zero, _root_.sub_zero, abs_zero, lt_self_iff_false, false_and, or_false, false_or, true_and]
    constructor
    · rintro ⟨h1, h2⟩
      have h3 : |r| < 1 / 2 := lt_of_le_of_ne h1 fun he => absurd (h2 he) (not_lt.2 (abs_nonneg _))
      rw [abs_lt] at h3
      exact ⟨by linarith, by linarith⟩
    · rintro ⟨h1, h2⟩
      have h3 : |r| < 1 / 2 := abs_lt.2 ⟨by linarith, by linarith⟩
      exact ⟨h3.le, fun he => absurd he h3.ne⟩
  · have hN : (1 : ℚ) ≤ N := by exact_mod_cast h
    rw [abs_of_pos (by linarith : (0 : ℚ) < N), abs_le]
    constructor
    · rintro ⟨⟨h1, h2⟩, h3⟩
      rw [abs_of_pos (by linarith : 0 < r)] at h3
      refine .inl ⟨h, by linarith, lt_of_le_of_ne (by linarith) fun he => ?_⟩
      have := h3 (by rw [he, abs_of_pos (by linarith)]; ring)
      linarith
    · rintro (⟨-, h1, h2⟩ | h1 | h1)
      · refine ⟨⟨by linarith, by linarith⟩, fun he => ?_⟩
        rw [abs_of_pos (by linarith : 0 < r)]
        rcases abs_eq (by norm_num : (0 : ℚ) ≤ 1 / 2) |>.1 he with he | he <;> linarith
      · omega
      · omega

theorem int_close {a b : ℤ} (h1 : (a : ℚ) < b + 1) (h2 : (b : ℚ) < a + 1) : a = b := by
  have h1 : a < b + 1 := by exact_mod_cast h1
  have h2 : b < a + 1 := by exact_mod_cast h2
  omega

/-- The functions make at most one number of each. -/
theorem picks_unique {f : Builtin} {r : ℚ} {N M : ℤ} (h : Picks f r N) (k : Picks f r M) : N = M := by
  have cast : ∀ {a b : ℤ}, ((a : ℤ) : ℚ) < (b : ℤ) → a < b := fun h => by exact_mod_cast h
  cases f <;> try exact h.elim
  case floor => exact int_close (by linarith [h.1, k.2]) (by linarith [h.2, k.1])
  case ceil => exact int_close (by linarith [h.1, k.2]) (by linarith [h.2, k.1])
  case trunc =>
    rcases trunc_iff.1 h with ⟨h1, h2, h3⟩ | ⟨h1, h2, h3⟩ | ⟨h1, h2, h3⟩ <;>
      rcases trunc_iff.1 k with ⟨k1, k2, k3⟩ | ⟨k1, k2, k3⟩ | ⟨k1, k2, k3⟩
    · have := cast (h2.trans_lt k3); have := cast (k2.trans_lt h3); omega
    · have := cast (h2.trans_lt k3); omega
    · have := cast (h2.trans_lt (k3.trans_lt (by exact_mod_cast (show M < 0 from k1) : (M : ℚ) < (0 : ℤ)))); omega
    · have := cast (k2.trans_lt h3); omega
    · omega
    · have := cast (h2.trans_le k3); omega
    · have := cast (k2.trans_lt (h3.trans_lt (by exact_mod_cast (show N < 0 from h1) : (N : ℚ) < (0 : ℤ)))); omega
    · have := cast (k2.trans_le h3); omega
    · have := cast (h2.trans_le k3); have := cast (k2.trans_le h3); omega
  case round =>
    have cast2 : ∀ {a b : ℤ}, ((a : ℤ) : ℚ) / (2 : ℕ) < ((b : ℤ) : ℚ) / (2 : ℕ) → a < b := fun h => by
      push_cast at h
      exact cast (by linarith)
    rcases round_iff.1 h with ⟨h1, h2, h3⟩ | ⟨h1, h2, h3⟩ | ⟨h1, h2, h3⟩ <;>
      rcases round_iff.1 k with ⟨k1, k2, k3⟩ | ⟨k1, k2, k3⟩ | ⟨k1, k2, k3⟩
    · have := cast2 (h2.trans_lt k3); have := cast2 (k2.trans_lt h3); omega
    · have := cast2 (h2.trans_lt k3); omega
    · have := h2.trans k3
      push_cast at this
      have : N ≤ M + 1 := by exact_mod_cast (by linarith : (N : ℚ) ≤ M + 1)
      omega
    · have := cast2 (k2.trans_lt h3); omega
    · omega
    · have := cast2 (h2.trans_le k3); omega
    · have := k2.trans h3
      push_cast at this
      have : M ≤ N + 1 := by exact_mod_cast (by linarith : (M : ℚ) ≤ N + 1)
      omega
    · have := cast2 (k2.trans_le h3); omega
    · have := cast2 (h2.trans_le k3); have := cast2 (k2.trans_le h3); omega

/-- A function makes of the rounded quotient what it makes of the quotient. -/
theorem picks_quotient {f : Builtin} {i j N : ℤ} {r : ℚ} {v : F64} (hj : j ≠ 0) (hj2 : InF64 (j : ℚ))
    (hf : (f = .floor ∨ f = .ceil ∨ f = .trunc) ∧ |i| < 2 ^ 53 ∨ f = .round ∧ |i| < 2 ^ 52)
    (h : RoundsTo ((i : ℚ) / j) v) (hv : value v = some r) : Picks f r N ↔ Picks f ((i : ℚ) / j) N := by
  have hjq : (j : ℚ) ≠ 0 := by exact_mod_cast hj
  have whole : |i| < 2 ^ 53 → ∀ M : ℤ, ((M : ℚ) ≤ r ↔ (M : ℚ) ≤ i / j) ∧ (r ≤ (M : ℚ) ↔ (i : ℚ) / j ≤ M) := by
    intro hi M
    have := same_side (M := M) hj le_rfl (quotient_near hj hj2 le_rfl (by norm_num) (by simpa using hi) h hv) (by
      intro he
      rw [Nat.cast_one, _root_.div_one] at he ⊢
      have hM : Spec.Small M := by
        have h1 : i = M * j := by
          rw [div_eq_iff hjq] at he
          exact_mod_cast he
        have h2 := Int.one_le_abs hj
        have h3 : |i| = |M| * |j| := by rw [h1, abs_mul]
        have h4 := abs_nonneg M
        unfold Spec.Small
        nlinarith
      obtain ⟨u, hu⟩ := small_inF64 hM
      have := roundsTo_exact h (u := u) (by rw [hu, he])
      rw [hv] at this
      rw [Option.some.inj this, he])
    simpa using this
  have half : |i| < 2 ^ 52 → ∀ M : ℤ, ((M : ℚ) / (2 : ℕ) ≤ r ↔ (M : ℚ) / (2 : ℕ) ≤ i / j) ∧
      (r ≤ (M : ℚ) / (2 : ℕ) ↔ (i : ℚ) / j ≤ M / (2 : ℕ)) := by
    intro hi M
    refine same_side (M := M) hj (by norm_num) (quotient_near hj hj2 (by norm_num) le_rfl (by push_cast; omega) h hv) ?_
    intro he
    have hM : |M| < 2 ^ 53 := by
      have h1 : i * 2 = M * j := by
        rw [div_eq_div_iff hjq (by norm_num)] at he
        exact_mod_cast he
      have h2 := Int.one_le_abs hj
      have h3 : |i| * 2 = |M| * |j| := by rw [← abs_mul, ← h1, abs_mul]; rfl
      have h4 := abs_nonneg M
      nlinarith
    obtain ⟨u, hu⟩ : InF64 ((M : ℚ) / (2 : ℕ)) := by
      have e : ((M * 2 ^ 1073 : ℤ) : ℚ) / 2 ^ 1074 = M / (2 : ℕ) := by
        rw [Int.cast_mul, Int.cast_pow, show ((2 : ℤ) : ℚ) = 2 by norm_num, Nat.cast_ofNat,
          show (2 : ℚ) ^ 1074 = 2 * 2 ^ 1073 from pow_succ' 2 1073, mul_div_mul_right _ _ (by positivity)]
      rw [← e]
      refine inF64_of_gridZ ⟨M, 1073, hM, rfl⟩ ?_
      rw [abs_mul, abs_of_pos (by positivity : (0 : ℤ) < 2 ^ 1073)]
      calc |M| * 2 ^ 1073 < 2 ^ 53 * 2 ^ 1073 := by gcongr
        _ ≤ 2 ^ 2098 := by norm_num
    have := roundsTo_exact h (u := u) (by rw [hu, he])
    rw [hv] at this
    rw [Option.some.inj this, he]
  have lt : ∀ {a b c d : ℚ}, (a ≤ b ↔ c ≤ d) → (b < a ↔ d < c) := fun h => by
    rw [← not_le, ← not_le, h]
  rcases hf with ⟨rfl | rfl | rfl, hi⟩ | ⟨rfl, hi⟩
  · have h1 := (whole hi N).1
    have h2 := lt (whole hi (N + 1)).1
    push_cast at h2
    exact and_congr h1 h2
  · have h1 := (whole hi N).2
    have h2 := lt (whole hi (N - 1)).2
    push_cast at h2
    exact and_congr h2 h1
  · rw [trunc_iff, trunc_iff, (whole hi N).1, (whole hi N).2, lt (whole hi (N + 1)).1, lt (whole hi 1).1,
      lt (whole hi (-1)).2, lt (whole hi (N - 1)).2]
  · rw [round_iff, round_iff, (half hi _).1, (half hi (2 * N + 1)).2, lt (half hi (2 * N + 1)).1, lt (half hi 1).1,
      lt (half hi (-1)).2, lt (half hi (2 * N - 1)).2]

end Xprs
