import Verif.Spec.Back
import Verif.Lemmas.Back
import Verif.Lemmas.Residue
import Verif.Props.Whole
/-
Property C117: dividing and multiplying back.
-/
namespace Xprs
namespace Props
open Spec
set_option exponentiation.threshold 4096

theorem nearest_ratio {N D N' D' n : ℕ} (hD : 0 < D) (hD' : 0 < D') (h : N * D' = N' * D) (hn : Nearest N D n) :
    Nearest N' D' n := by
  have h1 := (nearest_scale D' hD').2 hn
  rw [h, mul_comm D D'] at h1
  exact (nearest_scale D hD).1 h1

/-- A rounded number that is finite, by its magnitude in units of `2⁻¹⁰⁷⁴`. -/
theorem nearest_of_rounds {q r : ℚ} {v : F64} {N D : ℕ} (h : RoundsTo q v) (hv : value v = some r) (hD : 0 < D)
    (hq : |q| * 2 ^ 1074 = (N : ℚ) / D) : ∃ n : ℕ, Nearest N D n ∧ |r| = n / 2 ^ 1074 := by
  obtain ⟨⟨N', D', hD', hq', n, hn, hf⟩, -, -⟩ := h
  have ha := (abs_value hv).1
  have hDq : (0 : ℚ) < D := by exact_mod_cast hD
  have hDq' : (0 : ℚ) < D' := by exact_mod_cast hD'
  have hr : N' * D = N * D' := by
    rw [hq', div_eq_div_iff hDq'.ne' hDq.ne'] at hq
    exact_mod_cast hq
  refine ⟨n, nearest_ratio hD' hD hr hn, ?_⟩
  rcases hf with ⟨-, hh, e⟩ | ⟨-, e⟩
  · rw [e, value_fin] at ha
    rw [← Option.some.inj ha, unit64_cast]
    simp [F64.sv]
  · rw [e] at ha; cases ha

/-- A rounded number with the given magnitude, which is in the format. -/
theorem value_of_nearest {q p : ℚ} {v u : F64} {N D X : ℕ} (h : RoundsTo q v) (hD : 0 < D)
    (hq : |q| * 2 ^ 1074 = (N : ℚ) / D) (hX : ∀ n, Nearest N D n → n = X) (hu : value u = some p)
    (hp : |p| = X / 2 ^ 1074) (hs : 0 ≤ p * q) (hq0 : q ≠ 0) : value v = some p := by
  obtain ⟨⟨N', D', hD', hq', n, hn, hf⟩, h1, h2⟩ := h
  have hDq : (0 : ℚ) < D := by exact_mod_cast hD
  have hDq' : (0 : ℚ) < D' := by exact_mod_cast hD'
  have hr : N' * D = N * D' := by
    rw [hq', div_eq_div_iff hDq'.ne' hDq.ne'] at hq
    exact_mod_cast hq
  have hnX := hX n (nearest_ratio hD' hD hr hn)
  subst hnX
  have hlt : n < 2 ^ 2098 := by
    obtain ⟨⟨N1, D1, hD1, e1, n1, k1, k2⟩, -, -⟩ := rounds_self hu
    rcases k2 with ⟨hl, hh, e⟩ | ⟨-, e⟩
    · have ha := (abs_value hu).1
      rw [e, value_fin, hp, unit64_cast] at ha
      have ha := Option.some.inj ha
      have : (n1 : ℚ) = n := by
        rw [div_left_inj' (by positivity)] at ha
        simpa [F64.sv] using ha
      have : n1 = n := by exact_mod_cast this
      omega
    · have ha := (abs_value hu).1
      rw [e] at ha; cases ha
  rcases hf with ⟨-, hh, e⟩ | ⟨hl, -⟩
  · have hv : ∃ r, value v = some r ∧ |r| = |p| := by
      cases v with
      | nan => cases e
      | inf s => cases e
      | fin s k hk =>
        have e' : value (F64.abs (.fin s k hk)) = some |p| := by
          rw [e, value_fin, hp, unit64_cast]; simp [F64.sv]
        refine ⟨_, value_fin .., ?_⟩
        rw [(abs_value (value_fin ..)).1] at e'
        exact Option.some.inj e'
    obtain ⟨r, hv, hr⟩ := hv
    rw [hv]
    congr 1
    have hsg := sign_of_value hv
    rcases lt_or_gt_of_ne hq0 with hn | hn
    · have hp0 : p ≤ 0 := by
        by_contra hc
        exact absurd hs (not_le.2 (mul_neg_of_pos_of_neg (not_le.1 hc) hn))
      have hr0 : r ≤ 0 := by
        by_contra hc
        have := hsg.2 (not_le.1 hc)
        rw [h1 hn] at this
        cases this
      rw [abs_of_nonpos hr0, abs_of_nonpos hp0] at hr
      linarith
    · have hp0 : 0 ≤ p := by
        by_contra hc
        exact absurd hs (not_le.2 (mul_neg_of_neg_of_pos (not_le.1 hc) hn))
      have hr0 : 0 ≤ r := by
        by_contra hc
        have := hsg.1 (not_le.1 hc)
        rw [h2 hn] at this
        cases this
      rwa [_root_.abs_of_nonneg hr0, _root_.abs_of_nonneg hp0] at hr
  · omega

/-- In units of `2⁻¹⁰⁷⁴`. -/
theorem digits_units {p : ℚ} {X : ℕ} (h : Digits52 p) (hX : |p| = X / 2 ^ 1074) :
    ∃ M e : ℕ, M < 2 ^ 52 ∧ X = M * 2 ^ e := by
  obtain ⟨M, e, hM, rfl⟩ := h
  have hU : (0 : ℚ) < 2 ^ 1074 := by positivity
  have hz : (0 : ℚ) < 2 ^ e := by positivity
  have hM' : M.natAbs < 2 ^ 52 := by
    have := Int.abs_eq_natAbs M
    omega
  rw [abs_mul, abs_of_pos hz, eq_div_iff hU.ne', ← Int.cast_abs, Int.abs_eq_natAbs, Int.cast_natCast] at hX
  rw [mul_assoc, show (2 : ℚ) ^ 1074 = 2 ^ (1074 : ℤ) by norm_cast, ← zpow_add₀ (by norm_num)] at hX
  rcases le_or_gt 0 (e + 1074) with h0 | h0
  · obtain ⟨k, hk⟩ := Int.eq_ofNat_of_zero_le h0
    rw [hk, zpow_natCast] at hX
    exact ⟨M.natAbs, k, hM', by exact_mod_cast hX.symm⟩
  · refine ⟨X, 0, lt_of_le_of_lt ?_ hM', by simp⟩
    have h1 : (2 : ℚ) ^ (e + 1074) ≤ 1 := zpow_le_one_of_nonpos₀ (by norm_num) h0.le
    have : (X : ℚ) ≤ M.natAbs := by
      rw [← hX]
      exact mul_le_of_le_one_right (by positivity) h1
    exact_mod_cast this

theorem two_bits {i j : ℕ} (h : i ≠ j) : ∃ k d, 1 ≤ d ∧ 2 ^ i + 2 ^ j = 2 ^ k * (2 ^ d + 1) := by
  rcases lt_or_gt_of_ne h with h | h
  · obtain ⟨d, rfl⟩ := Nat.exists_eq_add_of_lt h
    exact ⟨i, d + 1, by omega, by ring⟩
  · obtain ⟨d, rfl⟩ := Nat.exists_eq_add_of_lt h
    exact ⟨j, d + 1, by omega, by ring⟩

/-- Neither is the quotient too small, nor are there too many digits. -/
def Fits (p : ℚ) (n : ℕ) : Prop := Digits52 p ∧ (p = 0 ∨ (n : ℚ) / 2 ^ 1022 ≤ |p|)

theorem back_zero {x y : F64} {n : ℚ} (hx : value x = some 0) (hy : value y = some n) (hn : n ≠ 0) :
    value (F64.div x y) = some 0 := by
  have := div_exact hx hy hn (by rw [_root_.zero_div]; exact ⟨F64.f0, value_f0⟩)
  rwa [_root_.zero_div] at this

/-- The product of the quotient with the divisor, however it is rounded, is the dividend. -/
theorem back_step {x y : F64} {p : ℚ} {n i j : ℕ} (hx : value x = some p) (hy : value y = some (n : ℚ))
    (hij : i ≠ j) (hn : n = 2 ^ i + 2 ^ j) (hf : Fits p n) :
    ∃ q, value (F64.div x y) = some q ∧ |q| * n * 2 ≤ |p| * 3 ∧ ∀ v, RoundsTo (q * n) v → value v = some p := by
  have hn0 : 0 < n := by rw [hn]; positivity
  have hnq : (0 : ℚ) < n := by exact_mod_cast hn0
  have hn1 : (1 : ℚ) ≤ n := by exact_mod_cast hn0
  obtain ⟨hd, hp⟩ := hf
  rcases eq_or_ne p 0 with rfl | hp0
  · refine ⟨0, back_zero hx hy hnq.ne', by simp, fun v hv => ?_⟩
    rw [zero_mul] at hv
    exact value_of_rounds hv ⟨F64.f0, value_f0⟩
  have hp := hp.resolve_left hp0
  have hr := div_rounds hx hy hnq.ne'
  obtain ⟨q, hq⟩ := rounds_le hr hx (by
    rw [abs_div, abs_of_pos hnq]
    exact div_le_self (abs_nonneg _) hn1)
  obtain ⟨X, -, hX⟩ := grid_of_value hx
  have hU : (0 : ℚ) < 2 ^ 1074 := by positivity
  have hXp : |p| * 2 ^ 1074 = X := by rw [hX]; field_simp
  obtain ⟨Q, hQ, hqQ⟩ := nearest_of_rounds (N := X) (D := n) hr hq hn0 (by
    rw [abs_div, abs_of_pos hnq, ← hXp]; ring)
  have hlow : 2 ^ 52 * n ≤ X := by
    have h1 : (2 : ℚ) ^ 52 * n ≤ X := by
      rw [← hXp]
      have h2 := mul_le_mul_of_nonneg_right hp hU.le
      have e : (n : ℚ) / 2 ^ 1022 * 2 ^ 1074 = 2 ^ 52 * n := by
        rw [show (1074 : ℕ) = 1022 + 52 from rfl, pow_add]
        have : (2 : ℚ) ^ 1022 ≠ 0 := by positivity
        generalize (2 : ℚ) ^ 1022 = T at *
        field_simp
      rw [e] at h2
      exact h2
    exact_mod_cast h1
  refine ⟨q, hq, ?_, fun v hv => ?_⟩
  · have h1 := nearest_near hn0 hlow hQ
    have h2 : Q * n * 2 ≤ X * 3 := by
      generalize Q * n = Y at h1 ⊢
      unfold Spec.dist at h1
      omega
    have h2 : (Q : ℚ) * n * 2 ≤ X * 3 := by exact_mod_cast h2
    rw [hqQ, hX, div_mul_eq_mul_div, div_mul_eq_mul_div, div_mul_eq_mul_div]
    exact div_le_div_of_nonneg_right h2 hU.le
  obtain ⟨k, d, hd1, hkd⟩ := two_bits hij
  have hsame : 0 ≤ p * q := by
    have hm := sign_of_value hq
    rcases lt_or_gt_of_ne hp0 with h | h
    · have : q ≤ 0 := by
        by_contra hc
        have h1 := hm.2 (not_le.1 hc)
        rw [hr.2.1 (div_neg_of_neg_of_pos h hnq)] at h1
        cases h1
      exact mul_nonneg_of_nonpos_of_nonpos h.le this
    · have : 0 ≤ q := by
        by_contra hc
        have h1 := hm.1 (not_le.1 hc)
        rw [hr.2.2 (div_pos h hnq)] at h1
        cases h1
      exact mul_nonneg h.le this
  have hQ0 : 0 < Q := by
    have := grid_top hn0 hQ (⟨2 ^ 52, 0, by norm_num, by simp⟩ : Grid (2 ^ 52)) hlow
    omega
  have hq0 : q ≠ 0 := by
    rintro rfl
    rw [abs_zero] at hqQ
    have : (Q : ℚ) = 0 := by
      rcases div_eq_zero_iff.1 hqQ.symm with h | h
      · exact h
      · exact absurd h hU.ne'
    have : Q = 0 := by exact_mod_cast this
    omega
  refine value_of_nearest (N := Q * n) (D := 1) (X := X) hv (by norm_num) ?_ (fun R hR => ?_) hx hX ?_
    (mul_ne_zero hq0 hnq.ne')
  · rw [abs_mul, abs_of_pos hnq, hqQ]
    push_cast
    field_simp
  · exact nearest_back (digits_units hd hX) hd1 (hn.trans hkd) hlow hQ hR
  · rw [← mul_assoc]; exact mul_nonneg hsame hnq.le

/-- A quotient by a power of two. -/
theorem half_step {x y : F64} {p : ℚ} {n i : ℕ} (hx : value x = some p) (hy : value y = some (n : ℚ))
    (hn : n = 2 ^ i) (hf : Fits p n) : value (F64.div x y) = some (p / n) := by
  have hn0 : 0 < n := by rw [hn]; positivity
  have hnq : (0 : ℚ) < n := by exact_mod_cast hn0
  refine div_exact hx hy hnq.ne' ?_
  obtain ⟨hd, rfl | hp⟩ := hf
  · rw [_root_.zero_div]; exact ⟨F64.f0, value_f0⟩
  obtain ⟨a, rfl, ⟨c, k, hc, rfl⟩, ha⟩ := gridZ_of_value hx
  have hU : (0 : ℚ) < 2 ^ 1074 := by positivity
  have hX : |((c * 2 ^ k : ℤ) : ℚ) / 2 ^ 1074| = (((c * 2 ^ k).natAbs : ℕ) : ℚ) / 2 ^ 1074 := by
    rw [abs_div, abs_of_pos hU, Nat.cast_natAbs, Int.cast_abs]
  obtain ⟨M, e, hM, hMe⟩ := digits_units hd hX
  have hlow : 2 ^ 52 * n ≤ M * 2 ^ e := by
    rw [hX, hMe] at hp
    have h1 : (2 : ℚ) ^ 52 * n ≤ (M * 2 ^ e : ℕ) := by
      have h2 := mul_le_mul_of_nonneg_right hp hU.le
      rw [div_mul_cancel₀ _ hU.ne'] at h2
      have e : (n : ℚ) / 2 ^ 1022 * 2 ^ 1074 = 2 ^ 52 * n := by
        rw [show (1074 : ℕ) = 1022 + 52 from rfl, pow_add]
        have : (2 : ℚ) ^ 1022 ≠ 0 := by positivity
        generalize (2 : ℚ) ^ 1022 = T at *
        field_simp
      rw [e] at h2
      exact h2
    exact_mod_cast h1
  have hie : i < e := by
    have h1 : 2 ^ 52 * 2 ^ i < 2 ^ 52 * 2 ^ e := by
      rw [← hn]
      exact lt_of_le_of_lt hlow (Nat.mul_lt_mul_of_pos_right hM (by positivity))
    exact (Nat.pow_lt_pow_iff_right (by norm_num : 1 < 2)).1 (lt_of_mul_lt_mul_left h1 (Nat.zero_le _))
  obtain ⟨f, rfl⟩ := Nat.exists_eq_add_of_lt hie
  obtain ⟨z, hz, hzM⟩ : ∃ z : ℤ, c * 2 ^ k = z * 2 ^ i ∧ ∃ s : ℤ, |s| < 2 ^ 53 ∧ z = s * 2 ^ (f + 1) := by
    rcases Int.natAbs_eq (c * 2 ^ k) with h | h
    · refine ⟨(M : ℤ) * 2 ^ (f + 1), ?_, M, ?_, rfl⟩
      · rw [h, hMe]; push_cast; ring
      · rw [_root_.abs_of_nonneg (by positivity)]; omega
    · refine ⟨-(M : ℤ) * 2 ^ (f + 1), ?_, -M, ?_, rfl⟩
      · rw [h, hMe]; push_cast; ring
      · rw [abs_neg, _root_.abs_of_nonneg (by positivity)]; omega
  have e1 : ((c * 2 ^ k : ℤ) : ℚ) / 2 ^ 1074 / n = (z : ℚ) / 2 ^ 1074 := by
    rw [hz, hn]
    push_cast
    have h1 : (2 : ℚ) ^ i ≠ 0 := by positivity
    rw [div_right_comm, mul_div_cancel_right₀ _ h1]
  rw [e1]
  obtain ⟨s, hs, rfl⟩ := hzM
  refine inF64_of_gridZ ⟨s, f + 1, hs, rfl⟩ (lt_of_le_of_lt ?_ ha)
  rw [hz, abs_mul (s * 2 ^ (f + 1))]
  have h1 : (1 : ℤ) ≤ |(2 : ℤ) ^ i| := Int.one_le_abs (by positivity)
  exact le_mul_of_one_le_right (abs_nonneg _) h1

/-- Twice the quotient needs no rounding. -/
theorem double_step {q p : ℚ} {u x : F64} (hu : value u = some q) (hx : value x = some p) (h : |q| * 2 ≤ |p|) :
    value (F64.add u u) = some (q + q) := by
  obtain ⟨a, rfl, ⟨c, k, hc, rfl⟩, ha⟩ := gridZ_of_value hu
  obtain ⟨b, rfl, -, hb⟩ := gridZ_of_value hx
  have hU : (0 : ℚ) < 2 ^ 1074 := by positivity
  have e : ((c * 2 ^ k : ℤ) : ℚ) / 2 ^ 1074 + ((c * 2 ^ k : ℤ) : ℚ) / 2 ^ 1074 =
      ((c * 2 ^ (k + 1) : ℤ) : ℚ) / 2 ^ 1074 := by
    rw [← add_div, ← Int.cast_add]
    congr 2
    ring
  refine add_exact hu hu ?_
  rw [e]
  refine inF64_of_gridZ ⟨c, k + 1, hc, rfl⟩ (lt_of_le_of_lt ?_ hb)
  rw [abs_div, abs_div, abs_of_pos hU, div_mul_eq_mul_div, div_le_div_iff_of_pos_right hU] at h
  have h : |c * 2 ^ k| * 2 ≤ |b| := by exact_mod_cast h
  rw [pow_succ, ← mul_assoc, abs_mul (c * 2 ^ k) 2]
  exact h

/-! ### C117 -/

/-- The tree divides the value `p` and puts it together again. -/
inductive GoesBack (w : World) (m : HMap F64) (p : ℚ) : Elem → Prop
  | times {a b x y n} : Runs w m a x → Runs w m b y → value x = some p → value y = some ((n : ℕ) : ℚ) → TwoBits n →
      Fits p n → GoesBack w m p (backTree a b)
  | thirds {a b x y} : Runs w m a x → Runs w m b y → value x = some p → value y = some 3 →
      Fits p 3 → GoesBack w m p (thirdsTree a b)

theorem goesBack_runs {w : World} {m : HMap F64} {p : ℚ} {e : Elem} (h : GoesBack w m p e) :
    ∃ v, Runs w m e v ∧ value v = some p := by
  cases h with
  | @times a b x y n ha hb hx hy ht hf =>
    have hn0 : (n : ℚ) ≠ 0 := by
      have : 0 < n := by
        rcases ht with ⟨i, rfl⟩ | ⟨i, j, -, rfl⟩ <;> positivity
      exact_mod_cast this.ne'
    obtain ⟨q, h1, h2⟩ : ∃ q, value (F64.div x y) = some q ∧ ∀ v, RoundsTo (q * n) v → value v = some p := by
      rcases ht with ⟨i, hn⟩ | ⟨i, j, hij, hn⟩
      · refine ⟨_, half_step hx hy hn hf, fun v hv => ?_⟩
        rw [div_mul_cancel₀ _ hn0] at hv
        exact value_of_rounds hv ⟨x, hx⟩
      · obtain ⟨q, h1, -, h2⟩ := back_step hx hy hij hn hf
        exact ⟨q, h1, h2⟩
    have h3 := h2 _ (mul_rounds h1 hy)
    exact ⟨_, .bin (.bin ha hb (.divide (ne_nan_of_value h1) (not_zero_of_value hy hn0))) hb
      (.times (ne_nan_of_value h3)), h3⟩
  | @thirds a b x y ha hb hx hy hf =>
    obtain ⟨q, h1, h2, h3⟩ := back_step (n := 3) (i := 1) (j := 0) hx (by exact_mod_cast hy) (by decide) rfl hf
    have h4 := double_step h1 hx (by push_cast at h2; linarith)
    have h5 := h3 _ (by
      have := add_rounds h4 h1
      rwa [show q + q + q = q * (3 : ℕ) by push_cast; ring] at this)
    have hr : Runs w m (.bin .divide a b) (F64.div x y) :=
      .bin ha hb (.divide (ne_nan_of_value h1) (not_zero_of_value hy (by norm_num)))
    exact ⟨_, .bin (.bin hr hr (.plus (ne_nan_of_value h4))) hr (.plus (ne_nan_of_value h5)), h5⟩

/-- C117: a number with at most 52 binary digits, divided by a whole number whose binary form has one or two
digits other than zero (such as 2, 3, 5, 6, 8, 10, 12) and multiplied by it again, is the number, although the
quotient is rounded; and three thirds of it are the number.  Both evaluators. -/
theorem C117_back (w : World) (m : HMap F64) (e : Elem) (p : ℚ) (h : GoesBack w m p e) :
    ∃ v, eval w m e = .ok v ∧ evalU w m e = .ok v ∧ value v = some p := by
  obtain ⟨v, h1, h2⟩ := goesBack_runs h
  have h3 := runs_eval _ h1
  exact ⟨v, h3, by rw [evalU_eq, h3]; rfl, h2⟩

/-- C117: simplification, in every build, keeps this. -/
theorem C117_simplified (cfg : Cfg) (w : World) (m : HMap F64) (e e' : Elem) (p : ℚ) (hw : NoPower e ∨ PowLaws w)
    (h : GoesBack w m p e) (hs : simplify cfg w e = .ok e') : ∃ v, eval w m e' = .ok v ∧ value v = some p := by
  obtain ⟨v, h1, h2⟩ := goesBack_runs h
  obtain ⟨u, h4, h5⟩ := simplify_runs' hw h1 hs
  exact ⟨u, runs_eval _ h4, value_same h2 h5⟩

/-- C117: the same for texts, in every build. -/
theorem C117_text (cfg cfg' : Cfg) (w : World) (o o' : Oracle) (ctx : Context) (input : Bytes)
    (x y : Xpr) (m : HMap F64) (p : ℚ) (hp : cfg.pejmdas = cfg'.pejmdas) (ho : cfg.opt = false)
    (hw : NoPower x.root ∨ PowLaws w) (hn : ∀ ts, Lex input ts → ParensApart ts)
    (h : parse cfg w o ctx input = .ok x) (h' : parse cfg' w o' ctx input = .ok y) (hd : GoesBack w m p x.root) :
    (∃ v, x.eval w m = .ok v ∧ value v = some p) ∧ ∃ v, y.eval w m = .ok v ∧ value v = some p := by
  obtain ⟨v, h1, h2⟩ := goesBack_runs hd
  obtain ⟨h4, u, h5, h6⟩ := C16_value_partial cfg cfg' w o o' ctx input x y m v hp ho hw hn h h' h1
  exact ⟨⟨v, h4, h2⟩, u, h5, value_same h2 h6⟩

/-- Whole numbers below `2⁵²` have at most 52 digits, and are not too small. -/
theorem fits_whole {z : ℤ} {n : ℕ} (hz : |z| < 2 ^ 52) (hn : n ≤ 2 ^ 53) : Fits z n := by
  refine ⟨⟨z, 0, hz, by simp⟩, ?_⟩
  rcases eq_or_ne z 0 with rfl | h0
  · exact .inl (by simp)
  · right
    have h1 : (1 : ℚ) ≤ |(z : ℚ)| := by exact_mod_cast Int.one_le_abs h0
    refine le_trans ?_ h1
    rw [div_le_one (by positivity)]
    exact (show (n : ℚ) ≤ 2 ^ 53 by exact_mod_cast hn).trans (pow_le_pow_right₀ (by norm_num) (by norm_num))

/-- For every whole number below `2⁵²`, dividing by `n` and multiplying by it gives the number. -/
def Restores (n : ℕ) : Prop :=
  ∀ (w : World) (m : HMap F64) (a b : Elem) (x y : F64) (z : ℤ), eval w m a = .ok x → eval w m b = .ok y →
    value x = some (z : ℚ) → |z| < 2 ^ 52 → value y = some (n : ℚ) →
    ∃ v, eval w m (backTree a b) = .ok v ∧ value v = some (z : ℚ)

/-- C117 for whole numbers, whatever the operands are. -/
theorem C117_whole (n : ℕ) (hn : n ≤ 2 ^ 53) (ht : TwoBits n) : Restores n := by
  intro w m a b x y z ha hb hx hz hy
  have h := goesBack_runs (w := w) (m := fun s => if s = b!"a" then some x else if s = b!"b" then some y else none)
    (.times (.var (n := b!"a") rfl) (.var (n := b!"b") rfl) hx hy ht (fits_whole hz hn))
  obtain ⟨v, h1, h2⟩ := h
  have h3 := runs_eval _ h1
  have h4 : eval w (fun s => if s = b!"a" then some x else if s = b!"b" then some y else none)
      (backTree (.var b!"a") (.var b!"b")) = .ok (F64.mul (F64.div x y) y) := rfl
  rw [h4] at h3
  cases h3
  exact ⟨_, by unfold backTree; rw [eval, eval_divide ha hb, hb]; rfl, h2⟩

/-- Dividends for which it goes wrong with the other divisors up to a hundred. -/
def wrongBack : List (ℕ × ℕ) :=
  [(7, 29), (11, 15), (13, 15), (14, 29), (15, 31), (19, 21), (21, 23), (22, 15), (23, 13), (25, 7), (26, 15), (27, 29),
    (28, 29), (29, 15), (30, 31), (31, 249), (35, 29), (37, 39), (38, 21), (39, 25), (41, 7), (42, 23), (43, 7), (44, 15),
    (45, 13), (46, 13), (47, 3), (49, 1), (50, 7), (51, 7), (52, 15), (53, 107), (54, 29), (55, 7), (56, 29), (57, 59),
    (58, 15), (59, 31), (60, 31), (61, 123), (62, 249), (63, 2017), (67, 29), (69, 11), (70, 29), (71, 7), (73, 75),
    (74, 39), (75, 21), (76, 21), (77, 5), (78, 25), (79, 15), (81, 83), (82, 7), (83, 7), (84, 23), (85, 11), (86, 7),
    (87, 11), (88, 15), (89, 23), (90, 13), (91, 25), (92, 13), (93, 13), (94, 3), (95, 7), (97, 7), (98, 1), (99, 13),
    (100, 7)]

/-- The divisors up to a hundred with one or two binary digits other than zero. -/
def twoBits100 : List (ℕ × ℕ) :=
  (List.range 7).flatMap fun i => (List.range (i + 1)).map fun j => (i, j)

theorem twoBits_or_wrong : ∀ n < 101, n = 0 ∨ (∃ c ∈ twoBits100, c.1 ≠ c.2 ∧ n = 2 ^ c.1 + 2 ^ c.2) ∨
    (∃ i < 7, n = 2 ^ i) ∨ ∃ c ∈ wrongBack, c.1 = n := by
  decide +kernel

theorem wrong_back : ∀ c ∈ wrongBack, value (F64.ofNat c.2) = some ((c.2 : ℤ) : ℚ) ∧
    value (F64.ofNat c.1) = some (c.1 : ℚ) ∧ |(c.2 : ℤ)| < 2 ^ 52 ∧
    value (F64.mul (F64.div (F64.ofNat c.2) (F64.ofNat c.1)) (F64.ofNat c.1)) ≠ some ((c.2 : ℤ) : ℚ) := by
  decide +kernel

/-- C117: up to a hundred these are the only divisors that restore every number: with 7, 100 (per cent) or
60 (minutes), for example, it goes wrong: `29/7*7`, `7/100*100`, `31/60*60`. -/
theorem C117_exactly (n : ℕ) (h1 : 1 ≤ n) (h2 : n ≤ 100) : Restores n ↔ TwoBits n := by
  constructor
  · intro h
    rcases twoBits_or_wrong n (by omega) with h0 | ⟨c, -, h3, h4⟩ | ⟨i, -, h3⟩ | ⟨c, hc, rfl⟩
    · omega
    · exact .inr ⟨_, _, h3, h4⟩
    · exact .inl ⟨i, h3⟩
    · exfalso
      obtain ⟨k1, k2, k3, k4⟩ := wrong_back c hc
      obtain ⟨v, h5, h6⟩ := h w0 (mx F64.f0) (.num (F64.ofNat c.2)) (.num (F64.ofNat c.1)) _ _ c.2 rfl rfl k1 k3 k2
      have h7 : eval w0 (mx F64.f0) (backTree (.num (F64.ofNat c.2)) (.num (F64.ofNat c.1))) =
        .ok (F64.mul (F64.div (F64.ofNat c.2) (F64.ofNat c.1)) (F64.ofNat c.1)) := rfl
      rw [h7] at h5
      cases h5
      exact k4 h6
  · exact C117_whole n (by omega)

/-- C117: with 53 digits it goes wrong: `7622602863731155/3*3`. -/
theorem C117_digits (w : World) (m : HMap F64) :
    ∃ v, eval w m (backTree (.num (F64.ofNat 7622602863731155)) (.num (F64.ofNat 3))) = .ok v ∧
      value (F64.ofNat 7622602863731155) = some 7622602863731155 ∧ value v ≠ some 7622602863731155 :=
  ⟨F64.mul (F64.div (F64.ofNat 7622602863731155) (F64.ofNat 3)) (F64.ofNat 3), rfl, by decide +kernel, by decide +kernel⟩

/-! ### Cases -/

/-- `x/10*10` with `x = 0.7` fails to have 52 digits, with `x = 0.75` not. -/
example : Digits52 (3 / 4) ∧ GoesBack w0 (mx (F64.ofDecimal 75 (-2))) (3 / 4) (backTree vx (.num (F64.ofNat 10))) := by
  have hd : Digits52 (3 / 4) := ⟨3, -2, by norm_num, by norm_num⟩
  refine ⟨hd, .times (n := 10) (.var rfl) .num (by decide +kernel) (by decide +kernel)
    (.inr ⟨3, 1, by decide, by norm_num⟩) ⟨hd, .inr ?_⟩⟩
  rw [_root_.abs_of_nonneg (by norm_num), div_le_iff₀ (by positivity)]
  have : (2 : ℚ) ^ 10 ≤ 2 ^ 1022 := pow_le_pow_right₀ (by norm_num) (by norm_num)
  norm_num at this ⊢

/-- Three thirds of `1`. -/
example : parse0 cfgPlain b!"x/3+x/3+x/3" = .ok ⟨thirdsTree vx (.num (F64.ofNat 3)), [b!"x"]⟩ ∧
    GoesBack w0 (mx F64.f1) 1 (thirdsTree vx (.num (F64.ofNat 3))) := by
  refine ⟨by decide +kernel, .thirds (.var rfl) .num (by decide +kernel) (by decide +kernel) ?_⟩
  have := fits_whole (z := 1) (n := 3) (by norm_num) (by norm_num)
  simpa using this

end Props
end Xprs
