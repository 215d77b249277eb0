import Verif.Spec.Lerp
import Verif.Lemmas.Laws
import Verif.Lemmas.Residue
import Verif.Lemmas.Whole
import Verif.Props.Square
import Verif.Props.Decimals
import Verif.Props.Apart
/-
Property C125: linear interpolation.
-/
namespace Xprs
namespace Props
open _root_.Xprs.Spec
set_option exponentiation.threshold 4096

theorem rounds_neg {q : ℚ} {v : F64} (h : RoundsTo q v) : RoundsTo (-q) (F64.neg v) := by
  obtain ⟨⟨N, D, h1, h2, h3⟩, h4, h5⟩ := h
  refine ⟨⟨N, D, h1, by rw [abs_neg]; exact h2, ?_⟩, fun h => ?_, fun h => ?_⟩
  · cases v <;> exact h3
  · have := h5 (by linarith)
    cases v with
    | nan => obtain ⟨n, -, ⟨-, _, h⟩ | ⟨-, h⟩⟩ := h3 <;> cases h
    | inf s => cases this; rfl
    | fin s n k => cases this; rfl
  · have := h4 (by linarith)
    cases v with
    | nan => obtain ⟨n, -, ⟨-, _, h⟩ | ⟨-, h⟩⟩ := h3 <;> cases h
    | inf s => cases this; rfl
    | fin s n k => cases this; rfl

theorem rounds_between {z α β : ℚ} {v a b : F64} (h : RoundsTo z v) (ha : value a = some α) (hb : value b = some β)
    (h1 : α ≤ z) (h2 : z ≤ β) : ∃ r, value v = some r ∧ α ≤ r ∧ r ≤ β :=
  value_between (roundsTo_mono (rounds_self ha) h h1) (roundsTo_mono h (rounds_self hb) h2) ha hb

/-- The numbers of the format below one are so by at least `2⁻⁵³`. -/
theorem below_one {t : F64} {τ : ℚ} (ht : value t = some τ) (h1 : τ < 1) : 1 / 2 ^ 53 ≤ 1 - τ := by
  rcases le_total τ (1 / 2) with l | l
  · have : (1 : ℚ) / 2 ^ 53 ≤ 1 / 2 := by norm_num
    linarith
  · obtain ⟨P, rfl, ⟨m, k, hm, eP⟩, hP⟩ := gridZ_of_value ht
    have hU : (0 : ℚ) < 2 ^ 1074 := by positivity
    rw [div_lt_one hU] at h1
    rw [div_le_div_iff₀ (by norm_num) hU] at l
    have h1' : P < 2 ^ 1074 := by exact_mod_cast h1
    have l' : (2 : ℤ) ^ 1074 ≤ P * 2 := by
      have : (1 : ℚ) * 2 ^ 1074 ≤ P * 2 := l
      rw [_root_.one_mul] at this
      exact_mod_cast this
    have hm' := (abs_lt.1 hm).2
    have hk : 1021 ≤ k := by
      by_contra hk
      have : (2 : ℤ) ^ k ≤ 2 ^ 1020 := pow_le_pow_right₀ (by norm_num) (by omega)
      have h2 : (0 : ℤ) < 2 ^ k := by positivity
      have h3 : m * 2 ^ k < 2 ^ 53 * 2 ^ k := mul_lt_mul_of_pos_right hm' h2
      have h4 : (2 : ℤ) ^ 53 * 2 ^ k ≤ 2 ^ 53 * 2 ^ 1020 := mul_le_mul_of_nonneg_left this (by positivity)
      have h5 : (2 : ℤ) ^ 53 * 2 ^ 1020 * 2 = 2 ^ 1074 := by norm_num
      rw [eP] at l'
      linarith
    have e : P = (m * 2 ^ (k - 1021)) * 2 ^ 1021 := by
      rw [eP, mul_assoc, ← pow_add, Nat.sub_add_cancel hk]
    generalize m * 2 ^ (k - 1021) = M at e
    have e2 : (2 : ℤ) ^ 1074 = 2 ^ 53 * 2 ^ 1021 := by norm_num
    have hM : M < 2 ^ 53 := by
      rw [e, e2] at h1'
      exact lt_of_mul_lt_mul_right h1' (by positivity)
    have hle : P ≤ (2 ^ 53 - 1) * 2 ^ 1021 := by
      rw [e]
      exact mul_le_mul_of_nonneg_right (by omega) (by positivity)
    have hq : (P : ℚ) ≤ (2 ^ 53 - 1) * 2 ^ 1021 := by exact_mod_cast hle
    have : (P : ℚ) / 2 ^ 1074 ≤ (2 ^ 53 - 1) * 2 ^ 1021 / 2 ^ 1074 := div_le_div_of_nonneg_right hq hU.le
    have e3 : ((2 : ℚ) ^ 53 - 1) * 2 ^ 1021 / 2 ^ 1074 = 1 - 1 / 2 ^ 53 := by norm_num
    linarith

theorem small_diff {x y : F64} {p q : ℚ} (hx : value x = some p) (hy : value y = some q)
    (h : |q - p| < 1 / 2 ^ 1021) : InF64 (q - p) := by
  obtain ⟨P, rfl, -, -⟩ := gridZ_of_value hx
  obtain ⟨Q, rfl, -, -⟩ := gridZ_of_value hy
  have hU : (0 : ℚ) < 2 ^ 1074 := by positivity
  rw [← sub_div] at h ⊢
  rw [abs_div, abs_of_pos hU, div_lt_iff₀ hU, show (1 : ℚ) / 2 ^ 1021 * 2 ^ 1074 = 2 ^ 53 by norm_num] at h
  have h' : |Q - P| < 2 ^ 53 := by exact_mod_cast h
  rw [← Int.cast_sub]
  refine inF64_of_gridZ ⟨Q - P, 0, h', by simp⟩ (h'.trans (by norm_num))

theorem top_inF64 : InF64 ((2 : ℚ) ^ 1023) := by
  have := inF64_of_gridZ (z := 2 ^ 2097) ⟨1, 2097, by norm_num, by norm_num⟩ (by norm_num)
  have e : (((2 ^ 2097 : ℤ)) : ℚ) / 2 ^ 1074 = 2 ^ 1023 := by norm_num
  rwa [e] at this

theorem low_inF64 : InF64 ((1 : ℚ) / 2 ^ 1022) := by
  have := inF64_of_gridZ (z := 2 ^ 52) ⟨1, 52, by norm_num, by norm_num⟩ (by norm_num)
  have e : (((2 ^ 52 : ℤ)) : ℚ) / 2 ^ 1074 = 1 / 2 ^ 1022 := by norm_num
  rwa [e] at this

/-- The heart of C125: the rounded product does not pass the exact difference, unless that is exact. -/
theorem lerp_core {x y t u v r : F64} {p q τ D : ℚ} (hx : value x = some p) (hy : value y = some q)
    (ht : value t = some τ) (hpq : p ≤ q) (hb : q - p ≤ 2 ^ 1023) (h0 : 0 ≤ τ) (h1 : τ < 1)
    (hu : RoundsTo (q - p) u) (hD : value u = some D) (hv : RoundsTo (D * τ) v)
    (hr : ∀ E, value v = some E → RoundsTo (p + E) r) :
    ∃ E s, value v = some E ∧ value r = some s ∧ 0 ≤ E ∧ p ≤ s ∧ s ≤ q := by
  have v0 : value (F64.zero false) = some 0 := by decide +kernel
  obtain ⟨c, vc⟩ := top_inF64
  have hd0 : 0 ≤ D := leF_values (roundsTo_mono (rounds_self v0) hu (by linarith)) v0 hD
  have hdc : D ≤ 2 ^ 1023 := leF_values (roundsTo_mono hu (rounds_self vc) hb) hD vc
  obtain ⟨E, hE, e0, e1⟩ := rounds_between hv v0 hD (mul_nonneg hd0 h0) (by nlinarith)
  have key : E ≤ q - p := by
    by_contra hlt
    rw [not_le] at hlt
    have hDE : D ≤ E := leF_values (roundsTo_mono hu (rounds_self hE) hlt.le) hD hE
    have e : E = D := le_antisymm e1 hDE
    subst e
    by_cases hs : |q - p| < 1 / 2 ^ 1021
    · have := value_of_rounds hu (small_diff hx hy hs)
      rw [hD] at this
      injection this with this
      linarith
    · rw [not_lt, _root_.abs_of_nonneg (by linarith)] at hs
      by_cases hn : E * τ ≤ 1 / 2 ^ 1022
      · obtain ⟨z, hz⟩ := low_inF64
        have := leF_values (roundsTo_mono hv (rounds_self hz) hn) hE hz
        have : (1 : ℚ) / 2 ^ 1022 < 1 / 2 ^ 1021 := by norm_num
        linarith
      · rw [not_le] at hn
        have ha : |E * τ| = E * τ := _root_.abs_of_nonneg (mul_nonneg hd0 h0)
        have k := round_rel hv hE (by rw [ha]; exact hn.le) (by rw [ha]; nlinarith)
        rw [ha, _root_.abs_of_nonneg (by nlinarith)] at k
        have b := below_one ht h1
        have hE0 : 0 < E := by
          have : (0 : ℚ) < 1 / 2 ^ 1021 := by positivity
          linarith
        have b' : 1 ≤ (1 - τ) * 2 ^ 53 := by
          rwa [div_le_iff₀ (by norm_num)] at b
        have : E * 1 ≤ E * ((1 - τ) * 2 ^ 53) := mul_le_mul_of_nonneg_left b' hE0.le
        have : E * τ < E * 1 := mul_lt_mul_of_pos_left h1 hE0
        linarith
  obtain ⟨s, hs, s1, s2⟩ := rounds_between (hr E hE) hx hy (by linarith) (by linarith)
  exact ⟨E, s, hE, hs, e0, s1, s2⟩

theorem diff_value {x y : F64} {p q : ℚ} (hx : value x = some p) (hy : value y = some q)
    (hb : |q - p| ≤ 2 ^ 1023) : ∃ D, value (F64.sub y x) = some D := by
  obtain ⟨r, h, -⟩ := round_abs (sub_rounds hy hx) hb
  exact ⟨r, h⟩

theorem lerp_values {x y t : F64} {p q τ : ℚ} (hx : value x = some p) (hy : value y = some q)
    (ht : value t = some τ) (hb : |q - p| ≤ 2 ^ 1023) (h0 : 0 ≤ τ) (h1 : τ < 1) :
    ∃ D E s, value (F64.sub y x) = some D ∧ value (F64.mul (F64.sub y x) t) = some E ∧
      value (F64.add x (F64.mul (F64.sub y x) t)) = some s ∧ Amid p q s := by
  obtain ⟨D, hD⟩ := diff_value hx hy hb
  have hu := sub_rounds hy hx
  have hv := mul_rounds hD ht
  obtain ⟨b1, b2⟩ := abs_le.1 hb
  rcases le_total p q with l | l
  · obtain ⟨E, s, k1, k2, -, k4, k5⟩ := lerp_core hx hy ht l b2 h0 h1 hu hD hv (fun E hE => _root_.Xprs.add_rounds hx hE)
    exact ⟨D, E, s, hD, k1, k2, .inl ⟨k4, k5⟩⟩
  · have hu' := rounds_neg hu
    rw [show -(q - p) = -q - -p by ring] at hu'
    have hv' := rounds_neg hv
    rw [show -(D * τ) = -D * τ by ring] at hv'
    obtain ⟨E, s, k1, k2, -, k4, k5⟩ := lerp_core (neg_value hx) (neg_value hy) ht (by linarith) (by linarith) h0 h1
      hu' (neg_value hD) hv' (r := F64.neg (F64.add x (F64.mul (F64.sub y x) t))) (fun E hE => by
        have := neg_value hE
        rw [fneg_neg] at this
        have := rounds_neg (_root_.Xprs.add_rounds hx this)
        rwa [show -(p + -E) = -p + E by ring] at this)
    have k1 := neg_value k1
    have k2 := neg_value k2
    rw [fneg_neg] at k1 k2
    exact ⟨D, -E, -s, hD, k1, k2, .inr ⟨by linarith, by linarith⟩⟩

theorem lerp_runs {w : World} {m : HMap F64} {a b c : Elem} {x y t : F64} {s : ℚ} (ha : Runs w m a x)
    (hb : Runs w m b y) (hc : Runs w m c t) (h : value (F64.add x (F64.mul (F64.sub y x) t)) = some s) :
    Runs w m (lerpTree a b c) (F64.add x (F64.mul (F64.sub y x) t)) := by
  have h2 : F64.mul (F64.sub y x) t ≠ .nan := by
    intro e; rw [e] at h; cases x <;> cases h
  have h3 : F64.sub y x ≠ .nan := by
    intro e; rw [e] at h2; exact h2 rfl
  exact .bin ha (.bin (.bin hb ha (.minus h3)) hc (.times h2)) (.plus (ne_nan_of_value h))

theorem lerp_eval {w : World} {m : HMap F64} {a b c : Elem} {x y t : F64} (ha : eval w m a = .ok x)
    (hb : eval w m b = .ok y) (hc : eval w m c = .ok t) :
    eval w m (lerpTree a b c) = .ok (F64.add x (F64.mul (F64.sub y x) t)) := by
  rw [lerpTree, eval, ha, eval, eval, hb, ha, hc]
  rfl

/-! ### C125 -/

/-- C125: the computed `a + (b - a) * t` does not leave the interval from `a` to `b` for `0 ≤ t < 1`. -/
theorem C125_between (w : World) (m : HMap F64) (a b c : Elem) (x y t : F64) (p q τ : ℚ) (ha : eval w m a = .ok x)
    (hb : eval w m b = .ok y) (hc : eval w m c = .ok t) (hx : value x = some p) (hy : value y = some q)
    (ht : value t = some τ) (hl : |q - p| ≤ 2 ^ 1023) (h0 : 0 ≤ τ) (h1 : τ < 1) :
    ∃ u s, eval w m (lerpTree a b c) = .ok u ∧ evalU w m (lerpTree a b c) = .ok u ∧ value u = some s ∧
      Amid p q s := by
  obtain ⟨D, E, s, -, -, h3, h4⟩ := lerp_values hx hy ht hl h0 h1
  have he := lerp_eval ha hb hc
  exact ⟨_, s, he, by rw [evalU_eq, he]; rfl, h3, h4⟩

/-- C125: it starts at `a`, and ends at `b` if the difference of the two needs no rounding. -/
theorem C125_ends (w : World) (m : HMap F64) (a b c : Elem) (x y t : F64) (p q τ : ℚ) (ha : eval w m a = .ok x)
    (hb : eval w m b = .ok y) (hc : eval w m c = .ok t) (hx : value x = some p) (hy : value y = some q)
    (ht : value t = some τ) (hl : |q - p| ≤ 2 ^ 1023) : ∃ u, eval w m (lerpTree a b c) = .ok u ∧
      (τ = 0 → value u = some p) ∧ (τ = 1 → InF64 (q - p) → value u = some q) := by
  refine ⟨_, lerp_eval ha hb hc, ?_, ?_⟩
  · rintro rfl
    obtain ⟨D, hD⟩ := diff_value hx hy hl
    have h1 := mul_exact hD ht (by rw [MulZeroClass.mul_zero]; exact ⟨F64.zero false, by decide +kernel⟩)
    have h2 := add_exact hx h1 (by rw [MulZeroClass.mul_zero, _root_.add_zero]; exact ⟨x, hx⟩)
    rwa [MulZeroClass.mul_zero, _root_.add_zero] at h2
  · rintro rfl hi
    have h0 := sub_exact hy hx hi
    have h1 := mul_exact h0 ht (by rw [_root_.mul_one]; exact hi)
    have e : p + (q - p) * 1 = q := by ring
    have h2 := add_exact hx h1 (by rw [e]; exact ⟨y, hy⟩)
    rwa [e] at h2

/-- C125: it moves from `a` towards `b`, and never back, as `t` goes from 0 to 1. -/
theorem C125_steady (w : World) (m m' : HMap F64) (a b c : Elem) (x y t t' : F64) (p q τ τ' : ℚ)
    (ha : eval w m a = .ok x) (hb : eval w m b = .ok y) (hc : eval w m c = .ok t)
    (ha' : eval w m' a = .ok x) (hb' : eval w m' b = .ok y) (hc' : eval w m' c = .ok t')
    (hx : value x = some p) (hy : value y = some q) (ht : value t = some τ) (ht' : value t' = some τ')
    (hl : |q - p| ≤ 2 ^ 1023) (h0 : 0 ≤ τ) (h1 : τ ≤ τ') (h2 : τ' ≤ 1) :
    ∃ u u', eval w m (lerpTree a b c) = .ok u ∧ eval w m' (lerpTree a b c) = .ok u' ∧
      (p ≤ q → LeF u u') ∧ (q ≤ p → LeF u' u) := by
  refine ⟨_, _, lerp_eval ha hb hc, lerp_eval ha' hb' hc', ?_⟩
  obtain ⟨D, hD⟩ := diff_value hx hy hl
  have v0 : value (F64.zero false) = some 0 := by decide +kernel
  have hu := sub_rounds hy hx
  have part : ∀ {t : F64} {τ : ℚ}, value t = some τ → 0 ≤ τ → τ ≤ 1 →
      ∃ E, value (F64.mul (F64.sub y x) t) = some E := fun ht h0 h1 =>
    rounds_le (mul_rounds hD ht) hD (by
      rw [abs_mul, _root_.abs_of_nonneg h0]
      exact mul_le_of_le_one_right (abs_nonneg _) h1)
  obtain ⟨E, hE⟩ := part ht h0 (h1.trans h2)
  obtain ⟨E', hE'⟩ := part ht' (h0.trans h1) h2
  constructor <;> intro l
  · have hd : 0 ≤ D := leF_values (roundsTo_mono (rounds_self v0) hu (by linarith)) v0 hD
    have := leF_values (roundsTo_mono (mul_rounds hD ht) (mul_rounds hD ht') (mul_le_mul_of_nonneg_left h1 hd)) hE hE'
    exact roundsTo_mono (_root_.Xprs.add_rounds hx hE) (_root_.Xprs.add_rounds hx hE') (by linarith)
  · have hd : D ≤ 0 := leF_values (roundsTo_mono hu (rounds_self v0) (by linarith)) hD v0
    have := leF_values (roundsTo_mono (mul_rounds hD ht') (mul_rounds hD ht) (mul_le_mul_of_nonpos_left h1 hd)) hE' hE
    exact roundsTo_mono (_root_.Xprs.add_rounds hx hE') (_root_.Xprs.add_rounds hx hE) (by linarith)

/-- C125 after simplification and for `simplify_for`, where the parts have no doubtful step. -/
theorem C125_simplified (cfg : Cfg) (w : World) (m : HMap F64) (a b c e' : Elem) (x y t : F64) (p q τ : ℚ)
    (hw : NoPower (lerpTree a b c) ∨ PowLaws w) (ha : Runs w m a x) (hb : Runs w m b y) (hc : Runs w m c t)
    (hx : value x = some p) (hy : value y = some q) (ht : value t = some τ) (hl : |q - p| ≤ 2 ^ 1023)
    (h0 : 0 ≤ τ) (h1 : τ < 1) (he : simplify cfg w (lerpTree a b c) = .ok e') :
    ∃ u s, eval w m e' = .ok u ∧ value u = some s ∧ Amid p q s := by
  obtain ⟨D, E, s, -, -, h3, h4⟩ := lerp_values hx hy ht hl h0 h1
  obtain ⟨u, k1, k2⟩ := simplify_runs' hw (lerp_runs ha hb hc h3) he
  exact ⟨u, s, runs_eval _ k1, value_same h3 k2, h4⟩

/-- C125 for texts, in every build. -/
theorem C125_builds (cfg cfg' : Cfg) (w : World) (o o' : Oracle) (ctx : Context) (input : Bytes)
    (f g : Xpr) (m : HMap F64) (a b c : Elem) (x y t : F64) (p q τ : ℚ) (hpe : cfg.pejmdas = cfg'.pejmdas)
    (ho : cfg.opt = false) (hw : NoPower f.root ∨ PowLaws w) (hn : ∀ ts, Lex input ts → ParensApart ts)
    (h : parse cfg w o ctx input = .ok f) (h' : parse cfg' w o' ctx input = .ok g) (hr : f.root = lerpTree a b c)
    (ha : Runs w m a x) (hb : Runs w m b y) (hc : Runs w m c t) (hx : value x = some p)
    (hy : value y = some q) (ht : value t = some τ) (hl : |q - p| ≤ 2 ^ 1023) (h0 : 0 ≤ τ) (h1 : τ < 1) :
    ∃ u s, g.eval w m = .ok u ∧ value u = some s ∧ Amid p q s := by
  obtain ⟨D, E, s, -, -, h3, h4⟩ := lerp_values hx hy ht hl h0 h1
  have k := lerp_runs ha hb hc h3
  rw [← hr] at k
  obtain ⟨-, u, hu, su⟩ := C16_value_partial cfg cfg' w o o' ctx input f g m _ hpe ho hw hn h h' k
  exact ⟨u, s, hu, value_same h3 su, h4⟩

/-- A case: between 2 and 5 at one half. -/
example : (match parse0 cfgPlain b!"2+(5-2)*x", parse0 cfgOpt b!"2+(5-2)*x" with
    | .ok f, .ok g => decide (f.root = lerpTree (.num (F64.ofNat 2)) (.num (F64.ofNat 5)) vx ∧
        g.eval w0 (mx (F64.ofDecimal 5 (-1))) = .ok (F64.ofDecimal 35 (-1)))
    | _, _ => false) = true := by
  decide +kernel

/-- At one it can pass the end, by the rounding of the difference: from -1 to `3/2^54` it arrives at
`4/2^54`.  With the largest number below one, too small a factor for that, it stays below. -/
example : (∃ y, value y = some (3 / 2 ^ 54) ∧
    value (F64.add (F64.neg F64.f1) (F64.mul (F64.sub y (F64.neg F64.f1)) F64.f1)) = some (4 / 2 ^ 54)) := by
  refine ⟨F64.div (F64.ofNat 3) (F64.ofNat (2 ^ 54)), ?_, ?_⟩ <;> decide +kernel

end Props
end Xprs
