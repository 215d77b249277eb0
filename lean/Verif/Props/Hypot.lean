import Verif.Spec.Hypot
import Verif.Lemmas.Laws
import Verif.Lemmas.Hypot
import Verif.Props.Square
import Verif.Props.Apart
/-
Property C124: the length of the hypotenuse.
-/
namespace Xprs
namespace Props
open _root_.Xprs.Spec
set_option exponentiation.threshold 4096

theorem sqrt_value {x : F64} {q : ℚ} (hx : value x = some q) (hq : 0 ≤ q) :
    ∃ h, value (F64.sqrt x) = some h ∧ 0 ≤ h := by
  have hr := roots x
  generalize F64.sqrt x = r at hr
  cases hr with
  | nan => cases hx
  | inf => cases hx
  | negInf => cases hx
  | zero h => exact ⟨0, h, le_rfl⟩
  | negative h h' => rw [hx] at h; cases h; exact absurd hq (not_le.2 h')
  | positive h h1 h2 h3 =>
    rw [h2]
    refine ⟨_, value_fin _ _, ?_⟩
    rw [unit64_cast]
    simp only [F64.sv, Bool.false_eq_true, if_false, Int.cast_natCast]
    positivity

theorem sum_normal {a b : ℚ} (ha : 1 / 2 ^ 511 ≤ a) (hb : 0 ≤ b) (ha' : a ≤ 2 ^ 510) (hb' : b ≤ 2 ^ 510) :
    1 / 2 ^ 1022 ≤ |a + b| ∧ |a + b| ≤ 2 ^ 511 := by
  have h0 : (0 : ℚ) < 1 / 2 ^ 511 := by positivity
  rw [_root_.abs_of_nonneg (by linarith)]
  constructor
  · have : (1 : ℚ) / 2 ^ 1022 ≤ 1 / 2 ^ 511 :=
      one_div_le_one_div_of_le (by positivity) (pow_le_pow_right₀ (by norm_num) (by norm_num))
    linarith
  · have : (2 : ℚ) ^ 510 + 2 ^ 510 = 2 ^ 511 := by norm_num
    linarith

theorem square_normal {a : ℚ} (ha : 1 / 2 ^ 511 ≤ a) : 1 / 2 ^ 1022 ≤ a * a := by
  have : (1 : ℚ) / 2 ^ 1022 = 1 / 2 ^ 511 * (1 / 2 ^ 511) := by
    rw [div_mul_div_comm, ← pow_add, _root_.one_mul]
  rw [this]
  have h0 : (0 : ℚ) < 1 / 2 ^ 511 := by positivity
  exact mul_le_mul ha ha h0.le (by linarith)

theorem absorb_bound {a b r₁ r₂ : ℚ} (ha : 0 ≤ a) (hb : 0 ≤ b) (h : b * 2 ^ 51 < a)
    (h1 : |r₁ - a * a| * 2 ^ 53 ≤ a * a) (h2 : |r₂ - b * b| * 2 ^ 53 ≤ b * b) : r₂ * 2 ^ 55 ≤ r₁ := by
  have k1 : (r₂ - b * b) * 2 ^ 53 ≤ b * b := le_trans (by gcongr; exact le_abs_self _) h2
  have k2 : a * a * (2 ^ 53 - 1) ≤ r₁ * 2 ^ 53 := by
    have := neg_abs_le (r₁ - a * a)
    nlinarith
  have k3 : b * 2 ^ 51 * (b * 2 ^ 51) ≤ a * a := mul_le_mul h.le h.le (by positivity) ha
  nlinarith [mul_self_nonneg b, mul_self_nonneg a]

theorem pow_inF64 : InF64 ((2 : ℚ) ^ 511) := by
  have := inF64_of_gridZ (z := 2 ^ 1585) ⟨1, 1585, by norm_num, by norm_num⟩ (by norm_num)
  have e : (((2 ^ 1585 : ℤ)) : ℚ) / 2 ^ 1074 = 2 ^ 511 := by norm_num
  rwa [e] at this

/-- The longer side first. -/
theorem hypot_core {x y : F64} {p q : ℚ} (hx : value x = some p) (hy : value y = some q) (hp : Leg p) (hq : Leg q)
    (hle : |q| ≤ |p|) :
    ∃ r h s, value (F64.add (F64.mul x x) (F64.mul y y)) = some r ∧ 0 ≤ r ∧
      value (F64.sqrt (F64.add (F64.mul x x) (F64.mul y y))) = some h ∧
      value (F64.add (F64.abs x) (F64.abs y)) = some s ∧ |p| ≤ h ∧ h ≤ s := by
  obtain ⟨r₁, v1, n1, e1⟩ := square_value hx hp.1 hp.2
  obtain ⟨r₂, v2, n2, e2⟩ := square_value hy hq.1 hq.2
  have ax := (abs_value hx).1
  have ay := (abs_value hy).1
  have hs := Xprs.add_rounds ax ay
  have hS := Xprs.add_rounds v1 v2
  rcases hp.1 with h0 | h0
  · -- both zero
    have hq0 : q = 0 := by
      rw [h0, abs_zero] at hle
      exact abs_eq_zero.1 (le_antisymm hle (abs_nonneg _))
    subst h0 hq0
    have r1 : r₁ = 0 := by
      rw [mul_zero, _root_.sub_zero, _root_.abs_of_nonneg n1] at e1
      have : 0 ≤ r₁ * 2 ^ 53 := by positivity
      nlinarith
    have r2 : r₂ = 0 := by
      rw [mul_zero, _root_.sub_zero, _root_.abs_of_nonneg n2] at e2
      nlinarith
    subst r1 r2
    have z : InF64 (0 + 0 : ℚ) := ⟨x, by rw [hx, _root_.add_zero]⟩
    have S0 := add_exact v1 v2 z
    rw [_root_.add_zero] at S0
    have s0 := add_exact ax ay (by rw [abs_zero]; exact z)
    rw [abs_zero, _root_.add_zero] at s0
    have hr := roots (F64.add (F64.mul x x) (F64.mul y y))
    generalize F64.sqrt (F64.add (F64.mul x x) (F64.mul y y)) = R at hr ⊢
    have : value R = some 0 := by
      generalize F64.add (F64.mul x x) (F64.mul y y) = S at hr S0
      cases hr with
      | nan => cases S0
      | inf => cases S0
      | negInf => cases S0
      | zero h => exact h
      | negative h h' => rw [S0] at h; cases h; exact absurd h' (lt_irrefl _)
      | positive h h' => rw [S0] at h; cases h; exact absurd h' (lt_irrefl _)
    exact ⟨0, 0, 0, S0, le_rfl, this, s0, by rw [abs_zero], le_rfl⟩
  · have hb0 := abs_nonneg q
    have hlow : (0 : ℚ) < 1 / 2 ^ 511 := by positivity
    have pp : p * p = |p| * |p| := (abs_mul_abs_self p).symm
    have qq : q * q = |q| * |q| := (abs_mul_abs_self q).symm
    rw [pp] at e1
    rw [qq] at e2
    obtain ⟨sn, sx⟩ := sum_normal h0 hb0 hp.2 hq.2
    have sx' : |(|p| + |q|)| ≤ 2 ^ 1023 := sx.trans (pow_le_pow_right₀ (by norm_num) (by norm_num))
    obtain ⟨s, vs, -⟩ := round_abs hs sx'
    have es := round_rel hs vs sn sx'
    rw [_root_.abs_of_nonneg (by linarith : 0 ≤ |p| + |q|)] at es
    have hps : |p| ≤ s := leF_values (roundsTo_mono (rounds_self ax) hs (by linarith)) ax vs
    have big : ∀ {c t : ℚ}, 0 ≤ c → c ≤ 2 ^ 510 → |t - c * c| * 2 ^ 53 ≤ c * c → t ≤ 2 ^ 1021 := by
      intro c t c0 c1 c2
      have h1 : c * c ≤ 2 ^ 1020 := by
        have : (2 : ℚ) ^ 1020 = 2 ^ 510 * 2 ^ 510 := by rw [← pow_add]
        rw [this]
        exact mul_le_mul c1 c1 c0 (by positivity)
      have h2 := le_abs_self (t - c * c)
      have h3 := abs_nonneg (t - c * c)
      have h4 : (2 : ℚ) ^ 1021 = 2 * 2 ^ 1020 := by rw [← pow_succ']
      rw [h4]
      have h5 : |t - c * c| ≤ c * c := by
        refine le_trans ?_ c2
        exact le_mul_of_one_le_right h3 (one_le_pow₀ (by norm_num))
      linarith
    have b1 := big (abs_nonneg p) hp.2 e1
    have b2 := big hb0 hq.2 e2
    obtain ⟨r, vS, -⟩ := round_abs hS (by
      rw [_root_.abs_of_nonneg (by linarith)]
      have : (2 : ℚ) ^ 1021 + 2 ^ 1021 ≤ 2 ^ 1023 := by norm_num
      linarith)
    have lS : LeF (F64.mul x x) (F64.add (F64.mul x x) (F64.mul y y)) :=
      roundsTo_mono (rounds_self v1) hS (by linarith)
    have r0 : 0 ≤ r := n1.trans (leF_values lS v1 vS)
    obtain ⟨h, vh, -⟩ := sqrt_value vS r0
    have hX : F64.sqrt (F64.mul x x) = F64.abs x := sqrt_square hx v1 (by rw [pp]; exact square_normal h0)
    refine ⟨r, h, s, vS, r0, vh, vs, ?_, ?_⟩
    · have := sqrt_mono lS (by rw [hX]; exact ne_nan_of_value ax) (ne_nan_of_value vh)
      rw [hX] at this
      exact leF_values this ax vh
    · rcases le_or_gt (|p|) (|q| * 2 ^ 51) with l | l
      · have q0 : 0 < |q| := by
          by_contra hn
          have : |q| = 0 := le_antisymm (not_lt.1 hn) hb0
          rw [this, MulZeroClass.zero_mul] at l
          linarith
        have up := hypot_upper q0 hle l e1 e2 es
        have s1 : 1 / 2 ^ 511 ≤ s := h0.trans hps
        have s2 : s ≤ 2 ^ 511 := by
          obtain ⟨t, ht⟩ : InF64 ((2 : ℚ) ^ 511) := pow_inF64
          have := roundsTo_mono hs (rounds_self ht) (by
            rw [_root_.abs_of_nonneg (by linarith)] at sx; exact sx)
          exact leF_values this vs ht
        have hm := mul_rounds vs vs
        obtain ⟨t, vt, -⟩ := round_abs hm (by
          rw [abs_mul_self]
          have : s * s ≤ 2 ^ 511 * 2 ^ 511 := mul_le_mul s2 s2 (by linarith) (by positivity)
          rw [← pow_add] at this
          exact this.trans (pow_le_pow_right₀ (by norm_num) (by norm_num)))
        have hT := sqrt_square vs vt (square_normal s1)
        have as := (abs_value vs).1
        have := sqrt_mono (roundsTo_mono hS hm up) (ne_nan_of_value vh) (by rw [hT]; exact ne_nan_of_value as)
        rw [hT] at this
        have := leF_values this vh as
        rwa [_root_.abs_of_nonneg (by linarith)] at this
      · have ab : r₂ * 2 ^ 55 ≤ r₁ := by
          have := absorb_bound (abs_nonneg p) hb0 l e1 e2
          exact this
        have vS' := add_absorb v1 v2 n2 ab (b1.trans (pow_le_pow_right₀ (by norm_num) (by norm_num)))
        have : LeF (F64.add (F64.mul x x) (F64.mul y y)) (F64.mul x x) := .fin vS' v1 le_rfl
        have := sqrt_mono this (ne_nan_of_value vh) (by rw [hX]; exact ne_nan_of_value ax)
        rw [hX] at this
        exact (leF_values this vh ax).trans hps

theorem hypot_values {x y : F64} {p q : ℚ} (hx : value x = some p) (hy : value y = some q) (hp : Leg p)
    (hq : Leg q) :
    ∃ r h s, value (F64.add (F64.mul x x) (F64.mul y y)) = some r ∧ 0 ≤ r ∧
      value (F64.sqrt (F64.add (F64.mul x x) (F64.mul y y))) = some h ∧
      value (F64.add (F64.abs x) (F64.abs y)) = some s ∧ |p| ≤ h ∧ |q| ≤ h ∧ h ≤ s := by
  rcases le_total |q| |p| with l | l
  · obtain ⟨r, h, s, h1, h2, h3, h4, h5, h6⟩ := hypot_core hx hy hp hq l
    exact ⟨r, h, s, h1, h2, h3, h4, h5, l.trans h5, h6⟩
  · obtain ⟨r, h, s, h1, h2, h3, h4, h5, h6⟩ := hypot_core hy hx hq hp l
    rw [fadd_comm] at h1 h3 h4
    exact ⟨r, h, s, h1, h2, h3, h4, l.trans h5, h5, h6⟩

/-- Right triangles whose squares are in the format. -/
theorem hypot_exact {x y : F64} {p q t : ℚ} (hx : value x = some p) (hy : value y = some q)
    (h1 : InF64 (p * p)) (h2 : InF64 (q * q)) (h3 : InF64 (t * t)) (ht : InF64 t) (hb : 1 / 2 ^ 1022 ≤ t * t)
    (h : p * p + q * q = t * t) : value (F64.sqrt (F64.add (F64.mul x x) (F64.mul y y))) = some |t| := by
  obtain ⟨z, hz⟩ := ht
  have v := add_exact (mul_exact hx hx h1) (mul_exact hy hy h2) (by rw [h]; exact h3)
  rw [h] at v
  have vz := mul_exact hz hz h3
  have hs := sqrt_square hz vz hb
  have e : Same (F64.mul z z) (F64.add (F64.mul x x) (F64.mul y y)) := same_of_value vz v
  rcases e with e | ⟨e, -⟩
  · rw [← e, hs]
    exact (abs_value hz).1
  · exact absurd e (not_zero_of_value vz (by
      intro h0
      rw [h0] at hb
      exact absurd hb (not_le.2 (by positivity))))

theorem sqrt_step (w : World) (x : F64) : CallStep w Builtin.sqrt.toFunc [x] (F64.sqrt x) := by
  refine ⟨rfl, fun us hu => ?_⟩
  cases hu with
  | cons h1 h2 =>
    cases h2
    rename_i u
    refine ⟨F64.sqrt u, rfl, ?_⟩
    rcases h1 with rfl | ⟨⟨s, h1⟩, ⟨t, h2⟩⟩
    · exact .refl _
    · have : ∀ t, F64.sqrt (F64.zero t) = F64.zero t := by intro t; cases t <;> decide +kernel
      rw [h1, h2, this, this]
      exact .inr ⟨⟨s, rfl⟩, ⟨t, rfl⟩⟩

theorem hypot_runs {w : World} {m : HMap F64} {a b : Elem} {x y : F64} {r : ℚ} (ha : Runs w m a x)
    (hb : Runs w m b y) (h : value (F64.add (F64.mul x x) (F64.mul y y)) = some r) :
    Runs w m (hypotTree a b) (F64.sqrt (F64.add (F64.mul x x) (F64.mul y y))) := by
  have hn : ∀ {c d : F64}, value (F64.add c d) = some r → c ≠ .nan ∧ d ≠ .nan := by
    intro c d h
    constructor
    · rintro rfl; cases h
    · rintro rfl; cases c <;> cases h
  exact .call (.cons (.bin (.bin ha ha (.times (hn h).1)) (.bin hb hb (.times (hn h).2))
    (.plus (ne_nan_of_value h))) .nil) (sqrt_step w _)

theorem hypot_eval {w : World} {m : HMap F64} {a b : Elem} {x y : F64} (ha : eval w m a = .ok x)
    (hb : eval w m b = .ok y) :
    eval w m (hypotTree a b) = .ok (F64.sqrt (F64.add (F64.mul x x) (F64.mul y y))) := by
  refine eval_call_ok.2 ⟨[F64.add (F64.mul x x) (F64.mul y y)], ?_, rfl⟩
  rw [evalL, eval, eval_times ha ha, eval_times hb hb]
  rfl

/-! ### C124 -/

/-- C124: the computed `sqrt(a*a + b*b)` is not less than the magnitude of either side, and not more
than the computed `abs(a) + abs(b)`. -/
theorem C124_sides (w : World) (m : HMap F64) (a b : Elem) (x y : F64) (p q : ℚ) (ha : eval w m a = .ok x)
    (hb : eval w m b = .ok y) (hx : value x = some p) (hy : value y = some q) (hp : Leg p) (hq : Leg q) :
    ∃ u v h s, eval w m (hypotTree a b) = .ok u ∧ evalU w m (hypotTree a b) = .ok u ∧
      eval w m (.bin .plus (app .abs a) (app .abs b)) = .ok v ∧ value u = some h ∧ value v = some s ∧
      |p| ≤ h ∧ |q| ≤ h ∧ h ≤ s := by
  obtain ⟨r, h, s, -, -, h3, h4, h5⟩ := hypot_values hx hy hp hq
  have he := hypot_eval ha hb
  have habs : ∀ {c : Elem} {z : F64}, eval w m c = .ok z → eval w m (app .abs c) = .ok (F64.abs z) := fun h =>
    eval_call_ok.2 ⟨[_], by rw [evalL, h]; rfl, rfl⟩
  exact ⟨_, _, h, s, he, by rw [evalU_eq, he]; rfl, by rw [eval, habs ha, habs hb]; rfl, h3, h4, h5⟩

/-- C124: if the squares of all three sides are in the format, the hypotenuse is exact. -/
theorem C124_exact (w : World) (m : HMap F64) (a b : Elem) (x y : F64) (p q t : ℚ) (ha : eval w m a = .ok x)
    (hb : eval w m b = .ok y) (hx : value x = some p) (hy : value y = some q) (h1 : InF64 (p * p))
    (h2 : InF64 (q * q)) (h3 : InF64 (t * t)) (ht : InF64 t) (hl : 1 / 2 ^ 1022 ≤ t * t) (h : p * p + q * q = t * t) :
    ∃ u, eval w m (hypotTree a b) = .ok u ∧ evalU w m (hypotTree a b) = .ok u ∧ value u = some |t| := by
  have he := hypot_eval ha hb
  exact ⟨_, he, by rw [evalU_eq, he]; rfl, hypot_exact hx hy h1 h2 h3 ht hl h⟩

/-- C124 after simplification and for `simplify_for`, where the sides have no doubtful step. -/
theorem C124_simplified (cfg : Cfg) (w : World) (m : HMap F64) (a b e' : Elem) (x y : F64) (p q : ℚ)
    (hw : NoPower (hypotTree a b) ∨ PowLaws w) (ha : Runs w m a x) (hb : Runs w m b y) (hx : value x = some p)
    (hy : value y = some q) (hp : Leg p) (hq : Leg q) (he : simplify cfg w (hypotTree a b) = .ok e') :
    ∃ u h s, eval w m e' = .ok u ∧ value u = some h ∧ value (F64.add (F64.abs x) (F64.abs y)) = some s ∧
      |p| ≤ h ∧ |q| ≤ h ∧ h ≤ s := by
  obtain ⟨r, h, s, h1, -, h3, h4, h5⟩ := hypot_values hx hy hp hq
  obtain ⟨u, k1, k2⟩ := simplify_runs' hw (hypot_runs ha hb h1) he
  exact ⟨u, h, s, runs_eval _ k1, value_same h3 k2, h4, h5⟩

/-- C124 for texts, in every build. -/
theorem C124_builds (cfg cfg' : Cfg) (w : World) (o o' : Oracle) (ctx : Context) (input : Bytes)
    (f g : Xpr) (m : HMap F64) (a b : Elem) (x y : F64) (p q : ℚ) (hpe : cfg.pejmdas = cfg'.pejmdas)
    (ho : cfg.opt = false) (hw : NoPower f.root ∨ PowLaws w) (hn : ∀ ts, Lex input ts → ParensApart ts)
    (h : parse cfg w o ctx input = .ok f) (h' : parse cfg' w o' ctx input = .ok g) (hr : f.root = hypotTree a b)
    (ha : Runs w m a x) (hb : Runs w m b y) (hx : value x = some p)
    (hy : value y = some q) (hp : Leg p) (hq : Leg q) :
    ∃ u h s, g.eval w m = .ok u ∧ value u = some h ∧ value (F64.add (F64.abs x) (F64.abs y)) = some s ∧
      |p| ≤ h ∧ |q| ≤ h ∧ h ≤ s := by
  obtain ⟨r, t, s, h1, -, h3, h4, h5⟩ := hypot_values hx hy hp hq
  have k := hypot_runs ha hb h1
  rw [← hr] at k
  obtain ⟨-, u, hu, su⟩ := C16_value_partial cfg cfg' w o o' ctx input f g m _ hpe ho hw hn h h' k
  exact ⟨u, t, s, hu, value_same h3 su, h4, h5⟩

/-- A case of `C124_exact`, and of the hypotheses of `C124_sides`: 3, 4, 5. -/
example : (match parse0 cfgPlain b!"sqrt(x*x+4*4)" with
    | .ok f => decide (f.root = hypotTree vx (.num (F64.ofNat 4)))
    | _ => false) = true ∧ (match parse0 cfgOpt b!"sqrt(x*x+4*4)" with
    | .ok g => decide (g.eval w0 (mx (F64.ofNat 3)) = .ok (F64.ofNat 5))
    | _ => false) = true ∧ Leg 3 ∧ Leg 4 ∧ (3 : ℚ) * 3 + 4 * 4 = 5 * 5 := by
  refine ⟨by decide +kernel, by decide +kernel, ⟨.inr ?_, by norm_num⟩, ⟨.inr ?_, by norm_num⟩, by norm_num⟩ <;> norm_num

/-- Both bounds are reached where one side is lost beside the other; outside of `Leg` the square of a side can
be lost to zero, and the hypotenuse be less than the side. -/
example : F64.sqrt (F64.add (F64.mul F64.f1 F64.f1) (F64.mul tiny tiny)) = F64.f1 ∧ F64.add F64.f1 tiny = F64.f1 ∧
    F64.sqrt (F64.add (F64.mul tiny tiny) (F64.mul tiny tiny)) = F64.zero false := by
  decide +kernel

end Props
end Xprs
