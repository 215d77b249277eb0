import Verif.Spec.Wrap
import Verif.Props.Residue
import Verif.Props.Laws
import Mathlib.Data.Nat.Log
/-
Property C110: bringing a number into a range.
-/
namespace Xprs
namespace Props
open Spec
set_option exponentiation.threshold 4096

/-- What a sum of a number and a larger one can lose. -/
theorem near_sum {a b c : ℤ} (hb : 0 < b) (hab : |a| < b) (h : NearZ (a + b) c) :
    |a + b - c| * 2 ^ 52 ≤ b := by
  obtain ⟨ha1, ha2⟩ := abs_lt.1 hab
  obtain ⟨n, rfl⟩ := Int.eq_ofNat_of_zero_le hb.le
  have hn : n ≠ 0 := by rintro rfl; simp at hb
  have h1 : 2 ^ Nat.log 2 n ≤ n := Nat.pow_log_le_self 2 hn
  have h2 : n < 2 ^ (Nat.log 2 n + 1) := Nat.lt_pow_succ_log_self (by norm_num) n
  generalize Nat.log 2 n = e at h1 h2
  have h1 : (2 : ℤ) ^ e ≤ n := by exact_mod_cast h1
  have h2 : (n : ℤ) < 2 ^ (e + 1) := by exact_mod_cast h2
  by_cases he : e ≤ 51
  · have : (2 : ℤ) ^ (e + 1) ≤ 2 ^ 52 := pow_le_pow_right₀ (by norm_num) (by omega)
    have hc := h.exact ⟨a + n, 0, by rw [abs_of_pos (by omega)]; omega, by ring⟩
    rw [hc, _root_.sub_self, abs_zero, zero_mul]
    exact hb.le
  · obtain ⟨j, rfl⟩ : ∃ j, e = j + 52 := ⟨e - 52, by omega⟩
    have hP : (0 : ℤ) < 2 ^ j := by positivity
    have e1 : (2 : ℤ) ^ (j + 52) = 2 ^ 52 * 2 ^ j := by ring
    have e2 : (2 : ℤ) ^ (j + 52 + 1) = 2 ^ 53 * 2 ^ j := by ring
    rw [e1] at h1
    rw [e2] at h2
    generalize hT : a + (n : ℤ) = T at h
    -- the multiple of `2 * 2 ^ j` next to `T`
    obtain ⟨M, hM1, hM2⟩ : ∃ M : ℤ, M * (2 * 2 ^ j) ≤ T + 2 ^ j ∧ T + 2 ^ j < (M + 1) * (2 * 2 ^ j) := by
      refine ⟨(T + 2 ^ j) / (2 * 2 ^ j), Int.ediv_mul_le _ (by positivity), ?_⟩
      exact Int.lt_ediv_add_one_mul_self _ (by positivity)
    have hM0 : 0 ≤ M := by
      by_contra hM
      have : (M + 1) * (2 * 2 ^ j) ≤ 0 := mul_nonpos_of_nonpos_of_nonneg (by omega) (by positivity)
      omega
    have hM3 : M ≤ 2 ^ 53 := by
      by_contra hM
      have : (2 ^ 53 + 1) * (2 * 2 ^ j) ≤ M * (2 * 2 ^ j) := mul_le_mul_of_nonneg_right (by omega) (by positivity)
      nlinarith
    have hg : GridZ (M * (2 * 2 ^ j)) := by
      rcases hM3.lt_or_eq with hM | rfl
      · exact ⟨M, j + 1, by rwa [abs_of_nonneg hM0], by ring⟩
      · exact ⟨2 ^ 52, j + 2, by norm_num, by ring⟩
    have hc := h.closest _ hg
    have h4 : |M * (2 * 2 ^ j) - T| ≤ 2 ^ j := by
      rw [abs_le]
      constructor <;> nlinarith
    rw [abs_sub_comm]
    have h5 := hc.trans h4
    nlinarith

theorem trunc_pos {p q : ℚ} (hq : 0 < q) (hp : 0 ≤ p) :
    0 ≤ p - q * truncRat (p / q) ∧ p - q * truncRat (p / q) < q := by
  have h0 : 0 ≤ p / q := div_nonneg hp hq.le
  rw [truncRat, if_pos h0]
  have h1 := Int.floor_le (p / q)
  have h2 := Int.lt_floor_add_one (p / q)
  rw [le_div_iff₀ hq] at h1
  rw [div_lt_iff₀ hq] at h2
  constructor <;> linarith

theorem trunc_abs {p q : ℚ} (hq : 0 < q) : |p - q * truncRat (p / q)| < q := by
  rcases le_total 0 p with hp | hp
  · obtain ⟨h1, h2⟩ := trunc_pos hq hp
    rwa [abs_of_nonneg h1]
  · by_cases h0 : 0 ≤ p / q
    · rw [le_div_iff₀ hq, zero_mul] at h0
      cases le_antisymm hp h0
      simpa [truncRat] using hq
    · rw [truncRat, if_neg h0]
      have h1 := Int.le_ceil (p / q)
      have h2 := Int.ceil_lt_add_one (p / q)
      rw [div_le_iff₀ hq] at h1
      rw [← sub_lt_iff_lt_add, lt_div_iff₀ hq] at h2
      rw [abs_lt]
      constructor <;> linarith

theorem value_between {a b v : F64} {p q : ℚ} (h1 : LeF a v) (h2 : LeF v b) (ha : value a = some p)
    (hb : value b = some q) : ∃ r, value v = some r ∧ p ≤ r ∧ r ≤ q := by
  cases v with
  | nan => cases h1 with
    | bot h => exact absurd rfl h
    | fin _ h => cases h
  | inf s =>
    cases s
    · cases h2 with
      | top => cases hb
      | fin h => cases h
    · cases h1 with
      | bot => cases ha
      | fin _ h => cases h
  | fin s n hn =>
    obtain ⟨r, hr⟩ : ∃ r, value (.fin s n hn) = some r := by
      cases s <;> exact ⟨_, rfl⟩
    exact ⟨r, hr, leF_values h1 ha hr, leF_values h2 hr hb⟩

/-- The floats of the idiom. -/
theorem wrap_value {x y : F64} {p q : ℚ} (hx : value x = some p) (hy : value y = some q) (hq : 0 < q)
    (h2 : q < 2 ^ 1023) :
    ∃ t u r : ℚ, value (F64.rem x y) = some t ∧ value (F64.add (F64.rem x y) y) = some u ∧
      value (F64.rem (F64.add (F64.rem x y) y) y) = some r ∧ WrapsTo q (q / 2 ^ 52) p r ∧
      (InF64 (t + q) → WrapsTo q 0 p r) ∧ t = p - q * truncRat (p / q) := by
  have ht := (rem_value hx hy hq.ne').1
  have hs := trunc_abs (p := p) hq
  set t := p - q * truncRat (p / q) with htd
  obtain ⟨b, hb, gb, lb⟩ := gridZ_of_value hy
  obtain ⟨a, ha, ga, la⟩ := gridZ_of_value ht
  have hU : (0 : ℚ) < 2 ^ 1074 := by positivity
  have hb0 : 0 < b := by
    rw [hb, lt_div_iff₀ hU, zero_mul] at hq
    exact_mod_cast hq
  have hab : |a| < b := by
    rw [ha, hb, abs_div, abs_of_pos hU, div_lt_div_iff_of_pos_right hU] at hs
    exact_mod_cast hs
  have g2 : GridZ (b + b) := by
    obtain ⟨m, k, h, rfl⟩ := gb
    exact ⟨m, k + 1, h, by ring⟩
  have l2 : |b + b| < 2 ^ 2098 := by
    rw [abs_of_pos (by omega)]
    rw [hb, div_lt_iff₀ hU, ← pow_add] at h2
    have h2 : b < 2 ^ 2097 := by exact_mod_cast h2
    calc b + b < 2 ^ 2097 + 2 ^ 2097 := add_lt_add h2 h2
      _ = 2 ^ 2098 := by ring
  have hd : value (F64.add y y) = some (q + q) := by
    have := add_units_exact (hb ▸ hy) (hb ▸ hy) g2 l2
    rw [this, hb, ← add_div]
    push_cast
    rfl
  have hr := add_rounds ht hy
  have hle := roundsTo_mono hr (add_rounds hy hy) (by have := (abs_lt.1 hs).2; linarith)
  have h0 : RoundsTo 0 F64.f0 := by
    have := add_rounds value_f0 value_f0
    rw [_root_.add_zero] at this
    rwa [show F64.add F64.f0 F64.f0 = F64.f0 by decide +kernel] at this
  have hge := roundsTo_mono h0 hr (by have := (abs_lt.1 hs).1; linarith)
  obtain ⟨u, hu, hu0, hu2⟩ := value_between hge hle value_f0 hd
  have hv := (rem_value hu hy hq.ne').1
  obtain ⟨k0, k1⟩ := trunc_pos hq hu0
  have hk : ∀ d, |t + q - u| ≤ d → WrapsTo q d p (u - q * truncRat (u / q)) := fun d hd =>
    ⟨k0, k1, truncRat (p / q) - 1 + truncRat (u / q), by
      push_cast
      rw [show p - ((truncRat (p / q) : ℚ) - 1 + truncRat (u / q)) * q - (u - q * truncRat (u / q)) = t + q - u by
        rw [htd]; ring]
      exact hd⟩
  refine ⟨t, u, _, ht, hu, hv, hk _ ?_, fun hf => hk _ ?_, rfl⟩
  · obtain ⟨c, hc, -, -⟩ := gridZ_of_value hu
    have hn := add_units (ha ▸ ht) (hb ▸ hy) (hc ▸ hu)
    have := near_sum hb0 hab hn
    rw [ha, hb, hc, ← add_div, ← sub_div, abs_div, abs_of_pos hU, div_right_comm,
      div_le_div_iff_of_pos_right hU, le_div_iff₀ (by positivity)]
    exact_mod_cast this
  · have := value_of_rounds hr hf
    rw [hu] at this
    cases this
    simp

theorem wraps_floor {p q r : ℚ} (hq : 0 < q) (h : WrapsTo q 0 p r) : r = p - q * ⌊p / q⌋ := by
  obtain ⟨h1, h2, k, h3⟩ := h
  have h3 := abs_eq_zero.1 (le_antisymm h3 (abs_nonneg _))
  have hf : ⌊p / q⌋ = k := by
    rw [Int.floor_eq_iff, le_div_iff₀ hq, div_lt_iff₀ hq]
    constructor <;> linarith
  rw [hf]
  linarith

section
variable {w : World} {m : HMap F64} {a b : Elem} {x y : F64}

theorem eval_mod (ha : eval w m a = .ok x) (hb : eval w m b = .ok y) :
    eval w m (.bin .modulo a b) = .ok (F64.rem x y) := by rw [eval, ha, hb]; rfl

theorem eval_wrap (ha : eval w m a = .ok x) (hb : eval w m b = .ok y) :
    eval w m (wrapTree a b) = .ok (F64.rem (F64.add (F64.rem x y) y) y) :=
  eval_mod (eval_plus (eval_mod ha hb) hb) hb
end

/-! ### C110 -/

section
variable (w : World) (m : HMap F64) (a b : Elem) (x y : F64) (p q : ℚ)

/-- C110: for every finite `a` and every positive `b` that can be doubled, `((a%b)+b)%b` is a
number from 0 to `b`, `b` itself excluded, and differs from `a` by a multiple of `b`, but for what
the one sum loses: at most `b / 2^52`. -/
theorem C110_wraps (ha : eval w m a = .ok x) (hb : eval w m b = .ok y) (hx : value x = some p)
    (hy : value y = some q) (hq : 0 < q) (h2 : q < 2 ^ 1023) :
    ∃ v r, eval w m (wrapTree a b) = .ok v ∧ value v = some r ∧ WrapsTo q (q / 2 ^ 52) p r := by
  obtain ⟨t, u, r, -, -, hr, hw, -⟩ := wrap_value hx hy hq h2
  exact ⟨_, r, eval_wrap ha hb, hr, hw⟩

/-- C110: if that sum is a number of the format, the result is `a - b * floor(a / b)`, exactly. -/
theorem C110_exact (ha : eval w m a = .ok x) (hb : eval w m b = .ok y) (hx : value x = some p)
    (hy : value y = some q) (hq : 0 < q) (h2 : q < 2 ^ 1023)
    (hf : InF64 (p - q * truncRat (p / q) + q)) :
    ∃ v, eval w m (wrapTree a b) = .ok v ∧ value v = some (p - q * ⌊p / q⌋) := by
  obtain ⟨t, u, r, -, -, hr, -, hw, rfl⟩ := wrap_value hx hy hq h2
  rw [wraps_floor hq (hw hf)] at hr
  exact ⟨_, eval_wrap ha hb, hr⟩

end

/-- Small whole numbers are in the format. -/
theorem inF64_int {k : ℤ} (h : |k| < 2 ^ 53) : InF64 (k : ℚ) := by
  have e : ((k * 2 ^ 1074 : ℤ) : ℚ) / 2 ^ 1074 = k := by
    push_cast
    exact mul_div_cancel_right₀ _ (by positivity)
  rw [← e]
  refine inF64_of_gridZ ⟨k, 1074, h, rfl⟩ ?_
  rw [abs_mul, abs_of_pos (show (0 : ℤ) < 2 ^ 1074 by positivity)]
  calc |k| * 2 ^ 1074 < 2 ^ 53 * 2 ^ 1074 := mul_lt_mul_of_pos_right h (by positivity)
    _ = 2 ^ 1127 := by rw [← pow_add]
    _ ≤ 2 ^ 2098 := pow_le_pow_right₀ (by norm_num) (by norm_num)

/-- The sum is in the format for whole numbers. -/
theorem inF64_whole {i j : ℤ} (hj : 0 < j) (hj2 : j ≤ 2 ^ 52) :
    InF64 ((i : ℚ) - j * truncRat ((i : ℚ) / j) + j) := by
  have hjq : (0 : ℚ) < j := by exact_mod_cast hj
  have hs := trunc_abs (p := (i : ℚ)) hjq
  have e : (i : ℚ) - j * truncRat ((i : ℚ) / j) + j = ((i - j * truncRat ((i : ℚ) / j) + j : ℤ) : ℚ) := by
    push_cast; rfl
  have hs : |i - j * truncRat ((i : ℚ) / j)| < j := by exact_mod_cast hs
  rw [e]
  refine inF64_int ?_
  obtain ⟨h1, h2⟩ := abs_lt.1 hs
  rw [abs_of_pos (by linarith)]
  linarith

/-- C110: for whole numbers (any `a`, and `b` from 1 to `2^52`) the result is the remainder that
is never negative. -/
theorem C110_whole (w : World) (m : HMap F64) (a b : Elem) (x y : F64) (i j : ℤ)
    (ha : eval w m a = .ok x) (hb : eval w m b = .ok y) (hx : value x = some (i : ℚ))
    (hy : value y = some (j : ℚ)) (hj : 0 < j) (hj2 : j ≤ 2 ^ 52) :
    ∃ v, eval w m (wrapTree a b) = .ok v ∧ value v = some ((i % j : ℤ) : ℚ) := by
  have hjq : (0 : ℚ) < j := by exact_mod_cast hj
  obtain ⟨v, h1, h2⟩ := C110_exact w m a b x y i j ha hb hx hy hjq
    (lt_of_le_of_lt (by exact_mod_cast hj2 : (j : ℚ) ≤ 2 ^ 52) (pow_lt_pow_right₀ (by norm_num) (by norm_num)))
    (inF64_whole hj hj2)
  refine ⟨v, h1, ?_⟩
  obtain ⟨n, rfl⟩ := Int.eq_ofNat_of_zero_le hj.le
  rw [h2, Int.cast_natCast, Rat.floor_intCast_div_natCast, Int.emod_def]
  push_cast
  rfl

/-- `-7` wrapped by 5 is 3, where `-7 % 5` is `-2`. -/
example : ∃ v, eval w0 (mx (F64.neg (F64.ofNat 7))) (wrapTree vx (.num (F64.ofNat 5))) = .ok v ∧
    value v = some ((-7 % 5 : ℤ) : ℚ) := by
  refine C110_whole w0 _ _ _ _ _ (-7) 5 rfl rfl ?_ ?_ (by norm_num) (by norm_num)
  · decide +kernel
  · decide +kernel

/-- The error is real: `2^-60` wrapped by 2 is 0, as `2^-60 + 2` is rounded to 2. -/
example : eval w0 (mx (F64.ofMag false (2 ^ 1014) 1)) (wrapTree vx (.num (F64.ofNat 2))) = .ok F64.f0 := by
  decide +kernel

/-- The tree wraps `p` by `q`, no step of the operands is doubtful, and `q` is not 1 (see below). -/
inductive Winds (w : World) (m : HMap F64) (q p : ℚ) : Elem → Prop
  | mk {a b x y} : Runs w m a x → Runs w m b y → value x = some p → value y = some q → 0 < q →
      q < 2 ^ 1023 → q ≠ 1 → Winds w m q p (wrapTree a b)

theorem winds_runs {w : World} {m : HMap F64} {q p : ℚ} {e : Elem} (h : Winds w m q p e) :
    ∃ v r, Runs w m e v ∧ value v = some r ∧ WrapsTo q (q / 2 ^ 52) p r ∧
      (InF64 (p - q * truncRat (p / q) + q) → r = p - q * ⌊p / q⌋) := by
  obtain @⟨a, b, x, y, ra, rb, hx, hy, hq, h2, h1⟩ := h
  obtain ⟨t, u, r, ht, hu, hr, hw, he, rfl⟩ := wrap_value hx hy hq h2
  have hy1 : ∀ {P : Prop}, y = F64.f1 → P := fun hy' => by
    rw [hy', one_value] at hy
    cases hy
    exact absurd rfl h1
  exact ⟨_, r, .bin (.bin (.bin ra rb (.modulo (ne_nan' ht) hy1)) rb (.plus (ne_nan' hu))) rb
    (.modulo (ne_nan' hr) hy1), hr, hw, fun hf => wraps_floor hq (he hf)⟩

/-- What C110 says of a value. -/
def Wound (q p : ℚ) (v : F64) : Prop :=
  ∃ r, value v = some r ∧ WrapsTo q (q / 2 ^ 52) p r ∧
    (InF64 (p - q * truncRat (p / q) + q) → r = p - q * ⌊p / q⌋)

/-- C110: simplification, in every build, keeps this, if `b` is not 1. -/
theorem C110_simplified (cfg : Cfg) (w : World) (m : HMap F64) (e e' : Elem) (q p : ℚ)
    (hw : NoPower e ∨ PowLaws w) (h : Winds w m q p e) (hs : simplify cfg w e = .ok e') :
    ∃ v, eval w m e' = .ok v ∧ Wound q p v := by
  obtain ⟨v, r, h1, h2, h3⟩ := winds_runs h
  obtain ⟨u, h4, h5⟩ := simplify_runs' hw h1 hs
  exact ⟨u, runs_eval _ h4, r, value_same h2 h5, h3⟩

/-- C110: the same for `simplify_for`. -/
theorem C110_fixed (cfg : Cfg) (w : World) (m : HMap F64) (e e' : Xpr) (n : Bytes) (c : F64) (q p : ℚ)
    (hw : NoPower e.root ∨ PowLaws w) (h : Winds w (m.insert n c) q p e.root)
    (hs : e.simplifyFor cfg w n c = .ok e') :
    ∃ v, e'.eval w m = .ok v ∧ Wound q p v := by
  obtain ⟨v, r, h1, h2, h3⟩ := winds_runs h
  obtain ⟨-, u, h4, h5⟩ := C29_partial cfg w m e e' n c v hw h1 hs
  exact ⟨u, h4, r, value_same h2 h5, h3⟩

/-- C110 for texts, in builds without compile-time optimisations: whatever the texts of the
operands are, the idiom is accepted and wraps. -/
theorem C110_texts (cfg : Cfg) (w : World) (o : Oracle) (ctx : Context) (s t : Bytes) (x y : Xpr)
    (ho : cfg.opt = false) (hs : parse cfg w o ctx s = .ok x) (ht : parse cfg w o ctx t = .ok y) :
    ∃ z, parse cfg w o ctx (wrapForm.text fun i => if i = 0 then s else t) = .ok z ∧
      ∀ m a b p q, x.eval w m = .ok a → y.eval w m = .ok b → value a = some p → value b = some q →
        0 < q → q < 2 ^ 1023 → ∃ v, z.eval w m = .ok v ∧ Wound q p v := by
  obtain ⟨z, hz, hr⟩ := form_parse cfg w o ctx ho (fun i => if i = 0 then s else t)
    (fun i => if i = 0 then x else y) (by intro i; by_cases hi : i = 0 <;> simp [hi, hs, ht]) wrapForm
    ⟨by decide, ⟨by decide, ⟨by decide, trivial, trivial⟩, trivial⟩, trivial⟩
  refine ⟨z, hz, fun m a b p q ha hb hp hq h0 h2 => ?_⟩
  obtain ⟨t, u, r, -, -, hv, hw, he, rfl⟩ := wrap_value hp hq h0 h2
  refine ⟨_, ?_, r, hv, hw, fun hf => wraps_floor h0 (he hf)⟩
  show eval w m z.root = _
  rw [hr]
  exact eval_wrap ha hb

/-- C110 for texts, in every build, if `b` is not 1. -/
theorem C110_builds (cfg cfg' : Cfg) (w : World) (o o' : Oracle) (ctx : Context) (input : Bytes)
    (x y : Xpr) (m : HMap F64) (q p : ℚ) (hp : cfg.pejmdas = cfg'.pejmdas) (ho : cfg.opt = false)
    (hw : NoPower x.root ∨ PowLaws w) (hn : ∀ ts, Lex input ts → ParensApart ts)
    (h : parse cfg w o ctx input = .ok x) (h' : parse cfg' w o' ctx input = .ok y)
    (hd : Winds w m q p x.root) :
    (∃ v, x.eval w m = .ok v ∧ Wound q p v) ∧ ∃ v, y.eval w m = .ok v ∧ Wound q p v := by
  obtain ⟨v, r, h1, h2, h3⟩ := winds_runs hd
  obtain ⟨h4, u, h5, h6⟩ := C16_value_partial cfg cfg' w o o' ctx input x y m v hp ho hw hn h h' h1
  exact ⟨⟨v, h4, r, h2, h3⟩, u, h5, r, value_same h2 h6, h3⟩

/-- `((x%5)+5)%5` in both builds. -/
example : parse0 cfgPlain b!"((x%5)+5)%5" = .ok ⟨wrapTree vx (.num (F64.ofNat 5)), [b!"x"]⟩ ∧
    parse0 cfgOpt b!"((x%5)+5)%5" = .ok ⟨wrapTree vx (.num (F64.ofNat 5)), [b!"x"]⟩ := by
  constructor <;> decide +kernel

/-- With the modulus 1 the builds part: the one with optimisations takes every remainder modulo 1
for zero. -/
example : parse0 cfgPlain b!"((x%1)+1)%1" = .ok ⟨wrapTree vx (.num F64.f1), [b!"x"]⟩ ∧
    parse0 cfgOpt b!"((x%1)+1)%1" = .ok ⟨.num F64.f0, []⟩ ∧
    eval w0 (mx (F64.ofDecimal 5 (-1))) (wrapTree vx (.num F64.f1)) = .ok (F64.ofDecimal 5 (-1)) := by
  refine ⟨?_, ?_, ?_⟩ <;> decide +kernel

/-- `-7.5` wrapped by 5 is `2.5`. -/
example : ∃ v, Winds w0 (mx (F64.neg (F64.ofDecimal 75 (-1)))) 5 (-15 / 2) (wrapTree vx (.num (F64.ofNat 5))) ∧
    eval w0 (mx (F64.neg (F64.ofDecimal 75 (-1)))) (wrapTree vx (.num (F64.ofNat 5))) = .ok v ∧
    value v = some (5 / 2) := by
  refine ⟨F64.ofDecimal 25 (-1), .mk (.var rfl) .num ?_ ?_ (by norm_num) ?_ (by norm_num), ?_, ?_⟩
  · decide +kernel
  · decide +kernel
  · exact lt_of_lt_of_le (by norm_num : (5 : ℚ) < 2 ^ 3) (pow_le_pow_right₀ (by norm_num) (by norm_num))
  · decide +kernel
  · decide +kernel

end Props
end Xprs
