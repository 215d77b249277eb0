import Verif.Spec.Rest
import Verif.Lemmas.Residue
import Verif.Props.Quotient
/-
Property C123: what is left of a number when multiples of a whole number are taken off.
-/
namespace Xprs
namespace Props
open _root_.Xprs.Spec
set_option exponentiation.threshold 4096

/-- A number that differs from one of the format by a whole number and is not larger is in the format. -/
theorem rest_inF64 {x : F64} {p : ℚ} {K : ℤ} (hx : value x = some p) (hp : |p| ≤ 2 ^ 53) (h : |p - K| ≤ |p|) :
    InF64 (p - K) := by
  obtain ⟨P, rfl, ⟨m, k, hm, eP⟩, hP⟩ := gridZ_of_value hx
  have hU : (0 : ℚ) < 2 ^ 1074 := by positivity
  have e : (P : ℚ) / 2 ^ 1074 - K = ((P - K * 2 ^ 1074 : ℤ) : ℚ) / 2 ^ 1074 := by
    rw [Int.cast_sub, Int.cast_mul, sub_div, Int.cast_pow, Int.cast_ofNat, mul_div_assoc, _root_.div_self hU.ne', _root_.mul_one]
  rw [e] at h ⊢
  rw [abs_div, abs_div, div_le_div_iff_of_pos_right (by positivity)] at h
  have h' : |P - K * 2 ^ 1074| ≤ |P| := by exact_mod_cast h
  refine inF64_of_gridZ ?_ (h'.trans_lt hP)
  rcases le_total k 1074 with l | l
  · have e2 : P - K * 2 ^ 1074 = (m - K * 2 ^ (1074 - k)) * 2 ^ k := by
      rw [eP, sub_mul, mul_assoc, ← pow_add, Nat.sub_add_cancel l]
    rw [e2] at h' ⊢
    exact small_multiple eP hm h'
  · have e2 : P - K * 2 ^ 1074 = (m * 2 ^ (k - 1074) - K) * 2 ^ 1074 := by
      rw [eP, sub_mul, mul_assoc, ← pow_add, Nat.sub_add_cancel l]
    have e3 : P = (m * 2 ^ (k - 1074)) * 2 ^ 1074 := by
      rw [mul_assoc, ← pow_add, Nat.sub_add_cancel l]; exact eP
    have hle : |m * 2 ^ (k - 1074)| ≤ 2 ^ 53 := by
      rw [abs_div, abs_of_pos hU, div_le_iff₀ hU] at hp
      have : |P| ≤ 2 ^ 53 * 2 ^ 1074 := by exact_mod_cast hp
      rw [e3, abs_mul, abs_of_pos (show (0 : ℤ) < 2 ^ 1074 by positivity)] at this
      exact le_of_mul_le_mul_right this (by positivity)
    rw [e2] at h' ⊢
    rw [e3, abs_mul, abs_mul] at h'
    have h2 := (le_of_mul_le_mul_right h' (by positivity)).trans hle
    rcases lt_or_eq_of_le h2 with l | l
    · exact ⟨_, 1074, l, rfl⟩
    · rcases (abs_eq (by norm_num)).1 l with e | e
      · exact ⟨2 ^ 52, 1075, by norm_num, by rw [e]; norm_num⟩
      · exact ⟨-2 ^ 52, 1075, by norm_num, by rw [e]; norm_num⟩

theorem picks_near {f : Builtin} {r : ℚ} {N : ℤ} (h : Picks f r N) : |r - N| ≤ 1 := by
  cases f <;> try exact h.elim
  case floor => exact abs_le.2 ⟨by linarith [h.1], by linarith [h.2]⟩
  case ceil => exact abs_le.2 ⟨by linarith [h.1], by linarith [h.2]⟩
  case trunc => exact h.2.le
  case round => exact h.1.trans (by norm_num)

theorem rest_scale {p : ℚ} {j N : ℤ} (hj : (j : ℚ) ≠ 0) : p - j * N = j * (p / j - N) := by
  field_simp

/-- When the rest is not larger than the number: always for `trunc` and `round`, for `floor` if the
quotient is not negative, for `ceil` if it is not positive. -/
theorem rest_smaller {f : Builtin} {p : ℚ} {j N : ℤ} (hj : j ≠ 0) (h : Picks f (p / j) N)
    (hf : f = .trunc ∨ f = .round ∨ f = .floor ∧ 0 ≤ p / j ∨ f = .ceil ∧ p / j ≤ 0) : |p - j * N| ≤ |p| := by
  have hjq : (j : ℚ) ≠ 0 := by exact_mod_cast hj
  have hp : p = j * (p / j) := by field_simp
  rw [rest_scale hjq, abs_mul]
  nth_rw 2 [hp]
  rw [abs_mul]
  refine mul_le_mul_of_nonneg_left ?_ (abs_nonneg _)
  generalize p / (j : ℚ) = r at *
  rcases hf with rfl | rfl | ⟨rfl, h0⟩ | ⟨rfl, h0⟩
  · rcases trunc_iff.1 h with ⟨hN, h1, h2⟩ | ⟨hN, h1, h2⟩ | ⟨hN, h1, h2⟩
    · have : (0 : ℚ) < N := by exact_mod_cast hN
      push_cast at h1 h2
      rw [_root_.abs_of_nonneg (by linarith), _root_.abs_of_nonneg (by linarith)]; linarith
    · simp [hN]
    · have : (N : ℚ) < 0 := by exact_mod_cast hN
      push_cast at h1 h2
      rw [_root_.abs_of_nonpos (by linarith), _root_.abs_of_nonpos (by linarith)]; linarith
  · rcases eq_or_ne N 0 with rfl | hN
    · simp
    · have h1 : (1 : ℚ) ≤ |(N : ℚ)| := by exact_mod_cast Int.one_le_abs hN
      have h2 := h.1
      have h3 := abs_sub_abs_le_abs_sub (N : ℚ) r
      rw [abs_sub_comm] at h3
      linarith
  · have hN : (0 : ℚ) ≤ N := by
      have : (-1 : ℚ) < N := by linarith [h.2]
      have : (-1 : ℤ) < N := by exact_mod_cast this
      exact_mod_cast (show 0 ≤ N by omega)
    have h1 : (N : ℚ) ≤ r := h.1
    rw [_root_.abs_of_nonneg (by linarith), _root_.abs_of_nonneg h0]; linarith
  · have hN : (N : ℚ) ≤ 0 := by
      have : (N : ℚ) < 1 := by linarith [h.1]
      have : N < 1 := by exact_mod_cast this
      exact_mod_cast (show N ≤ 0 by omega)
    have h1 : r ≤ (N : ℚ) := h.2
    rw [_root_.abs_of_nonpos (by linarith), _root_.abs_of_nonpos h0]; linarith

theorem full_inF64 {f : Builtin} {p : ℚ} {j N : ℤ} (hj : j ≠ 0) (hf : Splits f p j) (h : Picks f (p / j) N) :
    InF64 (j * N) := by
  have hjq : (j : ℚ) ≠ 0 := by exact_mod_cast hj
  have h1 := (fair_whole hf).2
  have h2 : |p - j * N| ≤ |(j : ℚ)| := by
    rw [rest_scale hjq, abs_mul]
    nlinarith [picks_near h, abs_nonneg (j : ℚ)]
  have h3 := abs_sub_abs_le_abs_sub ((j : ℚ) * N) p
  rw [abs_sub_comm] at h3
  have : InF64 ((j * N : ℤ) : ℚ) := small_inF64 (by
    unfold Spec.Small
    have : |((j * N : ℤ) : ℚ)| ≤ ((2 ^ 53 : ℤ) : ℚ) := by push_cast; linarith
    exact_mod_cast this)
  rwa [Int.cast_mul] at this

theorem rest_runs {w : World} {m : HMap F64} {a b : Elem} {f : Builtin} {p : ℚ} {j N : ℤ} {x y : F64}
    (ha : Runs w m a x) (hb : Runs w m b y) (hx : value x = some p) (hy : value y = some (j : ℚ)) (hj : j ≠ 0)
    (hf : Splits f p j) (h : Picks f (p / j) N) :
    (∃ v, Runs w m (fullTree f a b) v ∧ value v = some ((j : ℚ) * N)) ∧
    (|p - j * N| ≤ |p| → ∃ v, Runs w m (restTree f a b) v ∧ value v = some (p - j * N)) := by
  obtain ⟨v, h1, h2⟩ := fair_runs hf ha hb hx hy hj h
  have h3 := mul_exact hy h2 (full_inF64 hj hf h)
  have h4 : Runs w m (fullTree f a b) (F64.mul y v) := .bin hb h1 (.times (ne_nan_of_value h3))
  refine ⟨⟨_, h4, h3⟩, fun hl => ?_⟩
  have hi : InF64 (p - j * N) := by
    have := rest_inF64 (K := j * N) hx (by linarith [(fair_whole hf).2, abs_nonneg (j : ℚ)]) (by push_cast; exact hl)
    push_cast at this
    exact this
  have h5 := sub_exact hx h3 hi
  exact ⟨_, .bin ha h4 (.minus (ne_nan_of_value h5)), h5⟩

theorem join_exact {x y : F64} {p : ℚ} {j : ℤ} (hx : value x = some p) (hy : value y = some (j : ℚ)) (hj : j ≠ 0)
    {v : F64} (hv : value v = some ((j : ℚ) * truncRat (p / j))) :
    value (F64.rem x y) = some (p - j * truncRat (p / j)) ∧ value (F64.add v (F64.rem x y)) = some p := by
  have hjq : (j : ℚ) ≠ 0 := by exact_mod_cast hj
  have h1 := rem_exact hx hy hjq
  have e : (j : ℚ) * truncRat (p / j) + (p - j * truncRat (p / j)) = p := by ring
  have h2 := add_exact hv h1 (by rw [e]; exact ⟨x, hx⟩)
  rw [e] at h2
  exact ⟨h1, h2⟩

/-! ### C123 -/

/-- C123: let `N` be what `f` makes of the quotient of a number `p` by a whole number `j`.  Then
`b * f(a / b)` is computed exactly, and so is `a - b * f(a / b)` if what is left is not larger than `p`
(see `C123_smaller`). -/
theorem C123_rest (w : World) (m : HMap F64) (f : Builtin) (a b : Elem) (x y : F64) (p : ℚ) (j N : ℤ)
    (ha : eval w m a = .ok x) (hb : eval w m b = .ok y) (hx : value x = some p) (hy : value y = some (j : ℚ))
    (hj : j ≠ 0) (hf : Splits f p j) (h : Picks f (p / j) N) :
    (∃ v, eval w m (fullTree f a b) = .ok v ∧ evalU w m (fullTree f a b) = .ok v ∧ value v = some ((j : ℚ) * N)) ∧
    (|p - j * N| ≤ |p| →
      ∃ v, eval w m (restTree f a b) = .ok v ∧ evalU w m (restTree f a b) = .ok v ∧ value v = some (p - j * N)) := by
  obtain ⟨v, h1, -, h2⟩ := C120_whole w m f a b x y p j N ha hb hx hy hj hf h
  have h3 := mul_exact hy h2 (full_inF64 hj hf h)
  have h4 : eval w m (fullTree f a b) = .ok (F64.mul y v) := by rw [fullTree, eval, hb, h1]; rfl
  refine ⟨⟨_, h4, by rw [evalU_eq, h4]; rfl, h3⟩, fun hl => ?_⟩
  have hi : InF64 (p - j * N) := by
    have := rest_inF64 (K := j * N) hx (by linarith [(fair_whole hf).2, abs_nonneg (j : ℚ)]) (by push_cast; exact hl)
    push_cast at this
    exact this
  have h5 : eval w m (restTree f a b) = .ok (F64.sub x (F64.mul y v)) := by
    show eval w m (.bin .minus a (fullTree f a b)) = _
    rw [eval, ha, h4]
    rfl
  exact ⟨_, h5, by rw [evalU_eq, h5]; rfl, sub_exact hx h3 hi⟩

/-- C123: what is left is not larger than the number, for `trunc` and `round` always, for `floor` if the
quotient is not negative, for `ceil` if it is not positive; and it is smaller than the divisor. -/
theorem C123_smaller (f : Builtin) (p : ℚ) (j N : ℤ) (hj : j ≠ 0) (h : Picks f (p / j) N) :
    |p - j * N| ≤ |(j : ℚ)| ∧
    ((f = .trunc ∨ f = .round ∨ f = .floor ∧ 0 ≤ p / j ∨ f = .ceil ∧ p / j ≤ 0) → |p - j * N| ≤ |p|) := by
  have hjq : (j : ℚ) ≠ 0 := by exact_mod_cast hj
  refine ⟨?_, rest_smaller hj h⟩
  rw [rest_scale hjq, abs_mul]
  nlinarith [picks_near h, abs_nonneg (j : ℚ)]

/-- C123: `a - b * trunc(a / b)` is `a % b`, and `b * trunc(a / b) + a % b` is `a`, exactly, for every
number `a` and every whole number `b`. -/
theorem C123_modulo (w : World) (m : HMap F64) (a b : Elem) (x y : F64) (p : ℚ) (j : ℤ)
    (ha : eval w m a = .ok x) (hb : eval w m b = .ok y) (hx : value x = some p) (hy : value y = some (j : ℚ))
    (hj : j ≠ 0) (hs : |p| + |(j : ℚ)| ≤ 2 ^ 53) :
    ∃ q u v, eval w m (restTree .trunc a b) = .ok u ∧ eval w m (.bin .modulo a b) = .ok v ∧
      value u = some q ∧ value v = some q ∧ |q| < |(j : ℚ)| ∧
      ∃ t, eval w m (joinTree a b) = .ok t ∧ evalU w m (joinTree a b) = .ok t ∧ value t = some p := by
  have hp := trunc_picks (p / j)
  have hf : Splits .trunc p j := .inr (.inr (.inl ⟨rfl, hs⟩))
  obtain ⟨⟨v, h1, -, h2⟩, h3⟩ := C123_rest w m .trunc a b x y p j _ ha hb hx hy hj hf hp
  obtain ⟨u, h4, -, h5⟩ := h3 (rest_smaller hj hp (.inl rfl))
  obtain ⟨h6, h7⟩ := join_exact hx hy hj h2
  have hm : eval w m (.bin .modulo a b) = .ok (F64.rem x y) := by rw [eval, ha, hb]; rfl
  have ht : eval w m (joinTree a b) = .ok (F64.add v (F64.rem x y)) := by rw [joinTree, eval, h1, hm]; rfl
  have hjq : (j : ℚ) ≠ 0 := by exact_mod_cast hj
  refine ⟨_, u, _, h4, hm, h5, h6, ?_, _, ht, by rw [evalU_eq, ht]; rfl, h7⟩
  rw [rest_scale hjq, abs_mul]
  have := hp.2
  have := abs_pos.2 hjq
  nlinarith

theorem join_runs {w : World} {m : HMap F64} {a b : Elem} {p : ℚ} {j : ℤ} {x y : F64}
    (ha : Runs w m a x) (hb : Runs w m b y) (hx : value x = some p) (hy : value y = some (j : ℚ)) (hj : j ≠ 0)
    (h1 : j ≠ 1 ∨ Whole x) (hs : |p| + |(j : ℚ)| ≤ 2 ^ 53) : ∃ v, Runs w m (joinTree a b) v ∧ value v = some p := by
  obtain ⟨⟨v, h2, h3⟩, -⟩ := rest_runs ha hb hx hy hj (.inr (.inr (.inl ⟨rfl, hs⟩))) (trunc_picks (p / j))
  obtain ⟨h4, h5⟩ := join_exact hx hy hj h3
  refine ⟨_, .bin h2 (.bin ha hb (.modulo (ne_nan_of_value h4) fun e => h1.resolve_left fun h => h ?_))
    (.plus (ne_nan_of_value h5)), h5⟩
  have e1 : F64.f1 = F64.ofNat 1 := by decide +kernel
  rw [e, e1, ofNat_value (by norm_num)] at hy
  have := Option.some.inj hy
  exact_mod_cast this.symm

theorem restValue_runs {w : World} {m : HMap F64} {a b e : Elem} {p q : ℚ} {j : ℤ} {x y : F64}
    (ha : Runs w m a x) (hb : Runs w m b y) (hx : value x = some p) (hy : value y = some (j : ℚ)) (hj : j ≠ 0)
    (h : RestValue a b x p j e q) : ∃ v, Runs w m e v ∧ value v = some q := by
  cases h with
  | full hf h => exact (rest_runs ha hb hx hy hj hf h).1
  | rest hf h hl => exact (rest_runs ha hb hx hy hj hf h).2 hl
  | join hs h1 => exact join_runs ha hb hx hy hj h1 hs

/-- C123 after simplification and for `simplify_for`, where the parts have no doubtful step. -/
theorem C123_simplified (cfg : Cfg) (w : World) (m : HMap F64) (a b e e' : Elem) (x y : F64) (p q : ℚ)
    (j : ℤ) (hw : NoPower e ∨ PowLaws w) (ha : Runs w m a x) (hb : Runs w m b y)
    (hx : value x = some p) (hy : value y = some (j : ℚ)) (hj : j ≠ 0) (h : RestValue a b x p j e q)
    (he : simplify cfg w e = .ok e') : ∃ v, eval w m e' = .ok v ∧ value v = some q := by
  obtain ⟨v, h1, h2⟩ := restValue_runs ha hb hx hy hj h
  obtain ⟨u, h3, h4⟩ := simplify_runs' hw h1 he
  exact ⟨u, runs_eval _ h3, value_same h2 h4⟩

/-- C123 for texts, in every build. -/
theorem C123_builds (cfg cfg' : Cfg) (w : World) (o o' : Oracle) (ctx : Context) (input : Bytes)
    (f g : Xpr) (m : HMap F64) (a b : Elem) (x y : F64) (p q : ℚ) (j : ℤ) (hp : cfg.pejmdas = cfg'.pejmdas)
    (ho : cfg.opt = false) (hw : NoPower f.root ∨ PowLaws w) (hn : ∀ ts, Lex input ts → ParensApart ts)
    (h : parse cfg w o ctx input = .ok f) (h' : parse cfg' w o' ctx input = .ok g)
    (ha : Runs w m a x) (hb : Runs w m b y) (hx : value x = some p) (hy : value y = some (j : ℚ)) (hj : j ≠ 0)
    (hr : RestValue a b x p j f.root q) :
    (∃ v, f.eval w m = .ok v ∧ value v = some q) ∧ ∃ v, g.eval w m = .ok v ∧ value v = some q := by
  obtain ⟨v, h1, h2⟩ := restValue_runs ha hb hx hy hj hr
  obtain ⟨h4, u, h5, h6⟩ := C16_value_partial cfg cfg' w o o' ctx input f g m v hp ho hw hn h h' h1
  exact ⟨⟨v, h4, h2⟩, u, h5, value_same h2 h6⟩

/-- A case of `C123_modulo`: minutes and parts of hours, for any number of minutes up to `2⁵²`. -/
example (x : F64) (p : ℚ) (hx : value x = some p) (hp : |p| ≤ 2 ^ 52) :
    ∃ g v, parse0 cfgPlain b!"60*trunc(x/60)+x%60" = .ok g ∧ g.eval w0 (mx x) = .ok v ∧ value v = some p := by
  have h60 := ofNat_value (n := 60) (by norm_num)
  obtain ⟨q, u, v, -, -, -, -, -, t, ht, -, e⟩ := C123_modulo w0 (mx x) vx (.num (F64.ofNat 60)) x (F64.ofNat 60)
    p 60 rfl rfl hx (by rw [h60]; norm_num) (by norm_num) (by
      have : |((60 : ℤ) : ℚ)| = 60 := by norm_num
      rw [this]; linarith)
  exact ⟨⟨joinTree vx (.num (F64.ofNat 60)), [b!"x"]⟩, t, by decide +kernel, ht, e⟩

/-- What is excluded: for `floor` and a small negative number the rest is next to the divisor and is
rounded to it; and a divisor that is not whole can have a quotient that is rounded up to a whole number,
so that nothing, instead of nearly the divisor, is left (0.1 of 1). -/
example : F64.sub (F64.neg tiny) (F64.mul (F64.ofNat 60) (F64.floor (F64.neg (F64.div tiny F64.f1)))) = F64.ofNat 60 ∧
    ∃ t, parse0 cfgPlain b!"0.1" = .ok ⟨.num t, []⟩ ∧
      F64.sub F64.f1 (F64.mul t (F64.trunc (F64.div F64.f1 t))) = F64.zero false ∧
      F64.rem F64.f1 t ≠ F64.zero false := by
  refine ⟨by decide +kernel, .fin false (0x1999999999999a * 2 ^ 1018) (by decide +kernel), by decide +kernel,
    by decide +kernel, by decide +kernel⟩

end Props
end Xprs
