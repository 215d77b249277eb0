import Verif.Spec.Single
import Verif.Lemmas.Laws
import Verif.Lemmas.Lattice
import Verif.Props.Lerp
import Verif.Props.Exact
import Verif.Props.Wrap
/-
Property C130: formulas that are rounded once compare like their exact values.
-/
namespace Xprs
namespace Props
open _root_.Xprs.Spec
set_option exponentiation.threshold 4096

theorem le_values {a b : F64} {p q : ℚ} (ha : value a = some p) (hb : value b = some q) (h : p ≤ q) : LeF a b :=
  roundsTo_mono (rounds_self ha) (rounds_self hb) h

theorem le_same {a b c : F64} (h : LeF a b) (s : Same b c) : LeF a c := by
  rcases s with rfl | ⟨⟨_, rfl⟩, ⟨_, rfl⟩⟩
  · exact h
  · exact leF_trans h (leF_same' (leF_refl (by rintro ⟨⟩)) (.inr ⟨⟨_, rfl⟩, ⟨_, rfl⟩⟩))

theorem min_value2 {a b : F64} {p q : ℚ} (ha : value a = some p) (hb : value b = some q) :
    value ([a, b].foldl F64.fmin (.inf false)) = some (min p q) := by
  obtain ⟨h1, h2⟩ := min_two (min_fold [a, b]) (ne_nan_of_value ha) (ne_nan_of_value hb)
  rcases le_total p q with h | h
  · rw [min_eq_left h]
    exact value_same ha (h1 (le_values ha hb h)).symm
  · rw [min_eq_right h]
    exact value_same hb (h2 (le_values hb ha h)).symm

theorem max_value2 {a b : F64} {p q : ℚ} (ha : value a = some p) (hb : value b = some q) :
    value ([a, b].foldl F64.fmax (.inf true)) = some (max p q) := by
  obtain ⟨h1, h2⟩ := max_two (max_fold [a, b]) (ne_nan_of_value ha) (ne_nan_of_value hb)
  rcases le_total p q with h | h
  · rw [max_eq_right h]
    exact value_same hb (h1 (le_values ha hb h)).symm
  · rw [max_eq_left h]
    exact value_same ha (h2 (le_values hb ha h)).symm

theorem app_eval {w : World} {m : HMap F64} {b : Builtin} {e : Elem} {x v : F64} (h : eval w m e = .ok x)
    (hb : callFn w b.toFunc [x] = .ok v) : eval w m (app b e) = .ok v :=
  eval_call_ok.2 ⟨[x], by rw [evalL, h]; rfl, hb⟩

theorem app_eval2 {w : World} {m : HMap F64} {b : Builtin} {e f : Elem} {x y v : F64} (h : eval w m e = .ok x)
    (h' : eval w m f = .ok y) (hb : callFn w b.toFunc [x, y] = .ok v) : eval w m (.call b.toFunc [e, f]) = .ok v :=
  eval_call_ok.2 ⟨[x, y], by rw [evalL, h, evalL, h']; rfl, hb⟩

theorem sure_eval {w : World} {m : HMap F64} {e : Elem} {q : ℚ} (h : Sure m e q) :
    ∃ v, eval w m e = .ok v ∧ value v = some q := by
  induction h with
  | exact h => exact exact_eval h
  | pos _ ih => obtain ⟨v, h1, h2⟩ := ih; exact ⟨v, eval_un_ok.2 ⟨v, h1, rfl⟩, h2⟩
  | neg _ ih => obtain ⟨v, h1, h2⟩ := ih; exact ⟨_, eval_un_ok.2 ⟨v, h1, rfl⟩, neg_value h2⟩
  | abs _ ih => obtain ⟨v, h1, h2⟩ := ih; exact ⟨_, app_eval h1 rfl, (abs_value h2).1⟩
  | floor _ ih => obtain ⟨v, h1, h2⟩ := ih; exact ⟨_, app_eval h1 rfl, (floor_value h2).1⟩
  | ceil _ ih => obtain ⟨v, h1, h2⟩ := ih; exact ⟨_, app_eval h1 rfl, (ceil_value h2).1⟩
  | trunc _ ih => obtain ⟨v, h1, h2⟩ := ih; exact ⟨_, app_eval h1 rfl, (trunc_value h2).1⟩
  | min _ _ ih1 ih2 =>
    obtain ⟨a, h1, h2⟩ := ih1
    obtain ⟨b, h3, h4⟩ := ih2
    exact ⟨_, app_eval2 h1 h3 rfl, min_value2 h2 h4⟩
  | max _ _ ih1 ih2 =>
    obtain ⟨a, h1, h2⟩ := ih1
    obtain ⟨b, h3, h4⟩ := ih2
    exact ⟨_, app_eval2 h1 h3 rfl, max_value2 h2 h4⟩

theorem rounds_abs {q : ℚ} {v : F64} (h : RoundsTo q v) : RoundsTo |q| (F64.abs v) := by
  obtain ⟨⟨N, D, h1, h2, h3⟩, -, -⟩ := h
  refine ⟨⟨N, D, h1, by rw [abs_abs]; exact h2, ?_⟩, fun h => absurd h (not_lt.2 (abs_nonneg q)), fun _ => ?_⟩
  · cases v <;> exact h3
  · cases v <;> rfl

theorem single_eval {w : World} {m : HMap F64} {e : Elem} {q : ℚ} (h : Single m e q) :
    ∃ v, eval w m e = .ok v ∧ RoundsTo q v := by
  induction h with
  | sure h => obtain ⟨v, h1, h2⟩ := sure_eval (w := w) h; exact ⟨v, h1, rounds_self h2⟩
  | plus h k =>
    obtain ⟨a, h1, h2⟩ := sure_eval (w := w) h
    obtain ⟨b, h3, h4⟩ := sure_eval (w := w) k
    exact ⟨_, eval_bin_ok.2 ⟨a, b, h1, h3, rfl⟩, _root_.Xprs.add_rounds h2 h4⟩
  | minus h k =>
    obtain ⟨a, h1, h2⟩ := sure_eval (w := w) h
    obtain ⟨b, h3, h4⟩ := sure_eval (w := w) k
    exact ⟨_, eval_bin_ok.2 ⟨a, b, h1, h3, rfl⟩, sub_rounds h2 h4⟩
  | times h k =>
    obtain ⟨a, h1, h2⟩ := sure_eval (w := w) h
    obtain ⟨b, h3, h4⟩ := sure_eval (w := w) k
    exact ⟨_, eval_bin_ok.2 ⟨a, b, h1, h3, rfl⟩, mul_rounds h2 h4⟩
  | divide h k hq =>
    obtain ⟨a, h1, h2⟩ := sure_eval (w := w) h
    obtain ⟨b, h3, h4⟩ := sure_eval (w := w) k
    exact ⟨_, eval_bin_ok.2 ⟨a, b, h1, h3, rfl⟩, div_rounds h2 h4 hq⟩
  | pos _ ih => obtain ⟨v, h1, h2⟩ := ih; exact ⟨v, eval_un_ok.2 ⟨v, h1, rfl⟩, h2⟩
  | neg _ ih => obtain ⟨v, h1, h2⟩ := ih; exact ⟨_, eval_un_ok.2 ⟨v, h1, rfl⟩, rounds_neg h2⟩
  | abs _ ih => obtain ⟨v, h1, h2⟩ := ih; exact ⟨_, app_eval h1 rfl, rounds_abs h2⟩

/-- **C130, order.** Formulas that are rounded once compare like their exact values. -/
theorem C130_order (w : World) (m m' : HMap F64) (e e' : Elem) (p q : ℚ) (h : Single m e p) (h' : Single m' e' q) :
    ∃ v v', eval w m e = .ok v ∧ evalU w m e = .ok v ∧ eval w m' e' = .ok v' ∧ evalU w m' e' = .ok v' ∧
      (p ≤ q → LeF v v') ∧ (p = q → Same v v') ∧ (¬ LeF v' v → p < q) := by
  obtain ⟨v, h1, h2⟩ := single_eval (w := w) h
  obtain ⟨v', h3, h4⟩ := single_eval (w := w) h'
  refine ⟨v, v', h1, by rw [evalU_eq, h1]; rfl, h3, by rw [evalU_eq, h3]; rfl, roundsTo_mono h2 h4, fun h => ?_, fun k => ?_⟩
  · exact leF_antisymm (roundsTo_mono h2 h4 h.le) (roundsTo_mono h4 h2 h.ge)
  · by_contra hn
    exact k (roundsTo_mono h4 h2 (not_lt.1 hn))

/-- Numbers of the format from `2⁵³` on are whole. -/
theorem large_whole {v : F64} {r : ℚ} (hv : value v = some r) (h : 2 ^ 53 ≤ |r|) : ∃ K : ℤ, r = K := by
  obtain ⟨a, rfl, ⟨m, k, hm, rfl⟩, -⟩ := gridZ_of_value hv
  have hk : 1074 ≤ k := by
    by_contra hk
    have hk : k ≤ 1073 := by omega
    have h1 : |((m * 2 ^ k : ℤ) : ℚ) / 2 ^ 1074| < 2 ^ 53 := by
      rw [abs_div, abs_of_pos (a := (2 : ℚ) ^ 1074) (by positivity), div_lt_iff₀ (by positivity)]
      push_cast
      rw [abs_mul, abs_of_pos (a := (2 : ℚ) ^ k) (by positivity)]
      have h2 : |(m : ℚ)| < 2 ^ 53 := by exact_mod_cast hm
      have h3 : (2 : ℚ) ^ k ≤ 2 ^ 1074 := pow_le_pow_right₀ (by norm_num) (by omega)
      calc |(m : ℚ)| * 2 ^ k < 2 ^ 53 * 2 ^ k := mul_lt_mul_of_pos_right h2 (by positivity)
        _ ≤ 2 ^ 53 * 2 ^ 1074 := mul_le_mul_of_nonneg_left h3 (by positivity)
    exact absurd h (not_le.2 h1)
  refine ⟨m * 2 ^ (k - 1074), ?_⟩
  obtain ⟨j, rfl⟩ := Nat.exists_eq_add_of_le hk
  rw [show 1074 + j - 1074 = j by omega]
  push_cast
  rw [pow_add, div_eq_iff (by positivity)]
  ring

/-- A rounded whole number is whole. -/
theorem rounds_whole {N : ℤ} {v : F64} {r : ℚ} (h : RoundsTo (N : ℚ) v) (hv : value v = some r) : ∃ K : ℤ, r = K := by
  by_cases hN : |N| < 2 ^ 53
  · have := value_of_rounds h (inF64_int hN)
    rw [hv] at this
    exact ⟨N, Option.some.inj this⟩
  · apply large_whole hv
    have h53 : value (F64.ofNat (2 ^ 53)) = some ((2 ^ 53 : ℤ) : ℚ) := by decide +kernel
    have hq : (2 : ℚ) ^ 53 ≤ |(N : ℚ)| := by exact_mod_cast not_lt.1 hN
    have hl := roundsTo_mono (rounds_self h53) (rounds_abs h) (by push_cast; exact hq)
    have := leF_values hl h53 (abs_value hv).1
    push_cast at this
    exact this

theorem floor_whole {N : ℤ} {u : F64} (h : RoundsTo (N : ℚ) u) (hn : u ≠ .nan) : Same (F64.floor u) u ∧ Same (F64.ceil u) u := by
  obtain ⟨r, hr⟩ | hr : (∃ r, value u = some r) ∨ value u = none := by cases value u <;> simp
  · obtain ⟨K, rfl⟩ := rounds_whole h hr
    have h1 := (floor_value hr).1
    have h2 := (ceil_value hr).1
    rw [Int.floor_intCast] at h1
    rw [Int.ceil_intCast] at h2
    exact ⟨same_of_value h1 hr, same_of_value h2 hr⟩
  · rcases u with _ | s | ⟨_ | _, n, hn⟩
    · exact absurd rfl hn
    · exact ⟨.inl rfl, .inl rfl⟩
    · cases hr
    · cases hr

/-- **C130, whole.** The same for the whole parts of a formula: they are on the right side of a whole number that is
given by another formula. -/
theorem C130_whole (w : World) (m m' : HMap F64) (e e' : Elem) (z : ℚ) (N : ℤ) (h : Single m e z) (h' : Single m' e' N) :
    ∃ f c u, eval w m (app .floor e) = .ok f ∧ eval w m (app .ceil e) = .ok c ∧ eval w m' e' = .ok u ∧
      (N ≤ z → LeF u f) ∧ (z ≤ N → LeF c u) := by
  obtain ⟨v, h1, h2⟩ := single_eval (w := w) h
  obtain ⟨u, h3, h4⟩ := single_eval (w := w) h'
  refine ⟨_, _, u, app_eval h1 rfl, app_eval h1 rfl, h3, fun k => ?_, fun k => ?_⟩
  · have := roundsTo_mono h4 h2 k
    exact leF_same' (floor_mono this) (floor_whole h4 (leF_left this)).1
  · have := roundsTo_mono h2 h4 k
    exact le_same (ceil_mono this) (floor_whole h4 (leF_right this)).2

/-- **C130, triangle.** The inequalities of the triangle: `abs(a+b) ≤ abs(a)+abs(b)` and
`abs(abs(a)-abs(b)) ≤ abs(a-b)`, as computed. -/
theorem C130_triangle (w : World) (m : HMap F64) (a b : Elem) (p q : ℚ) (ha : Sure m a p) (hb : Sure m b q) :
    (∃ u v, eval w m (app .abs (.bin .plus a b)) = .ok u ∧ eval w m (.bin .plus (app .abs a) (app .abs b)) = .ok v ∧
      LeF u v) ∧
    (∃ u v, eval w m (app .abs (.bin .minus (app .abs a) (app .abs b))) = .ok u ∧
      eval w m (app .abs (.bin .minus a b)) = .ok v ∧ LeF u v) := by
  constructor
  · obtain ⟨u, v, h1, -, h2, -, h3, -⟩ := C130_order w m m _ _ _ _ (.abs (.plus ha hb)) (.plus (.abs ha) (.abs hb))
    exact ⟨u, v, h1, h2, h3 (abs_add_le p q)⟩
  · obtain ⟨u, v, h1, -, h2, -, h3, -⟩ := C130_order w m m _ _ _ _ (.abs (.minus (.abs ha) (.abs hb))) (.abs (.minus ha hb))
    exact ⟨u, v, h1, h2, h3 (abs_abs_sub_abs_le_abs_sub p q)⟩

/-- **C130, least and greatest.** `min(a,b)+max(a,b)` is `a+b`, `min(a,b)*max(a,b)` is `a*b` and `max(a,b)-min(a,b)` is
`abs(a-b)`, as computed (up to the sign of zero). -/
theorem C130_pair (w : World) (m : HMap F64) (a b : Elem) (p q : ℚ) (ha : Sure m a p) (hb : Sure m b q) :
    (∃ u v, eval w m (.bin .plus (.call Builtin.min.toFunc [a, b]) (.call Builtin.max.toFunc [a, b])) = .ok u ∧
      eval w m (.bin .plus a b) = .ok v ∧ Same u v) ∧
    (∃ u v, eval w m (.bin .times (.call Builtin.min.toFunc [a, b]) (.call Builtin.max.toFunc [a, b])) = .ok u ∧
      eval w m (.bin .times a b) = .ok v ∧ Same u v) ∧
    (∃ u v, eval w m (.bin .minus (.call Builtin.max.toFunc [a, b]) (.call Builtin.min.toFunc [a, b])) = .ok u ∧
      eval w m (app .abs (.bin .minus a b)) = .ok v ∧ Same u v) := by
  refine ⟨?_, ?_, ?_⟩
  · obtain ⟨u, v, h1, -, h2, -, -, h3, -⟩ := C130_order w m m _ _ _ _ (.plus (.min ha hb) (.max ha hb)) (.plus ha hb)
    exact ⟨u, v, h1, h2, h3 (min_add_max p q)⟩
  · obtain ⟨u, v, h1, -, h2, -, -, h3, -⟩ := C130_order w m m _ _ _ _ (.times (.min ha hb) (.max ha hb)) (.times ha hb)
    exact ⟨u, v, h1, h2, h3 (min_mul_max p q)⟩
  · obtain ⟨u, v, h1, -, h2, -, -, h3, -⟩ := C130_order w m m _ _ _ _ (.minus (.max ha hb) (.min ha hb)) (.abs (.minus ha hb))
    refine ⟨u, v, h1, h2, h3 ?_⟩
    rw [abs_sub_comm, max_sub_min_eq_abs']
    exact abs_sub_comm p q

/-- **C130, parts.** `floor(a)+floor(b) ≤ floor(a+b)` and `ceil(a+b) ≤ ceil(a)+ceil(b)`, as computed. -/
theorem C130_parts (w : World) (m : HMap F64) (a b : Elem) (p q : ℚ) (ha : Sure m a p) (hb : Sure m b q) :
    (∃ u v, eval w m (.bin .plus (app .floor a) (app .floor b)) = .ok u ∧
      eval w m (app .floor (.bin .plus a b)) = .ok v ∧ LeF u v) ∧
    (∃ u v, eval w m (app .ceil (.bin .plus a b)) = .ok u ∧
      eval w m (.bin .plus (app .ceil a) (app .ceil b)) = .ok v ∧ LeF u v) := by
  constructor
  · have k : Single m (.bin .plus (app .floor a) (app .floor b)) ((⌊p⌋ + ⌊q⌋ : ℤ) : ℚ) := by
      rw [Int.cast_add]
      exact .plus (.floor ha) (.floor hb)
    obtain ⟨f, -, u, h1, -, h2, h3, -⟩ := C130_whole w m m _ _ _ _ (.plus ha hb) k
    refine ⟨u, f, h2, h1, h3 ?_⟩
    push_cast
    exact add_le_add (Int.floor_le p) (Int.floor_le q)
  · have k : Single m (.bin .plus (app .ceil a) (app .ceil b)) ((⌈p⌉ + ⌈q⌉ : ℤ) : ℚ) := by
      rw [Int.cast_add]
      exact .plus (.ceil ha) (.ceil hb)
    obtain ⟨-, c, u, -, h1, h2, -, h3⟩ := C130_whole w m m _ _ _ _ (.plus ha hb) k
    refine ⟨c, u, h1, h2, h3 ?_⟩
    push_cast
    exact add_le_add (Int.le_ceil p) (Int.le_ceil q)

/-- **C130, builds.** Where two texts run without a doubtful step, their results in all builds compare like the exact
values. -/
theorem C130_builds (cfg cfg' : Cfg) (w : World) (o o' : Oracle) (ctx : Context) (input input' : Bytes)
    (f g f' g' : Xpr) (m m' : HMap F64) (p q : ℚ) (v v' : F64) (hpe : cfg.pejmdas = cfg'.pejmdas)
    (ho : cfg.opt = false) (hw : NoPower f.root ∨ PowLaws w) (hw' : NoPower f'.root ∨ PowLaws w)
    (hn : ∀ ts, Lex input ts → ParensApart ts) (hn' : ∀ ts, Lex input' ts → ParensApart ts)
    (h : parse cfg w o ctx input = .ok f) (h' : parse cfg' w o' ctx input = .ok g)
    (k : parse cfg w o ctx input' = .ok f') (k' : parse cfg' w o' ctx input' = .ok g')
    (hr : Single m f.root p) (hr' : Single m' f'.root q) (hv : Runs w m f.root v) (hv' : Runs w m' f'.root v') :
    ∃ u u', g.eval w m = .ok u ∧ g'.eval w m' = .ok u' ∧ (p ≤ q → LeF u u') ∧ (p = q → Same u u') := by
  obtain ⟨-, u, hu, su⟩ := C16_value_partial cfg cfg' w o o' ctx input f g m _ hpe ho hw hn h h' hv
  obtain ⟨-, u', hu', su'⟩ := C16_value_partial cfg cfg' w o o' ctx input' f' g' m' _ hpe ho hw' hn' k k' hv'
  obtain ⟨a, b, h1, -, h2, -, h3, h4, -⟩ := C130_order w m m' _ _ p q hr hr'
  rw [runs_eval _ hv] at h1
  cases h1
  rw [runs_eval _ hv'] at h2
  cases h2
  exact ⟨u, u', hu, hu', fun h => le_same (leF_same' (h3 h) su) su', fun h => (su.symm.trans (h4 h)).trans su'⟩

/-- A case with rounding: `x/10` and `x*0.1` at 3 have different exact values, since 0.1 is not a tenth; `x/10` is the
smaller one, and computed it is. -/
example : (match parse0 cfgPlain b!"x/10", parse0 cfgPlain b!"x*0.1" with
    | .ok f, .ok g => decide (f.root = .bin .divide vx (.num (F64.ofNat 10)) ∧ g.root = .bin .times vx (.num (F64.ofDecimal 1 (-1))) ∧
        f.eval w0 (mx (F64.ofNat 3)) ≠ g.eval w0 (mx (F64.ofNat 3)))
    | _, _ => false) = true ∧
    ∃ p q, Single (mx (F64.ofNat 3)) (.bin .divide vx (.num (F64.ofNat 10))) p ∧
      Single (mx (F64.ofNat 3)) (.bin .times vx (.num (F64.ofDecimal 1 (-1)))) q ∧ p < q := by
  refine ⟨by decide +kernel, ?_⟩
  have hx : Sure (mx (F64.ofNat 3)) vx 3 := .exact (.var (x := F64.ofNat 3) (by decide +kernel) (by decide +kernel))
  have ht : value (F64.ofDecimal 1 (-1)) = some (3602879701896397 / 2 ^ 55) := by decide +kernel
  exact ⟨_, _, .divide hx (.exact (.num (by decide +kernel : value (F64.ofNat 10) = some 10))) (by norm_num),
    .times hx (.exact (.num ht)), by norm_num⟩

/-- The last hypotheses of `C130_builds` for these texts. -/
example : Runs w0 (mx (F64.ofNat 3)) (.bin .divide vx (.num (F64.ofNat 10))) (F64.div (F64.ofNat 3) (F64.ofNat 10)) ∧
    Runs w0 (mx (F64.ofNat 3)) (.bin .times vx (.num (F64.ofDecimal 1 (-1)))) (F64.mul (F64.ofNat 3) (F64.ofDecimal 1 (-1))) := by
  have hx : Runs w0 (mx (F64.ofNat 3)) vx (F64.ofNat 3) := .var (by decide +kernel)
  refine ⟨.bin hx .num (.divide (by decide +kernel) ?_), .bin hx .num (.times (by decide +kernel))⟩
  rintro ⟨s, h⟩
  cases s <;> exact absurd h (by decide +kernel)

/-- With two roundings the order can be lost: `x+1-1` at `2⁻¹⁰⁷⁴` is 0 and below `x`, though the exact values are
equal. -/
example : (match parse0 cfgPlain b!"x+1-1" with
    | .ok f => decide (f.eval w0 (mx tiny) = .ok F64.f0)
    | _ => false) = true ∧ ¬ LeF tiny F64.f0 ∧ (1 / 2 ^ 1074 + 1 - 1 : ℚ) = 1 / 2 ^ 1074 := by
  refine ⟨by decide +kernel, leF_not (p := 1 / 2 ^ 1074) (q := 0) (by decide +kernel) (by decide +kernel) (by norm_num), by norm_num⟩

/-- The whole parts: `floor(x)+floor(y)` may be less than `floor(x+y)`: at 1.5 and 1.5. -/
example : F64.add (F64.floor (F64.ofDecimal 15 (-1))) (F64.floor (F64.ofDecimal 15 (-1))) = F64.ofNat 2 ∧
    F64.floor (F64.add (F64.ofDecimal 15 (-1)) (F64.ofDecimal 15 (-1))) = F64.ofNat 3 := by decide +kernel

end Props
end Xprs
