import Verif.Lemmas.Error
import Verif.Props.Exact
/-
Property C70: rounding errors without cancellation stay small.
-/
namespace Xprs
namespace Props
open Spec
set_option exponentiation.threshold 4096

/-! ### C70 -/

/-- C70: a tree without cancellation whose intermediate results are moderate is evaluated, in
both evaluators, to its true value up to a relative error of `k` units of `2⁻⁵²`, where `k`
counts the roundings that can add up. -/
theorem C70_error (w : World) (m : HMap F64) (e : Elem) (q : ℚ) (k : ℕ) (h : Approx m e q k)
    (hk : k ≤ 2 ^ 50) :
    ∃ v r, eval w m e = .ok v ∧ evalU w m e = .ok v ∧ value v = some r ∧
      |r - q| ≤ |q| * (k / 2 ^ 52) := by
  obtain ⟨v, r, h1, h2, h3⟩ := approx_runs (w := w) h hk
  have h4 := runs_eval _ h1
  exact ⟨v, r, h4, by rw [evalU_eq, h4]; rfl, h2, within_error h3 hk⟩

theorem proper_of_approx {m : HMap F64} {e : Elem} {q : ℚ} {k : ℕ} (h : Approx m e q k) :
    Proper (fun _ => False) e := by
  induction h with
  | num => exact .num _
  | lit => exact .num _
  | var => exact .var _
  | input => exact .var _
  | pos _ ih => exact .un (.inl rfl) ih
  | neg _ ih => exact .un (.inr (.inl rfl)) ih
  | plus _ _ _ _ ih1 ih2 => exact .bin (by decide) ih1 ih2
  | minus _ _ _ _ ih1 ih2 => exact .bin (by decide) ih1 ih2
  | times _ _ _ ih1 ih2 => exact .bin (by decide) ih1 ih2
  | divide _ _ _ _ ih1 ih2 => exact .bin (by decide) ih1 ih2

theorem noPower_of_approx {m : HMap F64} {e : Elem} {q : ℚ} {k : ℕ} (h : Approx m e q k) : NoPower e := by
  induction h with
  | num => intro l r h; cases h
  | var => intro l r h; cases h
  | lit => intro l r h; cases h
  | input => intro l r h; cases h
  | pos _ ih => exact noPower_un.2 ih
  | neg _ ih => exact noPower_un.2 ih
  | plus _ _ _ _ ih1 ih2 => exact noPower_bin.2 ⟨by decide, ih1, ih2⟩
  | minus _ _ _ _ ih1 ih2 => exact noPower_bin.2 ⟨by decide, ih1, ih2⟩
  | times _ _ _ ih1 ih2 => exact noPower_bin.2 ⟨by decide, ih1, ih2⟩
  | divide _ _ _ _ ih1 ih2 => exact noPower_bin.2 ⟨by decide, ih1, ih2⟩

/-- C70: simplification, in every build, does not make the error larger. -/
theorem C70_simplified (cfg : Cfg) (w : World) (m : HMap F64) (e : Elem) (q : ℚ)
    (k : ℕ) (h : Approx m e q k) (hk : k ≤ 2 ^ 50) :
    ∃ e', simplify cfg w e = .ok e' ∧ ∃ v r, eval w m e' = .ok v ∧ value v = some r ∧
      |r - q| ≤ |q| * (k / 2 ^ 52) := by
  obtain ⟨v, r, h1, h2, h3⟩ := approx_runs (w := w) h hk
  obtain ⟨e', h4, -⟩ := simplify_proper cfg w (fun _ hf => hf.elim) e (proper_of_approx h)
  obtain ⟨u, h5, h6⟩ := simplify_runs' (.inl (noPower_of_approx h)) h1 h4
  exact ⟨e', h4, u, r, runs_eval _ h5, value_same h2 h6, within_error h3 hk⟩

/-- C70: the same for `simplify_for`. -/
theorem C70_fixed (cfg : Cfg) (w : World) (m : HMap F64) (e : Xpr) (x : Bytes)
    (c : F64) (q : ℚ) (k : ℕ) (h : Approx (m.insert x c) e.root q k) (hk : k ≤ 2 ^ 50) :
    ∃ e', e.simplifyFor cfg w x c = .ok e' ∧ ∃ v r, e'.eval w m = .ok v ∧ value v = some r ∧
      |r - q| ≤ |q| * (k / 2 ^ 52) := by
  obtain ⟨v, r, h1, h2, h3⟩ := approx_runs (w := w) h hk
  obtain ⟨e', h4, -⟩ :=
    simplifyFor_proper cfg w (fun _ hf => hf.elim) x c e.root (proper_of_approx h)
  have h5 : e.simplifyFor cfg w x c = .ok ⟨e', Xpr.removeVar e.vars x⟩ := by
    unfold Xpr.simplifyFor
    rw [h4]
  obtain ⟨-, v', h6, h7⟩ := C29_partial cfg w m e _ x c v (.inl (noPower_of_approx h)) h1 h5
  exact ⟨_, h5, v', r, h6, value_same h2 h7, within_error h3 hk⟩

/-- C70: the same for texts, in every build. -/
theorem C70_text (cfg cfg' : Cfg) (w : World) (o o' : Oracle) (ctx : Context) (input : Bytes)
    (x y : Xpr) (m : HMap F64) (q : ℚ) (k : ℕ) (hp : cfg.pejmdas = cfg'.pejmdas)
    (ho : cfg.opt = false) (hn : ∀ ts, Lex input ts → ParensApart ts)
    (h : parse cfg w o ctx input = .ok x) (h' : parse cfg' w o' ctx input = .ok y)
    (hq : Approx m x.root q k) (hk : k ≤ 2 ^ 50) :
    (∃ v r, x.eval w m = .ok v ∧ value v = some r ∧ |r - q| ≤ |q| * (k / 2 ^ 52)) ∧
    ∃ v r, y.eval w m = .ok v ∧ value v = some r ∧ |r - q| ≤ |q| * (k / 2 ^ 52) := by
  obtain ⟨v, r, h1, h2, h3⟩ := approx_runs (w := w) hq hk
  obtain ⟨h4, u, h5, h6⟩ := C16_value_partial cfg cfg' w o o' ctx input x y m v hp ho
    (.inl (noPower_of_approx hq)) hn h h' h1
  exact ⟨⟨v, r, h4, h2, within_error h3 hk⟩, u, r, h5, value_same h2 h6, within_error h3 hk⟩

/-- C70: a number in a tree made from a text is one rounding away from the decimal number
written there. -/
theorem C70_decimal (M : ℕ) (E : ℤ) :
    RoundsTo ((decNum M E : ℚ) / decDen E) (F64.ofDecimal M E) :=
  rounds_decimal M E

/-- C70: cancellation has to be excluded: `(2⁵³ + 1) - 2⁵³` is computed as `0`, though only two
operations are made and all results are moderate. -/
theorem C70_cancel (w : World) (m : HMap F64) :
    eval w m (.bin .minus (.bin .plus (.num (F64.ofNat (2 ^ 53))) (.num (F64.ofNat 1)))
      (.num (F64.ofNat (2 ^ 53)))) = .ok F64.f0 ∧
    value (F64.ofNat (2 ^ 53)) = some (2 ^ 53) ∧ value (F64.ofNat 1) = some 1 ∧
    ¬ |(0 : ℚ) - ((2 ^ 53 + 1) - 2 ^ 53)| ≤ |((2 ^ 53 + 1) - 2 ^ 53 : ℚ)| * ((2 : ℕ) / 2 ^ 52) := by
  refine ⟨?_, by decide +kernel, by decide +kernel, by norm_num⟩
  rw [eval, eval, eval, eval, eval]
  simp only [binF, liftP]
  decide +kernel

/-- C70: very small results have to be excluded: `(x * x) / (x * x)` is `1` for every `x ≠ 0`,
but is computed as NaN at the positive number `x = 10⁻²⁰⁰`. -/
theorem C70_small (w : World) :
    eval w (mx (F64.ofDecimal 1 (-200))) (.bin .divide (.bin .times vx vx) (.bin .times vx vx)) =
      .ok .nan ∧
    value (F64.ofDecimal 1 (-200)) ≠ none ∧ value (F64.ofDecimal 1 (-200)) ≠ some 0 := by
  refine ⟨?_, by decide +kernel, by decide +kernel⟩
  have h : eval w (mx (F64.ofDecimal 1 (-200))) vx = .ok (F64.ofDecimal 1 (-200)) := rfl
  rw [eval, eval, h]
  simp only [binF, liftP]
  decide +kernel

/-- A text to which the theorems apply: `0.1 * 3 + x / 7`. -/
def errText : Bytes := b!"0.1 * 3 + x / 7"
/-- Its tree. -/
def errTree : Elem :=
  .bin .plus (.bin .times (.num (F64.ofDecimal 1 (-1))) (.num (F64.ofNat 3)))
    (.bin .divide vx (.num (F64.ofNat 7)))

example : parse0 cfgPlain errText = .ok ⟨errTree, [b!"x"]⟩ := by decide +kernel

theorem errTree_approx : Approx (mx (F64.ofNat 2)) errTree (1 / 10 * 3 + 2 / 7) 3 := by
  have mo : ∀ q : ℚ, 1 / 1000 ≤ q → q ≤ 1000 → Moderate q := by
    intro q h1 h2
    refine .inr ⟨?_, ?_⟩
    · rw [abs_of_nonneg (by linarith)]
      exact le_trans (by norm_num) h1
    · rw [abs_of_nonneg (by linarith)]
      exact h2.trans (by norm_num)
  have e : ((decNum 1 (-1) : ℕ) : ℚ) / ((decDen (-1) : ℕ) : ℚ) = 1 / 10 := by
    have h1 : decNum 1 (-1) = 1 := by decide
    have h2 : decDen (-1) = 10 := by decide
    rw [h1, h2]
    norm_num
  have h1 := rounds_decimal 1 (-1)
  rw [e] at h1
  have h3 : value (F64.ofNat 3) = some 3 := by decide +kernel
  have h2 : value (F64.ofNat 2) = some 2 := by decide +kernel
  have h7 : value (F64.ofNat 7) = some 7 := by decide +kernel
  exact .plus
    (.times (.lit h1 (mo _ (by norm_num) (by norm_num))) (.num h3 (mo _ (by norm_num) (by norm_num)))
      (mo _ (by norm_num) (by norm_num)))
    (.divide (.var (by simp [mx, HMap.insert]) h2 (mo _ (by norm_num) (by norm_num)))
      (.num h7 (mo _ (by norm_num) (by norm_num))) (by norm_num) (mo _ (by norm_num) (by norm_num)))
    (by norm_num) (mo _ (by norm_num) (by norm_num))

end Props
end Xprs
