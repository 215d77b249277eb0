import Verif.Lemmas.Terms
import Verif.Props.Error
/-
Property C87: rounding errors, with cancellation, are small against the terms.
-/
namespace Xprs
namespace Props
open Spec
set_option exponentiation.threshold 4096

/-- C87: a tree whose terms are moderate is evaluated, in both evaluators, to a finite number that
is off its true value by at most `k` units of `2⁻⁵²` of the sum of the absolute values of its
terms, where `k` counts the roundings that can add up. -/
theorem C87_error (w : World) (m : HMap F64) (e : Elem) (q Q : ℚ) (k : ℕ) (h : Terms m e q Q k)
    (hk : k ≤ 2 ^ 50) :
    ∃ v r, eval w m e = .ok v ∧ evalU w m e = .ok v ∧ value v = some r ∧ |q| ≤ Q ∧
      |r - q| ≤ Q * (k / 2 ^ 52) := by
  obtain ⟨v, r, h1, h2, h3⟩ := terms_runs (w := w) h hk
  have h4 := runs_eval _ h1
  exact ⟨v, r, h4, by rw [evalU_eq, h4]; rfl, h2, h3.1, off_error h3 hk⟩

theorem sign_of_near {q r d : ℚ} (h : |r - q| ≤ d) (hd : d < |q|) : (0 < r ↔ 0 < q) ∧ (r < 0 ↔ q < 0) := by
  rw [abs_le] at h
  rcases abs_cases q with ⟨e, h0⟩ | ⟨e, h0⟩ <;> rw [e] at hd
  · exact ⟨⟨fun _ => by linarith, fun _ => by linarith⟩, ⟨fun _ => by linarith, fun _ => by linarith⟩⟩
  · exact ⟨⟨fun _ => by linarith, fun _ => by linarith⟩, ⟨fun _ => by linarith, fun _ => by linarith⟩⟩

/-- C87: so the sign is right unless the true value is that small; and a computed value that is
larger than that has the right sign. -/
theorem C87_sign (w : World) (m : HMap F64) (e : Elem) (q Q : ℚ) (k : ℕ) (h : Terms m e q Q k)
    (hk : k ≤ 2 ^ 50) : ∃ v r, eval w m e = .ok v ∧ value v = some r ∧
      (Q * (k / 2 ^ 52) < |q| ∨ Q * (k / 2 ^ 52) < |r| → (0 < r ↔ 0 < q) ∧ (r < 0 ↔ q < 0)) := by
  obtain ⟨v, r, h1, -, h2, -, h3⟩ := C87_error w m e q Q k h hk
  refine ⟨v, r, h1, h2, ?_⟩
  rintro (hc | hc)
  · exact sign_of_near h3 hc
  · rw [abs_sub_comm] at h3
    have := sign_of_near h3 hc
    exact ⟨this.1.symm, this.2.symm⟩

theorem proper_of_terms {m : HMap F64} {e : Elem} {q Q : ℚ} {k : ℕ} (h : Terms m e q Q k) :
    Proper (fun _ => False) e := by
  induction h with
  | num => exact .num _
  | lit => exact .num _
  | var => exact .var _
  | input => exact .var _
  | pos _ ih => exact .un (.inl rfl) ih
  | neg _ ih => exact .un (.inr (.inl rfl)) ih
  | plus _ _ _ ih1 ih2 => exact .bin (by decide) ih1 ih2
  | minus _ _ _ ih1 ih2 => exact .bin (by decide) ih1 ih2
  | times _ _ _ ih1 ih2 => exact .bin (by decide) ih1 ih2
  | divide _ h _ _ ih1 => exact .bin (by decide) ih1 (proper_of_approx h)

theorem noPower_of_terms {m : HMap F64} {e : Elem} {q Q : ℚ} {k : ℕ} (h : Terms m e q Q k) : NoPower e := by
  induction h with
  | num => intro l r h; cases h
  | var => intro l r h; cases h
  | lit => intro l r h; cases h
  | input => intro l r h; cases h
  | pos _ ih => exact noPower_un.2 ih
  | neg _ ih => exact noPower_un.2 ih
  | plus _ _ _ ih1 ih2 => exact noPower_bin.2 ⟨by decide, ih1, ih2⟩
  | minus _ _ _ ih1 ih2 => exact noPower_bin.2 ⟨by decide, ih1, ih2⟩
  | times _ _ _ ih1 ih2 => exact noPower_bin.2 ⟨by decide, ih1, ih2⟩
  | divide _ h _ _ ih1 => exact noPower_bin.2 ⟨by decide, ih1, noPower_of_approx h⟩

/-- C87: simplification, in every build, does not make the error larger. -/
theorem C87_simplified (cfg : Cfg) (w : World) (m : HMap F64) (e : Elem) (q Q : ℚ)
    (k : ℕ) (h : Terms m e q Q k) (hk : k ≤ 2 ^ 50) :
    ∃ e', simplify cfg w e = .ok e' ∧ ∃ v r, eval w m e' = .ok v ∧ value v = some r ∧
      |r - q| ≤ Q * (k / 2 ^ 52) := by
  obtain ⟨v, r, h1, h2, h3⟩ := terms_runs (w := w) h hk
  obtain ⟨e', h4, -⟩ := simplify_proper cfg w (fun _ hf => hf.elim) e (proper_of_terms h)
  obtain ⟨u, h5, h6⟩ := simplify_runs' (.inl (noPower_of_terms h)) h1 h4
  exact ⟨e', h4, u, r, runs_eval _ h5, value_same h2 h6, off_error h3 hk⟩

/-- C87: the same for `simplify_for`. -/
theorem C87_fixed (cfg : Cfg) (w : World) (m : HMap F64) (e : Xpr) (x : Bytes)
    (c : F64) (q Q : ℚ) (k : ℕ) (h : Terms (m.insert x c) e.root q Q k) (hk : k ≤ 2 ^ 50) :
    ∃ e', e.simplifyFor cfg w x c = .ok e' ∧ ∃ v r, e'.eval w m = .ok v ∧ value v = some r ∧
      |r - q| ≤ Q * (k / 2 ^ 52) := by
  obtain ⟨v, r, h1, h2, h3⟩ := terms_runs (w := w) h hk
  obtain ⟨e', h4, -⟩ :=
    simplifyFor_proper cfg w (fun _ hf => hf.elim) x c e.root (proper_of_terms h)
  have h5 : e.simplifyFor cfg w x c = .ok ⟨e', Xpr.removeVar e.vars x⟩ := by
    unfold Xpr.simplifyFor
    rw [h4]
  obtain ⟨-, v', h6, h7⟩ := C29_partial cfg w m e _ x c v (.inl (noPower_of_terms h)) h1 h5
  exact ⟨_, h5, v', r, h6, value_same h2 h7, off_error h3 hk⟩

/-- C87: the same for texts, in every build. -/
theorem C87_text (cfg cfg' : Cfg) (w : World) (o o' : Oracle) (ctx : Context) (input : Bytes)
    (x y : Xpr) (m : HMap F64) (q Q : ℚ) (k : ℕ) (hp : cfg.pejmdas = cfg'.pejmdas)
    (ho : cfg.opt = false) (hn : ∀ ts, Lex input ts → ParensApart ts)
    (h : parse cfg w o ctx input = .ok x) (h' : parse cfg' w o' ctx input = .ok y)
    (hq : Terms m x.root q Q k) (hk : k ≤ 2 ^ 50) :
    (∃ v r, x.eval w m = .ok v ∧ value v = some r ∧ |r - q| ≤ Q * (k / 2 ^ 52)) ∧
    ∃ v r, y.eval w m = .ok v ∧ value v = some r ∧ |r - q| ≤ Q * (k / 2 ^ 52) := by
  obtain ⟨v, r, h1, h2, h3⟩ := terms_runs (w := w) hq hk
  obtain ⟨h4, u, h5, h6⟩ := C16_value_partial cfg cfg' w o o' ctx input x y m v hp ho
    (.inl (noPower_of_terms hq)) hn h h' h1
  exact ⟨⟨v, r, h4, h2, off_error h3 hk⟩, u, r, h5, value_same h2 h6, off_error h3 hk⟩

/-- C87: without cancellation the terms sum up to the absolute value of the result; so C70 is a
special case. -/
theorem C87_relative (m : HMap F64) (e : Elem) (q : ℚ) (k : ℕ) (h : Approx m e q k) : Terms m e q |q| k := by
  have mo : ∀ {q : ℚ}, Moderate q → Moderate |q| := by
    rintro q (rfl | h)
    · exact .inl abs_zero
    · exact .inr (by rwa [abs_abs])
  induction h with
  | num h hm => exact .num h hm
  | var h1 h2 hm => exact .var h1 h2 hm
  | lit h hm => exact .lit h hm
  | input h1 h hm => exact .input h1 h hm
  | pos _ ih => exact .pos ih
  | neg _ ih => rw [abs_neg]; exact .neg ih
  | @plus _ _ p q _ _ _ _ hs hm ih1 ih2 =>
    have e : |p + q| = |p| + |q| := abs_add_eq_add_abs_iff p q |>.2 (by
      rcases mul_nonneg_iff.1 hs with h | h
      · exact .inl h
      · exact .inr h)
    have hm' := mo hm
    rw [e] at hm' ⊢
    exact .plus ih1 ih2 hm'
  | @minus _ _ p q _ _ _ _ hs hm ih1 ih2 =>
    have e : |p - q| = |p| + |q| := by
      rw [sub_eq_add_neg, ← abs_neg q]
      refine abs_add_eq_add_abs_iff p (-q) |>.2 ?_
      rcases mul_nonpos_iff.1 hs with ⟨h1, h2⟩ | ⟨h1, h2⟩
      · exact .inl ⟨h1, by linarith⟩
      · exact .inr ⟨h1, by linarith⟩
    have hm' := mo hm
    rw [e] at hm' ⊢
    exact .minus ih1 ih2 hm'
  | @times _ _ p q _ _ _ _ hm ih1 ih2 =>
    have hm' := mo hm
    rw [abs_mul] at hm' ⊢
    exact .times ih1 ih2 hm'
  | @divide _ _ p q _ _ _ h2 hq hm ih1 _ =>
    have hm' := mo hm
    rw [abs_div] at hm' ⊢
    exact .divide ih1 h2 hq hm'

/-- C87: in a divisor cancellation has to be excluded: `1 / ((2⁵³ + 1) - 2⁵³)` is `1`, but is
computed as infinity. -/
theorem C87_divisor (w : World) (m : HMap F64) :
    eval w m (.bin .divide (.num (F64.ofNat 1)) (.bin .minus (.bin .plus (.num (F64.ofNat (2 ^ 53)))
      (.num (F64.ofNat 1))) (.num (F64.ofNat (2 ^ 53))))) = .ok (.inf false) := by
  rw [eval, (C70_cancel w m).1, eval]
  simp only [binF, liftP]
  decide +kernel

/-- A text to which the theorems apply: `x*x - 2*x*y + y*y` (where the terms cancel if `x` is near
`y`). -/
def squareText : Bytes := b!"x*x - 2*x*y + y*y"
/-- Its tree. -/
def squareTree : Elem :=
  .bin .plus (.bin .minus (.bin .times vx vx) (.bin .times (.bin .times (.num (F64.ofNat 2)) vx) (.var b!"y")))
    (.bin .times (.var b!"y") (.var b!"y"))

example : parse0 cfgPlain squareText = .ok ⟨squareTree, [b!"x", b!"y"]⟩ := by decide +kernel

/-- At `x = 1000`, `y = 999` the terms sum up to almost four million, the value is `1`, so the
error is at most `16000000 / 2⁵²`. -/
theorem squareTree_terms : Terms ((mx (F64.ofNat 1000)).insert b!"y" (F64.ofNat 999)) squareTree
    (1000 * 1000 - 2 * 1000 * 999 + 999 * 999) (1000 * 1000 + 2 * 1000 * 999 + 999 * 999) 4 := by
  have mo : ∀ q : ℚ, 1 / 1000 ≤ q → q ≤ 10000000 → Moderate q := by
    intro q h1 h2
    refine .inr ⟨?_, ?_⟩
    · rw [abs_of_nonneg (by linarith)]
      exact le_trans (by norm_num) h1
    · rw [abs_of_nonneg (by linarith)]
      exact h2.trans (by norm_num)
  have h2 : value (F64.ofNat 2) = some 2 := by decide +kernel
  have h3 : value (F64.ofNat 1000) = some 1000 := by decide +kernel
  have h4 : value (F64.ofNat 999) = some 999 := by decide +kernel
  have t2 := Terms.num (m := (mx (F64.ofNat 1000)).insert b!"y" (F64.ofNat 999)) h2 (mo _ (by norm_num) (by norm_num))
  have tx := Terms.var (m := (mx (F64.ofNat 1000)).insert b!"y" (F64.ofNat 999)) (n := b!"x") rfl h3
    (mo _ (by norm_num) (by norm_num))
  have ty := Terms.var (m := (mx (F64.ofNat 1000)).insert b!"y" (F64.ofNat 999)) (n := b!"y") rfl h4
    (mo _ (by norm_num) (by norm_num))
  rw [abs_of_nonneg (by norm_num)] at t2 tx ty
  exact .plus (.minus (.times tx tx (mo _ (by norm_num) (by norm_num)))
    (.times (.times t2 tx (mo _ (by norm_num) (by norm_num))) ty (mo _ (by norm_num) (by norm_num)))
    (mo _ (by norm_num) (by norm_num))) (.times ty ty (mo _ (by norm_num) (by norm_num)))
    (mo _ (by norm_num) (by norm_num))

end Props
end Xprs
