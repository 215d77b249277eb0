import Verif.Lemmas.Exact
import Verif.Props.Builds
/-
Property C67: arithmetic that needs no rounding is exact.
-/
namespace Xprs
namespace Props
open Spec
set_option exponentiation.threshold 4096

/-! ### C67 -/

/-- C67: if no intermediate result of a tree needs rounding, its value is the exact one, in
both evaluators. -/
theorem C67_exact (w : World) (m : HMap F64) (e : Elem) (q : ℚ) (h : Exact m e q) :
    ∃ v, eval w m e = .ok v ∧ evalU w m e = .ok v ∧ value v = some q := by
  obtain ⟨v, h1, h2⟩ := exact_eval (w := w) h
  exact ⟨v, h1, by rw [evalU_eq, h1]; rfl, h2⟩

/-- `(0.5 + 0.25) / 3 * x` at `x = -11` is `-2.75`. -/
example : Exact (mx (F64.neg (F64.ofNat 11)))
    (.bin .times (.bin .divide (.bin .plus (.num (F64.ofDecimal 5 (-1)))
      (.num (F64.ofDecimal 25 (-2)))) (.num (F64.ofNat 3))) vx) (-11 / 4) := by
  have h1 : value (F64.ofDecimal 5 (-1)) = some (1 / 2) := by decide +kernel
  have h2 : value (F64.ofDecimal 25 (-2)) = some (1 / 4) := by decide +kernel
  have h3 : value (F64.ofNat 3) = some 3 := by decide +kernel
  have h4 : value (F64.neg (F64.ofNat 11)) = some (-11) := by decide +kernel
  have h5 : value (F64.ofDecimal 75 (-2)) = some (1 / 2 + 1 / 4) := by decide +kernel
  have h6 : value (F64.ofDecimal 25 (-2)) = some ((1 / 2 + 1 / 4) / 3) := by decide +kernel
  have h7 : value (F64.neg (F64.ofDecimal 275 (-2))) = some ((1 / 2 + 1 / 4) / 3 * (-11)) := by
    decide +kernel
  have e : (-11 / 4 : ℚ) = (1 / 2 + 1 / 4) / 3 * (-11) := by norm_num
  rw [e]
  exact .times (.divide (.plus (.num h1) (.num h2) ⟨_, h5⟩) (.num h3) (by norm_num) ⟨_, h6⟩)
    (.var (by simp [mx, HMap.insert]) h4) ⟨_, h7⟩

theorem proper_of_counts {m : HMap F64} {e : Elem} {z : ℤ} (h : Counts m e z) :
    Proper (fun _ => False) e := by
  induction h with
  | num => exact .num _
  | var => exact .var _
  | pos _ ih => exact .un (.inl rfl) ih
  | neg _ ih => exact .un (.inr (.inl rfl)) ih
  | factorial _ _ ih => exact .un (.inr (.inr rfl)) ih
  | plus _ _ _ ih1 ih2 => exact .bin (by decide) ih1 ih2
  | minus _ _ _ ih1 ih2 => exact .bin (by decide) ih1 ih2
  | times _ _ _ ih1 ih2 => exact .bin (by decide) ih1 ih2
  | divide _ _ _ _ ih1 ih2 => exact .bin (by decide) ih1 ih2
  | modulo _ _ _ ih1 ih2 => exact .bin (by decide) ih1 ih2

theorem noPower_of_counts {m : HMap F64} {e : Elem} {z : ℤ} (h : Counts m e z) : NoPower e := by
  induction h with
  | num => intro l r h; cases h
  | var => intro l r h; cases h
  | pos _ ih => exact noPower_un.2 ih
  | neg _ ih => exact noPower_un.2 ih
  | factorial _ _ ih => exact noPower_un.2 ih
  | plus _ _ _ ih1 ih2 => exact noPower_bin.2 ⟨by decide, ih1, ih2⟩
  | minus _ _ _ ih1 ih2 => exact noPower_bin.2 ⟨by decide, ih1, ih2⟩
  | times _ _ _ ih1 ih2 => exact noPower_bin.2 ⟨by decide, ih1, ih2⟩
  | divide _ _ _ _ ih1 ih2 => exact noPower_bin.2 ⟨by decide, ih1, ih2⟩
  | modulo _ _ _ ih1 ih2 => exact noPower_bin.2 ⟨by decide, ih1, ih2⟩

/-- C67: integer arithmetic that does not leave the numbers up to `2⁵³` is exact: before
simplification, in both evaluators, and after it, in every build. -/
theorem C67_integers (cfg : Cfg) (w : World) (m : HMap F64) (e : Elem) (z : ℤ)
    (h : Counts m e z) :
    (∃ v, eval w m e = .ok v ∧ evalU w m e = .ok v ∧ value v = some (z : ℚ)) ∧
    ∃ e', simplify cfg w e = .ok e' ∧ ∃ v, eval w m e' = .ok v ∧ value v = some (z : ℚ) := by
  obtain ⟨v, h1, h2⟩ := counts_runs (w := w) h
  have h3 := runs_eval _ h1
  refine ⟨⟨v, h3, by rw [evalU_eq, h3]; rfl, h2⟩, ?_⟩
  obtain ⟨e', h4, -⟩ := simplify_proper cfg w (fun _ hf => hf.elim) e (proper_of_counts h)
  obtain ⟨u, h5, h6⟩ := simplify_runs' (.inl (noPower_of_counts h)) h1 h4
  exact ⟨e', h4, u, runs_eval _ h5, value_same h2 h6⟩

/-- C67: the same for `simplify_for`: fixing a variable at an integer and evaluating
afterwards is exact. -/
theorem C67_fixed (cfg : Cfg) (w : World) (m : HMap F64) (e : Xpr) (x : Bytes)
    (c : F64) (z : ℤ) (h : Counts (m.insert x c) e.root z) :
    ∃ e', e.simplifyFor cfg w x c = .ok e' ∧
      ∃ v, e'.eval w m = .ok v ∧ value v = some (z : ℚ) := by
  obtain ⟨v, h1, h2⟩ := counts_runs (w := w) h
  obtain ⟨e', h4, -⟩ :=
    simplifyFor_proper cfg w (fun _ hf => hf.elim) x c e.root (proper_of_counts h)
  have h5 : e.simplifyFor cfg w x c = .ok ⟨e', Xpr.removeVar e.vars x⟩ := by
    unfold Xpr.simplifyFor
    rw [h4]
  obtain ⟨-, v', h6, h7⟩ := C29_partial cfg w m e _ x c v (.inl (noPower_of_counts h)) h1 h5
  exact ⟨_, h5, v', h6, value_same h2 h7⟩

/-- C67: the same for texts: what a plain build makes of a text decides its integer value,
and every other build that accepts it computes this value. -/
theorem C67_text (cfg cfg' : Cfg) (w : World) (o o' : Oracle) (ctx : Context) (input : Bytes)
    (x y : Xpr) (m : HMap F64) (z : ℤ) (hp : cfg.pejmdas = cfg'.pejmdas) (ho : cfg.opt = false)
    (hn : ∀ ts, Lex input ts → ParensApart ts)
    (h : parse cfg w o ctx input = .ok x) (h' : parse cfg' w o' ctx input = .ok y)
    (hz : Counts m x.root z) :
    (∃ v, x.eval w m = .ok v ∧ value v = some (z : ℚ)) ∧
    ∃ v, y.eval w m = .ok v ∧ value v = some (z : ℚ) := by
  obtain ⟨v, h1, h2⟩ := counts_runs (w := w) hz
  obtain ⟨h3, u, h4, h5⟩ := C16_value_partial cfg cfg' w o o' ctx input x y m v hp ho
    (.inl (noPower_of_counts hz)) hn h h' h1
  exact ⟨⟨v, h3, h2⟩, u, h4, value_same h2 h5⟩

/-- C67: the bound is the right one: `2⁵³ + 1` is computed as `2⁵³`. -/
theorem C67_limit (w : World) (m : HMap F64) :
    eval w m (.bin .plus (.num (F64.ofNat (2 ^ 53))) (.num (F64.ofNat 1))) =
      .ok (F64.ofNat (2 ^ 53)) ∧
    value (F64.ofNat (2 ^ 53)) = some ((2 ^ 53 : ℤ) : ℚ) ∧ ¬ InF64 ((2 ^ 53 + 1 : ℤ) : ℚ) := by
  refine ⟨?_, by decide +kernel, ?_⟩
  · rw [eval, eval, eval]
    simp only [binF, liftP]
    decide +kernel
  · rintro ⟨f, hf⟩
    obtain ⟨s, n, hn, rfl, e⟩ := value_some hf
    have hU := unit64_pos_rat
    rw [eq_div_iff hU.ne'] at e
    have e' : (2 ^ 53 + 1 : ℤ) * (unit64 : ℕ) = F64.sv s n := by exact_mod_cast e
    have h1 := congrArg Int.natAbs e'
    rw [Int.natAbs_mul, Int.natAbs_natCast, sv_natAbs] at h1
    have h2 : (2 ^ 53 + 1 : ℤ).natAbs = 2 ^ 53 + 1 := by decide
    rw [h2] at h1
    subst h1
    rw [unit64_eq] at hn
    revert hn
    decide +kernel

/-- A text to which `C67_integers`, `C67_fixed` and `C67_text` apply: `(7! - 40) / 5 % 7 * -x`
at `x = 3` is `-18`. -/
def countText : Bytes := b!"(7! - 40) / 5 % 7 * -x"
/-- Its tree. -/
def countTree : Elem :=
  .bin .times (.bin .modulo (.bin .divide (.bin .minus (.un .factorial (.num (F64.ofNat 7)))
    (.num (F64.ofNat 40))) (.num (F64.ofNat 5))) (.num (F64.ofNat 7))) (.un .minus vx)

example : parse0 cfgPlain countText = .ok ⟨countTree, [b!"x"]⟩ := by decide +kernel

theorem counts_countTree : Counts (mx (F64.ofNat 3)) countTree (-18) := by
  have h7 : value (F64.ofNat 7) = some ((7 : ℕ) : ℤ) := by decide +kernel
  have h40 : value (F64.ofNat 40) = some ((40 : ℤ) : ℚ) := by decide +kernel
  have h5 : value (F64.ofNat 5) = some ((5 : ℤ) : ℚ) := by decide +kernel
  have h7' : value (F64.ofNat 7) = some ((7 : ℤ) : ℚ) := by decide +kernel
  have h3 : value (F64.ofNat 3) = some ((3 : ℤ) : ℚ) := by decide +kernel
  have s : ∀ z : ℤ, -6000 ≤ z → z ≤ 6000 → Small z := by
    intro z h1 h2
    unfold Small
    rw [abs_le]
    constructor <;> omega
  have f : Counts (mx (F64.ofNat 3)) (.un .factorial (.num (F64.ofNat 7))) (Nat.factorial 7 : ℕ) :=
    .factorial (.num h7 (s _ (by decide) (by decide))) (s _ (by decide) (by decide))
  have g := Counts.minus f (.num h40 (s _ (by decide) (by decide))) (s _ (by decide) (by decide))
  have e : ((Nat.factorial 7 : ℕ) : ℤ) - 40 = 1000 * 5 := by decide
  rw [e] at g
  have d := Counts.divide g (.num h5 (s _ (by decide) (by decide))) (by decide)
    (s _ (by decide) (by decide))
  have r := Counts.modulo d (.num h7' (s _ (by decide) (by decide))) (by decide)
  exact Counts.times (a := 6) (b := -3) r
    (.neg (.var (by simp [mx, HMap.insert]) h3 (s _ (by decide) (by decide))))
    (s _ (by decide) (by decide))

example : (match parse0 cfgOpt countText with
    | .ok x => decide (x.eval w0 (mx (F64.ofNat 3)) = .ok (F64.neg (F64.ofNat 18)))
    | _ => false) = true := by decide +kernel

end Props
end Xprs
