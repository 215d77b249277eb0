import Mathlib.Analysis.SpecialFunctions.Trigonometric.Bounds
import Verif.Lemmas.Steady
import Verif.Props.Accuracy
import Verif.Props.Terms
import Verif.Props.Lattice
/-
Property C111: accuracy of expressions with functions in which terms cancel.
-/
namespace Xprs
namespace Props
open Spec
set_option exponentiation.threshold 4096

/-! ### C111 -/

/-- C111: such a tree is evaluated, in both evaluators, to its value over the real numbers up to
`k` units of `2⁻⁵²` of the sum of the absolute values of its terms. -/
theorem C111_error (w : World) (m : HMap F64) (e : Elem) (q Q : ℝ) (k : ℕ) (h : Cancels w m e q Q k)
    (hk : k ≤ 2 ^ 50) :
    ∃ v r, eval w m e = .ok v ∧ evalU w m e = .ok v ∧ value v = some r ∧ |q| ≤ Q ∧
      |(r : ℝ) - q| ≤ Q * (k / 2 ^ 52) := by
  obtain ⟨v, h1, r, h2, h3⟩ := cancels_runs h hk
  have h4 := runs_eval _ h1
  exact ⟨v, r, h4, by rw [evalU_eq, h4]; rfl, h2, h3.1, off_by_error h3 hk⟩

theorem sign_near {p q ε : ℝ} (h : |p - q| ≤ ε) (hc : ε < |q|) : (0 < p ↔ 0 < q) ∧ (p < 0 ↔ q < 0) := by
  rw [abs_le] at h
  rcases lt_abs.1 hc with hc | hc <;> constructor <;> constructor <;> intro <;> linarith

/-- C111: so the sign is right unless the true value is that small; and a computed value that is
larger than that has the right sign. -/
theorem C111_sign (w : World) (m : HMap F64) (e : Elem) (q Q : ℝ) (k : ℕ) (h : Cancels w m e q Q k)
    (hk : k ≤ 2 ^ 50) : ∃ v r, eval w m e = .ok v ∧ value v = some r ∧
      (Q * (k / 2 ^ 52) < |q| ∨ Q * (k / 2 ^ 52) < |(r : ℝ)| → (0 < r ↔ 0 < q) ∧ (r < 0 ↔ q < 0)) := by
  obtain ⟨v, r, h1, -, h2, -, h3⟩ := C111_error w m e q Q k h hk
  refine ⟨v, r, h1, h2, ?_⟩
  have e1 : 0 < r ↔ (0 : ℝ) < r := by norm_cast
  have e2 : r < 0 ↔ (r : ℝ) < 0 := by norm_cast
  rw [e1, e2]
  rintro (hc | hc)
  · exact sign_near h3 hc
  · rw [abs_sub_comm] at h3
    have := sign_near h3 hc
    exact ⟨this.1.symm, this.2.symm⟩

theorem noPower_of_cancels {w : World} {m : HMap F64} {e : Elem} {q Q : ℝ} {k : ℕ}
    (h : Cancels w m e q Q k) : NoPower e := by
  induction h with
  | num => intro l r h; cases h
  | var => intro l r h; cases h
  | exact h => exact noPower_of_tracks h
  | pos _ ih => exact noPower_un.2 ih
  | neg _ ih => exact noPower_un.2 ih
  | plus _ _ _ ih1 ih2 => exact noPower_bin.2 ⟨by decide, ih1, ih2⟩
  | minus _ _ _ ih1 ih2 => exact noPower_bin.2 ⟨by decide, ih1, ih2⟩
  | times _ _ _ ih1 ih2 => exact noPower_bin.2 ⟨by decide, ih1, ih2⟩
  | divide _ h _ _ ih => exact noPower_bin.2 ⟨by decide, ih, noPower_of_tracks h⟩
  | call hl _ _ _ ih =>
    refine noPower_call.2 fun a ha => ?_
    obtain ⟨i, hi, rfl⟩ := List.getElem_of_mem ha
    exact ih i hi (hl ▸ hi)

/-- C111: simplification, in every build, does not make the error larger. -/
theorem C111_simplified (cfg : Cfg) (w : World) (m : HMap F64) (e e' : Elem) (q Q : ℝ) (k : ℕ)
    (h : Cancels w m e q Q k) (hk : k ≤ 2 ^ 50) (hs : simplify cfg w e = .ok e') :
    ∃ v r, eval w m e' = .ok v ∧ value v = some r ∧ |(r : ℝ) - q| ≤ Q * (k / 2 ^ 52) := by
  obtain ⟨v, h1, r, h2, h3⟩ := cancels_runs h hk
  obtain ⟨u, h5, h6⟩ := simplify_runs' (.inl (noPower_of_cancels h)) h1 hs
  exact ⟨u, r, runs_eval _ h5, value_same h2 h6, off_by_error h3 hk⟩

/-- C111: the same for `simplify_for`. -/
theorem C111_fixed (cfg : Cfg) (w : World) (m : HMap F64) (e e' : Xpr) (x : Bytes) (c : F64) (q Q : ℝ)
    (k : ℕ) (h : Cancels w (m.insert x c) e.root q Q k) (hk : k ≤ 2 ^ 50)
    (hs : e.simplifyFor cfg w x c = .ok e') :
    ∃ v r, e'.eval w m = .ok v ∧ value v = some r ∧ |(r : ℝ) - q| ≤ Q * (k / 2 ^ 52) := by
  obtain ⟨v, h1, r, h2, h3⟩ := cancels_runs h hk
  obtain ⟨-, v', h6, h7⟩ := C29_partial cfg w m e e' x c v (.inl (noPower_of_cancels h)) h1 hs
  exact ⟨v', r, h6, value_same h2 h7, off_by_error h3 hk⟩

/-- C111: the same for texts, in every build. -/
theorem C111_text (cfg cfg' : Cfg) (w : World) (o o' : Oracle) (ctx : Context) (input : Bytes)
    (x y : Xpr) (m : HMap F64) (q Q : ℝ) (k : ℕ) (hp : cfg.pejmdas = cfg'.pejmdas)
    (ho : cfg.opt = false) (hn : ∀ ts, Lex input ts → ParensApart ts)
    (h : parse cfg w o ctx input = .ok x) (h' : parse cfg' w o' ctx input = .ok y)
    (hq : Cancels w m x.root q Q k) (hk : k ≤ 2 ^ 50) :
    (∃ v r, x.eval w m = .ok v ∧ value v = some r ∧ |(r : ℝ) - q| ≤ Q * (k / 2 ^ 52)) ∧
    ∃ v r, y.eval w m = .ok v ∧ value v = some r ∧ |(r : ℝ) - q| ≤ Q * (k / 2 ^ 52) := by
  obtain ⟨v, h1, r, h2, h3⟩ := cancels_runs hq hk
  obtain ⟨h4, u, h5, h6⟩ := C16_value_partial cfg cfg' w o o' ctx input x y m v hp ho
    (.inl (noPower_of_cancels hq)) hn h h' h1
  exact ⟨⟨v, r, h4, h2, off_by_error h3 hk⟩, u, r, h5, value_same h2 h6, off_by_error h3 hk⟩

/-! ### The functions -/

theorem steady_one {w : World} {b : Builtin} {g : F64 → F64} {p P q Q : ℝ} {j k : ℕ}
    (hb : ∀ x, callFn w b.toFunc [x] = .ok (g x))
    (hs : ∀ x y, OffTo j P p x → Same x y → Same (g x) (g y))
    (h : ∀ x, OffTo j P p x → OffTo k Q q (g x)) : Robust w b.toFunc [⟨p, P, j⟩] q Q k := by
  intro vs hv
  cases hv with
  | @cons _ v _ _ h1 hv =>
    cases hv
    refine ⟨g v, ⟨hb v, fun us hu => ?_⟩, h v h1⟩
    cases hu with
    | cons h2 h3 => cases h3; exact ⟨_, hb _, hs _ _ h1 h2⟩

/-- C111: `abs` adds no error. -/
theorem C111_abs (w : World) (p P : ℝ) (j : ℕ) :
    ∃ f, Ident.fromStr b!"abs" = .func f ∧ Robust w f [⟨p, P, j⟩] |p| P j := by
  refine ⟨Builtin.abs.toFunc, rfl, steady_one (fun _ => rfl) (fun _ _ _ => abs_same) ?_⟩
  rintro x ⟨r, h1, h2⟩
  refine ⟨|r|, ?_, by push_cast; exact h2.abs⟩
  obtain ⟨s, n, h, rfl, rfl⟩ := value_some h1
  show value (.fin false n h) = _
  rw [value_fin, abs_div, abs_of_pos unit64_pos_rat]
  congr 2
  cases s <;> simp [F64.sv]

theorem forall₂_known {ps : List Estimate} {vs : List F64}
    (h : List.Forall₂ (fun p v => OffTo p.steps p.size p.val v) ps vs) :
    (∀ p ∈ ps, ∃ v ∈ vs, OffTo p.steps p.size p.val v) ∧ ∀ v ∈ vs, ∃ p ∈ ps, OffTo p.steps p.size p.val v := by
  induction h with
  | nil => exact ⟨fun _ h => absurd h List.not_mem_nil, fun _ h => absurd h List.not_mem_nil⟩
  | cons h1 _ ih =>
    constructor
    · intro p hp
      rcases List.mem_cons.1 hp with rfl | hp
      · exact ⟨_, List.mem_cons_self, h1⟩
      · obtain ⟨v, hv, h⟩ := ih.1 p hp
        exact ⟨v, List.mem_cons_of_mem _ hv, h⟩
    · intro v hv
      rcases List.mem_cons.1 hv with rfl | hv
      · exact ⟨_, List.mem_cons_self, h1⟩
      · obtain ⟨p, hp, h⟩ := ih.2 v hv
        exact ⟨p, List.mem_cons_of_mem _ hp, h⟩

/-- C111: `min` adds no error, but takes over the largest. -/
theorem C111_min (w : World) (ps : List Estimate) (q Q : ℝ) (j : ℕ) (hq : ∃ p ∈ ps, p.val = q)
    (hps : ∀ p ∈ ps, p.steps ≤ j ∧ p.size ≤ Q ∧ q ≤ p.val) :
    ∃ f, Ident.fromStr b!"min" = .func f ∧ Robust w f ps q Q j := by
  refine ⟨Builtin.min.toFunc, rfl, fun vs h => ?_⟩
  obtain ⟨v, hv⟩ := min_step (w := w) vs
  have e : vs.foldl F64.fmin (.inf false) = v := Except.ok.inj hv.1
  refine ⟨v, hv, ?_⟩
  obtain ⟨p, hp, rfl⟩ := hq
  obtain ⟨x, hx, hc⟩ := (forall₂_known h).1 p hp
  obtain ⟨m1, m2, m3⟩ := (min_fold vs).2 ⟨x, hx, hc.ne_nan⟩
  rw [e] at m1 m3
  obtain ⟨o, ho, hc'⟩ := (forall₂_known h).2 v m1
  obtain ⟨r, h1, h2⟩ := (hc'.mono (hps o ho).1).widen (hps o ho).2.1
  obtain ⟨t, k1, k2⟩ := (hc.mono (hps p hp).1).widen (hps p hp).2.1
  have hle : (r : ℝ) ≤ t := by exact_mod_cast leF_value (m3 x hx hc.ne_nan) h1 k1
  have hq := (hps o ho).2.2
  refine ⟨r, h1, k2.1, ?_⟩
  have a1 := abs_le.1 h2.2
  have a2 := abs_le.1 k2.2
  rw [abs_le]
  constructor <;> linarith

/-- C111: `max` adds no error, but takes over the largest. -/
theorem C111_max (w : World) (ps : List Estimate) (q Q : ℝ) (j : ℕ) (hq : ∃ p ∈ ps, p.val = q)
    (hps : ∀ p ∈ ps, p.steps ≤ j ∧ p.size ≤ Q ∧ p.val ≤ q) :
    ∃ f, Ident.fromStr b!"max" = .func f ∧ Robust w f ps q Q j := by
  refine ⟨Builtin.max.toFunc, rfl, fun vs h => ?_⟩
  obtain ⟨v, hv⟩ := max_step (w := w) vs
  have e : vs.foldl F64.fmax (.inf true) = v := Except.ok.inj hv.1
  refine ⟨v, hv, ?_⟩
  obtain ⟨p, hp, rfl⟩ := hq
  obtain ⟨x, hx, hc⟩ := (forall₂_known h).1 p hp
  obtain ⟨m1, m2, m3⟩ := (max_fold vs).2 ⟨x, hx, hc.ne_nan⟩
  rw [e] at m1 m3
  obtain ⟨o, ho, hc'⟩ := (forall₂_known h).2 v m1
  obtain ⟨r, h1, h2⟩ := (hc'.mono (hps o ho).1).widen (hps o ho).2.1
  obtain ⟨t, k1, k2⟩ := (hc.mono (hps p hp).1).widen (hps p hp).2.1
  have hle : (t : ℝ) ≤ r := by exact_mod_cast leF_value (m3 x hx hc.ne_nan) k1 h1
  have hq := (hps o ho).2.2
  refine ⟨r, h1, k2.1, ?_⟩
  have a1 := abs_le.1 h2.2
  have a2 := abs_le.1 k2.2
  rw [abs_le]
  constructor <;> linarith

theorem sum_steady (w : World) {ps : List Estimate} {j : ℕ} (hps : ∀ p ∈ ps, p.steps ≤ j ∧ Middling p.size)
    (hm : (ps.map Estimate.size).sum ≤ 2 ^ 1000) (hj : j + ps.length ≤ 2 ^ 50) {vs : List F64}
    (h : List.Forall₂ (fun p v => OffTo p.steps p.size p.val v) ps vs) :
    OffTo (j + ps.length) (ps.map Estimate.size).sum (ps.map Estimate.val).sum (sumF w vs) := by
  have h1 := sum_off h (offTo_zero j w.sumInit) (.inl rfl) hps hj (by rw [zero_add]; exact hm)
  rw [zero_add, zero_add] at h1
  exact h1

/-- C111: `sum` of numbers of any signs adds a rounding for each. -/
theorem C111_sum (w : World) (ps : List Estimate) (j : ℕ) (hps : ∀ p ∈ ps, p.steps ≤ j ∧ Middling p.size)
    (hm : (ps.map Estimate.size).sum ≤ 2 ^ 1000) (hj : j + ps.length ≤ 2 ^ 50) :
    ∃ f, Ident.fromStr b!"sum" = .func f ∧
      Robust w f ps (ps.map Estimate.val).sum (ps.map Estimate.size).sum (j + ps.length) :=
  ⟨Builtin.sum.toFunc, rfl, fun vs h => ⟨sumF w vs, ⟨rfl, fun _ hu => ⟨_, rfl, foldl_add_same hu (.refl _)⟩⟩,
    sum_steady w hps hm hj h⟩⟩

theorem sameL_length {vs us : List F64} (h : SameL vs us) : vs.length = us.length := by
  induction h with
  | nil => rfl
  | cons _ _ ih => rw [List.length_cons, List.length_cons, ih]

/-- C111: `mean` adds one more. -/
theorem C111_mean (w : World) (ps : List Estimate) (j : ℕ) (hps : ∀ p ∈ ps, p.steps ≤ j ∧ Middling p.size)
    (hm : (ps.map Estimate.size).sum ≤ 2 ^ 1000) (hm' : Middling ((ps.map Estimate.size).sum / ps.length))
    (hne : ps ≠ []) (hj : j + ps.length ≤ 2 ^ 50) :
    ∃ f, Ident.fromStr b!"mean" = .func f ∧ Robust w f ps ((ps.map Estimate.val).sum / ps.length)
      ((ps.map Estimate.size).sum / ps.length) (j + ps.length + 1) := by
  refine ⟨Builtin.mean.toFunc, rfl, fun vs h => ?_⟩
  have hl := h.length_eq
  have h0 : 0 < vs.length := by rw [← hl]; exact List.length_pos_of_ne_nil hne
  have hn : value (F64.ofNat vs.length) = some ((vs.length : ℕ) : ℚ) := by
    rw [F64.ofNat_eq (rep_nat (by omega)), value_whole]
    simp [F64.sv]
  have hn0 : ((vs.length : ℕ) : ℚ) ≠ 0 := by exact_mod_cast h0.ne'
  refine ⟨F64.div (sumF w vs) (F64.ofNat vs.length), ⟨rfl, fun us hu => ⟨_, rfl, ?_⟩⟩, ?_⟩
  · rw [← sameL_length hu]
    exact div_congr (foldl_add_same hu (.refl _)) (.refl _) (not_zero_of_value hn hn0)
  · obtain ⟨r, h2, h3⟩ := sum_steady w hps hm hj h
    have h4 := h3.mul (Close.refl ((vs.length : ℝ)⁻¹)).off
    rw [_root_.abs_of_nonneg (by positivity), ← div_eq_mul_inv, ← div_eq_mul_inv, ← div_eq_mul_inv, add_zero] at h4
    rw [← hl] at h4 hn hn0 ⊢
    refine OffBy.round (div_rounds h2 hn hn0) ?_ hj hm'
    push_cast
    exact h4

theorem Spec.OffBy.trans_close {j k : ℕ} {Q q r v : ℝ} (h : OffBy j Q q r) (h' : Close k r v) :
    OffBy (j + k) Q q v := by
  refine ⟨h.1, ?_⟩
  have h1 := h'.off.2
  have h2 := h.le
  have h3 := growth_ge_one k
  rw [show v - q = (v - r) + (r - q) by ring]
  refine (abs_add_le _ _).trans ?_
  have h4 : |r| * (growth k - 1) ≤ Q * growth j * (growth k - 1) := mul_le_mul_of_nonneg_right h2 (by linarith)
  have h5 := h.2
  rw [growth_add]
  nlinarith

/-- A square root, rounded. -/
theorem sqrt_close {x : F64} {r : ℚ} (h1 : value x = some r) (hr : (1 : ℝ) / 2 ^ 1022 ≤ r) :
    CloseTo 1 √(r : ℝ) (F64.sqrt x) := by
  have hr0 : (0 : ℝ) < r := lt_of_lt_of_le (by positivity) hr
  have hrq : 0 < r := by exact_mod_cast hr0
  have hr' := roots x
  generalize F64.sqrt x = y at hr'
  cases hr' with
  | nan => cases h1
  | inf => cases h1
  | negInf => cases h1
  | zero h3 => rw [h1] at h3; cases h3; exact absurd hrq (lt_irrefl _)
  | negative h3 h4 => rw [h1] at h3; cases h3; exact absurd h4 (not_lt.2 hrq.le)
  | @positive _ _ q n h h3 h4 h5 h6 =>
    rw [h1] at h3; cases h3
    subst h5
    have hs : (1 : ℝ) / 2 ^ 511 ≤ √(r : ℝ) := by
      refine Real.le_sqrt_of_sq_le (le_trans ?_ hr)
      norm_num
    have h7 := nearestReal_close h6 (by
      calc (2 : ℝ) ^ 52 ≤ 1 / 2 ^ 511 * 2 ^ 1074 := by norm_num
        _ ≤ _ := by gcongr)
    have h8 := h7.mul (Close.refl (1 / 2 ^ 1074))
    have e1 : √(r : ℝ) * 2 ^ 1074 * (1 / 2 ^ 1074) = √(r : ℝ) := by field_simp
    rw [e1] at h8
    refine ⟨_, value_fin .., ?_⟩
    have e2 : ((((F64.sv false n : ℤ) : ℚ) / ((unit64 : ℕ) : ℚ) : ℚ) : ℝ) = (n : ℝ) * (1 / 2 ^ 1074) := by
      rw [unit64_cast]
      have : F64.sv false n = (n : ℤ) := rfl
      rw [this]; push_cast; ring
    rw [e2]
    exact h8

/-- C111: `sqrt` of a difference: where the error of the argument is at most half of the argument,
the error is that of the argument divided by the root, and one more rounding. -/
theorem C111_sqrt (w : World) (p P : ℝ) (j : ℕ) (hp : 1 / 2 ^ 1000 ≤ p) (hj : j ≤ 2 ^ 50)
    (hh : P * (j / 2 ^ 52) ≤ p / 2) :
    ∃ f, Ident.fromStr b!"sqrt" = .func f ∧ Robust w f [⟨p, P, j⟩] √p (P / √p) (j + 1) := by
  have hp0 : 0 < p := lt_of_lt_of_le (by positivity) hp
  have hs0 : 0 < √p := Real.sqrt_pos.2 hp0
  have key : ∀ x, OffTo j P p x → ∃ r : ℚ, value x = some r ∧ OffBy j P p r ∧ (1 : ℝ) / 2 ^ 1022 ≤ r := by
    rintro x ⟨r, h1, h2⟩
    refine ⟨r, h1, h2, ?_⟩
    have := abs_le.1 (off_by_error h2 hj)
    have h3 : (1 : ℝ) / 2 ^ 1022 ≤ 1 / 2 ^ 1000 / 2 := by norm_num
    linarith
  refine ⟨Builtin.sqrt.toFunc, rfl, steady_one (g := F64.sqrt) (fun _ => rfl) ?_ ?_⟩
  · intro x y hx hs
    obtain ⟨r, h1, -, h2⟩ := key x hx
    have h3 : r ≠ 0 := by
      rintro rfl
      rw [Rat.cast_zero] at h2
      exact absurd h2 (not_le.2 (by positivity))
    rcases hs with rfl | ⟨h, -⟩
    · exact .refl _
    · exact absurd h (not_zero_of_value h1 h3)
  · intro x hx
    obtain ⟨r, h1, h2, h3⟩ := key x hx
    obtain ⟨t, k1, k2⟩ := sqrt_close h1 h3
    refine ⟨t, k1, Spec.OffBy.trans_close (r := √(r : ℝ)) ⟨?_, ?_⟩ k2⟩
    · rw [abs_of_pos hs0, le_div_iff₀ hs0, Real.mul_self_sqrt hp0.le]
      exact (le_abs_self _).trans h2.1
    · rw [div_mul_eq_mul_div, le_div_iff₀ hs0]
      have hr0 : (0 : ℝ) ≤ r := le_trans (by positivity) h3
      have e : (√(r : ℝ) - √p) * (√(r : ℝ) + √p) = r - p := by
        have a := Real.mul_self_sqrt hr0
        have b := Real.mul_self_sqrt hp0.le
        nlinarith
      refine le_trans ?_ h2.2
      rw [← e, abs_mul]
      refine mul_le_mul_of_nonneg_left ?_ (abs_nonneg _)
      have := Real.sqrt_nonneg (r : ℝ)
      rw [_root_.abs_of_nonneg (by linarith)]
      linarith

/-- C111: a function of the platform that is right up to `c` roundings of numbers up to `B`,
where the function meant does not grow faster than `L`. -/
theorem C111_platform (w : World) (b : Builtin) (F : F64 → F64) (g : ℝ → ℝ) (p P B L : ℝ) (j c : ℕ)
    (hb : ∀ x, callFn w b.toFunc [x] = .ok (F x))
    (hz : ∀ s t, Same (F (F64.zero s)) (F (F64.zero t))) (hL : 0 ≤ L) (hB : |g p| ≤ B)
    (hF : ∀ x r, value x = some r → OffBy j P p r → OffTo c B (g r) (F x))
    (hg : ∀ r, OffBy j P p r → |g r - g p| ≤ L * |r - p|) :
    Robust w b.toFunc [⟨p, P, j⟩] (g p) (L * P + B) (max j c) := by
  refine steady_one hb ?_ ?_
  · rintro x y - hs
    rcases hs with rfl | ⟨⟨s, rfl⟩, ⟨t, rfl⟩⟩
    · exact .refl _
    · exact hz s t
  · rintro x ⟨r, h1, h2⟩
    obtain ⟨t, h3, h4⟩ := hF x r h1 h2
    have hP := h2.nonneg
    have hLP : 0 ≤ L * P := mul_nonneg hL hP
    refine ⟨t, h3, hB.trans (by linarith), ?_⟩
    have a1 := (h4.mono (le_max_right j c)).2
    have a2 := (hg r h2).trans (mul_le_mul_of_nonneg_left (h2.mono (le_max_left j c)).2 hL)
    rw [show (t : ℝ) - g p = (t - g r) + (g r - g p) by ring]
    refine (abs_add_le _ _).trans ?_
    rw [add_mul, mul_assoc]
    linarith

theorem zeros_same {F : F64 → F64} (h : Same (F (F64.zero false)) (F (F64.zero true))) :
    ∀ s t, Same (F (F64.zero s)) (F (F64.zero t))
  | false, false => .refl _
  | false, true => h
  | true, false => h.symm
  | true, true => .refl _

/-- C111: `sin` and `cos`, on a platform on which they are right up to `c` roundings of numbers up
to 1, whatever cancels in the argument. -/
theorem C111_waves (w : World) (p P : ℝ) (j c : ℕ) :
    (Same (w.libm1 .sin (F64.zero false)) (w.libm1 .sin (F64.zero true)) →
      (∀ x r, value x = some r → OffBy j P p r → OffTo c 1 (Real.sin r) (w.libm1 .sin x)) →
      ∃ f, Ident.fromStr b!"sin" = .func f ∧ Robust w f [⟨p, P, j⟩] (Real.sin p) (P + 1) (max j c)) ∧
    (Same (w.libm1 .cos (F64.zero false)) (w.libm1 .cos (F64.zero true)) →
      (∀ x r, value x = some r → OffBy j P p r → OffTo c 1 (Real.cos r) (w.libm1 .cos x)) →
      ∃ f, Ident.fromStr b!"cos" = .func f ∧ Robust w f [⟨p, P, j⟩] (Real.cos p) (P + 1) (max j c)) := by
  constructor
  · intro hz hF
    have h := C111_platform w .sin (w.libm1 .sin) Real.sin p P 1 1 j c (fun _ => rfl) (zeros_same hz)
      zero_le_one (Real.abs_sin_le_one p) hF (fun r _ => by rw [one_mul]; exact Real.abs_sin_sub_sin_le r p)
    rw [one_mul] at h
    exact ⟨_, rfl, h⟩
  · intro hz hF
    have h := C111_platform w .cos (w.libm1 .cos) Real.cos p P 1 1 j c (fun _ => rfl) (zeros_same hz)
      zero_le_one (Real.abs_cos_le_one p) hF (fun r _ => by rw [one_mul]; exact Real.abs_cos_sub_cos_le r p)
    rw [one_mul] at h
    exact ⟨_, rfl, h⟩

/-! ### Examples -/

/-- `(x - sqrt(x*x - 4)) / 2`: the smaller root of `t² - x t + 1`. -/
def smallRoot : Elem := .bin .divide (.bin .minus vx (.call Builtin.sqrt.toFunc
  [.bin .minus (.bin .times vx vx) (.num (F64.ofNat 4))])) (.num (F64.ofNat 2))

example : parse0 cfgPlain b!"(x - sqrt(x*x - 4)) / 2" = .ok ⟨smallRoot, [b!"x"]⟩ := by decide +kernel

theorem off_self {x : F64} {q : ℚ} (h : value x = some q) (hq : 0 ≤ q) : OffTo 0 (q : ℝ) q x := by
  have hq' : (0 : ℝ) ≤ q := by exact_mod_cast hq
  refine ⟨q, h, by rw [_root_.abs_of_nonneg hq'], ?_⟩
  rw [_root_.sub_self, abs_zero]
  exact mul_nonneg hq' (by linarith [growth_ge_one 0])

/-- The root is computed up to 5 roundings, of numbers up to `(3 + 13 / √5) / 2`. -/
theorem smallRoot_cancels (w : World) :
    Cancels w (mx (F64.ofNat 3)) smallRoot ((3 - √5) / 2) ((3 + 13 / √5) / 2) 5 := by
  have h3 : value (F64.ofNat 3) = some 3 := by decide +kernel
  have h4 : value (F64.ofNat 4) = some 4 := by decide +kernel
  have h2 : value (F64.ofNat 2) = some 2 := by decide +kernel
  have c3 := off_self h3 (by norm_num)
  have c4 := off_self h4 (by norm_num)
  push_cast at c3 c4
  have c2 : CloseTo 0 2 (F64.ofNat 2) := ⟨2, h2, by push_cast; exact Close.refl _⟩
  have s1 : (2 : ℝ) ≤ √5 := Real.le_sqrt_of_sq_le (by norm_num)
  have s2 : √(5 : ℝ) ≤ 3 := (Real.sqrt_le_left (by norm_num)).2 (by norm_num)
  have d1 : (4 : ℝ) ≤ 13 / √5 := by rw [le_div_iff₀ (by linarith)]; linarith
  have d2 : 13 / √5 ≤ (7 : ℝ) := by rw [div_le_iff₀ (by linarith)]; linarith
  have hx : Cancels w (mx (F64.ofNat 3)) vx 3 3 0 := .var (by simp [mx, HMap.insert]) c3
  obtain ⟨f, hf, ha⟩ := C111_sqrt w 5 13 2 (by norm_num) (by norm_num) (by norm_num)
  cases hf
  have hd : Cancels w (mx (F64.ofNat 3)) (.bin .minus (.bin .times vx vx) (.num (F64.ofNat 4))) 5 13 2 := by
    have := Cancels.minus (.times hx hx (middling_of (by norm_num) (by norm_num))) (.num c4)
      (middling_of (by norm_num) (by norm_num))
    norm_num at this
    exact this
  have hs : Cancels w (mx (F64.ofNat 3)) (.call Builtin.sqrt.toFunc
      [.bin .minus (.bin .times vx vx) (.num (F64.ofNat 4))]) √5 (13 / √5) 3 := by
    refine .call (ps := [⟨5, 13, 2⟩]) rfl (by simp) ?_ ha
    intro i h h'
    have : i = 0 := by simpa using h'
    subst this
    exact hd
  have := Cancels.divide (.minus hx hs (middling_of (by linarith) (by linarith))) (.num c2) (by norm_num)
    (middling_of (by rw [_root_.abs_of_nonneg (by norm_num)]; linarith)
      (by rw [_root_.abs_of_nonneg (by norm_num)]; linarith))
  rw [_root_.abs_of_nonneg (by norm_num)] at this
  exact this

example (w : World) : ∃ v r, eval w (mx (F64.ofNat 3)) smallRoot = .ok v ∧ value v = some r ∧ 0 < r ∧
    |(r : ℝ) - (3 - √5) / 2| ≤ (3 + 13 / √5) / 2 * (5 / 2 ^ 52) := by
  obtain ⟨v, r, h1, -, h2, -, h3⟩ := C111_error w _ _ _ _ _ (smallRoot_cancels w) (by norm_num)
  push_cast at h3
  refine ⟨v, r, h1, h2, ?_, h3⟩
  have s1 : (2 : ℝ) ≤ √5 := Real.le_sqrt_of_sq_le (by norm_num)
  have s2 : √(5 : ℝ) ≤ 5 / 2 := (Real.sqrt_le_left (by norm_num)).2 (by norm_num)
  have d2 : 13 / √5 ≤ (7 : ℝ) := by rw [div_le_iff₀ (by linarith)]; linarith
  have h4 := (abs_le.1 h3).1
  have : (0 : ℝ) < r := by
    have : (3 + 13 / √5) / 2 * (5 / 2 ^ 52) ≤ (5 : ℝ) * (1 / 100) :=
      mul_le_mul (by linarith) (by norm_num) (by norm_num) (by norm_num)
    linarith
  exact_mod_cast this

/-- Sums in which terms cancel: `sum(x, -3, 2)` at `x = 1/10`, known up to one rounding. -/
example (w : World) : ∃ f, Ident.fromStr b!"sum" = .func f ∧
    Robust w f [⟨1 / 10, 1 / 10, 1⟩, ⟨-3, 3, 0⟩, ⟨2, 2, 0⟩] (1 / 10 + (-3 + (2 + 0))) (1 / 10 + (3 + (2 + 0))) (1 + 3) := by
  have h := C111_sum w [⟨1 / 10, 1 / 10, 1⟩, ⟨-3, 3, 0⟩, ⟨2, 2, 0⟩] 1
    (by
      intro p hp
      simp only [List.mem_cons, List.not_mem_nil, or_false] at hp
      rcases hp with rfl | rfl | rfl <;>
        exact ⟨by norm_num, middling_of (by norm_num) (by norm_num)⟩)
    (by simp; norm_num) (by simp)
  simpa using h
example (w : World) : ∃ f, Ident.fromStr b!"mean" = .func f ∧
    Robust w f [⟨-3, 3, 0⟩, ⟨2, 2, 0⟩] ((-3 + (2 + 0)) / 2) ((3 + (2 + 0)) / 2) (0 + 2 + 1) := by
  have h := C111_mean w [⟨-3, 3, 0⟩, ⟨2, 2, 0⟩] 0
    (by
      intro p hp
      simp only [List.mem_cons, List.not_mem_nil, or_false] at hp
      rcases hp with rfl | rfl <;>
        exact ⟨by norm_num, middling_of (by norm_num) (by norm_num)⟩)
    (by simp; norm_num) (by simp; exact middling_of (by norm_num) (by norm_num)) (by simp) (by simp)
  simpa using h
example (w : World) : ∃ f, Ident.fromStr b!"max" = .func f ∧ Robust w f [⟨-3, 3, 5⟩, ⟨2, 8, 1⟩] 2 8 5 :=
  C111_max w _ 2 8 5 ⟨_, List.mem_cons_of_mem _ List.mem_cons_self, rfl⟩ (by
    intro p hp
    simp only [List.mem_cons, List.not_mem_nil, or_false] at hp
    rcases hp with rfl | rfl <;> norm_num)
example (w : World) : ∃ f, Ident.fromStr b!"min" = .func f ∧ Robust w f [⟨-3, 3, 5⟩, ⟨2, 8, 1⟩] (-3) 8 5 :=
  C111_min w _ (-3) 8 5 ⟨_, List.mem_cons_self, rfl⟩ (by
    intro p hp
    simp only [List.mem_cons, List.not_mem_nil, or_false] at hp
    rcases hp with rfl | rfl <;> norm_num)

theorem growth_one : (1 : ℝ) / 2 ^ 53 ≤ growth 1 - 1 := by
  have h := keep_gt
  have e : growth 1 * keep = 1 := by
    unfold growth
    rw [pow_one]
    exact inv_mul_cancel₀ h.ne'
  have h1 := growth_ge_one 1
  have h2 : keep = 1 - 1 / 2 ^ 53 := rfl
  rw [h2] at e
  nlinarith

/-- A platform whose sine is right for small numbers: it returns them. -/
example : ∃ f, Ident.fromStr b!"sin" = .func f ∧
    Robust { w0 with libm1 := fun _ x => x } f [⟨1 / 2 ^ 60, 1 / 2 ^ 60, 1⟩] (Real.sin (1 / 2 ^ 60)) (1 / 2 ^ 60 + 1) (max 1 1) := by
  refine (C111_waves _ (1 / 2 ^ 60) (1 / 2 ^ 60) 1 1).1 (.inr ⟨⟨_, rfl⟩, ⟨_, rfl⟩⟩) ?_
  intro x r hx hr
  refine ⟨r, hx, Real.abs_sin_le_one _, ?_⟩
  rw [one_mul]
  refine le_trans ?_ growth_one
  have h1 : |(r : ℝ)| ≤ 1 / 2 ^ 59 :=
    hr.le.trans ((mul_le_mul_of_nonneg_left (growth_two (by norm_num)) (by norm_num)).trans (by norm_num))
  have h2 : |Real.sin r| ≤ |(r : ℝ)| := by
    have := Real.abs_sin_sub_sin_le r 0
    rwa [Real.sin_zero, _root_.sub_zero, _root_.sub_zero] at this
  calc |(r : ℝ) - Real.sin r| ≤ |(r : ℝ)| + |Real.sin r| := abs_sub _ _
    _ ≤ 1 / 2 ^ 59 + 1 / 2 ^ 59 := add_le_add h1 (h2.trans h1)
    _ ≤ 1 / 2 ^ 53 := by norm_num

end Props
end Xprs
