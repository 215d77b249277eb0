import Mathlib.Analysis.Real.Pi.Bounds
import Mathlib.Analysis.Complex.ExponentialBounds
import Verif.Lemmas.Accuracy
import Verif.Props.Error
/-
Property C91: accuracy of expressions with functions and constants, over the real numbers.
-/
namespace Xprs
namespace Props
open Spec
set_option exponentiation.threshold 4096

/-! ### C91 -/

/-- C91: a tree that tracks a real number is evaluated, in both evaluators, to that number up
to a relative error of `k` units of `2⁻⁵²`, where `k` counts the roundings that can add up. -/
theorem C91_error (w : World) (m : HMap F64) (e : Elem) (q : ℝ) (k : ℕ) (h : Tracks w m e q k)
    (hk : k ≤ 2 ^ 50) :
    ∃ v r, eval w m e = .ok v ∧ evalU w m e = .ok v ∧ value v = some r ∧
      |(r : ℝ) - q| ≤ |q| * (k / 2 ^ 52) := by
  obtain ⟨v, h1, r, h2, h3⟩ := tracks_runs h hk
  have h4 := runs_eval _ h1
  exact ⟨v, r, h4, by rw [evalU_eq, h4]; rfl, h2, close_error h3 hk⟩

theorem noPower_of_tracks {w : World} {m : HMap F64} {e : Elem} {q : ℝ} {k : ℕ} (h : Tracks w m e q k) :
    NoPower e := by
  induction h with
  | num => intro l r h; cases h
  | var => intro l r h; cases h
  | pos _ ih => exact noPower_un.2 ih
  | neg _ ih => exact noPower_un.2 ih
  | plus _ _ _ _ ih1 ih2 => exact noPower_bin.2 ⟨by decide, ih1, ih2⟩
  | minus _ _ _ _ ih1 ih2 => exact noPower_bin.2 ⟨by decide, ih1, ih2⟩
  | times _ _ _ ih1 ih2 => exact noPower_bin.2 ⟨by decide, ih1, ih2⟩
  | divide _ _ _ _ ih1 ih2 => exact noPower_bin.2 ⟨by decide, ih1, ih2⟩
  | call hl _ _ _ ih =>
    refine noPower_call.2 fun a ha => ?_
    obtain ⟨i, hi, rfl⟩ := List.getElem_of_mem ha
    exact ih i hi (hl ▸ hi)

/-- C91: simplification, in every build, does not make the error larger. -/
theorem C91_simplified (cfg : Cfg) (w : World) (m : HMap F64) (e e' : Elem) (q : ℝ) (k : ℕ)
    (h : Tracks w m e q k) (hk : k ≤ 2 ^ 50) (hs : simplify cfg w e = .ok e') :
    ∃ v r, eval w m e' = .ok v ∧ value v = some r ∧ |(r : ℝ) - q| ≤ |q| * (k / 2 ^ 52) := by
  obtain ⟨v, h1, r, h2, h3⟩ := tracks_runs h hk
  obtain ⟨u, h5, h6⟩ := simplify_runs' (.inl (noPower_of_tracks h)) h1 hs
  exact ⟨u, r, runs_eval _ h5, value_same h2 h6, close_error h3 hk⟩

/-- C91: the same for `simplify_for`. -/
theorem C91_fixed (cfg : Cfg) (w : World) (m : HMap F64) (e e' : Xpr) (x : Bytes) (c : F64) (q : ℝ)
    (k : ℕ) (h : Tracks w (m.insert x c) e.root q k) (hk : k ≤ 2 ^ 50)
    (hs : e.simplifyFor cfg w x c = .ok e') :
    ∃ v r, e'.eval w m = .ok v ∧ value v = some r ∧ |(r : ℝ) - q| ≤ |q| * (k / 2 ^ 52) := by
  obtain ⟨v, h1, r, h2, h3⟩ := tracks_runs h hk
  obtain ⟨-, v', h6, h7⟩ := C29_partial cfg w m e e' x c v (.inl (noPower_of_tracks h)) h1 hs
  exact ⟨v', r, h6, value_same h2 h7, close_error h3 hk⟩

/-- C91: the same for texts, in every build. -/
theorem C91_text (cfg cfg' : Cfg) (w : World) (o o' : Oracle) (ctx : Context) (input : Bytes)
    (x y : Xpr) (m : HMap F64) (q : ℝ) (k : ℕ) (hp : cfg.pejmdas = cfg'.pejmdas)
    (ho : cfg.opt = false) (hn : ∀ ts, Lex input ts → ParensApart ts)
    (h : parse cfg w o ctx input = .ok x) (h' : parse cfg' w o' ctx input = .ok y)
    (hq : Tracks w m x.root q k) (hk : k ≤ 2 ^ 50) :
    (∃ v r, x.eval w m = .ok v ∧ value v = some r ∧ |(r : ℝ) - q| ≤ |q| * (k / 2 ^ 52)) ∧
    ∃ v r, y.eval w m = .ok v ∧ value v = some r ∧ |(r : ℝ) - q| ≤ |q| * (k / 2 ^ 52) := by
  obtain ⟨v, h1, r, h2, h3⟩ := tracks_runs hq hk
  obtain ⟨h4, u, h5, h6⟩ := C16_value_partial cfg cfg' w o o' ctx input x y m v hp ho
    (.inl (noPower_of_tracks hq)) hn h h' h1
  exact ⟨⟨v, r, h4, h2, close_error h3 hk⟩, u, r, h5, value_same h2 h6, close_error h3 hk⟩

/-! ### The functions -/

theorem forall₂_one {p : ℝ × ℕ} {vs : List F64}
    (h : List.Forall₂ (fun p v => CloseTo p.2 p.1 v) [p] vs) : ∃ v, vs = [v] ∧ CloseTo p.2 p.1 v := by
  cases h with
  | cons h1 h2 => cases h2; exact ⟨_, rfl, h1⟩

theorem accurate_one {w : World} {b : Builtin} {g : F64 → F64} {p q : ℝ} {j k : ℕ}
    (hb : ∀ x, b.run w [x] = .ok (g x))
    (hs : ∀ x y, CloseTo j p x → Same x y → Same (g x) (g y))
    (h : ∀ x, CloseTo j p x → CloseTo k q (g x)) : Accurate w b.toFunc [(p, j)] q k := by
  intro vs hv
  obtain ⟨v, rfl, h1⟩ := forall₂_one hv
  refine ⟨g v, ⟨hb v, fun us hu => ?_⟩, h v h1⟩
  cases hu with
  | cons h2 h3 => cases h3; exact ⟨_, hb _, hs _ _ h1 h2⟩

/-- C91: `abs` adds no error. -/
theorem C91_abs (w : World) (p : ℝ) (j : ℕ) :
    ∃ f, Ident.fromStr b!"abs" = .func f ∧ Accurate w f [(p, j)] |p| j := by
  refine ⟨Builtin.abs.toFunc, rfl, accurate_one (fun _ => rfl) (fun _ _ _ => abs_same) ?_⟩
  rintro x ⟨r, h1, h2⟩
  refine ⟨|r|, ?_, by push_cast; exact h2.abs⟩
  obtain ⟨s, n, h, rfl, rfl⟩ := value_some h1
  show value (.fin false n h) = _
  rw [value_fin, abs_div, abs_of_pos unit64_pos_rat]
  congr 2
  cases s <;> simp [F64.sv]

/-- C91: `recip` (or `invert`) adds one rounding. -/
theorem C91_recip (w : World) (p : ℝ) (j : ℕ) (hp : p ≠ 0) (hm : Middling p⁻¹) (hj : j ≤ 2 ^ 50) :
    ∃ f, Ident.fromStr b!"recip" = .func f ∧ Ident.fromStr b!"invert" = .func f ∧
      Accurate w f [(p, j)] p⁻¹ (j + 1) := by
  have key : ∀ x, CloseTo j p x → ∃ r : ℚ, value x = some r ∧ r ≠ 0 ∧ Close j p r := by
    rintro x ⟨r, h1, h2⟩
    have := close_ne_zero h2 hp
    exact ⟨r, h1, by exact_mod_cast this, h2⟩
  refine ⟨Builtin.recip.toFunc, rfl, rfl, accurate_one (g := F64.recip) (fun _ => rfl) ?_ ?_⟩
  · intro x y hx hs
    obtain ⟨r, h1, h2, -⟩ := key x hx
    have hz := not_zero_of_value h1 h2
    rcases hs with rfl | ⟨h, -⟩
    · exact .refl _
    · exact absurd h hz
  · intro x hx
    obtain ⟨r, h1, h2, h3⟩ := key x hx
    have h4 : value F64.f1 = some 1 := by decide +kernel
    refine close_round (y := 1 / r) (div_rounds h4 h1 h2) ?_ hj hm
    rw [one_div]; push_cast; exact h3.inv

/-- C91: `sqrt` halves the roundings and adds one. -/
theorem C91_sqrt (w : World) (p : ℝ) (j : ℕ) (hp : 0 ≤ p) (hm : Middling p) (hj : j ≤ 2 ^ 50) :
    ∃ f, Ident.fromStr b!"sqrt" = .func f ∧ Accurate w f [(p, j)] √p ((j + 1) / 2 + 1) := by
  refine ⟨Builtin.sqrt.toFunc, rfl, accurate_one (g := F64.sqrt) (fun _ => rfl) ?_ ?_⟩
  · intro x y hx hs
    rcases hs with rfl | ⟨⟨s, rfl⟩, ⟨t, rfl⟩⟩
    · exact .refl _
    · exact .inr ⟨⟨s, by cases s <;> decide +kernel⟩, ⟨t, by cases t <;> decide +kernel⟩⟩
  · rintro x ⟨r, h1, h2⟩
    have hr := roots x
    by_cases h0 : p = 0
    · subst h0
      have hr0 : r = 0 := by exact_mod_cast close_eq_zero h2
      subst hr0
      have hx : F64.sqrt x = x := by
        obtain ⟨s, n, h, rfl, -⟩ := value_some h1
        have := value_zero_iff.1 h1
        subst this
        simp only [F64.sqrt]
        rfl
      rw [hx, Real.sqrt_zero]
      exact ⟨0, h1, by rw [Rat.cast_zero]; exact (Close.refl 0).mono (Nat.zero_le _)⟩
    · have hp' : 0 < p := lt_of_le_of_ne hp (Ne.symm h0)
      have hr0 : (0 : ℝ) < r := by
        obtain ⟨ρ, e, h3, -⟩ := h2
        rw [e]
        exact mul_pos hp' ((keepk_pos j).trans_le h3)
      have hrq : 0 < r := by exact_mod_cast hr0
      obtain ⟨l1, -⟩ := close_range h2 hj h0 hm
      rw [abs_of_pos hr0] at l1
      generalize F64.sqrt x = y at hr
      cases hr with
      | nan => cases h1
      | inf => cases h1
      | negInf => cases h1
      | zero h3 => rw [h1] at h3; cases h3; exact absurd hrq (lt_irrefl _)
      | negative h3 h4 => rw [h1] at h3; cases h3; exact absurd h4 (not_lt.2 hrq.le)
      | @positive _ _ q n h h3 h4 h5 h6 =>
        rw [h1] at h3; cases h3
        subst h5
        have hs : (1 : ℝ) / 2 ^ 511 ≤ √(r : ℝ) := by
          refine Real.le_sqrt_of_sq_le (le_trans ?_ l1)
          norm_num
        have h7 := nearestReal_close h6 (by
          calc (2 : ℝ) ^ 52 ≤ 1 / 2 ^ 511 * 2 ^ 1074 := by norm_num
            _ ≤ _ := by gcongr)
        have h8 := h7.mul (Close.refl (1 / 2 ^ 1074))
        have e1 : √(r : ℝ) * 2 ^ 1074 * (1 / 2 ^ 1074) = √(r : ℝ) := by field_simp
        rw [e1] at h8
        refine ⟨_, value_fin .., ?_⟩
        have e2 : ((((F64.sv false n : ℤ) : ℚ) / ((unit64 : ℕ) : ℚ) : ℚ) : ℝ) = (n : ℝ) * (1 / 2 ^ 1074) := by
          rw [unit64_cast]
          have : F64.sv false n = (n : ℤ) := rfl
          rw [this]; push_cast; ring
        rw [e2]
        exact (h2.sqrt hp).trans h8

theorem sum_accurate (w : World) (ps : List (ℝ × ℕ)) (j : ℕ) (σ : ℝ) (hσ : σ = 1 ∨ σ = -1)
    (hps : ∀ p ∈ ps, p.2 ≤ j ∧ Middling p.1 ∧ 0 ≤ σ * p.1)
    (hm : Middling (ps.map Prod.fst).sum) (hj : j + ps.length ≤ 2 ^ 50) {vs : List F64}
    (h : List.Forall₂ (fun p v => CloseTo p.2 p.1 v) ps vs) :
    CloseTo (j + ps.length) (ps.map Prod.fst).sum (sumF w vs) := by
  have h1 := sum_close hσ h (closeTo_zero j w.sumInit) (.inl rfl) (by rw [mul_zero]) hps hj (by
    rw [zero_add]
    refine le_trans (le_abs_self _) ?_
    have : |σ * (ps.map Prod.fst).sum| = |(ps.map Prod.fst).sum| := by
      rcases hσ with rfl | rfl
      · rw [one_mul]
      · rw [neg_one_mul, abs_neg]
    rw [this]
    rcases hm with hm | ⟨-, hm⟩
    · rw [hm, abs_zero]; positivity
    · exact hm)
  rw [zero_add] at h1
  exact h1

/-- C91: `sum` of numbers of the same sign adds a rounding for each. -/
theorem C91_sum (w : World) (ps : List (ℝ × ℕ)) (j : ℕ)
    (hs : (∀ p ∈ ps, 0 ≤ p.1) ∨ ∀ p ∈ ps, p.1 ≤ 0) (hps : ∀ p ∈ ps, p.2 ≤ j ∧ Middling p.1)
    (hm : Middling (ps.map Prod.fst).sum) (hj : j + ps.length ≤ 2 ^ 50) :
    ∃ f, Ident.fromStr b!"sum" = .func f ∧ Accurate w f ps (ps.map Prod.fst).sum (j + ps.length) := by
  refine ⟨Builtin.sum.toFunc, rfl, fun vs h => ⟨sumF w vs, ⟨rfl, fun us hu => ⟨_, rfl, ?_⟩⟩, ?_⟩⟩
  · exact foldl_add_same hu (.refl _)
  · rcases hs with hs | hs
    · exact sum_accurate w ps j 1 (.inl rfl)
        (fun p hp => ⟨(hps p hp).1, (hps p hp).2, by rw [one_mul]; exact hs p hp⟩) hm hj h
    · exact sum_accurate w ps j (-1) (.inr rfl)
        (fun p hp => ⟨(hps p hp).1, (hps p hp).2, by rw [neg_one_mul]; linarith [hs p hp]⟩) hm hj h

/-- C91: `mean` adds one more. -/
theorem C91_mean (w : World) (ps : List (ℝ × ℕ)) (j : ℕ)
    (hs : (∀ p ∈ ps, 0 ≤ p.1) ∨ ∀ p ∈ ps, p.1 ≤ 0) (hps : ∀ p ∈ ps, p.2 ≤ j ∧ Middling p.1)
    (hm : Middling (ps.map Prod.fst).sum) (hm' : Middling ((ps.map Prod.fst).sum / ps.length))
    (hne : ps ≠ []) (hj : j + ps.length ≤ 2 ^ 50) :
    ∃ f, Ident.fromStr b!"mean" = .func f ∧
      Accurate w f ps ((ps.map Prod.fst).sum / ps.length) (j + ps.length + 1) := by
  refine ⟨Builtin.mean.toFunc, rfl, fun vs h => ?_⟩
  have hl := h.length_eq
  have h0 : 0 < vs.length := by rw [← hl]; exact List.length_pos_of_ne_nil hne
  have hn : value (F64.ofNat vs.length) = some ((vs.length : ℕ) : ℚ) := by
    rw [F64.ofNat_eq (rep_nat (by omega)), value_whole]
    simp [F64.sv]
  have hn0 : ((vs.length : ℕ) : ℚ) ≠ 0 := by exact_mod_cast h0.ne'
  refine ⟨F64.div (sumF w vs) (F64.ofNat vs.length), ⟨rfl, fun us hu => ⟨_, rfl, ?_⟩⟩, ?_⟩
  · have hl' := (sameL_forall h hu).length_eq
    rw [← hl', hl]
    exact div_congr (foldl_add_same hu (.refl _)) (.refl _) (not_zero_of_value hn hn0)
  · have h1 : CloseTo (j + ps.length) (ps.map Prod.fst).sum (sumF w vs) := by
      rcases hs with hs | hs
      · exact sum_accurate w ps j 1 (.inl rfl)
          (fun p hp => ⟨(hps p hp).1, (hps p hp).2, by rw [one_mul]; exact hs p hp⟩) hm hj h
      · exact sum_accurate w ps j (-1) (.inr rfl)
          (fun p hp => ⟨(hps p hp).1, (hps p hp).2, by rw [neg_one_mul]; linarith [hs p hp]⟩) hm hj h
    obtain ⟨r, h2, h3⟩ := h1
    refine close_round (div_rounds h2 hn hn0) ?_ hj hm'
    rw [← hl]
    push_cast
    exact h3.div (Close.refl _)

theorem forall₂_mem {ps : List (ℝ × ℕ)} {vs : List F64}
    (h : List.Forall₂ (fun p v => CloseTo p.2 p.1 v) ps vs) :
    (∀ p ∈ ps, ∃ v ∈ vs, CloseTo p.2 p.1 v) ∧ ∀ v ∈ vs, ∃ p ∈ ps, CloseTo p.2 p.1 v := by
  induction h with
  | nil => exact ⟨fun _ h => absurd h List.not_mem_nil, fun _ h => absurd h List.not_mem_nil⟩
  | cons h1 _ ih =>
    constructor
    · intro p hp
      rcases List.mem_cons.1 hp with rfl | hp
      · exact ⟨_, List.mem_cons_self, h1⟩
      · obtain ⟨v, hv, h⟩ := ih.1 p hp
        exact ⟨v, List.mem_cons_of_mem _ hv, h⟩
    · intro v hv
      rcases List.mem_cons.1 hv with rfl | hv
      · exact ⟨_, List.mem_cons_self, h1⟩
      · obtain ⟨p, hp, h⟩ := ih.2 v hv
        exact ⟨p, List.mem_cons_of_mem _ hp, h⟩

theorem leF_value {a b : F64} {p q : ℚ} (h : LeF a b) (ha : value a = some p) (hb : value b = some q) :
    p ≤ q := by
  cases h with
  | bot => cases ha
  | top => cases hb
  | fin h1 h2 h3 => rw [ha] at h1; rw [hb] at h2; cases h1; cases h2; exact h3

theorem sameL_mem {vs us : List F64} (h : SameL vs us) : ∀ v ∈ vs, ∃ u ∈ us, Same v u := by
  induction h with
  | nil => exact fun _ h => absurd h List.not_mem_nil
  | cons h1 _ ih =>
    intro v hv
    rcases List.mem_cons.1 hv with rfl | hv
    · exact ⟨_, List.mem_cons_self, h1⟩
    · obtain ⟨u, hu, h⟩ := ih v hv
      exact ⟨u, List.mem_cons_of_mem _ hu, h⟩

theorem leF_same {a b : F64} (h : Same a b) (hn : a ≠ .nan) : LeF a b := by
  rcases h with rfl | ⟨⟨s, rfl⟩, ⟨t, rfl⟩⟩
  · exact leF_refl hn
  · exact .fin (value_zero s) (value_zero t) (le_refl _)

/-- C91: `min` adds no error. -/
theorem C91_min (w : World) (ps : List (ℝ × ℕ)) (j : ℕ) (q : ℝ) (hq : ∃ p ∈ ps, p.1 = q)
    (hps : ∀ p ∈ ps, p.2 ≤ j ∧ q ≤ p.1) :
    ∃ f, Ident.fromStr b!"min" = .func f ∧ Accurate w f ps q j := by
  refine ⟨Builtin.min.toFunc, rfl, fun vs h => ?_⟩
  have key : ∀ {vs : List F64}, List.Forall₂ (fun p v => CloseTo p.2 p.1 v) ps vs →
      ∃ v ∈ vs, CloseTo j q v ∧ vs.foldl F64.fmin (.inf false) ∈ vs ∧
        (∀ x ∈ vs, x ≠ .nan) ∧ ∀ x ∈ vs, LeF (vs.foldl F64.fmin (.inf false)) x := by
    intro vs h
    obtain ⟨p, hp, rfl⟩ := hq
    obtain ⟨v, hv, hc⟩ := (forall₂_mem h).1 p hp
    have hn : ∀ x ∈ vs, x ≠ .nan := fun x hx => by
      obtain ⟨p, -, h⟩ := (forall₂_mem h).2 x hx
      exact h.ne_nan
    obtain ⟨m1, m2, m3⟩ := (min_fold vs).2 ⟨v, hv, hn v hv⟩
    exact ⟨v, hv, hc.mono (hps p hp).1, m1, hn, fun x hx => m3 x hx (hn x hx)⟩
  obtain ⟨v, hv, hc, m1, hn, m2⟩ := key h
  refine ⟨_, ⟨rfl, fun us hu => ⟨_, rfl, ?_⟩⟩, ?_⟩
  · obtain ⟨u, -, -, k1, kn, k2⟩ := key (sameL_forall h hu)
    obtain ⟨a, ha, hsa⟩ := sameL_mem hu _ m1
    obtain ⟨b, hb, hsb⟩ := sameL_mem hu.symm _ k1
    exact leF_antisymm (leF_trans (m2 b hb) (leF_same hsb.symm (hn b hb)))
      (leF_trans (k2 a ha) (leF_same hsa.symm (kn a ha)))
  · obtain ⟨p, hp, r, h1, h2⟩ := (forall₂_mem h).2 _ m1
    obtain ⟨t, k1, k2⟩ := hc
    have hle := leF_value (m2 v hv) h1 k1
    exact ⟨r, h1, close_between (by exact_mod_cast hle) (h2.mono (hps p hp).1) (hps p hp).2 k2⟩

/-- C91: `max` adds no error. -/
theorem C91_max (w : World) (ps : List (ℝ × ℕ)) (j : ℕ) (q : ℝ) (hq : ∃ p ∈ ps, p.1 = q)
    (hps : ∀ p ∈ ps, p.2 ≤ j ∧ p.1 ≤ q) :
    ∃ f, Ident.fromStr b!"max" = .func f ∧ Accurate w f ps q j := by
  refine ⟨Builtin.max.toFunc, rfl, fun vs h => ?_⟩
  have key : ∀ {vs : List F64}, List.Forall₂ (fun p v => CloseTo p.2 p.1 v) ps vs →
      ∃ v ∈ vs, CloseTo j q v ∧ vs.foldl F64.fmax (.inf true) ∈ vs ∧
        (∀ x ∈ vs, x ≠ .nan) ∧ ∀ x ∈ vs, LeF x (vs.foldl F64.fmax (.inf true)) := by
    intro vs h
    obtain ⟨p, hp, rfl⟩ := hq
    obtain ⟨v, hv, hc⟩ := (forall₂_mem h).1 p hp
    have hn : ∀ x ∈ vs, x ≠ .nan := fun x hx => by
      obtain ⟨p, -, h⟩ := (forall₂_mem h).2 x hx
      exact h.ne_nan
    obtain ⟨m1, m2, m3⟩ := (max_fold vs).2 ⟨v, hv, hn v hv⟩
    exact ⟨v, hv, hc.mono (hps p hp).1, m1, hn, fun x hx => m3 x hx (hn x hx)⟩
  obtain ⟨v, hv, hc, m1, hn, m2⟩ := key h
  refine ⟨_, ⟨rfl, fun us hu => ⟨_, rfl, ?_⟩⟩, ?_⟩
  · obtain ⟨u, -, -, k1, kn, k2⟩ := key (sameL_forall h hu)
    obtain ⟨a, ha, hsa⟩ := sameL_mem hu _ m1
    obtain ⟨b, hb, hsb⟩ := sameL_mem hu.symm _ k1
    exact leF_antisymm (leF_trans (leF_same hsa (hn _ m1)) (k2 a ha))
      (leF_trans (leF_same hsb (kn _ k1)) (m2 b hb))
  · obtain ⟨p, hp, r, h1, h2⟩ := (forall₂_mem h).2 _ m1
    obtain ⟨t, k1, k2⟩ := hc
    have hle : (t : ℝ) ≤ r := by exact_mod_cast leF_value (m2 v hv) k1 h1
    have := close_between (q := -q) (q' := -p.1) (v := -(r : ℝ)) (v' := -(t : ℝ)) (by linarith)
      (h2.mono (hps p hp).1).neg (by linarith [(hps p hp).2]) k2.neg
    have := this.neg
    rw [neg_neg, neg_neg] at this
    exact ⟨r, h1, this⟩

/-! ### The constants -/

theorem constant_close {t : ℝ} {M : ℕ} {x : F64} (h1 : 2 ^ 52 < M) (h2 : M < 2 ^ 53)
    (hx : value x = some ((M : ℚ) / 2 ^ 51)) (ht : |(M : ℝ) - t * 2 ^ 51| < 1 / 2) :
    NearestReal (t * 2 ^ 1074) (M * 2 ^ 1023) ∧ CloseTo 1 t x := by
  have h3 : NearestReal (t * 2 ^ 1074) (M * 2 ^ 1023) := by
    refine nearestReal_of h1 h2 ?_
    have e : ((M * 2 ^ 1023 : ℕ) : ℝ) - t * 2 ^ 1074 = ((M : ℝ) - t * 2 ^ 51) * 2 ^ 1023 := by
      rw [Nat.cast_mul, Nat.cast_pow, Nat.cast_ofNat, sub_mul, mul_assoc t, ← pow_add]
    rw [e, abs_mul, abs_of_pos (by positivity : (0 : ℝ) < 2 ^ 1023), div_eq_mul_one_div, mul_comm]
    exact mul_lt_mul_of_pos_left ht (by positivity)
  refine ⟨h3, _, hx, ?_⟩
  have hM : (2 : ℝ) ^ 52 < M := by exact_mod_cast h1
  have ht' : 1 ≤ t := by
    rw [abs_lt] at ht
    have := ht.2
    by_contra hc
    have : t * 2 ^ 51 ≤ 1 * 2 ^ 51 := by gcongr; linarith
    linarith
  have h4 := (nearestReal_close h3 (by
    calc (2 : ℝ) ^ 52 ≤ 1 * 2 ^ 1074 := by norm_num
      _ ≤ _ := by gcongr)).mul (Close.refl (1 / 2 ^ 1074))
  have e1 : t * 2 ^ 1074 * (1 / 2 ^ 1074) = t := by field_simp
  have e2 : ((M * 2 ^ 1023 : ℕ) : ℝ) * (1 / 2 ^ 1074) = (((M : ℚ) / 2 ^ 51 : ℚ) : ℝ) := by
    rw [Nat.cast_mul, Nat.cast_pow, Nat.cast_ofNat]
    push_cast
    rw [show (2 : ℝ) ^ 1074 = 2 ^ 1023 * 2 ^ 51 by rw [← pow_add]]
    field_simp
  rw [e1, e2] at h4
  exact h4

/-- C91: the constants `pi` and `e` are the floats nearest to π and to Euler's number. -/
theorem C91_constants : ∃ x y, Ident.fromStr b!"pi" = .const x ∧ Ident.fromStr b!"e" = .const y ∧
    (∃ n h, x = .fin false n h ∧ NearestReal (Real.pi * 2 ^ 1074) n) ∧
    (∃ n h, y = .fin false n h ∧ NearestReal (Real.exp 1 * 2 ^ 1074) n) ∧
    CloseTo 1 Real.pi x ∧ CloseTo 1 (Real.exp 1) y := by
  have hx : value f64PI = some (((7074237752028440 : ℕ) : ℚ) / 2 ^ 51) := by decide +kernel
  have hy : value f64E = some (((6121026514868073 : ℕ) : ℚ) / 2 ^ 51) := by decide +kernel
  obtain ⟨h1, h2⟩ := constant_close (t := Real.pi) (by norm_num) (by norm_num) hx (by
    have p1 := Real.pi_gt_d20
    have p2 := Real.pi_lt_d20
    rw [abs_lt]
    constructor <;> norm_num at * <;> linarith)
  obtain ⟨h3, h4⟩ := constant_close (t := Real.exp 1) (by norm_num) (by norm_num) hy (by
    have p := Real.exp_one_near_20
    rw [abs_le] at p
    rw [abs_lt]
    obtain ⟨p1, p2⟩ := p
    constructor <;> norm_num at * <;> linarith)
  refine ⟨f64PI, f64E, rfl, rfl, ?_, ?_, h2, h4⟩
  · have : ∃ h, f64PI = .fin false (7074237752028440 * 2 ^ 1023) h := by decide +kernel
    obtain ⟨h, e⟩ := this
    exact ⟨_, h, e, h1⟩
  · have : ∃ h, f64E = .fin false (6121026514868073 * 2 ^ 1023) h := by decide +kernel
    obtain ⟨h, e⟩ := this
    exact ⟨_, h, e, h3⟩

/-! ### Functions of the platform -/

/-- C91: a function of the platform that is right up to `c` roundings is accurate wherever the
function meant is well-conditioned. -/
theorem C91_platform (w : World) (b : Builtin) (F : F64 → F64) (g : ℝ → ℝ) (p : ℝ) (j k c : ℕ)
    (hb : ∀ x, callFn w b.toFunc [x] = .ok (F x))
    (hz : ∀ s t, p = 0 → Same (F (F64.zero s)) (F (F64.zero t)))
    (hF : ∀ x r, value x = some r → Close j p r → CloseTo c (g r) (F x))
    (hg : ∀ r, Close j p r → Close k (g p) (g r)) : Accurate w b.toFunc [(p, j)] (g p) (k + c) := by
  refine accurate_one hb ?_ ?_
  · rintro x y ⟨r, h1, h2⟩ hs
    rcases hs with rfl | ⟨⟨s, rfl⟩, ⟨t, rfl⟩⟩
    · exact .refl _
    · refine hz s t ?_
      rw [value_zero] at h1
      cases h1
      by_contra hp
      exact close_ne_zero h2 hp (by simp)
  · rintro x ⟨r, h1, h2⟩
    obtain ⟨t, h3, h4⟩ := hF x r h1 h2
    exact ⟨t, h3, (hg r h2).trans h4⟩

theorem exp_keep (k : ℕ) : keep ^ k ≤ Real.exp (-(k / 2 ^ 53)) := by
  have h1 : keep ≤ Real.exp (-(1 / 2 ^ 53)) := by
    have := Real.add_one_le_exp (-(1 / 2 ^ 53 : ℝ))
    unfold keep
    linarith
  calc keep ^ k ≤ Real.exp (-(1 / 2 ^ 53)) ^ k := pow_le_pow_left₀ keep_gt.le h1 k
    _ = _ := by rw [← Real.exp_nat_mul]; congr 1; ring

/-- The exponential function is well-conditioned: up to `A` it multiplies the roundings by
`2 A`. -/
theorem exp_close {j A : ℕ} {p r : ℝ} (h : Close j p r) (hj : j ≤ 2 ^ 50) (hA : |p| ≤ A) :
    Close (2 * A * j) (Real.exp p) (Real.exp r) := by
  have h1 := close_error h hj
  have h2 : |r - p| ≤ ((2 * A * j : ℕ) : ℝ) / 2 ^ 53 := by
    refine h1.trans ?_
    calc |p| * (j / 2 ^ 52) ≤ A * (j / 2 ^ 52) :=
          mul_le_mul_of_nonneg_right hA (div_nonneg (Nat.cast_nonneg j) (by norm_num))
      _ = _ := by push_cast; ring
  rw [abs_le] at h2
  have hk := exp_keep (2 * A * j)
  have e : Real.exp r = Real.exp p * Real.exp (r - p) := by rw [← Real.exp_add]; congr 1; ring
  refine ⟨Real.exp (r - p), e, hk.trans (Real.exp_le_exp.2 h2.1), ?_⟩
  calc Real.exp (r - p) * keep ^ (2 * A * j)
      ≤ Real.exp (((2 * A * j : ℕ) : ℝ) / 2 ^ 53) * Real.exp (-(((2 * A * j : ℕ) : ℝ) / 2 ^ 53)) :=
        mul_le_mul (Real.exp_le_exp.2 h2.2) hk (keepk_pos _).le (Real.exp_pos _).le
    _ = 1 := by rw [← Real.exp_add, add_neg_cancel, Real.exp_zero]

/-- C91: `exp` on a platform whose exponential function is right up to `c` roundings. -/
theorem C91_exp (w : World) (p : ℝ) (j A c : ℕ) (hj : j ≤ 2 ^ 50) (hA : |p| ≤ A)
    (hz : Same (w.libm1 .exp (F64.zero false)) (w.libm1 .exp (F64.zero true)))
    (hF : ∀ x r, value x = some r → Close j p r → CloseTo c (Real.exp r) (w.libm1 .exp x)) :
    ∃ f, Ident.fromStr b!"exp" = .func f ∧ Accurate w f [(p, j)] (Real.exp p) (2 * A * j + c) := by
  refine ⟨Builtin.exp.toFunc, rfl, C91_platform w .exp (w.libm1 .exp) Real.exp p j (2 * A * j) c
    (fun _ => rfl) (fun s t _ => ?_) hF (fun r h => exp_close h hj hA)⟩
  cases s <;> cases t
  · exact .refl _
  · exact hz
  · exact hz.symm
  · exact .refl _

/-! ### Limits and examples -/

/-- The tree of `floor((0.1 + 0.7) * 10)`. -/
def floorTree : Elem := .call Builtin.floor.toFunc [.bin .times
  (.bin .plus (.num (F64.ofDecimal 1 (-1))) (.num (F64.ofDecimal 7 (-1)))) (.num (F64.ofNat 10))]

/-- C91: functions that jump are not accurate where they jump: `floor((0.1 + 0.7) * 10)` is
computed as `7`, though it is `8` and its argument is right up to a few roundings. -/
theorem C91_jump (w : World) (m : HMap F64) :
    parse0 cfgPlain b!"floor((0.1 + 0.7) * 10)" = .ok ⟨floorTree, []⟩ ∧
    eval w m floorTree = .ok (F64.ofNat 7) ∧ ⌊(1 / 10 + 7 / 10) * (10 : ℝ)⌋ = 8 := by
  refine ⟨by decide +kernel, ?_, by norm_num⟩
  have h1 : F64.floor (F64.mul (F64.add (F64.ofDecimal 1 (-1)) (F64.ofDecimal 7 (-1))) (F64.ofNat 10)) =
      F64.ofNat 7 := by decide +kernel
  rw [← h1]
  rfl

/-- The period of a pendulum: `2 * pi * sqrt(x / 9.81)`. -/
def pendulum : Elem := .bin .times (.bin .times (.num (F64.ofNat 2)) (.num f64PI))
  (.call Builtin.sqrt.toFunc [.bin .divide vx (.num (F64.ofDecimal 981 (-2)))])

example : parse0 cfgPlain b!"2 * pi * sqrt(x / 9.81)" = .ok ⟨pendulum, [b!"x"]⟩ := by decide +kernel

theorem middling_of {q : ℝ} (h1 : 1 / 1000 ≤ q) (h2 : q ≤ 1000) : Middling q := by
  refine .inr ⟨?_, ?_⟩
  · rw [abs_of_nonneg (by linarith)]
    exact le_trans (by norm_num) h1
  · rw [abs_of_nonneg (by linarith)]
    exact h2.trans (by norm_num)

/-- The period is computed up to five roundings. -/
theorem pendulum_tracks (w : World) :
    Tracks w (mx (F64.ofNat 2)) pendulum (2 * Real.pi * √(2 / (981 / 100))) 5 := by
  have h2 : value (F64.ofNat 2) = some 2 := by decide +kernel
  have c2 : CloseTo 0 2 (F64.ofNat 2) := ⟨2, h2, by push_cast; exact Close.refl _⟩
  have cg : CloseTo 1 (981 / 100) (F64.ofDecimal 981 (-2)) := by
    have h := rounds_decimal 981 (-2)
    have e : ((decNum 981 (-2) : ℕ) : ℚ) / ((decDen (-2) : ℕ) : ℚ) = 981 / 100 := by
      have h1 : decNum 981 (-2) = 981 := by decide
      have h2 : decDen (-2) = 100 := by decide
      rw [h1, h2]
      norm_num
    rw [e] at h
    exact close_round h (by push_cast; exact Close.refl _) (by norm_num)
      (middling_of (by norm_num) (by norm_num))
  obtain ⟨x, y, hx, -, -, -, cp, -⟩ := C91_constants
  cases hx
  obtain ⟨f, hf, ha⟩ := C91_sqrt w (2 / (981 / 100)) 2 (by norm_num)
    (middling_of (by norm_num) (by norm_num)) (by norm_num)
  cases hf
  have hp3 := Real.pi_gt_three
  have hp4 := Real.pi_lt_four
  have s1 : (1 : ℝ) / 10 ≤ √(2 / (981 / 100)) := Real.le_sqrt_of_sq_le (by norm_num)
  have s2 : √(2 / (981 / 100) : ℝ) ≤ 1 := Real.sqrt_le_one.2 (by norm_num)
  refine .times (j := 2) (k := 2) (.times (.num c2) (.num cp) (middling_of (by linarith) (by linarith)))
    (.call rfl (by simp) ?_ ha) (middling_of (by nlinarith) (by nlinarith))
  intro i h h'
  have : i = 0 := by simpa using h'
  subst this
  exact .divide (j := 0) (k := 1) (.var (by simp [mx, HMap.insert]) c2) (.num cg) (by norm_num)
    (middling_of (by norm_num) (by norm_num))

/-- In every build, and however the text is simplified, the period of a pendulum of two metres
is right up to five units of `2⁻⁵²`. -/
example (cfg : Cfg) (w : World) (e : Elem) (h : simplify cfg w pendulum = .ok e) :
    ∃ v r, eval w (mx (F64.ofNat 2)) e = .ok v ∧ value v = some r ∧
      |(r : ℝ) - 2 * Real.pi * √(2 / (981 / 100))| ≤ |2 * Real.pi * √(2 / (981 / 100))| * ((5 : ℕ) / 2 ^ 52) :=
  C91_simplified cfg w _ _ e _ 5 (pendulum_tracks w) (by norm_num) h

/-- The mean of three measurements, each right up to a rounding, with its error. -/
example (w : World) (x y z : ℝ) (hx : 1 ≤ x ∧ x ≤ 2) (hy : 1 ≤ y ∧ y ≤ 2) (hz : 1 ≤ z ∧ z ≤ 2) :
    ∃ f, Ident.fromStr b!"mean" = .func f ∧
      Accurate w f [(x, 1), (y, 1), (z, 1)] ((x + (y + (z + 0))) / (3 : ℕ)) 5 := by
  have hm : ∀ t, 1 ≤ t ∧ t ≤ 2 → Middling t := fun t h => middling_of (by linarith [h.1]) (by linarith [h.2])
  have := C91_mean w [(x, 1), (y, 1), (z, 1)] 1 (.inl ?_) ?_ ?_ ?_ (by simp) (by simp)
  · exact this
  · intro p hp
    simp only [List.mem_cons, List.not_mem_nil, or_false] at hp
    rcases hp with rfl | rfl | rfl <;> simp only <;> linarith [hx.1, hy.1, hz.1]
  · intro p hp
    simp only [List.mem_cons, List.not_mem_nil, or_false] at hp
    rcases hp with rfl | rfl | rfl
    · exact ⟨le_refl _, hm _ hx⟩
    · exact ⟨le_refl _, hm _ hy⟩
    · exact ⟨le_refl _, hm _ hz⟩
  · simp only [List.map_cons, List.map_nil, List.sum_cons, List.sum_nil]
    exact middling_of (by linarith [hx.1, hy.1, hz.1]) (by linarith [hx.2, hy.2, hz.2])
  · simp only [List.map_cons, List.map_nil, List.sum_cons, List.sum_nil, List.length_cons, List.length_nil]
    refine middling_of ?_ ?_
    · rw [le_div_iff₀ (by norm_num)]; push_cast; linarith [hx.1, hy.1, hz.1]
    · rw [div_le_iff₀ (by norm_num)]; push_cast; linarith [hx.2, hy.2, hz.2]

/-- A platform whose exponential function is right at zero. -/
example : ∃ f, Ident.fromStr b!"exp" = .func f ∧
    Accurate { w0 with libm1 := fun _ _ => F64.f1 } f [(0, 3)] (Real.exp 0) (2 * 0 * 3 + 0) := by
  refine C91_exp _ 0 3 0 0 (by norm_num) (by simp) (.refl _) ?_
  intro x r _ hr
  rw [close_eq_zero hr, Real.exp_zero]
  exact ⟨1, (by decide +kernel : value F64.f1 = some 1), by rw [Rat.cast_one]; exact Close.refl _⟩

end Props
end Xprs
