import Verif.Lemmas.Square
import Verif.Lemmas.Residue
import Verif.Props.Builds
import Verif.Props.Residue
import Verif.Props.Accuracy
/-
Properties C106 and C107: the square root of a square, and the mean between the smallest and
the largest.
-/
namespace Xprs
namespace Props
open Spec
set_option exponentiation.threshold 4096

/-! ### C106 -/

/-- `sqrt(a * a)`. -/
def rootOfSquare (f : Func) (a : Elem) : Elem := .call f [.bin .times a a]

theorem eval_times {w : World} {m : HMap F64} {a b : Elem} {x y : F64} (ha : eval w m a = .ok x)
    (hb : eval w m b = .ok y) : eval w m (.bin .times a b) = .ok (F64.mul x y) := by
  rw [eval, ha, hb]; rfl

/-- C106: if the square of `a` neither overflows nor is smaller than the smallest normal number,
`sqrt(a * a)` is exactly the magnitude of `a`. -/
theorem C106_root (w : World) (m : HMap F64) (a : Elem) (f : Func) (hf : Ident.fromStr b!"sqrt" = .func f)
    (x y : F64) (p r : ℚ) (ha : eval w m a = .ok x) (hx : value x = some p)
    (hy : eval w m (.bin .times a a) = .ok y) (hr : value y = some r) (hb : 1 / 2 ^ 1022 ≤ p * p) :
    ∃ v, eval w m (rootOfSquare f a) = .ok v ∧ evalU w m (rootOfSquare f a) = .ok v ∧
      value v = some |p| ∧ signBit v = false := by
  have hm := eval_times ha ha
  rw [hy] at hm
  cases hm
  have hs := sqrt_square hx hr hb
  have e : eval w m (rootOfSquare f a) = .ok (F64.abs x) := by
    cases hf
    rw [rootOfSquare, eval, evalL, hy]
    simp only [evalL]
    rw [← hs]
    rfl
  refine ⟨_, e, by rw [evalU_eq, e]; rfl, ?_, ?_⟩
  · obtain ⟨s, n, hn, rfl, rfl⟩ := value_some hx
    rw [abs_div, abs_sv, unit64_cast, abs_of_pos (by positivity : (0 : ℚ) < 2 ^ 1074)]
    rfl
  · obtain ⟨s, n, hn, rfl, rfl⟩ := value_some hx
    rfl

theorem root_runs {w : World} {m : HMap F64} {a : Elem} {x : F64} {p r : ℚ} (ha : Runs w m a x)
    (hx : value x = some p) (hr : value (F64.mul x x) = some r) (hb : 1 / 2 ^ 1022 ≤ p * p) :
    ∃ v, Runs w m (rootOfSquare Builtin.sqrt.toFunc a) v ∧ value v = some |p| := by
  refine ⟨F64.abs x, .call (.cons (.bin ha ha (.times (ne_nan_of_value hr))) .nil) ?_, ?_⟩
  · refine ⟨?_, fun us hu => ?_⟩
    · rw [← sqrt_square hx hr hb]; rfl
    · cases hu with
      | cons h1 h2 =>
        cases h2
        rename_i u
        refine ⟨F64.sqrt u, rfl, ?_⟩
        rcases h1 with rfl | ⟨h1, h2⟩
        · rw [sqrt_square hx hr hb]; exact .refl _
        · have h0 : r ≠ 0 := by
            rintro rfl
            have hp : p ≠ 0 := by rintro rfl; norm_num at hb
            have hs := sqrt_square hx hr hb
            obtain ⟨s, n, hn, e, rfl⟩ := value_some hx
            rw [e] at hs hr
            obtain ⟨t, ht⟩ := h1
            rw [e] at ht
            rw [ht] at hs
            have : F64.sqrt (F64.zero t) = F64.zero t := by cases t <;> decide +kernel
            rw [this] at hs
            have : n = 0 := by injection hs with _ h; exact h.symm
            subst this
            apply hp
            cases s <;> simp [F64.sv]
          exact absurd h1 (not_zero_of_value hr h0)
  · obtain ⟨s, n, hn, rfl, rfl⟩ := value_some hx
    rw [abs_div, abs_sv, unit64_cast, abs_of_pos (by positivity : (0 : ℚ) < 2 ^ 1074)]
    rfl

/-- C106: the same for simplified trees and for texts, in every build. -/
theorem C106_builds (cfg cfg' : Cfg) (w : World) (m : HMap F64) (a : Elem) (f : Func)
    (hf : Ident.fromStr b!"sqrt" = .func f) (x y : F64) (p r : ℚ) (hw : NoPower a ∨ PowLaws w)
    (ha : Runs w m a x) (hx : value x = some p) (hy : eval w m (.bin .times a a) = .ok y)
    (hr : value y = some r) (hb : 1 / 2 ^ 1022 ≤ p * p) :
    (∀ e, simplify cfg w (rootOfSquare f a) = .ok e → ∃ v, eval w m e = .ok v ∧ value v = some |p|) ∧
    ∀ (o o' : Oracle) (ctx : Context) (input : Bytes) (z z' : Xpr), cfg.pejmdas = cfg'.pejmdas →
      cfg.opt = false → (∀ ts, Lex input ts → ParensApart ts) →
      parse cfg w o ctx input = .ok z → parse cfg' w o' ctx input = .ok z' →
      z.root = rootOfSquare f a → ∃ v, z'.eval w m = .ok v ∧ value v = some |p| := by
  have hm := eval_times (runs_eval _ ha) (runs_eval _ ha)
  rw [hy] at hm
  cases hm
  cases hf
  obtain ⟨v, h1, h2⟩ := root_runs ha hx hr hb
  have hw' : NoPower (rootOfSquare Builtin.sqrt.toFunc a) ∨ PowLaws w := by
    refine hw.imp_left fun h => noPower_call.2 fun e he => ?_
    rw [List.mem_singleton] at he
    subst he
    exact noPower_bin.2 ⟨by decide, h, h⟩
  refine ⟨fun e he => ?_, fun o o' ctx input z z' hp ho hn hz hz' hroot => ?_⟩
  · obtain ⟨u, h3, h4⟩ := simplify_runs' hw' h1 he
    exact ⟨u, runs_eval _ h3, value_same h2 h4⟩
  · obtain ⟨-, u, h3, h4⟩ := C16_value_partial cfg cfg' w o o' ctx input z z' m v hp ho
      (hroot ▸ hw') hn hz hz' (hroot ▸ h1)
    exact ⟨u, h3, value_same h2 h4⟩

/-- C106: and with a variable fixed by `simplify_for`. -/
theorem C106_fixed (cfg : Cfg) (w : World) (m : HMap F64) (a : Elem) (f : Func) (e e' : Xpr)
    (n : Bytes) (c : F64) (hf : Ident.fromStr b!"sqrt" = .func f) (x y : F64) (p r : ℚ)
    (hw : NoPower a ∨ PowLaws w) (ha : Runs w (m.insert n c) a x) (hx : value x = some p)
    (hy : eval w (m.insert n c) (.bin .times a a) = .ok y) (hr : value y = some r)
    (hb : 1 / 2 ^ 1022 ≤ p * p) (he : e.root = rootOfSquare f a)
    (hs : e.simplifyFor cfg w n c = .ok e') :
    ∃ v, e'.eval w m = .ok v ∧ value v = some |p| := by
  have hm := eval_times (runs_eval _ ha) (runs_eval _ ha)
  rw [hy] at hm
  cases hm
  cases hf
  obtain ⟨v, h1, h2⟩ := root_runs ha hx hr hb
  have hw' : NoPower e.root ∨ PowLaws w := by
    rw [he]
    refine hw.imp_left fun h => noPower_call.2 fun e he => ?_
    rw [List.mem_singleton] at he
    subst he
    exact noPower_bin.2 ⟨by decide, h, h⟩
  obtain ⟨-, u, h3, h4⟩ := C29_partial cfg w m e e' n c v hw' (he ▸ h1) hs
  exact ⟨u, h3, value_same h2 h4⟩

/-- `sqrt((x*y)*(x*y))` with `x` fixed at `-1.1`, at `y = 3`. -/
example : ∃ e', Xpr.simplifyFor cfgOpt w0
      ⟨rootOfSquare Builtin.sqrt.toFunc (.bin .times vx (.var b!"y")), [b!"x", b!"y"]⟩
      b!"x" (F64.neg (F64.ofDecimal 11 (-1))) = .ok e' ∧ e'.vars = [b!"y"] ∧
    e'.eval w0 (HMap.empty.insert b!"y" (F64.ofNat 3)) =
      .ok (F64.mul (F64.ofDecimal 11 (-1)) (F64.ofNat 3)) :=
  ⟨⟨rootOfSquare Builtin.sqrt.toFunc (.bin .times (.num (F64.neg (F64.ofDecimal 11 (-1)))) (.var b!"y")),
    [b!"y"]⟩, by decide +kernel, rfl, by decide +kernel⟩

/-- `sqrt(x*x)` at `x = -1.1`: the square is rounded, the root is exact. -/
example : parse0 cfgOpt b!"sqrt(x*x)" = .ok ⟨rootOfSquare Builtin.sqrt.toFunc vx, [b!"x"]⟩ ∧
    eval w0 (mx (F64.neg (F64.ofDecimal 11 (-1)))) (rootOfSquare Builtin.sqrt.toFunc vx) =
      .ok (F64.ofDecimal 11 (-1)) := by
  constructor <;> decide +kernel

example : ∃ x p r, value x = some p ∧ value (F64.mul x x) = some r ∧ r ≠ p * p ∧ 1 / 2 ^ 1022 ≤ p * p := by
  have e : F64.mul aboveOne aboveOne = .fin false (2 ^ 1074 + 2 ^ 1023) (by decide +kernel) := by decide +kernel
  refine ⟨aboveOne, _, 1 + 1 / 2 ^ 51, value_aboveOne, ?_, by norm_num, by norm_num⟩
  rw [e]
  simp only [value]
  norm_num

/-- Without the bounds it is not: the square of `1e-200` is zero, that of `1e200` infinite. -/
example : eval w0 (mx (F64.ofDecimal 1 (-200))) (rootOfSquare Builtin.sqrt.toFunc vx) = .ok F64.f0 ∧
    eval w0 (mx (F64.ofDecimal 1 200)) (rootOfSquare Builtin.sqrt.toFunc vx) = .ok (.inf false) := by
  constructor <;> decide +kernel

/-! ### C107 -/

/-- C107, read literally: the mean of finite numbers lies between any bounds of them. -/
def C107_claim : Prop :=
  ∀ (w : World) (f : Func) (vs : List F64) (lo hi v : F64), Ident.fromStr b!"mean" = .func f → vs ≠ [] →
    (∀ x ∈ vs, (∃ q, value x = some q) ∧ LeF lo x ∧ LeF x hi) → callFn w f vs = .ok v →
    LeF lo v ∧ LeF v hi

/-- C107 fails: the mean of `0.1`, `0.1` and `0.1` is greater than `0.1`. -/
theorem C107_refuted : ¬ C107_claim := by
  intro h
  let t := F64.ofDecimal 1 (-1)
  have hv : ∃ q, value t = some q := by
    obtain ⟨q, hq⟩ : ∃ q, value (F64.ofDecimal 1 (-1)) = some q :=
      Option.isSome_iff_exists.1 (by decide +kernel)
    exact ⟨q, hq⟩
  have hl : LeF t t := leF_refl (ne_nan_of_value hv.choose_spec)
  obtain ⟨-, h2⟩ := h w0 Builtin.mean.toFunc [t, t, t] t t _ rfl (by simp)
    (by intro x hx; simp only [List.mem_cons, List.not_mem_nil, or_false, or_self] at hx; subst hx; exact ⟨hv, hl, hl⟩)
    rfl
  obtain ⟨a, b, e1, e2, e3⟩ := leF_iff.1 h2
  have : ∀ a b, F64.key (F64.div (sumF w0 [F64.ofDecimal 1 (-1), F64.ofDecimal 1 (-1), F64.ofDecimal 1 (-1)])
      (F64.ofNat 3)) = some a → F64.key (F64.ofDecimal 1 (-1)) = some b → ¬ a ≤ b := by
    have : ((F64.key (F64.div (sumF w0 [F64.ofDecimal 1 (-1), F64.ofDecimal 1 (-1), F64.ofDecimal 1 (-1)])
      (F64.ofNat 3))).bind fun a => (F64.key (F64.ofDecimal 1 (-1))).map fun b => decide (a ≤ b)) = some false := by
      decide +kernel
    intro a b h1 h2
    rw [h1, h2] at this
    simpa using this
  exact this a b e1 e2 e3

theorem ofNat_value {n : ℕ} (h : n ≤ 2 ^ 53) : value (F64.ofNat n) = some (n : ℚ) := by
  rw [F64.ofNat_eq (rep_nat (by omega)), value_whole]
  simp [F64.sv]

theorem leF_of_between {lo hi v x y : F64} (hlo : LeF lo x) (hhi : LeF y hi) (h1 : LeF x v) (h2 : LeF v y) :
    LeF lo v ∧ LeF v hi := ⟨leF_trans hlo h1, leF_trans h2 hhi⟩

/-- Bounds of finite numbers that are used at least once are bounds of a number between. -/
theorem between_of {vs : List F64} {ps : List ℚ} (h : List.Forall₂ (fun v p => value v = some p) vs ps)
    {t : ℚ} {v : F64} (hv : RoundsTo t v)
    (h1 : ∃ p ∈ ps, p ≤ t) (h2 : ∃ p ∈ ps, t ≤ p) {lo hi : F64}
    (hb : ∀ x ∈ vs, LeF lo x ∧ LeF x hi) : LeF lo v ∧ LeF v hi := by
  have find : ∀ p ∈ ps, ∃ x ∈ vs, value x = some p := by
    clear hb h1 h2
    induction h with
    | nil => intro p hp; cases hp
    | cons h _ ih =>
      intro p hp
      rcases List.mem_cons.1 hp with rfl | hp
      · exact ⟨_, List.mem_cons_self, h⟩
      · obtain ⟨x, hx, e⟩ := ih p hp
        exact ⟨x, List.mem_cons_of_mem _ hx, e⟩
  obtain ⟨p, hp, hpt⟩ := h1
  obtain ⟨q, hq, hqt⟩ := h2
  obtain ⟨x, hx, ex⟩ := find p hp
  obtain ⟨y, hy, ey⟩ := find q hq
  exact leF_of_between (hb x hx).1 (hb y hy).2 (roundsTo_mono (rounds_self ex) hv hpt)
    (roundsTo_mono hv (rounds_self ey) hqt)

theorem mean_bounds {ps : List ℚ} (hne : ps ≠ []) :
    (∃ p ∈ ps, p ≤ ps.sum / ps.length) ∧ ∃ p ∈ ps, ps.sum / ps.length ≤ p := by
  have hl : (0 : ℚ) < ps.length := by exact_mod_cast List.length_pos_of_ne_nil hne
  constructor
  · by_contra hc
    push Not at hc
    have : ∀ qs : List ℚ, (∀ p ∈ qs, ps.sum / ps.length ≤ p) → (qs.length : ℚ) * (ps.sum / ps.length) ≤ qs.sum := by
      intro qs
      induction qs with
      | nil => intro _; simp
      | cons q qs ih =>
        intro h
        have h1 := h q List.mem_cons_self
        have h2 := ih fun p hp => h p (List.mem_cons_of_mem _ hp)
        rw [List.sum_cons, List.length_cons]
        push_cast
        linarith
    cases ps with
    | nil => exact hne rfl
    | cons q qs =>
      have h1 := hc q List.mem_cons_self
      have h2 := this qs fun p hp => (hc p (List.mem_cons_of_mem _ hp)).le
      have h3 : ((q :: qs).length : ℚ) * ((q :: qs).sum / (q :: qs).length) = (q :: qs).sum := by field_simp
      rw [List.sum_cons, List.length_cons] at *
      push_cast at *
      linarith
  · by_contra hc
    push Not at hc
    have : ∀ qs : List ℚ, (∀ p ∈ qs, p ≤ ps.sum / ps.length) → qs.sum ≤ (qs.length : ℚ) * (ps.sum / ps.length) := by
      intro qs
      induction qs with
      | nil => intro _; simp
      | cons q qs ih =>
        intro h
        have h1 := h q List.mem_cons_self
        have h2 := ih fun p hp => h p (List.mem_cons_of_mem _ hp)
        rw [List.sum_cons, List.length_cons]
        push_cast
        linarith
    cases ps with
    | nil => exact hne rfl
    | cons q qs =>
      have h1 := hc q List.mem_cons_self
      have h2 := this qs fun p hp => (hc p (List.mem_cons_of_mem _ hp)).le
      have h3 : ((q :: qs).length : ℚ) * ((q :: qs).sum / (q :: qs).length) = (q :: qs).sum := by field_simp
      rw [List.sum_cons, List.length_cons] at *
      push_cast at *
      linarith

/-- C107, partial: if `sum` is exact, the mean lies between the bounds.  (Missing: sums that are
rounded, for which it fails.) -/
theorem C107_exact_partial (w : World) (f g : Func) (vs : List F64) (ps : List ℚ) (lo hi s v : F64)
    (hf : Ident.fromStr b!"mean" = .func f) (hg : Ident.fromStr b!"sum" = .func g) (hne : vs ≠ [])
    (hl : vs.length ≤ 2 ^ 53) (hp : List.Forall₂ (fun v p => value v = some p) vs ps)
    (hb : ∀ x ∈ vs, LeF lo x ∧ LeF x hi) (hs : callFn w g vs = .ok s) (hse : value s = some ps.sum)
    (hv : callFn w f vs = .ok v) : LeF lo v ∧ LeF v hi := by
  cases hf
  cases hg
  have e1 : s = sumF w vs := by have : Except.ok (sumF w vs) = .ok s := hs; injection this with h; exact h.symm
  have e2 : v = F64.div (sumF w vs) (F64.ofNat vs.length) := by
    have : Except.ok (F64.div (sumF w vs) (F64.ofNat vs.length)) = .ok v := hv
    injection this with h; exact h.symm
  subst e1
  have hlen := hp.length_eq
  have h0 : ((vs.length : ℕ) : ℚ) ≠ 0 := by
    have := List.length_pos_of_ne_nil hne
    exact_mod_cast this.ne'
  have hr := div_rounds hse (ofNat_value hl) h0
  rw [← e2, hlen] at hr
  have hne' : ps ≠ [] := by
    rintro rfl
    rw [List.length_nil] at hlen
    exact hne (List.length_eq_zero_iff.1 hlen)
  obtain ⟨h1, h2⟩ := mean_bounds hne'
  exact between_of hp hr h1 h2 hb

/-- Adding whole numbers is exact as long as their magnitudes add up to at most `2⁵³`. -/
theorem sum_whole {vs : List F64} {zs : List ℤ} (h : List.Forall₂ (fun v z => value v = some ((z : ℤ) : ℚ)) vs zs) :
    ∀ {a : F64} {z : ℤ}, value a = some (z : ℚ) → |z| + (zs.map abs).sum ≤ 2 ^ 53 →
      value (vs.foldl F64.add a) = some (((z + zs.sum : ℤ)) : ℚ) := by
  induction h with
  | nil => intro a z ha _; simpa using ha
  | @cons v y vs zs h _ ih =>
    intro a z ha hb
    rw [List.map_cons, List.sum_cons] at hb
    have hnn : 0 ≤ (zs.map abs).sum := List.sum_nonneg (by simp)
    have h3 := abs_add_le z y
    have hex := add_exact ha h (by
      rw [← Int.cast_add]; exact small_inF64 (show |z + y| ≤ 2 ^ 53 by linarith))
    rw [← Int.cast_add] at hex
    have := ih hex (by linarith)
    rw [List.foldl_cons, this, List.sum_cons, add_assoc]

/-- C107, partial: whole numbers whose magnitudes add up to at most `2⁵³`. -/
theorem C107_whole_partial (w : World) (f : Func) (vs : List F64) (zs : List ℤ) (lo hi v : F64)
    (hf : Ident.fromStr b!"mean" = .func f) (hne : vs ≠ []) (hl : vs.length ≤ 2 ^ 53)
    (hz : List.Forall₂ (fun v z => value v = some ((z : ℤ) : ℚ)) vs zs) (hs : (zs.map abs).sum ≤ 2 ^ 53)
    (hb : ∀ x ∈ vs, LeF lo x ∧ LeF x hi) (hv : callFn w f vs = .ok v) : LeF lo v ∧ LeF v hi := by
  have h0 : value (F64.zero w.sumInit) = some ((0 : ℤ) : ℚ) := by rw [Int.cast_zero]; exact value_zero _
  have hsum := sum_whole hz h0 (by simpa using hs)
  have hp : List.Forall₂ (fun v p => value v = some p) vs (zs.map fun z => ((z : ℤ) : ℚ)) := by
    clear * - hz
    induction hz with
    | nil => exact .nil
    | cons h _ ih => exact .cons h ih
  refine C107_exact_partial w f Builtin.sum.toFunc vs _ lo hi _ v hf rfl hne hl hp hb rfl ?_ hv
  rw [show ((zs.map fun z => ((z : ℤ) : ℚ)).sum) = ((zs.sum : ℤ) : ℚ) by
    rw [Int.cast_list_sum]]
  rw [_root_.zero_add] at hsum
  exact hsum

/-- C107, partial: the mean of one or two numbers, if their sum does not overflow. -/
theorem C107_two_partial (w : World) (f g : Func) (x y lo hi s v : F64) (p q r : ℚ)
    (hf : Ident.fromStr b!"mean" = .func f) (hg : Ident.fromStr b!"sum" = .func g)
    (hx : value x = some p) (hy : value y = some q) (hb : LeF lo x ∧ LeF lo y ∧ LeF x hi ∧ LeF y hi) :
    (callFn w f [x] = .ok v → LeF lo v ∧ LeF v hi) ∧
    (callFn w g [x, y] = .ok s → value s = some r → callFn w f [x, y] = .ok v →
      LeF lo v ∧ LeF v hi) := by
  have h0 : value (F64.zero w.sumInit) = some 0 := value_zero _
  have hx0 : value (F64.add (F64.zero w.sumInit) x) = some p := by
    have := add_exact h0 hx (by rw [_root_.zero_add]; exact ⟨x, hx⟩)
    rwa [_root_.zero_add] at this
  constructor
  · intro hv
    refine C107_exact_partial w f Builtin.sum.toFunc [x] [p] lo hi _ v hf rfl (by simp) (by simp)
      (.cons hx .nil) (by simp [hb.1, hb.2.2.1]) rfl ?_ hv
    rw [List.sum_singleton]
    exact hx0
  · intro hs hr hv
    cases hf
    cases hg
    have e1 : s = F64.add (F64.add (F64.zero w.sumInit) x) y := by
      have : Except.ok (F64.add (F64.add (F64.zero w.sumInit) x) y) = .ok s := hs
      injection this with h; exact h.symm
    have e2 : v = F64.div (F64.add (F64.add (F64.zero w.sumInit) x) y) (F64.ofNat 2) := by
      have : Except.ok (F64.div (F64.add (F64.add (F64.zero w.sumInit) x) y) (F64.ofNat 2)) = .ok v := hv
      injection this with h; exact h.symm
    rw [← e1] at e2
    have h2 : value (F64.ofNat 2) = some ((2 : ℕ) : ℚ) := ofNat_value (by norm_num)
    have hdiv := div_rounds hr h2 (by norm_num)
    rw [← e2] at hdiv
    obtain ⟨a, rfl, ga, -⟩ := gridZ_of_value hx0
    obtain ⟨b, rfl, gb, -⟩ := gridZ_of_value hy
    obtain ⟨c, rfl, gc, -⟩ := gridZ_of_value hr
    have hn : NearZ (a + b) c := add_units hx0 hy (e1 ▸ hr)
    have double : ∀ {z : ℤ}, GridZ z → GridZ (2 * z) := by
      rintro _ ⟨A, j, hA, rfl⟩
      exact ⟨A, j + 1, hA, by rw [pow_succ]; ring⟩
    have hU : (0 : ℚ) < 2 ^ 1074 := by positivity
    have half : ∀ {z z' : ℤ}, 2 * z ≤ z' → (z : ℚ) / 2 ^ 1074 ≤ z' / 2 ^ 1074 / ((2 : ℕ) : ℚ) := by
      intro z z' h
      rw [div_right_comm, div_le_div_iff_of_pos_right hU, le_div_iff₀ (by norm_num)]
      have h' : ((2 * z : ℤ) : ℚ) ≤ z' := Int.cast_le.2 h
      push_cast at h' ⊢
      linarith
    have half' : ∀ {z z' : ℤ}, z' ≤ 2 * z → (z' : ℚ) / 2 ^ 1074 / ((2 : ℕ) : ℚ) ≤ z / 2 ^ 1074 := by
      intro z z' h
      rw [div_right_comm, div_le_div_iff_of_pos_right hU, div_le_iff₀ (by norm_num)]
      have h' : (z' : ℚ) ≤ ((2 * z : ℤ) : ℚ) := Int.cast_le.2 h
      push_cast at h' ⊢
      linarith
    refine between_of (vs := [x, y]) (ps := [(a : ℚ) / 2 ^ 1074, (b : ℚ) / 2 ^ 1074])
      (.cons hx (.cons hy .nil)) hdiv ?_ ?_ (by simp [hb.1, hb.2.1, hb.2.2.1, hb.2.2.2])
    · rcases le_total a b with h | h
      · exact ⟨_, by simp, half (hn.ge (double ga) (by omega))⟩
      · exact ⟨_, by simp, half (hn.ge (double gb) (by omega))⟩
    · rcases le_total a b with h | h
      · exact ⟨_, by simp, half' (hn.le (double gb) (by omega))⟩
      · exact ⟨_, by simp, half' (hn.le (double ga) (by omega))⟩

/-- The mean of `1`, `2` and `4` lies between `1` and `4`. -/
example : ∃ v, callFn w0 Builtin.mean.toFunc [F64.ofNat 1, F64.ofNat 2, F64.ofNat 4] = .ok v ∧
    LeF (F64.ofNat 1) v ∧ LeF v (F64.ofNat 4) := by
  have e : ∀ n ≤ 4, value (F64.ofNat n) = some (((n : ℤ)) : ℚ) := fun n hn => by
    rw [ofNat_value (by omega)]; norm_num
  refine ⟨_, rfl, C107_whole_partial w0 _ _ [1, 2, 4] _ _ _ rfl (by simp) (by simp)
    (.cons (e 1 (by norm_num)) (.cons (e 2 (by norm_num)) (.cons (e 4 (by norm_num)) .nil))) (by decide) ?_ rfl⟩
  intro x hx
  simp only [List.mem_cons, List.not_mem_nil, or_false] at hx
  rcases hx with rfl | rfl | rfl
  · exact ⟨.fin (e 1 (by norm_num)) (e 1 (by norm_num)) le_rfl, .fin (e 1 (by norm_num)) (e 4 (by norm_num)) (by norm_num)⟩
  · exact ⟨.fin (e 1 (by norm_num)) (e 2 (by norm_num)) (by norm_num), .fin (e 2 (by norm_num)) (e 4 (by norm_num)) (by norm_num)⟩
  · exact ⟨.fin (e 1 (by norm_num)) (e 4 (by norm_num)) (by norm_num), .fin (e 4 (by norm_num)) (e 4 (by norm_num)) le_rfl⟩


end Props
end Xprs
