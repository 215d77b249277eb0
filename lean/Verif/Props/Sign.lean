import Verif.Spec.Sign
import Verif.Lemmas.Laws
import Verif.Props.Lerp
import Verif.Props.Exact
/-
Property C127: the sign of formulas written as products.
-/
namespace Xprs
namespace Props
open _root_.Xprs.Spec
set_option exponentiation.threshold 4096

/-- The invariant: zero for zero, else the right sign bit. -/
def Sided (q : ℚ) (v : F64) : Prop :=
  v = .nan ∨ (q = 0 ∧ value v = some 0) ∨ (q ≠ 0 ∧ signBit v = decide (q < 0))

theorem sided_rounds {q : ℚ} {v : F64} (h : RoundsTo q v) : Sided q v := by
  rcases lt_trichotomy q 0 with hq | rfl | hq
  · exact .inr (.inr ⟨hq.ne, by rw [h.2.1 hq]; simp [hq]⟩)
  · exact .inr (.inl ⟨rfl, value_of_rounds h ⟨F64.zero false, by decide +kernel⟩⟩)
  · exact .inr (.inr ⟨hq.ne', by rw [h.2.2 hq]; simp [hq.le]⟩)

theorem sided_value {q : ℚ} {v : F64} (h : value v = some q) : Sided q v := sided_rounds (rounds_self h)

theorem sign_mul {p q : ℚ} (hp : p ≠ 0) (hq : q ≠ 0) : decide (p * q < 0) = (decide (p < 0) != decide (q < 0)) := by
  rcases lt_or_gt_of_ne hp with h1 | h1 <;> rcases lt_or_gt_of_ne hq with h2 | h2
  · simp [h1, h2, (mul_pos_of_neg_of_neg h1 h2).le]
  · simp [h1, h2.le, mul_neg_of_neg_of_pos h1 h2]
  · simp [h1.le, h2, mul_neg_of_pos_of_neg h1 h2]
  · rw [decide_eq_false (not_lt.2 h1.le), decide_eq_false (not_lt.2 h2.le), decide_eq_false (not_lt.2 (mul_pos h1 h2).le)]
    rfl

theorem sign_div {p q : ℚ} (hp : p ≠ 0) (hq : q ≠ 0) : decide (p / q < 0) = (decide (p < 0) != decide (q < 0)) := by
  rw [div_eq_mul_inv, sign_mul hp (inv_ne_zero hq)]
  rw [decide_eq_decide.2 (inv_lt_zero (a := q))]

theorem sided_mul {p q : ℚ} {a b : F64} (ka : Sided p a) (kb : Sided q b) : Sided (p * q) (F64.mul a b) := by
  have k := muls a b
  generalize F64.mul a b = r at k
  by_cases hr : r = .nan
  · exact .inl hr
  right
  have ha : (p = 0 ∧ value a = some 0) ∨ (p ≠ 0 ∧ signBit a = decide (p < 0)) := ka.resolve_left (by
    rintro rfl; cases k with
    | infR h => exact h rfl
    | finite h => cases h
    | _ => exact hr rfl)
  have hb : (q = 0 ∧ value b = some 0) ∨ (q ≠ 0 ∧ signBit b = decide (q < 0)) := kb.resolve_left (by
    rintro rfl; cases k with
    | infL h => exact h rfl
    | finite _ h => cases h
    | _ => exact hr rfl)
  clear ka kb
  rcases ha with ⟨rfl, ha⟩ | ⟨hp, ha⟩
  · refine .inl ⟨MulZeroClass.zero_mul _, ?_⟩
    cases k with
    | infL => cases ha
    | infR _ h => exact absurd ha h
    | finite h1 h2 h3 =>
      rw [ha] at h1; cases h1
      rw [MulZeroClass.zero_mul] at h3
      exact value_of_rounds h3 ⟨F64.zero false, by decide +kernel⟩
    | _ => exact absurd rfl hr
  rcases hb with ⟨rfl, hb⟩ | ⟨hq, hb⟩
  · refine .inl ⟨MulZeroClass.mul_zero _, ?_⟩
    cases k with
    | infL _ h => exact absurd hb h
    | infR => cases hb
    | finite h1 h2 h3 =>
      rw [hb] at h2; cases h2
      rw [MulZeroClass.mul_zero] at h3
      exact value_of_rounds h3 ⟨F64.zero false, by decide +kernel⟩
    | _ => exact absurd rfl hr
  refine .inr ⟨mul_ne_zero hp hq, ?_⟩
  rw [sign_mul hp hq, ← ha, ← hb]
  cases k with
  | infL => rfl
  | infR => rfl
  | finite _ _ _ h => exact h
  | _ => exact absurd rfl hr

theorem sided_div {p q : ℚ} {a b : F64} (ka : Sided p a) (kb : Sided q b) (hq : q ≠ 0) :
    Sided (p / q) (F64.div a b) := by
  have k := divs a b
  generalize F64.div a b = r at k
  by_cases hr : r = .nan
  · exact .inl hr
  right
  have ha : (p = 0 ∧ value a = some 0) ∨ (p ≠ 0 ∧ signBit a = decide (p < 0)) := ka.resolve_left (by
    rintro rfl; cases k with
    | infR h => cases h
    | byZero h => cases h
    | finite h => cases h
    | _ => exact hr rfl)
  have hb : signBit b = decide (q < 0) := by
    rcases kb with rfl | ⟨h, -⟩ | ⟨-, h⟩
    · cases k with
      | infL h => cases h
      | byZero _ _ h => cases h
      | finite _ h => cases h
      | _ => exact absurd rfl hr
    · exact absurd h hq
    · exact h
  clear ka kb
  rcases ha with ⟨rfl, ha⟩ | ⟨hp, ha⟩
  · refine .inl ⟨_root_.zero_div _, ?_⟩
    cases k with
    | infL => cases ha
    | infR _ h => exact h
    | byZero h1 h2 => rw [ha] at h1; cases h1; exact absurd rfl h2
    | finite h1 h2 _ h3 =>
      rw [ha] at h1; cases h1
      rw [_root_.zero_div] at h3
      exact value_of_rounds h3 ⟨F64.zero false, by decide +kernel⟩
    | _ => exact absurd rfl hr
  refine .inr ⟨div_ne_zero hp hq, ?_⟩
  rw [sign_div hp hq, ← ha, ← hb]
  cases k with
  | infL => rfl
  | infR _ _ h => exact h
  | byZero => rfl
  | finite _ _ _ _ h => exact h
  | _ => exact absurd rfl hr

theorem sided_neg {q : ℚ} {v : F64} (h : Sided q v) : Sided (-q) (F64.neg v) := by
  rcases h with rfl | ⟨rfl, h⟩ | ⟨h1, h2⟩
  · exact .inl rfl
  · refine .inr (.inl ⟨_root_.neg_zero, ?_⟩)
    have := neg_value h
    rwa [_root_.neg_zero] at this
  · by_cases hn : v = .nan
    · subst hn; exact .inl rfl
    refine .inr (.inr ⟨neg_ne_zero.2 h1, ?_⟩)
    have e : signBit (F64.neg v) = !signBit v := by cases v <;> first | rfl | exact absurd rfl hn
    rw [e, h2]
    rcases lt_or_gt_of_ne h1 with h | h
    · simp [h, h.le]
    · simp [h, h.le]

theorem sided_abs {q : ℚ} {v : F64} (h : Sided q v) : Sided |q| (F64.abs v) := by
  rcases h with rfl | ⟨rfl, h⟩ | ⟨h1, h2⟩
  · exact .inl rfl
  · refine .inr (.inl ⟨_root_.abs_zero, ?_⟩)
    have := (abs_value h).1
    rwa [_root_.abs_zero] at this
  · by_cases hn : v = .nan
    · subst hn; exact .inl rfl
    refine .inr (.inr ⟨abs_ne_zero.2 h1, ?_⟩)
    have e : signBit (F64.abs v) = false := by cases v <;> rfl
    rw [e]
    simp

theorem factored_eval {w : World} {m : HMap F64} {e : Elem} {q : ℚ} (h : Factored m e q) :
    ∃ v, eval w m e = .ok v ∧ Sided q v := by
  induction h with
  | exact h =>
    obtain ⟨v, h1, h2⟩ := exact_eval (w := w) h
    exact ⟨v, h1, sided_value h2⟩
  | sum hl hr =>
    obtain ⟨a, h1, h2⟩ := exact_eval (w := w) hl
    obtain ⟨b, h3, h4⟩ := exact_eval (w := w) hr
    exact ⟨_, eval_bin_ok.2 ⟨a, b, h1, h3, rfl⟩, sided_rounds (_root_.Xprs.add_rounds h2 h4)⟩
  | diff hl hr =>
    obtain ⟨a, h1, h2⟩ := exact_eval (w := w) hl
    obtain ⟨b, h3, h4⟩ := exact_eval (w := w) hr
    exact ⟨_, eval_bin_ok.2 ⟨a, b, h1, h3, rfl⟩, sided_rounds (sub_rounds h2 h4)⟩
  | pos _ ih => obtain ⟨v, h1, h2⟩ := ih; exact ⟨v, eval_un_ok.2 ⟨v, h1, rfl⟩, h2⟩
  | neg _ ih => obtain ⟨v, h1, h2⟩ := ih; exact ⟨_, eval_un_ok.2 ⟨v, h1, rfl⟩, sided_neg h2⟩
  | abs _ ih =>
    obtain ⟨v, h1, h2⟩ := ih
    exact ⟨_, eval_call_ok.2 ⟨[v], by rw [evalL, h1]; rfl, rfl⟩, sided_abs h2⟩
  | times _ _ ih1 ih2 =>
    obtain ⟨a, h1, h2⟩ := ih1
    obtain ⟨b, h3, h4⟩ := ih2
    exact ⟨_, eval_bin_ok.2 ⟨a, b, h1, h3, rfl⟩, sided_mul h2 h4⟩
  | divide _ _ hq ih1 ih2 =>
    obtain ⟨a, h1, h2⟩ := ih1
    obtain ⟨b, h3, h4⟩ := ih2
    exact ⟨_, eval_bin_ok.2 ⟨a, b, h1, h3, rfl⟩, sided_div h2 h4 hq⟩

theorem sided_truthful {q : ℚ} {v : F64} (h : Sided q v) : Truthful q v := by
  rcases h with rfl | ⟨rfl, h⟩ | ⟨h1, h2⟩
  · exact ⟨nofun, nofun, nofun⟩
  · refine ⟨fun r hr => ?_, ?_, ?_⟩
    · rw [h] at hr
      cases hr
      exact ⟨fun _ => rfl, fun h => absurd h (lt_irrefl _), fun h => absurd h (lt_irrefl _)⟩
    · rintro rfl; cases h
    · rintro rfl; cases h
  · refine ⟨fun r hr => ⟨fun h => absurd h h1, fun h => ?_, fun h => ?_⟩, ?_, ?_⟩
    · rcases sided_value hr with rfl | ⟨e, -⟩ | ⟨-, e⟩
      · cases hr
      · exact absurd e h.ne'
      · rw [e, decide_eq_false (not_lt.2 h.le)] at h2
        have : ¬ q < 0 := of_decide_eq_false h2.symm
        exact lt_of_le_of_ne (not_lt.1 this) (Ne.symm h1)
    · rcases sided_value hr with rfl | ⟨e, -⟩ | ⟨-, e⟩
      · cases hr
      · exact absurd e h.ne
      · rw [e, decide_eq_true h] at h2
        exact of_decide_eq_true h2.symm
    · rintro rfl
      have : ¬ q < 0 := by simpa [signBit] using h2.symm
      exact lt_of_le_of_ne (not_lt.1 this) (Ne.symm h1)
    · rintro rfl
      simpa [signBit] using h2.symm

/-- What rounds to zero is not larger than half of the smallest number. -/
theorem rounds_zero {q : ℚ} {v : F64} (h : RoundsTo q v) (hv : value v = some 0) : |q| ≤ 1 / 2 ^ 1075 := by
  obtain ⟨⟨N, D, hD, hq, n, hn, hf⟩, -, -⟩ := h
  have hDq : (0 : ℚ) < (D : ℚ) := by exact_mod_cast hD
  have n0 : n = 0 := by
    have hz := eq_zero_of_value hv
    rw [hz] at hf
    rcases hf with ⟨-, _, h⟩ | ⟨-, h⟩
    · have : F64.abs (F64.zero (signBit v)) = F64.zero false := by cases signBit v <;> rfl
      rw [this] at h
      cases h
      rfl
    · cases h
  subst n0
  have h1 := hn.closest 1 ⟨1, 0, by norm_num, by norm_num⟩
  unfold Spec.dist at h1
  have h2 : 2 * N ≤ D := by omega
  have h3 : (2 : ℚ) * N ≤ D := by exact_mod_cast h2
  have e : |q| * 2 ^ 1075 = 2 * N / D := by
    rw [show (2 : ℚ) ^ 1075 = 2 ^ 1074 * 2 by norm_num, ← mul_assoc, hq]; ring
  rw [le_div_iff₀ (by positivity), e, div_le_one hDq]
  exact h3

theorem diff_zero {x y : F64} {p q : ℚ} (hx : value x = some p) (hy : value y = some q)
    (h : value (F64.sub y x) = some 0) : q - p = 0 := by
  have hr := sub_rounds hy hx
  have hs := rounds_zero hr h
  have := value_of_rounds hr (small_diff hx hy (hs.trans_lt (by norm_num)))
  rw [h] at this
  exact (Option.some.inj this).symm

theorem sum_zero {x y : F64} {p q : ℚ} (hx : value x = some p) (hy : value y = some q)
    (h : value (F64.add x y) = some 0) : p + q = 0 := by
  have hr := _root_.Xprs.add_rounds hx hy
  have hs := rounds_zero hr h
  have hy' := neg_value hy
  have hi := small_diff hy' hx (by rw [sub_neg_eq_add]; exact hs.trans_lt (by norm_num))
  rw [sub_neg_eq_add] at hi
  have := value_of_rounds hr hi
  rw [h] at this
  exact (Option.some.inj this).symm

/-- **C127, sign.** A formula built with signs, `*`, `/` and `abs` from exact parts and sums or differences of
two of them has a result in both evaluations, and the result never has the wrong sign. -/
theorem C127_sign (w : World) (m : HMap F64) (e : Elem) (q : ℚ) (h : Factored m e q) :
    ∃ v, eval w m e = .ok v ∧ evalU w m e = .ok v ∧ Truthful q v := by
  obtain ⟨v, h1, h2⟩ := factored_eval (w := w) h
  exact ⟨v, h1, by rw [evalU_eq, h1]; rfl, sided_truthful h2⟩

/-- **C127, zero.** Such a formula gives a zero it should not give only where a product or quotient vanishes:
differences never do. -/
theorem C127_zero (w : World) (m : HMap F64) (e : Elem) (q : ℚ) (h : Factored m e q) : ∀ v, eval w m e = .ok v →
    value v = some 0 → (q = 0 ∨ ∃ t, Sub t e ∧ Vanishes w m t) := by
  induction h with
  | exact h =>
    intro v hv h0
    obtain ⟨u, h1, h2⟩ := exact_eval (w := w) h
    rw [hv] at h1
    cases h1
    rw [h0] at h2
    exact .inl (Option.some.inj h2).symm
  | sum hl hr =>
    intro v hv h0
    obtain ⟨a, b, h1, h2, hb⟩ := eval_bin_ok.1 hv
    cases hb
    obtain ⟨a', h3, h4⟩ := exact_eval (w := w) hl
    obtain ⟨b', h5, h6⟩ := exact_eval (w := w) hr
    rw [h1] at h3; cases h3
    rw [h2] at h5; cases h5
    exact .inl (sum_zero h4 h6 h0)
  | diff hl hr =>
    intro v hv h0
    obtain ⟨a, b, h1, h2, hb⟩ := eval_bin_ok.1 hv
    cases hb
    obtain ⟨a', h3, h4⟩ := exact_eval (w := w) hl
    obtain ⟨b', h5, h6⟩ := exact_eval (w := w) hr
    rw [h1] at h3; cases h3
    rw [h2] at h5; cases h5
    exact .inl (diff_zero h6 h4 h0)
  | pos _ ih =>
    intro v hv h0
    obtain ⟨a, h1, hb⟩ := eval_un_ok.1 hv
    cases hb
    rcases ih _ h1 h0 with h | ⟨t, h, k⟩
    · exact .inl h
    · exact .inr ⟨t, .operand h, k⟩
  | neg _ ih =>
    intro v hv h0
    obtain ⟨a, h1, hb⟩ := eval_un_ok.1 hv
    cases hb
    have h2 : value a = some 0 := by
      have := neg_value h0
      rw [_root_.neg_zero] at this
      rw [← fneg_neg a]
      exact this
    rcases ih a h1 h2 with h | ⟨t, h, k⟩
    · exact .inl (by rw [h, _root_.neg_zero])
    · exact .inr ⟨t, .operand h, k⟩
  | abs _ ih =>
    intro v hv h0
    obtain ⟨as, h1, h3⟩ := eval_call_ok.1 hv
    obtain ⟨a, rest, h4, h5, rfl⟩ := evalL_cons.1 h1
    cases h5
    cases h3
    have h2 : value a = some 0 := by
      change value (F64.abs a) = some 0 at h0
      obtain ⟨r, hr⟩ | h : (∃ r, value a = some r) ∨ value a = none := by cases value a <;> simp
      · have := (abs_value hr).1
        rw [h0] at this
        rw [hr, abs_eq_zero.1 (Option.some.inj this).symm]
      · rcases a with _ | _ | ⟨_ | _, n, hn⟩ <;> first | cases h0 | cases h
    rcases ih a h4 h2 with h | ⟨t, h, k⟩
    · exact .inl (by rw [h, _root_.abs_zero])
    · exact .inr ⟨t, .arg (List.mem_singleton.2 rfl) h, k⟩
  | @times l r p q _ _ ih1 ih2 =>
    intro v hv h0
    obtain ⟨a, b, h1, h2, hb⟩ := eval_bin_ok.1 hv
    cases hb
    have left : value a = some 0 → (p * q = 0 ∨ ∃ t, Sub t (.bin .times l r) ∧ Vanishes w m t) :=
      fun h => (ih1 a h1 h).imp (fun h => by rw [h, MulZeroClass.zero_mul]) fun ⟨t, h, k⟩ => ⟨t, Sub.left h, k⟩
    have right : value b = some 0 → (p * q = 0 ∨ ∃ t, Sub t (.bin .times l r) ∧ Vanishes w m t) :=
      fun h => (ih2 b h2 h).imp (fun h => by rw [h, MulZeroClass.mul_zero]) fun ⟨t, h, k⟩ => ⟨t, Sub.right h, k⟩
    have k := muls a b
    change value (F64.mul a b) = some 0 at h0
    generalize F64.mul a b = r at k h0
    cases k with
    | finite ha hb hr =>
      by_cases ha0 : value a = some 0
      · exact left ha0
      by_cases hb0 : value b = some 0
      · exact right hb0
      exact .inr ⟨_, .refl, .times h1 h2 ha hb (fun h => ha0 (h ▸ ha)) (fun h => hb0 (h ▸ hb)) (rounds_zero hr h0)⟩
    | _ => cases h0
  | @divide l r p q _ _ hq ih1 ih2 =>
    intro v hv h0
    obtain ⟨a, b, h1, h2, hb⟩ := eval_bin_ok.1 hv
    cases hb
    have left : value a = some 0 → (p / q = 0 ∨ ∃ t, Sub t (.bin .divide l r) ∧ Vanishes w m t) :=
      fun h => (ih1 a h1 h).imp (fun h => by rw [h, _root_.zero_div]) fun ⟨t, h, k⟩ => ⟨t, Sub.left h, k⟩
    have k := divs a b
    change value (F64.div a b) = some 0 at h0
    generalize F64.div a b = r at k h0
    by_cases ha0 : value a = some 0
    · exact left ha0
    cases k with
    | infR ha => exact .inr ⟨_, .refl, .infinite h1 h2 ha fun h => ha0 (h ▸ ha)⟩
    | finite ha hb hb0 hr =>
      exact .inr ⟨_, .refl, .divide h1 h2 ha hb (fun h => ha0 (h ▸ ha)) hb0 (rounds_zero hr h0)⟩
    | _ => cases h0

theorem truthful_same {q : ℚ} {v u : F64} (h : Truthful q v) (s : Same v u) : Truthful q u := by
  have hi : ∀ b, u = .inf b → v = .inf b := by
    rintro b rfl
    rcases s with rfl | ⟨h1, _, h2⟩
    · rfl
    · cases h2
  refine ⟨fun r hr => h.1 r ?_, fun k => h.2.1 (hi _ k), fun k => h.2.2 (hi _ k)⟩
  exact value_same hr s.symm

/-- **C127, builds.** Where the text runs without a doubtful step, every build keeps the sign. -/
theorem C127_builds (cfg cfg' : Cfg) (w : World) (o o' : Oracle) (ctx : Context) (input : Bytes)
    (f g : Xpr) (m : HMap F64) (q : ℚ) (v : F64) (hpe : cfg.pejmdas = cfg'.pejmdas)
    (ho : cfg.opt = false) (hw : NoPower f.root ∨ PowLaws w) (hn : ∀ ts, Lex input ts → ParensApart ts)
    (h : parse cfg w o ctx input = .ok f) (h' : parse cfg' w o' ctx input = .ok g) (hr : Factored m f.root q)
    (hv : Runs w m f.root v) : ∃ u, g.eval w m = .ok u ∧ Truthful q u := by
  obtain ⟨h1, u, hu, su⟩ := C16_value_partial cfg cfg' w o o' ctx input f g m _ hpe ho hw hn h h' hv
  obtain ⟨v', h2, -, h3⟩ := C127_sign w m f.root q hr
  rw [runs_eval _ hv] at h2
  cases h2
  exact ⟨u, hu, truthful_same h3 su⟩

/-- The hypothesis of `C127_sign`, with a value of `x` at which both differences are rounded: `(x-1)/(x-3)`. -/
example : (match parse0 cfgPlain b!"(x-1)/(x-3)" with
    | .ok f => decide (f.root = .bin .divide (.bin .minus vx (.num F64.f1)) (.bin .minus vx (.num (F64.ofNat 3))) ∧
        f.eval w0 (mx tiny) = .ok (F64.div F64.f1 (F64.ofNat 3)))
    | _ => false) = true ∧
    Factored (mx tiny) (.bin .divide (.bin .minus vx (.num F64.f1)) (.bin .minus vx (.num (F64.ofNat 3))))
      ((1 / 2 ^ 1074 - 1) / (1 / 2 ^ 1074 - 3)) := by
  have hx : Exact (mx tiny) vx (1 / 2 ^ 1074) := .var (x := tiny) (by decide +kernel) (by decide +kernel)
  exact ⟨by decide +kernel, .divide (.diff hx (.num (by decide +kernel))) (.diff hx (.num (by decide +kernel)))
    (by norm_num)⟩

/-- The condition on the form is needed: in `1+2*x-1-x` more than one difference is rounded, and at `2⁻¹⁰⁷⁴` the
result is negative though the value is positive. -/
example : (match parse0 cfgPlain b!"1+2*x-1-x", parse0 cfgOpt b!"1+2*x-1-x" with
    | .ok f, .ok g => decide (f.eval w0 (mx tiny) = .ok (F64.neg tiny) ∧ g.eval w0 (mx tiny) = .ok (F64.neg tiny))
    | _, _ => false) = true ∧ value (F64.neg tiny) = some (-1 / 2 ^ 1074) ∧
    ¬ Truthful (1 + 2 * (1 / 2 ^ 1074) - 1 - 1 / 2 ^ 1074) (F64.neg tiny) := by
  have hv : value (F64.neg tiny) = some (-1 / 2 ^ 1074) := by decide +kernel
  refine ⟨by decide +kernel, hv, fun h => ?_⟩
  have := (h.1 _ hv).2.2 (by norm_num)
  norm_num at this

/-- A case of the second alternative of `C127_zero`: `x*x` at `2⁻¹⁰⁷⁴`. -/
example : eval w0 (mx tiny) (.bin .times vx vx) = .ok (F64.zero false) ∧
    Vanishes w0 (mx tiny) (.bin .times vx vx) := by
  have hx : eval w0 (mx tiny) vx = .ok tiny := by decide +kernel
  have hv : value tiny = some (1 / 2 ^ 1074) := by decide +kernel
  refine ⟨by decide +kernel, .times hx hx hv hv (by norm_num) (by norm_num) ?_⟩
  rw [abs_of_pos (by norm_num)]
  norm_num

/-- A case of the hypotheses of `C127_builds`: `(x-1)*(x-3)` at 2 is negative in every build. -/
example : Runs w0 (mx (F64.ofNat 2)) (.bin .times (.bin .minus vx (.num F64.f1)) (.bin .minus vx (.num (F64.ofNat 3))))
    (F64.neg F64.f1) ∧ (match parse0 cfgOpt b!"(x-1)*(x-3)" with
    | .ok g => decide (g.eval w0 (mx (F64.ofNat 2)) = .ok (F64.neg F64.f1))
    | _ => false) = true := by
  refine ⟨?_, by decide +kernel⟩
  have hx : Runs w0 (mx (F64.ofNat 2)) vx (F64.ofNat 2) := .var (by decide +kernel)
  have e : F64.mul (F64.sub (F64.ofNat 2) F64.f1) (F64.sub (F64.ofNat 2) (F64.ofNat 3)) = F64.neg F64.f1 := by
    decide +kernel
  rw [← e]
  exact .bin (.bin hx .num (.minus (by decide +kernel))) (.bin hx .num (.minus (by decide +kernel)))
    (.times (by decide +kernel))

end Props
end Xprs
