import Verif.Lemmas.NoPower
import Verif.Lemmas.Parse
import Verif.Props.Parsing
/-
Properties C29, C30 and C34: simplification and the value of expressions.
-/
namespace Xprs
namespace Props
open Spec
set_option exponentiation.threshold 4096

/-- Simplifying `e` succeeds and does not change its value under `m` (up to the sign of
zero). -/
def ValueKept (cfg : Cfg) (w : World) (m : HMap F64) (e : Elem) : Prop :=
  ∃ e' v v', simplify cfg w e = .ok e' ∧ eval w m e = .ok v ∧ eval w m e' = .ok v' ∧ Same v v'

/-- Neither NaN nor infinite. -/
def Finite (v : F64) : Prop := ∃ s n h, v = .fin s n h

/-! ### C30 -/

/-- The rules for one operand, written with the variable `x`. -/
def vx : Elem := .var b!"x"
/-- The map `x = v`. -/
def mx (v : F64) : HMap F64 := HMap.empty.insert b!"x" v

theorem eval_vx (w : World) (v : F64) : eval w (mx v) vx = .ok v := by
  simp [vx, mx, eval, HMap.get, HMap.insert]

theorem kept_iff {cfg : Cfg} {w : World} {m : HMap F64} {e e' : Elem} {v v' : F64}
    (h : simplify cfg w e = .ok e') (h1 : eval w m e = .ok v) (h2 : eval w m e' = .ok v') :
    ValueKept cfg w m e ↔ Same v v' := by
  constructor
  · rintro ⟨d, u, u', a, b, c, s⟩
    rw [h] at a; cases a
    rw [h1] at b; cases b
    rw [h2] at c; cases c
    exact s
  · exact fun s => ⟨e', v, v', h, h1, h2, s⟩

theorem is0_f0 : (Elem.num F64.f0).is0 = true := is0_iff.2 ⟨_, rfl, ⟨_, rfl⟩⟩
theorem is0_f1 : (Elem.num F64.f1).is0 = false := by
  cases h : (Elem.num F64.f1).is0 with
  | false => rfl
  | true => obtain ⟨x, hx, hz⟩ := is0_iff.1 h; cases hx; exact absurd hz f1_not_zero
theorem is1_f1 : (Elem.num F64.f1).is1 = true := is1_iff.2 rfl
theorem is0_vx : vx.is0 = false := rfl
theorem is1_vx : vx.is1 = false := rfl
theorem is1_f0 : (Elem.num F64.f0).is1 = false := by
  cases h : (Elem.num F64.f0).is1 with
  | false => rfl
  | true =>
    have := is1_iff.1 h
    injection this with this
    exact absurd (this ▸ ⟨false, rfl⟩ : IsZero F64.f1) f1_not_zero
theorem eqE_vx : eqE vx vx = .ok true := by simp [vx, eqE]

theorem simplify_vx (cfg : Cfg) (w : World) : simplify cfg w vx = .ok vx := by
  simp [vx, simplify]

theorem simplify_bin {cfg : Cfg} {w : World} {op : Op} {l r : Elem} (hl : simplify cfg w l = .ok l)
    (hr : simplify cfg w r = .ok r) : simplify cfg w (.bin op l r) = simpBin cfg w op l r := by
  rw [simplify, hl, hr]

theorem simplify_num (cfg : Cfg) (w : World) (x : F64) : simplify cfg w (.num x) = .ok (.num x) := by
  rw [simplify]

theorem eval_bin {w : World} {m : HMap F64} {op : Op} {l r : Elem} {a b v : F64}
    (hl : eval w m l = .ok a) (hr : eval w m r = .ok b) (h : binF w op a b = .ok v) :
    eval w m (.bin op l r) = .ok v := by
  rw [eval, hl, hr]; simp only [h]; rfl

theorem same_zero_iff {v : F64} : Same v F64.f0 ↔ IsZero v :=
  ⟨fun h => h.isZero.2 ⟨false, rfl⟩, same_f0⟩

theorem finite_iff_sub {v : F64} : IsZero (F64.sub v v) ↔ Finite v := by
  constructor
  · intro h
    cases v with
    | nan => exact absurd h not_isZero_nan
    | inf s => cases s <;> exact absurd h not_isZero_nan
    | fin s n k => exact ⟨s, n, k, rfl⟩
  · rintro ⟨s, n, h, rfl⟩
    refine (sub_self (Same.refl _)).resolve_left ?_
    simp only [F64.sub, F64.neg, F64.add, sv_neg]
    rw [if_pos (by omega)]
    intro h; cases h

theorem finite_iff_mul {v : F64} : IsZero (F64.mul F64.f0 v) ↔ Finite v := by
  constructor
  · intro h
    cases v with
    | nan => exact absurd h not_isZero_nan
    | inf s => exact absurd h not_isZero_nan
    | fin s n k => exact ⟨s, n, k, rfl⟩
  · rintro ⟨s, n, h, rfl⟩
    refine (mul_zero_left false _).resolve_left ?_
    simp only [F64.mul, F64.zero, Nat.zero_mul]
    rw [ofMag_zero]
    intro h; cases h

theorem div_f0 {v : F64} : F64.div v F64.f0 = .inf false ↔ Positive v := by
  cases v with
  | nan => exact ⟨fun h => (by cases h), fun h => (by cases h)⟩
  | inf s => cases s
             · exact ⟨fun _ => .inf, fun _ => rfl⟩
             · exact ⟨fun h => (by cases h), fun h => (by cases h)⟩
  | fin s n h =>
    simp only [F64.div, F64.f0, F64.zero, if_true]
    by_cases hn : n = 0
    · subst hn
      exact ⟨fun h => (by simp at h), fun h => (by cases h; simp_all)⟩
    · rw [if_neg hn]
      cases s
      · exact ⟨fun _ => .fin hn, fun _ => rfl⟩
      · exact ⟨fun h => (by cases h), fun h => (by cases h)⟩

theorem zero_div_iff {v : F64} : IsZero (F64.div F64.f0 v) ↔ v ≠ .nan ∧ ¬ IsZero v := by
  constructor
  · intro h
    constructor
    · rintro rfl; exact not_isZero_nan h
    · rintro ⟨s, rfl⟩
      simp [F64.div, F64.f0, F64.zero] at h
      exact not_isZero_nan h
  · rintro ⟨h1, h2⟩
    refine (zero_div ⟨false, rfl⟩ v).resolve_left ?_
    cases v with
    | nan => exact absurd rfl h1
    | inf s => intro h; cases h
    | fin s n h =>
      have hn : n ≠ 0 := fun e => h2 (isZero_fin.2 e)
      simp only [F64.div, F64.zero, if_neg hn, Nat.zero_mul]
      rw [ofMag_zero]; intro h; cases h

theorem zero_rem_iff {v : F64} : IsZero (F64.rem F64.f0 v) ↔ v ≠ .nan ∧ ¬ IsZero v := by
  constructor
  · intro h
    constructor
    · rintro rfl; exact not_isZero_nan h
    · intro hz; rw [rem_zero_right _ hz] at h; exact not_isZero_nan h
  · rintro ⟨h1, h2⟩
    refine (zero_rem ⟨false, rfl⟩ v).resolve_left ?_
    cases v with
    | nan => exact absurd rfl h1
    | inf s => intro h; cases h
    | fin s n h =>
      have hn : n ≠ 0 := fun e => h2 (isZero_fin.2 e)
      simp only [F64.rem, F64.zero, if_neg hn, Nat.zero_mod]
      rw [ofMag_zero]; intro h; cases h

theorem rem_one_iff {v : F64} : IsZero (F64.rem v F64.f1) ↔ Whole v := by
  refine ⟨fun hz => ?_, whole_rem_one⟩
  rw [F64.f1_eq] at hz
  cases v with
  | nan => exact absurd hz not_isZero_nan
  | inf s => exact absurd hz not_isZero_nan
  | fin s n h =>
    have hu := unit64_pos
    simp only [F64.rem] at hz
    rw [if_neg (by omega), Nat.one_mul, F64.ofMag_rep s h.mod_unit, isZero_fin] at hz
    have hd : n / unit64 * unit64 = n := Nat.div_mul_cancel (Nat.dvd_of_mod_eq_zero hz)
    rw [unit64_eq] at hd
    exact ⟨s, n / 2 ^ 1074, by rw [hd]; exact h, F64.fin_congr h hd.symm⟩

theorem div_self_iff {v : F64} : Same (F64.div v v) F64.f1 ↔ Finite v ∧ ¬ IsZero v := by
  constructor
  · intro h
    have h := (h.symm.of_not_zero f1_not_zero)
    cases v with
    | nan => exact absurd h f1_ne_nan
    | inf s => exact absurd h f1_ne_nan
    | fin s n k =>
      refine ⟨⟨s, n, k, rfl⟩, ?_⟩
      rw [isZero_fin]
      rintro rfl
      simp only [F64.div, if_true] at h
      exact f1_ne_nan h
  · rintro ⟨⟨s, n, h, rfl⟩, hz⟩
    refine .inl ((div_self (Same.refl _) hz).resolve_left ?_)
    have hn : n ≠ 0 := fun e => hz (isZero_fin.2 e)
    simp only [F64.div, if_neg hn]
    unfold F64.ofMag
    split <;> intro h <;> cases h

theorem rem_self_iff {v : F64} : IsZero (F64.rem v v) ↔ Finite v ∧ ¬ IsZero v := by
  constructor
  · intro h
    cases v with
    | nan => exact absurd h not_isZero_nan
    | inf s => exact absurd h not_isZero_nan
    | fin s n k =>
      refine ⟨⟨s, n, k, rfl⟩, ?_⟩
      intro hz
      rw [rem_zero_right _ hz] at h
      exact not_isZero_nan h
  · rintro ⟨⟨s, n, h, rfl⟩, hz⟩
    have hn : n ≠ 0 := fun e => hz (isZero_fin.2 e)
    simp only [F64.rem, if_neg hn, Nat.mod_self]
    exact ⟨_, ofMag_zero _ _⟩

/-- C30, the rules that are not right for all values: exactly for which values of the
variable each of them keeps the value. -/
theorem C30_rules (cfg : Cfg) (w : World) (v : F64) :
    (ValueKept cfg w (mx v) (.bin .times (.num F64.f0) vx) ↔ Finite v) ∧
    (ValueKept cfg w (mx v) (.bin .times vx (.num F64.f0)) ↔ Finite v) ∧
    (ValueKept cfg w (mx v) (.bin .divide (.num F64.f0) vx) ↔ v ≠ .nan ∧ ¬ IsZero v) ∧
    (ValueKept cfg w (mx v) (.bin .divide vx (.num F64.f0)) ↔ Positive v) ∧
    (ValueKept cfg w (mx v) (.bin .minus vx vx) ↔ Finite v) ∧
    (ValueKept cfg w (mx v) (.bin .divide vx vx) ↔ Finite v ∧ ¬ IsZero v) ∧
    (ValueKept cfg w (mx v) (.bin .modulo (.num F64.f0) vx) ↔ v ≠ .nan ∧ ¬ IsZero v) ∧
    (ValueKept cfg w (mx v) (.bin .modulo vx (.num F64.f1)) ↔ Whole v) ∧
    (ValueKept cfg w (mx v) (.bin .modulo vx vx) ↔ Finite v ∧ ¬ IsZero v) ∧
    (ValueKept cfg w (mx v) (.bin .power (.num F64.f0) vx) ↔ IsZero (w.powf F64.f0 v)) := by
  have hx := eval_vx w v
  have sx := simplify_vx cfg w
  have hn : ∀ c, eval w (mx v) (.num c) = .ok c := fun c => by rw [eval]
  have sn := simplify_num cfg w
  refine ⟨?_, ?_, ?_, ?_, ?_, ?_, ?_, ?_, ?_, ?_⟩
  · rw [kept_iff (e' := .num F64.f0) (by rw [simplify_bin (sn _) sx]; simp [simpBin, simpTimes, is0_f0])
      (eval_bin (hn _) hx rfl) (hn _), same_zero_iff, finite_iff_mul]
  · rw [kept_iff (e' := .num F64.f0) (by rw [simplify_bin sx (sn _)]; simp [simpBin, simpTimes, is0_f0])
      (eval_bin hx (hn _) rfl) (hn _), same_zero_iff, fmul_comm, finite_iff_mul]
  · rw [kept_iff (e' := .num F64.f0) (by
        rw [simplify_bin (sn _) sx]; simp [simpBin, simpDivide, is0_f0, is0_vx])
      (eval_bin (hn _) hx rfl) (hn _), same_zero_iff, zero_div_iff]
  · rw [kept_iff (e' := .num (.inf false)) (by
        rw [simplify_bin sx (sn _)]; simp [simpBin, simpDivide, is0_f0, is0_vx])
      (eval_bin hx (hn _) rfl) (hn _), ← div_f0]
    constructor
    · intro h; exact (h.symm.of_not_zero not_isZero_inf).symm
    · exact fun h => .inl h
  · rw [kept_iff (e' := .num F64.f0) (by
        rw [simplify_bin sx sx]; simp [simpBin, simpMinus, is0_vx, guardEq, eqE_vx])
      (eval_bin hx hx rfl) (hn _), same_zero_iff, finite_iff_sub]
  · rw [kept_iff (e' := .num F64.f1) (by
        rw [simplify_bin sx sx]; simp [simpBin, simpDivide, is0_vx, is1_vx, guardEq, eqE_vx])
      (eval_bin hx hx rfl) (hn _), div_self_iff]
  · rw [kept_iff (e' := .num F64.f0) (by
        rw [simplify_bin (sn _) sx]; simp [simpBin, simpModulo, is0_f0, is0_vx])
      (eval_bin (hn _) hx rfl) (hn _), same_zero_iff, zero_rem_iff]
  · rw [kept_iff (e' := .num F64.f0) (by
        rw [simplify_bin sx (sn _)]; simp [simpBin, simpModulo, is0_f1, is0_vx, is1_f1])
      (eval_bin hx (hn _) rfl) (hn _), same_zero_iff, rem_one_iff]
  · rw [kept_iff (e' := .num F64.f0) (by
        rw [simplify_bin sx sx]; simp [simpBin, simpModulo, is0_vx, is1_vx, guardEq, eqE_vx])
      (eval_bin hx hx rfl) (hn _), same_zero_iff, rem_self_iff]
  · rw [kept_iff (e' := .num F64.f0) (by
        rw [simplify_bin (sn _) sx]; simp [simpBin, simpPower, is0_vx, is0_f0])
      (eval_bin (hn _) hx rfl) (hn _), same_zero_iff]

/-- C30, the rules that keep every value. -/
theorem C30_sound_rules (cfg : Cfg) (w : World) (hw : PowLaws w) (v : F64) :
    ValueKept cfg w (mx v) (.bin .plus (.num F64.f0) vx) ∧
    ValueKept cfg w (mx v) (.bin .plus vx (.num F64.f0)) ∧
    ValueKept cfg w (mx v) (.bin .minus (.num F64.f0) vx) ∧
    ValueKept cfg w (mx v) (.bin .minus vx (.num F64.f0)) ∧
    ValueKept cfg w (mx v) (.bin .times (.num F64.f1) vx) ∧
    ValueKept cfg w (mx v) (.bin .times vx (.num F64.f1)) ∧
    ValueKept cfg w (mx v) (.bin .divide vx (.num F64.f1)) ∧
    ValueKept cfg w (mx v) (.bin .power vx (.num F64.f1)) ∧
    ValueKept cfg w (mx v) (.bin .modulo vx (.num F64.f0)) := by
  have hx := eval_vx w v
  have sx := simplify_vx cfg w
  have hn : ∀ c, eval w (mx v) (.num c) = .ok c := fun c => by rw [eval]
  have sn := simplify_num cfg w
  refine ⟨?_, ?_, ?_, ?_, ?_, ?_, ?_, ?_, ?_⟩
  · rw [kept_iff (e' := vx) (by rw [simplify_bin (sn _) sx]; simp [simpBin, simpPlus, is0_f0])
      (eval_bin (hn _) hx rfl) hx]
    exact add_zero_left _ _
  · rw [kept_iff (e' := vx) (by
        rw [simplify_bin sx (sn _)]; simp [simpBin, simpPlus, is0_f0, is0_vx])
      (eval_bin hx (hn _) rfl) hx, fadd_comm]
    exact add_zero_left _ _
  · rw [kept_iff (e' := .un .minus vx) (v' := F64.neg v) (by
        rw [simplify_bin (sn _) sx]; simp [simpBin, simpMinus, is0_f0])
      (eval_bin (hn _) hx rfl) (by rw [eval, hx]; rfl)]
    exact zero_sub _ _
  · rw [kept_iff (e' := vx) (by
        rw [simplify_bin sx (sn _)]; simp [simpBin, simpMinus, is0_f0, is0_vx])
      (eval_bin hx (hn _) rfl) hx]
    exact sub_zero _ ⟨_, rfl⟩
  · rw [kept_iff (e' := vx) (by
        rw [simplify_bin (sn _) sx]; simp [simpBin, simpTimes, is0_f1, is0_vx, is1_f1])
      (eval_bin (hn _) hx rfl) hx, mul_one_left]
    exact .refl _
  · rw [kept_iff (e' := vx) (by
        rw [simplify_bin sx (sn _)]; simp [simpBin, simpTimes, is0_f1, is0_vx, is1_f1, is1_vx])
      (eval_bin hx (hn _) rfl) hx, mul_one_right]
    exact .refl _
  · rw [kept_iff (e' := vx) (by
        rw [simplify_bin sx (sn _)]; simp [simpBin, simpDivide, is0_f1, is0_vx, is1_f1])
      (eval_bin hx (hn _) rfl) hx, div_one]
    exact .refl _
  · rw [kept_iff (e' := vx) (by
        rw [simplify_bin sx (sn _)]; simp [simpBin, simpPower, is0_f1, is0_vx, is1_f1])
      (eval_bin hx (hn _) rfl) hx, hw.one]
    exact .refl _
  · rw [kept_iff (e' := .num .nan) (by
        rw [simplify_bin sx (sn _)]; simp [simpBin, simpModulo, is0_f0, is0_vx])
      (eval_bin hx (hn _) rfl) (hn _), rem_zero_right v (b := F64.f0) ⟨false, rfl⟩]
    exact .refl _

/-- C30 as claimed: simplification keeps the value of every tree under every map. -/
def C30_claim : Prop := ∀ (cfg : Cfg) (w : World) (m : HMap F64) (e e' : Elem) (v : F64),
  PowLaws w → simplify cfg w e = .ok e' → eval w m e = .ok v →
  ∃ v', eval w m e' = .ok v' ∧ Same v v'

/-- A world for examples that satisfies the laws of powers. -/
def wPow : World := evenPow w0

theorem wPow_laws : PowLaws wPow := evenPow_laws w0

/-- The float `2.5`. -/
def f25 : F64 := F64.ofDecimal 25 (-1)

/-- C30 is false: `x % 1` becomes `0`, but is `0.5` for `x = 2.5`. -/
theorem C30_refuted : ¬ C30_claim := by
  intro h
  have hs : simplify cfgOpt wPow (.bin .modulo vx (.num F64.f1)) = .ok (.num F64.f0) := by
    decide +kernel
  obtain ⟨v', h1, h2⟩ := h cfgOpt wPow (mx f25) _ _ (F64.ofDecimal 5 (-1)) wPow_laws hs
    (by decide +kernel)
  rw [eval] at h1
  cases h1
  have := same_zero_iff.1 h2
  obtain ⟨s, hs⟩ := this
  cases s <;> revert hs <;> decide +kernel

/-- C30, partial.  Every tree, every map, every configuration.  Missing from the full
statement: evaluations with a doubtful step (an operation `+ - * / %` that yields NaN, a
division by zero, zero to a non-positive power, a fraction modulo one, a function that
sees the sign of a zero), and the sign of a zero result; and, for trees with a `^`, what is
assumed of `powf`. -/
theorem C30_partial (cfg : Cfg) (w : World) (m : HMap F64) (e e' : Elem) (v : F64)
    (hw : NoPower e ∨ PowLaws w) (h : Runs w m e v) (hs : simplify cfg w e = .ok e') :
    eval w m e = .ok v ∧ ∃ v', eval w m e' = .ok v' ∧ Same v v' := by
  obtain ⟨u, hu, hs⟩ := simplify_runs' hw h hs
  exact ⟨runs_eval e h, u, runs_eval e' hu, hs⟩

/-- `(x - x) * 3 + abs(x)` with `x = 2`: runs without a doubtful step to `2`, and is
simplified to `abs(x)`. -/
def keptTree : Elem :=
  .bin .plus (.bin .times (.bin .minus vx vx) (.num (F64.ofNat 3)))
    (.call (Builtin.abs.toFunc) [vx])

theorem kept_runs : Runs wPow (mx (F64.ofNat 2)) keptTree (F64.ofNat 2) := by
  have hx : Runs wPow (mx (F64.ofNat 2)) vx (F64.ofNat 2) := .var rfl
  have h1 : BinStep wPow .minus (F64.ofNat 2) (F64.ofNat 2) F64.f0 := by
    rw [show F64.f0 = F64.sub (F64.ofNat 2) (F64.ofNat 2) by decide +kernel]
    exact .minus (by decide +kernel)
  have h2 : BinStep wPow .times F64.f0 (F64.ofNat 3) F64.f0 := by
    have : F64.f0 = F64.mul F64.f0 (F64.ofNat 3) := by decide +kernel
    conv => arg 5; rw [this]
    exact .times (by decide +kernel)
  have h3 : BinStep wPow .plus F64.f0 (F64.ofNat 2) (F64.ofNat 2) := by
    have : F64.ofNat 2 = F64.add F64.f0 (F64.ofNat 2) := by decide +kernel
    conv => arg 5; rw [this]
    exact .plus (by decide +kernel)
  refine .bin (.bin (.bin hx hx h1) .num h2) (.call (.cons hx .nil) ⟨by decide +kernel, ?_⟩) h3
  intro us hus
  cases hus with
  | cons h hn =>
    cases hn
    refine ⟨F64.ofNat 2, ?_, .refl _⟩
    rw [← h.of_not_zero (by rintro ⟨s, h⟩; cases s <;> revert h <;> decide +kernel)]
    decide +kernel

example : simplify cfgOpt wPow keptTree = .ok (.call (Builtin.abs.toFunc) [vx]) := by
  decide +kernel

/-! ### C29 -/

/-- C29 as claimed. -/
def C29_claim : Prop := ∀ (cfg : Cfg) (w : World) (m : HMap F64) (e e' : Xpr) (x : Bytes)
  (c v : F64), PowLaws w → e.simplifyFor cfg w x c = .ok e' → e.eval w (m.insert x c) = .ok v →
  ∃ v', e'.eval w m = .ok v' ∧ Same v v'

/-- The expression `y % x`. -/
def yModX : Xpr := ⟨.bin .modulo (.var b!"y") vx, [b!"y", b!"x"]⟩

/-- C29 is false: `y % x` simplified for `x = 1` is `0`, but `2.5 % 1` is `0.5`. -/
theorem C29_refuted : ¬ C29_claim := by
  intro h
  have hs : yModX.simplifyFor cfgOpt wPow b!"x" F64.f1 = .ok ⟨.num F64.f0, [b!"y"]⟩ := by
    decide +kernel
  obtain ⟨v', h1, h2⟩ := h cfgOpt wPow (HMap.empty.insert b!"y" f25) _ _ _ _
    (F64.ofDecimal 5 (-1)) wPow_laws hs (by decide +kernel)
  simp only [Xpr.eval, eval] at h1
  cases h1
  obtain ⟨s, hs⟩ := same_zero_iff.1 h2
  cases s <;> revert hs <;> decide +kernel

/-- `y % x` is what the parser makes of that text. -/
example : parse cfgOpt wPow Oracle.id Context.default b!"y % x" = .ok yModX := by decide +kernel

/-- C29, partial (see `C30_partial` for what is missing): every expression, variable,
value and map. -/
theorem C29_partial (cfg : Cfg) (w : World) (m : HMap F64) (e e' : Xpr) (x : Bytes) (c v : F64)
    (hw : NoPower e.root ∨ PowLaws w) (h : Runs w (m.insert x c) e.root v)
    (hs : e.simplifyFor cfg w x c = .ok e') :
    e.eval w (m.insert x c) = .ok v ∧ ∃ v', e'.eval w m = .ok v' ∧ Same v v' := by
  unfold Xpr.simplifyFor at hs
  split at hs
  · cases hs
  · rename_i root hr
    cases hs
    obtain ⟨u, hu, hs⟩ := simplifyFor_runs' hw h hr
    exact ⟨runs_eval _ h, u, runs_eval _ hu, hs⟩

/-- C29 for several variables at once, and repeated names (the first one wins). -/
theorem C29_multiple_partial (cfg : Cfg) (w : World) (m : HMap F64) :
    ∀ (l : List (Bytes × F64)) (e e' : Xpr) (v : F64), (NoPower e.root ∨ PowLaws w) →
      Runs w (l.reverse.foldl (fun m kv => m.insert kv.1 kv.2) m) e.root v →
      e.simplifyForMultiple cfg w l = .ok e' → ∃ v', e'.eval w m = .ok v' ∧ Same v v' := by
  have key : ∀ (l : List (Bytes × F64)) (t : Elem) (vs : List Bytes) (e' : Xpr) (v : F64),
      (NoPower t ∨ PowLaws w) → Runs w (l.reverse.foldl (fun m kv => m.insert kv.1 kv.2) m) t v →
      Xpr.simplifyLoop cfg w l t vs = .ok e' → ∃ v', Runs w m e'.root v' ∧ Same v v' := by
    intro l
    induction l with
    | nil => intro t vs e' v _ hr h; rw [Xpr.simplifyLoop] at h; cases h; exact ⟨v, hr, .refl _⟩
    | cons kv l ih =>
      intro t vs e' v hw hr h
      obtain ⟨x, c⟩ := kv
      rw [Xpr.simplifyLoop] at h
      split at h
      · cases h
      · rename_i t' ht
        rw [List.reverse_cons, List.foldl_append] at hr
        obtain ⟨u, hu, hs⟩ := simplifyFor_runs' hw hr ht
        obtain ⟨u', hu', hs'⟩ := ih t' _ e' u (hw.imp_left fun hp => simplifyFor_noPower hp ht) hu h
        exact ⟨u', hu', hs.trans hs'⟩
  intro l e e' v hw hr h
  obtain ⟨u, hu, hs⟩ := key l e.root e.vars e' v hw hr h
  exact ⟨u, runs_eval _ hu, hs⟩

/-- The tree of `kept_runs` as an expression in `x`. -/
example : ∃ e', Xpr.simplifyFor cfgOpt wPow ⟨keptTree, [b!"x"]⟩ b!"x" (F64.ofNat 2) = .ok e' ∧
    e'.root = .num (F64.ofNat 2) := by
  refine ⟨⟨.num (F64.ofNat 2), []⟩, ?_, rfl⟩
  decide +kernel
example : Runs wPow (HMap.empty.insert b!"x" (F64.ofNat 2)) keptTree (F64.ofNat 2) := kept_runs

/-! ### C34 -/

/-- C34 as claimed: the two orders give expressions that evaluate equally. -/
def C34_claim : Prop := ∀ (cfg : Cfg) (w : World) (m : HMap F64) (e e1 e12 e2 e21 : Xpr)
  (x y : Bytes) (c d v v' : F64), PowLaws w → x ≠ y →
  e.simplifyFor cfg w x c = .ok e1 → e1.simplifyFor cfg w y d = .ok e12 →
  e.simplifyFor cfg w y d = .ok e2 → e2.simplifyFor cfg w x c = .ok e21 →
  e12.eval w m = .ok v → e21.eval w m = .ok v' → Same v v'

/-- The expression `x / y`. -/
def xDivY : Xpr := ⟨.bin .divide vx (.var b!"y"), [b!"x", b!"y"]⟩

/-- C34 is false: `x / y` simplified for `x = 0` and then for `y = 0` is `0`, in the other
order it is infinity. -/
theorem C34_refuted : ¬ C34_claim := by
  intro h
  have := h cfgOpt wPow HMap.empty xDivY ⟨.num F64.f0, [b!"y"]⟩ ⟨.num F64.f0, []⟩
    ⟨.num (.inf false), [b!"x"]⟩ ⟨.num (.inf false), []⟩ b!"x" b!"y" F64.f0 F64.f0 F64.f0
    (.inf false) wPow_laws (by decide) (by decide +kernel) (by decide +kernel) (by decide +kernel)
    (by decide +kernel) (by decide +kernel) (by decide +kernel)
  exact not_isZero_inf (this.isZero.1 ⟨_, rfl⟩)

/-- C34, partial (see `C30_partial` for what is missing). -/
theorem C34_partial (cfg : Cfg) (w : World) (m : HMap F64)
    (e e1 e12 e2 e21 : Xpr) (x y : Bytes) (c d v : F64) (hw : NoPower e.root ∨ PowLaws w) (hxy : x ≠ y)
    (h : Runs w ((m.insert x c).insert y d) e.root v)
    (h1 : e.simplifyFor cfg w x c = .ok e1) (h12 : e1.simplifyFor cfg w y d = .ok e12)
    (h2 : e.simplifyFor cfg w y d = .ok e2) (h21 : e2.simplifyFor cfg w x c = .ok e21) :
    ∃ u u', e12.eval w m = .ok u ∧ e21.eval w m = .ok u' ∧ Same u v ∧ Same u' v ∧ Same u u' := by
  have step : ∀ {m : HMap F64} {a b : Xpr} {x : Bytes} {c v : F64},
      (NoPower a.root ∨ PowLaws w) → Runs w (m.insert x c) a.root v → a.simplifyFor cfg w x c = .ok b →
      (NoPower b.root ∨ PowLaws w) ∧ ∃ u, Runs w m b.root u ∧ Same v u := by
    intro m a b x c v hw h hs
    unfold Xpr.simplifyFor at hs
    split at hs
    · cases hs
    · rename_i root hr
      cases hs
      exact ⟨hw.imp_left fun hp => simplifyFor_noPower hp hr, simplifyFor_runs' hw h hr⟩
  have hswap : (m.insert x c).insert y d = (m.insert y d).insert x c := by
    funext k
    unfold HMap.insert
    by_cases hk : k = x
    · subst hk; simp [hxy]
    · simp [hk]
  have h' := h
  rw [hswap] at h'
  obtain ⟨hwa, a, ha, sa⟩ := step hw h' h1
  obtain ⟨-, u, hu, su⟩ := step hwa ha h12
  obtain ⟨hwb, b, hb, sb⟩ := step hw h h2
  obtain ⟨-, u', hu', su'⟩ := step hwb hb h21
  have s1 := (sa.trans su).symm
  have s2 := (sb.trans su').symm
  exact ⟨u, u', runs_eval _ hu, runs_eval _ hu', s1, s2, s1.trans s2.symm⟩

/-- `x / y` with `x = 3` and `y = 2` meets the hypothesis of `C34_partial`. -/
example : Runs wPow ((HMap.empty.insert b!"x" (F64.ofNat 3)).insert b!"y" (F64.ofNat 2))
    xDivY.root (F64.ofDecimal 15 (-1)) := by
  rw [show F64.ofDecimal 15 (-1) = F64.div (F64.ofNat 3) (F64.ofNat 2) by decide +kernel]
  exact .bin (.var rfl) (.var rfl) (.divide (by decide +kernel)
    (by rintro ⟨s, h⟩; cases s <;> revert h <;> decide +kernel))

end Props
end Xprs
