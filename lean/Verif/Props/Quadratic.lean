import Verif.Spec.Quadratic
import Verif.Props.WholeRoot
import Mathlib.Data.Rat.Lemmas
import Mathlib.Algebra.Group.Int.Even
/-
Property C134: quadratic equations with whole coefficients.
-/
namespace Xprs
namespace Props
open _root_.Xprs.Spec
set_option exponentiation.threshold 4096

/-- What is under the root. -/
def discF (x y z : F64) : F64 := F64.sub (F64.mul y y) (F64.mul (F64.mul (F64.ofNat 4) x) z)

def solveF (op : F64 → F64 → F64) (x y z : F64) : F64 :=
  F64.div (op (F64.neg y) (F64.sqrt (discF x y z))) (F64.mul (F64.ofNat 2) x)

theorem two_value : value (F64.ofNat 2) = some 2 := by decide +kernel
theorem four_value : value (F64.ofNat 4) = some 4 := by decide +kernel

section
variable {A B C : ℤ} {x y z : F64} (h : Coefficients A B C x y z)
include h

theorem coeff_b : |B| < 2 ^ 26 := by
  have h1 := h.disc
  have h2 : 0 ≤ |A * C| := _root_.abs_nonneg _
  by_contra hc
  have h3 : (2 : ℤ) ^ 26 * 2 ^ 26 ≤ |B| * |B| := mul_le_mul (not_lt.1 hc) (not_lt.1 hc) (by norm_num) (_root_.abs_nonneg _)
  rw [abs_mul_abs_self] at h3
  linarith [show (2 : ℤ) ^ 26 * 2 ^ 26 = 2 ^ 52 by norm_num]

theorem disc_steps : value (F64.mul y y) = some ((B * B : ℤ) : ℚ) ∧
    value (F64.mul (F64.ofNat 4) x) = some ((4 * A : ℤ) : ℚ) ∧
    value (F64.mul (F64.mul (F64.ofNat 4) x) z) = some ((4 * A * C : ℤ) : ℚ) ∧
    value (discF x y z) = some ((B * B - 4 * A * C : ℤ) : ℚ) ∧
    value (F64.mul (F64.ofNat 2) x) = some ((2 * A : ℤ) : ℚ) := by
  have hd := h.disc
  have hb := mul_self_nonneg B
  have ha := abs_lt.1 h.first
  have hc1 := le_abs_self (A * C)
  have hc2 := neg_abs_le (A * C)
  have e1 := mul_exact h.b h.b (by
    have := inF64_int (k := B * B) (by rw [abs_lt]; constructor <;> linarith)
    push_cast at this; exact this)
  have e2 := mul_exact four_value h.a (by
    have := inF64_int (k := 4 * A) (by rw [abs_lt]; omega)
    push_cast at this; exact this)
  have e3 := mul_exact e2 h.c (by
    have := inF64_int (k := 4 * A * C) (by rw [abs_lt, mul_assoc]; constructor <;> linarith)
    push_cast at this; exact this)
  have e4 := sub_exact e1 e3 (by
    have := inF64_int (k := B * B - 4 * A * C) (by rw [abs_lt, mul_assoc]; constructor <;> linarith)
    push_cast at this; exact this)
  have e5 := mul_exact two_value h.a (by
    have := inF64_int (k := 2 * A) (by rw [abs_lt]; omega)
    push_cast at this; exact this)
  push_cast
  exact ⟨e1, e2, e3, e4, e5⟩

/-- The root of a square is exact, and what is divided too. -/
theorem solve_steps {k : ℕ} (hk : (k : ℤ) * k = B * B - 4 * A * C) :
    value (F64.sqrt (discF x y z)) = some (k : ℚ) ∧
    value (F64.add (F64.neg y) (F64.sqrt (discF x y z))) = some (-(B : ℚ) + k) ∧
    value (F64.sub (F64.neg y) (F64.sqrt (discF x y z))) = some (-(B : ℚ) - k) := by
  obtain ⟨-, -, -, e4, -⟩ := disc_steps h
  have hd := h.disc
  have hc1 := le_abs_self (A * C)
  have hc2 := neg_abs_le (A * C)
  have hb := abs_lt.1 (coeff_b h)
  have hn : k * k < 2 ^ 52 := by
    have : (k : ℤ) * k < 2 ^ 52 := by rw [hk, mul_assoc]; linarith
    exact_mod_cast this
  have hkk : k < 2 ^ 26 := by
    by_contra hc
    have : 2 ^ 26 * 2 ^ 26 ≤ k * k := Nat.mul_le_mul (not_lt.1 hc) (not_lt.1 hc)
    omega
  have ed : value (discF x y z) = some ((k * k : ℕ) : ℚ) := by
    rw [e4, ← hk]; push_cast; rfl
  obtain ⟨r, hr, -⟩ := sqrt_value ed (Nat.cast_nonneg _)
  have hrk := (root_square ed hr hn k).2 ⟨by omega, by push_cast; rfl⟩
  rw [hrk, Int.cast_natCast] at hr
  refine ⟨hr, add_exact (neg_value h.b) hr ?_, sub_exact (neg_value h.b) hr ?_⟩
  · have := inF64_int (k := -B + k) (by rw [abs_lt]; omega)
    push_cast at this; exact this
  · have := inF64_int (k := -B - k) (by rw [abs_lt]; omega)
    push_cast at this; exact this

theorem solve_all {k : ℕ} (hk : (k : ℤ) * k = B * B - 4 * A * C) (X : ℚ) :
    (A : ℚ) * (X * X) + B * X + C = 0 ↔ X = (-(B : ℚ) + k) / ((2 * A : ℤ) : ℚ) ∨ X = (-(B : ℚ) - k) / ((2 * A : ℤ) : ℚ) := by
  have hA : (A : ℚ) ≠ 0 := by exact_mod_cast h.ne
  have hA2 : ((2 * A : ℤ) : ℚ) ≠ 0 := by exact_mod_cast mul_ne_zero (by norm_num) h.ne
  have hkq : (k : ℚ) * k = B * B - 4 * A * C := by exact_mod_cast hk
  rw [eq_div_iff hA2, eq_div_iff hA2]
  push_cast
  have e : 4 * (A : ℚ) * (A * (X * X) + B * X + C) = (X * (2 * A) - (-B + k)) * (X * (2 * A) - (-B - k)) := by
    linear_combination hkq
  have : A * (X * X) + B * X + C = 0 ↔ 4 * (A : ℚ) * (A * (X * X) + B * X + C) = 0 := by
    constructor
    · intro h; rw [h, mul_zero]
    · intro h; exact (mul_eq_zero.1 h).resolve_left (mul_ne_zero (by norm_num) hA)
  rw [this, e, mul_eq_zero, sub_eq_zero, sub_eq_zero]

omit h in
/-- If there is a rational solution, what is under the root is a square. -/
theorem solve_square {X : ℚ} (hX : (A : ℚ) * (X * X) + B * X + C = 0) :
    ∃ k : ℕ, (k : ℤ) * k = B * B - 4 * A * C := by
  have : IsSquare (((B * B - 4 * A * C : ℤ)) : ℚ) := by
    refine ⟨2 * A * X + B, ?_⟩
    push_cast
    linear_combination (-4 * (A : ℚ)) * hX
  obtain ⟨r, hr⟩ := Rat.isSquare_intCast_iff.1 this
  exact ⟨r.natAbs, by rw [hr, Int.natAbs_mul_self']⟩

theorem solve_solutions {X : ℚ} (hX : (A : ℚ) * (X * X) + B * X + C = 0) :
    Solutions A B C (solveF F64.add x y z) (solveF F64.sub x y z) := by
  obtain ⟨k, hk⟩ := solve_square hX
  obtain ⟨-, e1, e2⟩ := solve_steps h hk
  obtain ⟨-, -, -, -, e5⟩ := disc_steps h
  have hA2 : ((2 * A : ℤ) : ℚ) ≠ 0 := by exact_mod_cast mul_ne_zero (by norm_num) h.ne
  exact ⟨_, _, _root_.Xprs.div_rounds e1 e5 hA2, _root_.Xprs.div_rounds e2 e5 hA2, solve_all h hk⟩

end

theorem solve_eval {w : World} {m : HMap F64} {a b c : Elem} {x y z : F64} (ha : eval w m a = .ok x)
    (hb : eval w m b = .ok y) (hc : eval w m c = .ok z) :
    eval w m (solveTree .plus a b c) = .ok (solveF F64.add x y z) ∧
      eval w m (solveTree .minus a b c) = .ok (solveF F64.sub x y z) := by
  have h4 : eval w m (.num (F64.ofNat 4)) = .ok (F64.ofNat 4) := by rw [eval]
  have h2 : eval w m (.num (F64.ofNat 2)) = .ok (F64.ofNat 2) := by rw [eval]
  have hbb : eval w m (.bin .times b b) = .ok (F64.mul y y) := eval_bin_ok.2 ⟨_, _, hb, hb, rfl⟩
  have h4a : eval w m (.bin .times (.num (F64.ofNat 4)) a) = .ok (F64.mul (F64.ofNat 4) x) :=
    eval_bin_ok.2 ⟨_, _, h4, ha, rfl⟩
  have hac : eval w m (.bin .times (.bin .times (.num (F64.ofNat 4)) a) c) = .ok (F64.mul (F64.mul (F64.ofNat 4) x) z) :=
    eval_bin_ok.2 ⟨_, _, h4a, hc, rfl⟩
  have hs : eval w m (.bin .minus (.bin .times b b) (.bin .times (.bin .times (.num (F64.ofNat 4)) a) c)) =
      .ok (discF x y z) := eval_bin_ok.2 ⟨_, _, hbb, hac, rfl⟩
  have hd := app_eval (b := .sqrt) (v := F64.sqrt (discF x y z)) hs rfl
  have hn : eval w m (.un .minus b) = .ok (F64.neg y) := eval_un_ok.2 ⟨_, hb, rfl⟩
  have ht : eval w m (.bin .times (.num (F64.ofNat 2)) a) = .ok (F64.mul (F64.ofNat 2) x) :=
    eval_bin_ok.2 ⟨_, _, h2, ha, rfl⟩
  exact ⟨eval_bin_ok.2 ⟨_, _, eval_bin_ok.2 ⟨_, _, hn, hd, rfl⟩, ht, rfl⟩,
    eval_bin_ok.2 ⟨_, _, eval_bin_ok.2 ⟨_, _, hn, hd, rfl⟩, ht, rfl⟩⟩

/-- C134: if a quadratic equation with whole coefficients has a rational solution, the two formulas give all its
solutions, each rounded once. -/
theorem C134_solve (w : World) (m : HMap F64) (a b c : Elem) (x y z : F64) (A B C : ℤ) (ha : eval w m a = .ok x)
    (hb : eval w m b = .ok y) (hc : eval w m c = .ok z) (h : Coefficients A B C x y z) (X : ℚ)
    (hX : (A : ℚ) * (X * X) + B * X + C = 0) :
    ∃ u v, eval w m (solveTree .plus a b c) = .ok u ∧ eval w m (solveTree .minus a b c) = .ok v ∧ Solutions A B C u v := by
  obtain ⟨h1, h2⟩ := solve_eval ha hb hc
  exact ⟨_, _, h1, h2, solve_solutions h hX⟩

/-- C134: a solution that is a number of `f64` is found exactly, with `+` where `2·A·X + B` is positive. -/
theorem C134_exact (w : World) (m : HMap F64) (a b c : Elem) (x y z : F64) (A B C : ℤ) (ha : eval w m a = .ok x)
    (hb : eval w m b = .ok y) (hc : eval w m c = .ok z) (h : Coefficients A B C x y z) (X : ℚ)
    (hX : (A : ℚ) * (X * X) + B * X + C = 0) (hf : InF64 X) :
    (0 ≤ 2 * A * X + B → ∃ v, eval w m (solveTree .plus a b c) = .ok v ∧ value v = some X) ∧
      (2 * A * X + B ≤ 0 → ∃ v, eval w m (solveTree .minus a b c) = .ok v ∧ value v = some X) := by
  obtain ⟨h1, h2⟩ := solve_eval ha hb hc
  obtain ⟨k, hk⟩ := solve_square hX
  obtain ⟨-, s2, s3⟩ := solve_steps h hk
  obtain ⟨-, -, -, -, e5⟩ := disc_steps h
  have hA2 : ((2 * A : ℤ) : ℚ) ≠ 0 := by exact_mod_cast mul_ne_zero (by norm_num) h.ne
  have hs := (solve_all h hk X).1 hX
  have k0 : (0 : ℚ) ≤ k := Nat.cast_nonneg _
  rw [eq_div_iff hA2, eq_div_iff hA2] at hs
  push_cast at hs
  constructor
  · intro h'
    have e : X = (-(B : ℚ) + k) / ((2 * A : ℤ) : ℚ) := by
      rw [eq_div_iff hA2]
      push_cast
      rcases hs with hs | hs <;> linarith
    refine ⟨_, h1, ?_⟩
    rw [e] at hf ⊢
    exact value_of_rounds (_root_.Xprs.div_rounds s2 e5 hA2) hf
  · intro h'
    have e : X = (-(B : ℚ) - k) / ((2 * A : ℤ) : ℚ) := by
      rw [eq_div_iff hA2]
      push_cast
      rcases hs with hs | hs <;> linarith
    refine ⟨_, h2, ?_⟩
    rw [e] at hf ⊢
    exact value_of_rounds (_root_.Xprs.div_rounds s3 e5 hA2) hf

theorem under_root {A B C : ℤ} (hA : A ≠ 0) : (∃ X : ℝ, (A : ℝ) * (X * X) + B * X + C = 0) ↔ 0 ≤ B * B - 4 * A * C := by
  have hA' : (A : ℝ) ≠ 0 := by exact_mod_cast hA
  constructor
  · rintro ⟨X, hX⟩
    have e : (2 * A * X + B) * (2 * A * X + B) = ((B * B - 4 * A * C : ℤ) : ℝ) := by
      push_cast
      linear_combination (4 * (A : ℝ)) * hX
    have := mul_self_nonneg (2 * A * X + B : ℝ)
    rw [e] at this
    exact_mod_cast this
  · intro h
    have h' : (0 : ℝ) ≤ ((B * B - 4 * A * C : ℤ) : ℝ) := by exact_mod_cast h
    have e := Real.mul_self_sqrt h'
    generalize √((B * B - 4 * A * C : ℤ) : ℝ) = s at e
    push_cast at e
    refine ⟨(-B + s) / (2 * A), ?_⟩
    field_simp
    linear_combination e

theorem rounds_number' {q : ℚ} {v : F64} (h : RoundsTo q v) : v ≠ .nan := by
  rintro rfl
  obtain ⟨⟨N, D, -, -, n, -, h⟩, -⟩ := h
  rcases h with ⟨-, hr, h⟩ | ⟨-, h⟩ <;> cases h

theorem over_number {u t : F64} {q : ℚ} (hu : u ≠ .nan) (ht : value t = some q) (hq : q ≠ 0) : F64.div u t ≠ .nan := by
  cases u with
  | nan => exact absurd rfl hu
  | inf s =>
    obtain ⟨s', n, hn, rfl, -⟩ := value_some ht
    rintro ⟨⟩
  | fin s n hn => exact rounds_number' (_root_.Xprs.div_rounds (value_fin s hn) ht hq)

theorem sqrt_below_zero {d : F64} {q : ℚ} (hd : value d = some q) (hq : q < 0) : F64.sqrt d = .nan := by
  have k := roots d
  generalize F64.sqrt d = v at k
  cases k with
  | zero h => rw [hd] at h; cases h; exact absurd hq (lt_irrefl _)
  | negative h h' => rfl
  | positive h h' => rw [hd] at h; cases h; exact absurd (hq.trans h') (lt_irrefl _)
  | _ => cases hd

/-- C134: both formulas are NaN exactly when the equation has no real solution. -/
theorem C134_none (w : World) (m : HMap F64) (a b c : Elem) (x y z : F64) (A B C : ℤ) (ha : eval w m a = .ok x)
    (hb : eval w m b = .ok y) (hc : eval w m c = .ok z) (h : Coefficients A B C x y z) (op : Op)
    (ho : op = .plus ∨ op = .minus) :
    eval w m (solveTree op a b c) = .ok .nan ↔ ¬ ∃ X : ℝ, (A : ℝ) * (X * X) + B * X + C = 0 := by
  obtain ⟨h1, h2⟩ := solve_eval ha hb hc
  obtain ⟨-, -, -, e4, e5⟩ := disc_steps h
  rw [under_root h.ne]
  have hA2 : ((2 * A : ℤ) : ℚ) ≠ 0 := by exact_mod_cast mul_ne_zero (by norm_num) h.ne
  have key : ∀ f : F64 → F64 → F64, (∀ u, f u .nan = .nan) →
      (∀ {u t : F64} {p q : ℚ}, value u = some p → value t = some q → f u t ≠ .nan) →
      (solveF f x y z = .nan ↔ ¬ 0 ≤ B * B - 4 * A * C) := by
    intro f hf1 hf2
    constructor
    · intro hv hd
      have hd' : (0 : ℚ) ≤ ((B * B - 4 * A * C : ℤ) : ℚ) := by exact_mod_cast hd
      obtain ⟨r, hr, -⟩ := sqrt_value e4 hd'
      exact over_number (hf2 (neg_value h.b) hr) e5 hA2 hv
    · intro hd
      have hd' : ((B * B - 4 * A * C : ℤ) : ℚ) < 0 := by exact_mod_cast not_le.1 hd
      rw [solveF, sqrt_below_zero e4 hd', hf1]
      rfl
  rcases ho with rfl | rfl
  · rw [h1, ← key F64.add (by intro u; cases u <;> rfl) fun hu ht => rounds_number' (add_rounds hu ht)]
    exact ⟨fun h => Except.ok.inj h, fun h => by rw [h]⟩
  · rw [h2, ← key F64.sub (by intro u; cases u <;> rfl) fun hu ht => rounds_number' (sub_rounds hu ht)]
    exact ⟨fun h => Except.ok.inj h, fun h => by rw [h]⟩

theorem solve_runs {w : World} {m : HMap F64} {a b c : Elem} {x y z : F64} {A B C : ℤ} (ha : Runs w m a x)
    (hb : Runs w m b y) (hc : Runs w m c z) (h : Coefficients A B C x y z) {X : ℚ}
    (hX : (A : ℚ) * (X * X) + B * X + C = 0) :
    Runs w m (solveTree .plus a b c) (solveF F64.add x y z) ∧ Runs w m (solveTree .minus a b c) (solveF F64.sub x y z) := by
  obtain ⟨k, hk⟩ := solve_square hX
  obtain ⟨-, s2, s3⟩ := solve_steps h hk
  obtain ⟨e1, e2, e3, e4, e5⟩ := disc_steps h
  have hA2 : ((2 * A : ℤ) : ℚ) ≠ 0 := by exact_mod_cast mul_ne_zero (by norm_num) h.ne
  have hd : Runs w m (app .sqrt (.bin .minus (.bin .times b b) (.bin .times (.bin .times (.num (F64.ofNat 4)) a) c)))
      (F64.sqrt (discF x y z)) :=
    .call (.cons (.bin (.bin hb hb (.times (ne_nan' e1))) (.bin (.bin .num ha (.times (ne_nan' e2))) hc
      (.times (ne_nan' e3))) (.minus (ne_nan' e4))) .nil) (sqrt_step w _)
  have ht : Runs w m (.bin .times (.num (F64.ofNat 2)) a) (F64.mul (F64.ofNat 2) x) := .bin .num ha (.times (ne_nan' e5))
  exact ⟨.bin (.bin (.un hb .minus) hd (.plus (ne_nan' s2))) ht
      (.divide (over_number (ne_nan' s2) e5 hA2) (not_zero_of_value e5 hA2)),
    .bin (.bin (.un hb .minus) hd (.minus (ne_nan' s3))) ht
      (.divide (over_number (ne_nan' s3) e5 hA2) (not_zero_of_value e5 hA2))⟩

theorem solves_runs {w : World} {m : HMap F64} {e : Elem} {q : ℚ} (h : Solves w m e q) :
    ∃ v, Runs w m e v ∧ RoundsTo q v := by
  obtain ⟨a, b, c, x, y, z, A, B, C, ha, hb, hc, h, hq, he⟩ := h
  obtain ⟨r1, r2⟩ := solve_runs ha hb hc h hq
  obtain ⟨k, hk⟩ := solve_square hq
  obtain ⟨-, s2, s3⟩ := solve_steps h hk
  obtain ⟨-, -, -, -, e5⟩ := disc_steps h
  have hA2 : ((2 * A : ℤ) : ℚ) ≠ 0 := by exact_mod_cast mul_ne_zero (by norm_num) h.ne
  have hs := (solve_all h hk q).1 hq
  have k0 : (0 : ℚ) ≤ k := Nat.cast_nonneg _
  rw [eq_div_iff hA2, eq_div_iff hA2] at hs
  push_cast at hs
  rcases he with ⟨rfl, h1⟩ | ⟨rfl, h1⟩
  · refine ⟨_, r1, ?_⟩
    have e : q = (-(B : ℚ) + k) / ((2 * A : ℤ) : ℚ) := by
      rw [eq_div_iff hA2]
      push_cast
      rcases hs with hs | hs <;> linarith
    rw [e]
    exact _root_.Xprs.div_rounds s2 e5 hA2
  · refine ⟨_, r2, ?_⟩
    have e : q = (-(B : ℚ) - k) / ((2 * A : ℤ) : ℚ) := by
      rw [eq_div_iff hA2]
      push_cast
      rcases hs with hs | hs <;> linarith
    rw [e]
    exact _root_.Xprs.div_rounds s3 e5 hA2

/-- C134: simplification, in every build, keeps the solutions. -/
theorem C134_simplified (cfg : Cfg) (w : World) (m : HMap F64) (e e' : Elem) (q : ℚ) (h : Solves w m e q)
    (hw : NoPower e ∨ PowLaws w) (hs : simplify cfg w e = .ok e') :
    ∃ u v, eval w m e = .ok v ∧ eval w m e' = .ok u ∧ RoundsTo q v ∧ Same v u ∧ (InF64 q → value u = some q) := by
  obtain ⟨v, h1, h2⟩ := solves_runs h
  obtain ⟨u, h4, h5⟩ := simplify_runs' hw h1 hs
  exact ⟨u, v, runs_eval _ h1, runs_eval _ h4, h2, h5, fun hq => value_same (value_of_rounds h2 hq) h5⟩

/-- C134: the same for `simplify_for`. -/
theorem C134_fixed (cfg : Cfg) (w : World) (m : HMap F64) (e e' : Xpr) (n : Bytes) (c : F64) (q : ℚ)
    (hw : NoPower e.root ∨ PowLaws w) (h : Solves w (m.insert n c) e.root q) (hs : e.simplifyFor cfg w n c = .ok e') :
    ∃ u v, e'.eval w m = .ok u ∧ RoundsTo q v ∧ Same v u ∧ (InF64 q → value u = some q) := by
  obtain ⟨v, h1, h2⟩ := solves_runs h
  obtain ⟨-, u, h4, h5⟩ := C29_partial cfg w m e e' n c v hw h1 hs
  exact ⟨u, v, h4, h2, h5, fun hq => value_same (value_of_rounds h2 hq) h5⟩

/-- C134 for texts, in every build. -/
theorem C134_builds (cfg cfg' : Cfg) (w : World) (o o' : Oracle) (ctx : Context) (input : Bytes)
    (x y : Xpr) (m : HMap F64) (q : ℚ) (hp : cfg.pejmdas = cfg'.pejmdas) (ho : cfg.opt = false)
    (hw : NoPower x.root ∨ PowLaws w) (hn : ∀ ts, Lex input ts → ParensApart ts)
    (h : parse cfg w o ctx input = .ok x) (h' : parse cfg' w o' ctx input = .ok y) (hd : Solves w m x.root q) :
    ∃ u v, x.eval w m = .ok v ∧ y.eval w m = .ok u ∧ RoundsTo q v ∧ Same v u ∧ (InF64 q → value u = some q) := by
  obtain ⟨v, h1, h2⟩ := solves_runs hd
  obtain ⟨h4, u, h5, h6⟩ := C16_value_partial cfg cfg' w o o' ctx input x y m v hp ho hw hn h h' h1
  exact ⟨u, v, h4, h5, h2, h6, fun hq => value_same (value_of_rounds h2 hq) h6⟩

/-- `6·X² − 5·X − 1 = 0` has the solutions `1` and `−1/6`: the text as it is read without optimisation, the solution
`1`, and its value in both builds. -/
example : parse0 cfgPlain b!"(-x+sqrt(x*x-4*6*(-1)))/(2*6)" =
      .ok ⟨solveTree .plus (.num (F64.ofNat 6)) vx (.un .minus (.num F64.f1)), [b!"x"]⟩ ∧
    Solves w0 (mx (F64.neg (F64.ofNat 5))) (solveTree .plus (.num (F64.ofNat 6)) vx (.un .minus (.num F64.f1))) 1 ∧
    Solves w0 (mx (F64.neg (F64.ofNat 5))) (solveTree .minus (.num (F64.ofNat 6)) vx (.un .minus (.num F64.f1))) (-1 / 6) ∧
    (∀ c ∈ [cfgPlain, cfgOpt], (match parse0 c b!"(-x+sqrt(x*x-4*6*(-1)))/(2*6)" with
      | .ok x => decide (x.eval w0 (mx (F64.neg (F64.ofNat 5))) = .ok F64.f1)
      | _ => false) = true) := by
  have hc : Coefficients 6 (-5) (-1) (F64.ofNat 6) (F64.neg (F64.ofNat 5)) (F64.neg F64.f1) :=
    ⟨by decide +kernel, by decide +kernel, by decide +kernel, by decide, by decide, by decide⟩
  refine ⟨by decide +kernel, ?_, ?_, by decide +kernel⟩
  · exact ⟨_, _, _, _, _, _, _, _, _, .num, .var rfl, .un .num .minus, hc, by norm_num, .inl ⟨rfl, by norm_num⟩⟩
  · exact ⟨_, _, _, _, _, _, _, _, _, .num, .var rfl, .un .num .minus, hc, by norm_num, .inr ⟨rfl, by norm_num⟩⟩

/-- No solution: `X² + X + 1 = 0`. -/
example : eval w0 (mx F64.f1) (solveTree .plus (.num F64.f1) vx (.num F64.f1)) = .ok .nan ∧
    eval w0 (mx F64.f1) (solveTree .minus (.num F64.f1) vx (.num F64.f1)) = .ok .nan := by
  constructor <;> decide +kernel

/-- The bound is needed: `X² − (2²⁷ + 1)·X + 2⁵² + 2²⁶ = 0` has the solutions `2²⁶` and `2²⁶ + 1`, but the square
is rounded, nothing is left under the root, and both formulas give the number in the middle. -/
example : ((2 : ℚ) ^ 26) * 2 ^ 26 - (2 ^ 27 + 1) * 2 ^ 26 + (2 ^ 52 + 2 ^ 26) = 0 ∧
    (∀ op ∈ [Op.plus, Op.minus],
      eval w0 (mx (F64.neg (F64.ofNat (2 ^ 27 + 1)))) (solveTree op (.num F64.f1) vx (.num (F64.ofNat (2 ^ 52 + 2 ^ 26)))) =
        .ok (F64.div (F64.ofNat (2 ^ 27 + 1)) (F64.ofNat 2))) ∧
    value (F64.div (F64.ofNat (2 ^ 27 + 1)) (F64.ofNat 2)) = some (2 ^ 26 + 1 / 2) := by
  refine ⟨by norm_num, by decide +kernel, by decide +kernel⟩

end Props
end Xprs
