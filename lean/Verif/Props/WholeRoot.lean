import Verif.Spec.WholeRoot
import Verif.Props.Hypot
import Verif.Props.Whole
import Verif.Props.Single
/-
Property C133: whole parts of square roots.
-/
namespace Xprs
namespace Props
open _root_.Xprs.Spec
set_option exponentiation.threshold 4096

/-- Multiples of a small power of two with few digits. -/
theorem inF64_parts (t : ℕ) (ht : t ≤ 1074) {z : ℤ} (h : |z| < 2 ^ 53) : InF64 ((z : ℚ) / 2 ^ t) := by
  have e : ((z * 2 ^ (1074 - t) : ℤ) : ℚ) / 2 ^ 1074 = (z : ℚ) / 2 ^ t := by
    have : (2 : ℚ) ^ 1074 = 2 ^ t * 2 ^ (1074 - t) := by rw [← pow_add, Nat.add_sub_cancel' ht]
    push_cast
    rw [this]
    exact mul_div_mul_right _ _ (by positivity)
  rw [← e]
  refine inF64_of_gridZ ⟨z, 1074 - t, h, rfl⟩ ?_
  rw [abs_mul, abs_of_pos (show (0 : ℤ) < 2 ^ (1074 - t) by positivity)]
  calc |z| * 2 ^ (1074 - t) < 2 ^ 53 * 2 ^ (1074 - t) := mul_lt_mul_of_pos_right h (by positivity)
    _ = 2 ^ (53 + (1074 - t)) := by rw [← pow_add]
    _ ≤ 2 ^ 2098 := pow_le_pow_right₀ (by norm_num) (by omega)

/-- The root of a number lies on the same side of `q` as the number does of the square of `q`. -/
theorem root_side {x : F64} {p r q : ℚ} (hx : value x = some p) (hr : value (F64.sqrt x) = some r)
    (hq : InF64 q) (h1 : 1 / 2 ^ 30 ≤ q) (h2 : q ≤ 2 ^ 30) : (p ≤ q * q → r ≤ q) ∧ (q * q ≤ p → q ≤ r) := by
  obtain ⟨y, hy⟩ := hq
  have hm := _root_.Xprs.mul_rounds hy hy
  have q0 : 0 < q := lt_of_lt_of_le (by norm_num) h1
  have b1 : (1 : ℚ) / 2 ^ 60 ≤ q * q := by
    calc (1 : ℚ) / 2 ^ 60 = (1 / 2 ^ 30) * (1 / 2 ^ 30) := by norm_num
      _ ≤ q * q := mul_le_mul h1 h1 (by norm_num) q0.le
  have b2 : q * q ≤ 2 ^ 60 := by
    calc q * q ≤ 2 ^ 30 * 2 ^ 30 := mul_le_mul h2 h2 q0.le (by norm_num)
      _ = 2 ^ 60 := by norm_num
  have t1 : (1 : ℚ) / 2 ^ 1022 ≤ 1 / 2 ^ 60 :=
    one_div_le_one_div_of_le (by norm_num) (pow_le_pow_right₀ (by norm_num) (by norm_num))
  have t2 : (2 : ℚ) ^ 60 ≤ 2 ^ 1023 := pow_le_pow_right₀ (by norm_num) (by norm_num)
  have ha : |q * q| = q * q := abs_of_pos (by positivity)
  obtain ⟨s, vs, -⟩ := round_within hm (by rw [ha]; linarith) (by rw [ha]; linarith)
  have e := sqrt_square hy vs (by linarith)
  have vy : value (F64.sqrt (F64.mul y y)) = some q := by
    rw [e, (abs_value hy).1, abs_of_pos q0]
  constructor
  · intro h
    exact leF_values (sqrt_mono (roundsTo_mono (rounds_self hx) hm h) (ne_nan' hr) (ne_nan' vy)) hr vy
  · intro h
    exact leF_values (sqrt_mono (roundsTo_mono hm (rounds_self hx) h) (ne_nan' vy) (ne_nan' hr)) vy hr

theorem root_zero {x : F64} (hx : value x = some 0) : value (F64.sqrt x) = some 0 := by
  have k := roots x
  generalize F64.sqrt x = v at k
  cases k with
  | zero h => exact h
  | negative h h' => rw [hx] at h; cases h; exact absurd h' (lt_irrefl _)
  | positive h h' => rw [hx] at h; cases h; exact absurd h' (lt_irrefl _)
  | _ => cases hx

/-- Between which whole numbers the computed root lies. -/
theorem root_between {x : F64} {n : ℕ} {r : ℚ} (hx : value x = some (n : ℚ)) (hr : value (F64.sqrt x) = some r)
    (hn : n < 2 ^ 52) (k : ℕ) :
    (k * k ≤ n → (k : ℚ) ≤ r) ∧ (n < k * k → r < k) ∧ (n ≤ k * k → r ≤ k) ∧ (k * k < n → (k : ℚ) < r) := by
  have hp : (0 : ℚ) ≤ n := Nat.cast_nonneg _
  have h0 : 0 ≤ r := by
    obtain ⟨r', h, h'⟩ := sqrt_value hx hp
    rw [hr] at h; cases h; exact h'
  have hle : ∀ j : ℕ, 1 ≤ j → j ≤ 2 ^ 26 → ((n : ℚ) ≤ j * j → r ≤ j) ∧ ((j : ℚ) * j ≤ n → (j : ℚ) ≤ r) := by
    intro j j1 j2
    have k1 : (1 : ℚ) ≤ j := by exact_mod_cast j1
    have k2 : (j : ℚ) ≤ 2 ^ 26 := by exact_mod_cast j2
    have hi : InF64 ((j : ℤ) : ℚ) := inF64_int (by rw [abs_lt]; omega)
    rw [Int.cast_natCast] at hi
    exact root_side hx hr hi (by linarith) (by linarith)
  have hz : n = 0 → r = 0 := by
    rintro rfl
    have := root_zero (by simpa using hx)
    rw [hr] at this
    exact Option.some.inj this
  have hkn : k * k ≤ n → k < 2 ^ 26 := by
    intro h
    by_contra hc
    have : 2 ^ 26 * 2 ^ 26 ≤ k * k := Nat.mul_le_mul (not_lt.1 hc) (not_lt.1 hc)
    omega
  have hbig : r ≤ 2 ^ 26 := by
    have hnq : (n : ℚ) ≤ ((2 ^ 26 : ℕ) : ℚ) * ((2 ^ 26 : ℕ) : ℚ) := by
      have : (n : ℚ) < 2 ^ 52 := by exact_mod_cast hn
      norm_num at this ⊢; linarith
    have := (hle (2 ^ 26) (by norm_num) le_rfl).1 hnq
    exact_mod_cast this
  have hlt : n < k * k → r < k := by
    intro h
    rcases Nat.lt_or_ge (2 ^ 26) k with hk | hk
    · have : ((2 : ℚ) ^ 26) < k := by exact_mod_cast hk
      linarith
    · have k1 : 1 ≤ k := by
        rcases Nat.eq_zero_or_pos k with rfl | h'
        · omega
        · exact h'
      have q1 : (1 : ℚ) ≤ k := by exact_mod_cast k1
      have q2 : (k : ℚ) ≤ 2 ^ 26 := by exact_mod_cast hk
      have q3 : (n : ℚ) + 1 ≤ k * k := by exact_mod_cast h
      have hj : InF64 ((((k : ℤ) * 2 ^ 27 - 1 : ℤ) : ℚ) / 2 ^ 27) :=
        inF64_parts 27 (by norm_num) (by rw [abs_lt]; omega)
      have e : ((((k : ℤ) * 2 ^ 27 - 1 : ℤ) : ℚ) / 2 ^ 27) = k - 1 / 2 ^ 27 := by push_cast; ring
      rw [e] at hj
      have := (root_side hx hr hj (by norm_num; linarith) (by norm_num; linarith)).1 (by nlinarith)
      have : (0 : ℚ) < 1 / 2 ^ 27 := by norm_num
      linarith
  refine ⟨fun h => ?_, hlt, fun h => ?_, fun h => ?_⟩
  · rcases Nat.eq_zero_or_pos k with rfl | h'
    · simpa using h0
    · exact (hle k h' (hkn h).le).2 (by exact_mod_cast h)
  · rcases Nat.eq_zero_or_pos k with rfl | h'
    · rw [hz (by omega)]; simp
    · rcases Nat.lt_or_ge (2 ^ 26) k with hk | hk
      · have : ((2 : ℚ) ^ 26) < k := by exact_mod_cast hk
        linarith
      · exact (hle k h' hk).1 (by exact_mod_cast h)
  · have hk := hkn h.le
    have q2 : (k : ℚ) + 1 ≤ 2 ^ 26 := by exact_mod_cast hk
    have q0 : (0 : ℚ) ≤ k := Nat.cast_nonneg _
    have q3 : (k : ℚ) * k + 1 ≤ n := by exact_mod_cast h
    have hj : InF64 ((((k : ℤ) * 2 ^ 27 + 1 : ℤ) : ℚ) / 2 ^ 27) :=
      inF64_parts 27 (by norm_num) (by rw [abs_lt]; omega)
    have e : ((((k : ℤ) * 2 ^ 27 + 1 : ℤ) : ℚ) / 2 ^ 27) = k + 1 / 2 ^ 27 := by push_cast; ring
    rw [e] at hj
    have := (root_side hx hr hj (by norm_num; linarith) (by norm_num; linarith)).2 (by norm_num; nlinarith)
    have : (0 : ℚ) < 1 / 2 ^ 27 := by norm_num
    linarith

/-- On which side of a half the computed root lies. -/
theorem root_half {x : F64} {n : ℕ} {r : ℚ} (hx : value x = some (n : ℚ)) (hr : value (F64.sqrt x) = some r)
    (hn : n < 2 ^ 50) (k : ℕ) : (n ≤ k * k + k → r < k + 1 / 2) ∧ (k * k + k < n → (k : ℚ) + 1 / 2 ≤ r) := by
  have q0 : (0 : ℚ) ≤ k := Nat.cast_nonneg _
  constructor
  · intro h
    rcases Nat.lt_or_ge k (2 ^ 25) with hk | hk
    · have q2 : (k : ℚ) + 1 ≤ 2 ^ 25 := by exact_mod_cast hk
      have q3 : (n : ℚ) ≤ k * k + k := by exact_mod_cast h
      have hj : InF64 ((((k : ℤ) * 2 ^ 28 + 2 ^ 27 - 1 : ℤ) : ℚ) / 2 ^ 28) :=
        inF64_parts 28 (by norm_num) (by rw [abs_lt]; omega)
      have e : ((((k : ℤ) * 2 ^ 28 + 2 ^ 27 - 1 : ℤ) : ℚ) / 2 ^ 28) = k + 1 / 2 - 1 / 2 ^ 28 := by
        push_cast; norm_num; ring
      rw [e] at hj
      have := (root_side hx hr hj (by norm_num; linarith) (by norm_num; linarith)).1 (by norm_num; nlinarith)
      have : (0 : ℚ) < 1 / 2 ^ 28 := by norm_num
      linarith
    · have : 2 ^ 25 * 2 ^ 25 ≤ k * k := Nat.mul_le_mul hk hk
      have := (root_between hx hr (by omega) k).2.2.1 (by omega)
      linarith
  · intro h
    have hk : k < 2 ^ 25 := by
      by_contra hc
      have : 2 ^ 25 * 2 ^ 25 ≤ k * k := Nat.mul_le_mul (not_lt.1 hc) (not_lt.1 hc)
      omega
    have q2 : (k : ℚ) + 1 ≤ 2 ^ 25 := by exact_mod_cast hk
    have q3 : (k : ℚ) * k + k + 1 ≤ n := by exact_mod_cast h
    have hj : InF64 (((2 * (k : ℤ) + 1 : ℤ) : ℚ) / 2 ^ 1) := inF64_parts 1 (by norm_num) (by rw [abs_lt]; omega)
    have e : ((2 * (k : ℤ) + 1 : ℤ) : ℚ) / 2 ^ 1 = k + 1 / 2 := by push_cast; ring
    rw [e] at hj
    exact (root_side hx hr hj (by norm_num; linarith) (by norm_num; linarith)).2 (by nlinarith)

theorem root_picks {f : Builtin} {n k : ℕ} {x : F64} {r : ℚ} (h : RootIs f n k) (hn : n < rootLimit f)
    (hx : value x = some (n : ℚ)) (hr : value (F64.sqrt x) = some r) : f ∈ toWhole ∧ Picks f r (k : ℤ) := by
  have hN : (0 : ℝ) ≤ n := Nat.cast_nonneg _
  have hK : (0 : ℝ) ≤ k := Nat.cast_nonneg _
  have h0 : 0 ≤ r := by
    obtain ⟨r', h, h'⟩ := sqrt_value hx (Nat.cast_nonneg _)
    rw [hr] at h; cases h; exact h'
  have hdown : (k : ℝ) ≤ √(n : ℝ) → √(n : ℝ) < k + 1 → k * k ≤ n ∧ n < (k + 1) * (k + 1) := by
    intro h1 h2
    rw [Real.le_sqrt hK hN] at h1
    rw [Real.sqrt_lt' (by linarith)] at h2
    rw [sq] at h1 h2
    exact ⟨by exact_mod_cast h1, by exact_mod_cast h2⟩
  cases f <;> try exact h.elim
  case floor =>
    obtain ⟨h1, h2⟩ := hdown h.1 h.2
    refine ⟨by decide, ?_, ?_⟩
    · exact_mod_cast (root_between hx hr hn k).1 h1
    · have := (root_between hx hr hn (k + 1)).2.1 h2
      push_cast at this ⊢
      exact this
  case trunc =>
    obtain ⟨h1, h2⟩ := hdown h.1 h.2
    have k1 := (root_between hx hr hn k).1 h1
    have k2 := (root_between hx hr hn (k + 1)).2.1 h2
    push_cast at k2
    have q0 : (0 : ℚ) ≤ k := Nat.cast_nonneg _
    refine ⟨by decide, ?_, ?_⟩
    · push_cast
      rw [_root_.abs_of_nonneg q0, _root_.abs_of_nonneg h0]; exact k1
    · push_cast
      rw [_root_.abs_of_nonneg (by linarith)]; linarith
  case ceil =>
    obtain ⟨h1, h2⟩ := h
    rw [Real.sqrt_le_left hK, sq] at h2
    refine ⟨by decide, ?_, ?_⟩
    · rcases Nat.eq_zero_or_pos k with rfl | hk
      · push_cast; linarith
      · obtain ⟨j, rfl⟩ : ∃ j, k = j + 1 := ⟨k - 1, by omega⟩
        have e : ((j + 1 : ℕ) : ℝ) - 1 = j := by push_cast; ring
        rw [e, Real.lt_sqrt (Nat.cast_nonneg _), sq] at h1
        have := (root_between hx hr hn j).2.2.2 (by exact_mod_cast h1)
        push_cast
        linarith
    · exact_mod_cast (root_between hx hr hn k).2.2.1 (by exact_mod_cast h2)
  case round =>
    have h := abs_lt.1 h
    have hup : n ≤ k * k + k := by
      have h2 : √(n : ℝ) < k + 1 / 2 := by linarith [h.2]
      rw [Real.sqrt_lt' (by linarith)] at h2
      by_contra hc
      have : (k : ℝ) * k + k + 1 ≤ n := by exact_mod_cast not_le.1 hc
      nlinarith
    have u := (root_half hx hr hn k).1 hup
    have l : (k : ℚ) - 1 / 2 ≤ r := by
      rcases Nat.eq_zero_or_pos k with rfl | hk
      · push_cast; linarith
      · obtain ⟨j, rfl⟩ : ∃ j, k = j + 1 := ⟨k - 1, by omega⟩
        have h1 : (j : ℝ) + 1 / 2 < √(n : ℝ) := by
          have := h.1
          push_cast at this
          linarith
        have hj : (0 : ℝ) ≤ j := Nat.cast_nonneg _
        rw [Real.lt_sqrt (by linarith)] at h1
        have h3 : j * j + j < n := by
          by_contra hc
          have : (n : ℝ) ≤ j * j + j := by exact_mod_cast not_lt.1 hc
          nlinarith
        have := (root_half hx hr hn j).2 h3
        push_cast
        linarith
    refine ⟨by decide, ?_, fun ht => ?_⟩
    · push_cast
      rw [abs_le]; constructor <;> linarith
    · push_cast at ht ⊢
      rw [_root_.abs_of_nonneg h0, _root_.abs_of_nonneg (Nat.cast_nonneg k)]
      rcases abs_eq (by norm_num : (0 : ℚ) ≤ 1 / 2) |>.1 ht with ht | ht <;> linarith

theorem root_whole_runs {w : World} {m : HMap F64} {f : Builtin} {n k : ℕ} {a : Elem} {x : F64} (ha : Runs w m a x)
    (hx : value x = some (n : ℚ)) (h : RootIs f n k) (hn : n < rootLimit f) :
    ∃ v, Runs w m (app f (app .sqrt a)) v ∧ value v = some (k : ℚ) := by
  obtain ⟨r, hr, -⟩ := sqrt_value hx (Nat.cast_nonneg _)
  obtain ⟨h1, h2⟩ := root_picks h hn hx hr
  obtain ⟨v, h3, h4⟩ := pick_step w h1 hr h2
  exact ⟨v, .call (.cons (.call (.cons ha .nil) (sqrt_step w x)) .nil) h3, by exact_mod_cast h4⟩

/-- C133: of whole numbers below `2⁵²` (for `round`, `2⁵⁰`) `floor`, `trunc`, `ceil` and `round` of the computed root
are those of the real root. -/
theorem C133_root (w : World) (m : HMap F64) (f : Builtin) (n k : ℕ) (a : Elem) (x : F64) (ha : eval w m a = .ok x)
    (hx : value x = some (n : ℚ)) (h : RootIs f n k) (hn : n < rootLimit f) :
    ∃ v, eval w m (app f (app .sqrt a)) = .ok v ∧ value v = some (k : ℚ) := by
  obtain ⟨r, hr, -⟩ := sqrt_value hx (Nat.cast_nonneg _)
  obtain ⟨h1, h2⟩ := root_picks h hn hx hr
  obtain ⟨v, h3, h4⟩ := pick_step w h1 hr h2
  exact ⟨v, app_eval (app_eval ha rfl) h3.1, by exact_mod_cast h4⟩

theorem root_square {x : F64} {n : ℕ} {r : ℚ} (hx : value x = some (n : ℚ)) (hr : value (F64.sqrt x) = some r)
    (hn : n < 2 ^ 52) (z : ℤ) : r = z ↔ 0 ≤ z ∧ z * z = n := by
  have h0 : 0 ≤ r := by
    obtain ⟨r', h, h'⟩ := sqrt_value hx (Nat.cast_nonneg _)
    rw [hr] at h; cases h; exact h'
  constructor
  · rintro rfl
    have hz : 0 ≤ z := by exact_mod_cast h0
    obtain ⟨k, rfl⟩ := Int.eq_ofNat_of_zero_le hz
    obtain ⟨-, b2, -, b4⟩ := root_between hx hr hn k
    push_cast at b2 b4
    refine ⟨hz, ?_⟩
    rcases Nat.lt_trichotomy n (k * k) with h | h | h
    · exact absurd (b2 h) (lt_irrefl _)
    · exact_mod_cast h.symm
    · exact absurd (b4 h) (lt_irrefl _)
  · rintro ⟨hz, h⟩
    obtain ⟨k, rfl⟩ := Int.eq_ofNat_of_zero_le hz
    obtain ⟨b1, -, b3, -⟩ := root_between hx hr hn k
    have h : k * k = n := by exact_mod_cast h
    push_cast
    exact le_antisymm (b3 h.ge) (b1 h.le)

/-- C133: the computed root is a whole number exactly when the number is a square, and then it is the root. -/
theorem C133_square (w : World) (m : HMap F64) (n : ℕ) (a : Elem) (x : F64) (ha : eval w m a = .ok x)
    (hx : value x = some (n : ℚ)) (hn : n < 2 ^ 52) :
    ∃ v r, eval w m (app .sqrt a) = .ok v ∧ value v = some r ∧ ∀ z : ℤ, r = z ↔ 0 ≤ z ∧ z * z = n := by
  obtain ⟨r, hr, -⟩ := sqrt_value hx (Nat.cast_nonneg _)
  exact ⟨_, r, app_eval ha rfl, hr, root_square hx hr hn⟩

/-- C133: the same after simplification and `simplify_for`, and for texts in every build. -/
theorem C133_square_kept (w : World) (m : HMap F64) (n : ℕ) (a : Elem) (x : F64) (hx : value x = some (n : ℚ))
    (hn : n < 2 ^ 52) (hw : NoPower (app .sqrt a) ∨ PowLaws w) :
    (∀ cfg e', Runs w m a x → simplify cfg w (app .sqrt a) = .ok e' →
      ∃ v r, eval w m e' = .ok v ∧ value v = some r ∧ ∀ z : ℤ, r = z ↔ 0 ≤ z ∧ z * z = n) ∧
    (∀ cfg (e e' : Xpr) nm c, e.root = app .sqrt a → Runs w (m.insert nm c) a x → e.simplifyFor cfg w nm c = .ok e' →
      ∃ v r, e'.eval w m = .ok v ∧ value v = some r ∧ ∀ z : ℤ, r = z ↔ 0 ≤ z ∧ z * z = n) ∧
    (∀ cfg cfg' o o' ctx input (e y : Xpr), cfg.pejmdas = cfg'.pejmdas → cfg.opt = false →
      (∀ ts, Lex input ts → ParensApart ts) → parse cfg w o ctx input = .ok e → parse cfg' w o' ctx input = .ok y →
      e.root = app .sqrt a → Runs w m a x →
      ∃ v r, y.eval w m = .ok v ∧ value v = some r ∧ ∀ z : ℤ, r = z ↔ 0 ≤ z ∧ z * z = n) := by
  obtain ⟨r, hr, -⟩ := sqrt_value hx (Nat.cast_nonneg _)
  refine ⟨fun cfg e' ha hs => ?_, fun cfg e e' nm c he ha hs => ?_,
    fun cfg cfg' o o' ctx input e y hp ho hl h h' he ha => ?_⟩
  · obtain ⟨u, h4, h5⟩ := simplify_runs' hw (.call (.cons ha .nil) (sqrt_step w x)) hs
    exact ⟨u, r, runs_eval _ h4, value_same hr h5, root_square hx hr hn⟩
  · have h1 : Runs w (m.insert nm c) e.root (F64.sqrt x) := by
      rw [he]; exact .call (.cons ha .nil) (sqrt_step w x)
    obtain ⟨-, u, h4, h5⟩ := C29_partial cfg w m e e' nm c _ (by rw [he]; exact hw) h1 hs
    exact ⟨u, r, h4, value_same hr h5, root_square hx hr hn⟩
  · have h1 : Runs w m e.root (F64.sqrt x) := by
      rw [he]; exact .call (.cons ha .nil) (sqrt_step w x)
    obtain ⟨-, u, h4, h5⟩ := C16_value_partial cfg cfg' w o o' ctx input e y m _ hp ho (by rw [he]; exact hw) hl h h' h1
    exact ⟨u, r, h4, value_same hr h5, root_square hx hr hn⟩

/-- C133: simplification, in every build, keeps it. -/
theorem C133_simplified (cfg : Cfg) (w : World) (m : HMap F64) (f : Builtin) (n k : ℕ) (a e' : Elem) (x : F64)
    (ha : Runs w m a x) (hx : value x = some (n : ℚ)) (h : RootIs f n k) (hn : n < rootLimit f)
    (hw : NoPower (app f (app .sqrt a)) ∨ PowLaws w) (hs : simplify cfg w (app f (app .sqrt a)) = .ok e') :
    ∃ v, eval w m e' = .ok v ∧ value v = some (k : ℚ) := by
  obtain ⟨v, h1, h2⟩ := root_whole_runs ha hx h hn
  obtain ⟨u, h4, h5⟩ := simplify_runs' hw h1 hs
  exact ⟨u, runs_eval _ h4, value_same h2 h5⟩

/-- C133: the same for `simplify_for`. -/
theorem C133_fixed (cfg : Cfg) (w : World) (m : HMap F64) (f : Builtin) (n k : ℕ) (a : Elem) (x : F64) (e e' : Xpr)
    (nm : Bytes) (c : F64) (he : e.root = app f (app .sqrt a)) (ha : Runs w (m.insert nm c) a x)
    (hx : value x = some (n : ℚ)) (h : RootIs f n k) (hn : n < rootLimit f)
    (hw : NoPower e.root ∨ PowLaws w) (hs : e.simplifyFor cfg w nm c = .ok e') :
    ∃ v, e'.eval w m = .ok v ∧ value v = some (k : ℚ) := by
  obtain ⟨v, h1, h2⟩ := root_whole_runs ha hx h hn
  rw [← he] at h1
  obtain ⟨-, u, h4, h5⟩ := C29_partial cfg w m e e' nm c v hw h1 hs
  exact ⟨u, h4, value_same h2 h5⟩

/-- C133 for texts, in every build. -/
theorem C133_builds (cfg cfg' : Cfg) (w : World) (o o' : Oracle) (ctx : Context) (input : Bytes)
    (e y : Xpr) (m : HMap F64) (f : Builtin) (n k : ℕ) (a : Elem) (x : F64) (hp : cfg.pejmdas = cfg'.pejmdas)
    (ho : cfg.opt = false) (hw : NoPower e.root ∨ PowLaws w) (hl : ∀ ts, Lex input ts → ParensApart ts)
    (h : parse cfg w o ctx input = .ok e) (h' : parse cfg' w o' ctx input = .ok y)
    (he : e.root = app f (app .sqrt a)) (ha : Runs w m a x) (hx : value x = some (n : ℚ)) (hk : RootIs f n k)
    (hn : n < rootLimit f) :
    (∃ v, e.eval w m = .ok v ∧ value v = some (k : ℚ)) ∧ ∃ v, y.eval w m = .ok v ∧ value v = some (k : ℚ) := by
  obtain ⟨v, h1, h2⟩ := root_whole_runs ha hx hk hn
  rw [← he] at h1
  obtain ⟨h4, u, h5, h6⟩ := C16_value_partial cfg cfg' w o o' ctx input e y m v hp ho hw hl h h' h1
  exact ⟨⟨v, h4, h2⟩, u, h5, value_same h2 h6⟩

/-- One below the square of `2²⁶`: the formula as it is read without optimisation, and its value in both builds. -/
example : parse0 cfgPlain b!"floor(sqrt(x))" = .ok ⟨app .floor (app .sqrt vx), [b!"x"]⟩ ∧
    RootIs .floor (2 ^ 52 - 1) (2 ^ 26 - 1) ∧ 2 ^ 52 - 1 < rootLimit .floor ∧
    value (F64.ofNat (2 ^ 52 - 1)) = some ((2 ^ 52 - 1 : ℕ) : ℚ) ∧
    (∀ c ∈ [cfgPlain, cfgOpt], (match parse0 c b!"floor(sqrt(x))" with
      | .ok x => decide (x.eval w0 (mx (F64.ofNat (2 ^ 52 - 1))) = .ok (F64.ofNat (2 ^ 26 - 1)))
      | _ => false) = true) := by
  refine ⟨by decide +kernel, ⟨?_, ?_⟩, by decide, by decide +kernel, by decide +kernel⟩
  · rw [Real.le_sqrt (Nat.cast_nonneg _) (Nat.cast_nonneg _)]; norm_num
  · rw [Real.sqrt_lt' (by positivity)]; norm_num

/-- `round` and `ceil` near their limits. -/
example : RootIs .round (2 ^ 50 - 2 ^ 25) (2 ^ 25 - 1) ∧ RootIs .ceil (2 ^ 52 - 2 ^ 27 + 2) (2 ^ 26) ∧
    eval w0 (mx (F64.ofNat (2 ^ 50 - 2 ^ 25))) (app .round (app .sqrt vx)) = .ok (F64.ofNat (2 ^ 25 - 1)) ∧
    eval w0 (mx (F64.ofNat (2 ^ 52 - 2 ^ 27 + 2))) (app .ceil (app .sqrt vx)) = .ok (F64.ofNat (2 ^ 26)) := by
  refine ⟨?_, ⟨?_, ?_⟩, by decide +kernel, by decide +kernel⟩
  · show |√((2 ^ 50 - 2 ^ 25 : ℕ) : ℝ) - ((2 ^ 25 - 1 : ℕ) : ℝ)| < 1 / 2
    rw [abs_lt]
    constructor
    · have h : ((2 ^ 25 - 1 : ℕ) : ℝ) ≤ √((2 ^ 50 - 2 ^ 25 : ℕ) : ℝ) := by
        rw [Real.le_sqrt (Nat.cast_nonneg _) (Nat.cast_nonneg _)]; norm_num
      exact lt_of_lt_of_le (by norm_num) (sub_nonneg.2 h)
    · have : √((2 ^ 50 - 2 ^ 25 : ℕ) : ℝ) < ((2 ^ 25 - 1 : ℕ) : ℝ) + 1 / 2 := by
        rw [Real.sqrt_lt' (by positivity)]; norm_num
      linarith
  · rw [Real.lt_sqrt (by norm_num)]; norm_num
  · rw [Real.sqrt_le_left (by positivity)]; norm_num

/-- Beyond the limits each of them fails, though the numbers are in the format: of `2⁵² + 2²⁷` the root is below
`2²⁶ + 1`, of `2⁵² + 1` above `2²⁶`, of `2⁵⁰ + 2²⁵` below `2²⁵ + ½`; and the root of `2⁵² + 1` seems to be whole. -/
example : eval w0 (mx (F64.ofNat (2 ^ 52 + 2 ^ 27))) (app .floor (app .sqrt vx)) = .ok (F64.ofNat (2 ^ 26 + 1)) ∧
    2 ^ 52 + 2 ^ 27 < (2 ^ 26 + 1) * (2 ^ 26 + 1) ∧
    eval w0 (mx (F64.ofNat (2 ^ 52 + 1))) (app .ceil (app .sqrt vx)) = .ok (F64.ofNat (2 ^ 26)) ∧
    eval w0 (mx (F64.ofNat (2 ^ 52 + 1))) (app .sqrt vx) = .ok (F64.ofNat (2 ^ 26)) ∧
    eval w0 (mx (F64.ofNat (2 ^ 50 + 2 ^ 25))) (app .round (app .sqrt vx)) = .ok (F64.ofNat (2 ^ 25 + 1)) ∧
    4 * (2 ^ 50 + 2 ^ 25) < (2 ^ 26 + 1) * (2 ^ 26 + 1) := by
  refine ⟨by decide +kernel, by norm_num, by decide +kernel, by decide +kernel, by decide +kernel, by norm_num⟩

end Props
end Xprs
