import Mathlib.Analysis.Real.Pi.Bounds
import Mathlib.Analysis.Complex.ExponentialBounds
import Verif.Spec.Names
import Verif.Lemmas.Root
import Verif.Props.Builtins
import Verif.Props.Factorial
import Verif.Props.Grammar
/-
Properties C55 and C56: the names of the built-in functions and constants, and what they
mean.
-/
namespace Xprs
namespace Props
open Spec
set_option exponentiation.threshold 4096

/-- The function `f` is what row `r` of the manual says. -/
def Answers (r : Row) (f : Func) : Prop :=
  f.nbArgs = r.args ∧ ∀ (w : World) (args : List F64), (∀ k, r.args = some k → args.length = k) →
    ∃ y, callFn w f args = .ok y ∧ r.meaning w args y

theorem answers1 {n : Bytes} (b : Builtin) (g : World → F64 → F64) {P : Meaning} (h1 : b.nbArgs = some 1)
    (h2 : ∀ w x, b.run w [x] = .ok (g w x)) (h3 : ∀ w x, P w [x] (g w x)) :
    Answers ⟨n, some 1, P⟩ b.toFunc := by
  refine ⟨h1, fun w args h => ?_⟩
  have := h 1 rfl
  match args, this with
  | [x], _ => exact ⟨_, h2 w x, h3 w x⟩

theorem answers2 {n : Bytes} (b : Builtin) (g : World → F64 → F64 → F64) {P : Meaning} (h1 : b.nbArgs = some 2)
    (h2 : ∀ w x y, b.run w [x, y] = .ok (g w x y)) (h3 : ∀ w x y, P w [x, y] (g w x y)) :
    Answers ⟨n, some 2, P⟩ b.toFunc := by
  refine ⟨h1, fun w args h => ?_⟩
  have := h 2 rfl
  match args, this with
  | [x, y], _ => exact ⟨_, h2 w x y, h3 w x y⟩

theorem answersStd1 {n : Bytes} (b : Builtin) (s : Std1) (h1 : b.nbArgs = some 1)
    (h2 : ∀ w x, b.run w [x] = .ok (w.libm1 s x)) : Answers ⟨n, some 1, std1 s⟩ b.toFunc :=
  answers1 b (fun w => w.libm1 s) h1 h2 fun _ x => ⟨x, rfl, rfl⟩

theorem answersStd2 {n : Bytes} (b : Builtin) (s : Std2) (h1 : b.nbArgs = some 2)
    (h2 : ∀ w x y, b.run w [x, y] = .ok (w.libm2 s x y)) : Answers ⟨n, some 2, std2 s⟩ b.toFunc :=
  answers2 b (fun w => w.libm2 s) h1 h2 fun _ x y => ⟨x, y, rfl, rfl⟩

/-- From the properties of the functions that do not depend on the platform. -/
theorem answers_of {n : Bytes} {k : Option Nat} {P : List F64 → F64 → Prop} (h : Computes n k P) :
    ∃ f, Ident.fromStr n = .func f ∧ Answers ⟨n, k, fun _ => P⟩ f := by
  obtain ⟨f, h1, h2, h3⟩ := h
  exact ⟨f, h1, h2, fun w args ha => h3 w args fun i hi => ha i hi⟩

theorem answers_of1 {n : Bytes} {P : F64 → F64 → Prop}
    (h : Computes n (some 1) (fun args y => ∀ x, args = [x] → P x y)) :
    ∃ f, Ident.fromStr n = .func f ∧ Answers ⟨n, some 1, own1 P⟩ f := by
  obtain ⟨f, h1, h2, h3⟩ := h
  refine ⟨f, h1, h2, fun w args ha => ?_⟩
  obtain ⟨y, h4, h5⟩ := h3 w args fun i hi => ha i hi
  have := ha 1 rfl
  match args, this with
  | [x], _ => exact ⟨y, h4, x, rfl, h5 x rfl⟩

theorem fact_eq : ∀ n, fact n = n.factorial
  | 0 => rfl
  | n + 1 => by rw [fact, fact_eq n, Nat.factorial]

/-- Whole numbers, in units of `2⁻¹⁰⁷⁴`. -/
theorem value_nat {x : F64} {k : Nat} (h : value x = some (k : ℚ)) :
    ∃ s hr, (s = false ∨ k = 0) ∧ x = .fin s (k * 2 ^ 1074) hr := by
  obtain ⟨s, n, hn, rfl, hq⟩ := value_some h
  have hU := unit64_pos_rat
  have hk : (F64.sv s n : ℚ) = ((k * unit64 : ℕ) : ℚ) := by
    rw [eq_div_iff (ne_of_gt hU)] at hq
    rw [← hq]; push_cast; rfl
  have hk' : F64.sv s n = ((k * unit64 : ℕ) : ℤ) := by exact_mod_cast hk
  rw [← unit64_eq]
  cases s with
  | false =>
    have : n = k * unit64 := Int.ofNat.inj hk'
    subst this
    exact ⟨false, hn, .inl rfl, rfl⟩
  | true =>
    simp only [F64.sv, if_true] at hk'
    have h0 : k * unit64 = 0 := by omega
    have hn0 : n = k * unit64 := by omega
    subst hn0
    exact ⟨true, hn, .inr ((Nat.mul_eq_zero.1 h0).resolve_right (Nat.ne_of_gt unit64_pos)), rfl⟩

theorem table_near {k : Nat} (hk : k ≤ 170) {s : Bool} {hr : Rep (k * 2 ^ 1074)} (hs : s = false ∨ k = 0) :
    ∃ y p, factorial (.fin s (k * 2 ^ 1074) hr) = .ok y ∧ value y = some p ∧
      |p - (k.factorial : ℚ)| * 2 ^ 50 < k.factorial := by
  obtain ⟨m, hm, h1, h2, h3⟩ := C41_table_partial k hk
  have e1 : F64.ofNat k = .fin false (k * unit64) (rep_nat (by omega)) := F64.ofNat_eq _
  obtain ⟨M, E, hl, hv⟩ := C40_factorial.2.2.2.2.2.2 s k hr hk hs
  obtain ⟨M', E', hl', hv'⟩ := C40_factorial.2.2.2.2.2.2 false k (unit64_eq ▸ rep_nat (by omega)) hk (.inl rfl)
  rw [hl] at hl'
  cases hl'
  have e2 : F64.ofNat k = .fin false (k * 2 ^ 1074) (unit64_eq ▸ rep_nat (by omega)) := by
    rw [e1]; congr 1; rw [unit64_eq]
  rw [e2, hv'] at h1
  refine ⟨_, (m : ℚ), hv, ?_, ?_⟩
  · rw [Except.ok.inj h1]
    have hm' : Rep (m * unit64) := unit64_eq ▸ hm
    have : (F64.fin false (m * 2 ^ 1074) hm) = .fin false (m * unit64) hm' := by congr 1; rw [unit64_eq]
    rw [this, value_whole]
    simp [F64.sv]
  · rw [fact_eq] at h2 h3
    have h2' : (m : ℚ) * 2 ^ 50 < k.factorial * (2 ^ 50 + 1) := by exact_mod_cast h2
    have h3' : (k.factorial : ℚ) * (2 ^ 50 - 1) < m * 2 ^ 50 := by
      have : ((k.factorial * (2 ^ 50 - 1) : ℕ) : ℚ) < ((m * 2 ^ 50 : ℕ) : ℚ) := by exact_mod_cast h3
      norm_num at this ⊢
      exact this
    rcases abs_cases ((m : ℚ) - (k.factorial : ℚ)) with ⟨h, _⟩ | ⟨h, _⟩ <;> rw [h] <;> linarith

theorem factorial_of (x : F64) : ∃ y, factorial x = .ok y ∧ FactorialOf x y := by
  obtain ⟨a1, a2, a3, a4, a5, a6, a7⟩ := C40_factorial
  rcases fin_cases x with rfl | ⟨s, rfl⟩ | ⟨q, hq⟩
  · exact ⟨_, a1, fun _ => rfl, (by intro h; cases h), (by intro h; cases h), (by intro q h; cases h),
      (by intro q h; cases h), (by intro q h; cases h)⟩
  · cases s with
    | true => exact ⟨_, a2, (by intro h; cases h), fun _ => rfl, (by intro h; cases h), (by intro q h; cases h),
        (by intro q h; cases h), (by intro q h; cases h)⟩
    | false => exact ⟨_, a3, (by intro h; cases h), (by intro h; cases h), fun _ => rfl, (by intro q h; cases h),
        (by intro q h; cases h), (by intro q h; cases h)⟩
  · have n1 : x ≠ .nan := by rintro rfl; cases hq
    have n2 : ∀ s, x ≠ .inf s := by rintro s rfl; cases hq
    by_cases hk : ∃ k : Nat, q = k
    · obtain ⟨k, rfl⟩ := hk
      have one : ∀ {k' : Nat}, value x = some (k' : ℚ) → k' = k := by
        intro k' h; rw [hq] at h; exact_mod_cast (Option.some.inj h).symm
      have notnan : ∀ q, value x = some q → (q < 0 ∨ ¬ ∃ k : Nat, q = k) → False := by
        intro q h hc
        rw [hq] at h
        cases Option.some.inj h
        rcases hc with hc | hc
        · exact absurd hc (not_lt.2 (Nat.cast_nonneg k))
        · exact hc ⟨k, rfl⟩
      obtain ⟨s, hr, hs, rfl⟩ := value_nat hq
      by_cases h170 : k ≤ 170
      · obtain ⟨y, p, h1, h2, h3⟩ := table_near h170 (hr := hr) hs
        refine ⟨y, h1, fun h => absurd h n1, fun h => absurd h (n2 _), fun h => absurd h (n2 _),
          fun q h hc => (notnan q h hc).elim, fun k' h hk' => ?_, fun k' h _ => ?_⟩
        · have := one h; omega
        · rw [one h]; exact ⟨p, h2, h3⟩
      · have hs' : s = false := hs.resolve_right (by omega)
        subst hs'
        refine ⟨_, a6 k hr (by omega), fun h => absurd h n1, fun h => absurd h (n2 _), fun _ => rfl,
          fun q h hc => (notnan q h hc).elim, fun _ _ _ => rfl, fun k' h hk' => ?_⟩
        have := one h; omega
    · have hy : factorial x = .ok .nan := by
        rcases C40_cases x with h | h | h | ⟨n, h, hn, rfl⟩ | ⟨n, h, hn, rfl⟩ | ⟨s, k, h, hs, rfl⟩
        · exact absurd h n1
        · exact absurd h (n2 _)
        · exact absurd h (n2 _)
        · exact a4 n h hn
        · exact a5 n h hn
        · exfalso
          refine hk ⟨k, ?_⟩
          have hm' : Rep (k * unit64) := unit64_eq ▸ h
          have : (F64.fin s (k * 2 ^ 1074) h) = .fin s (k * unit64) hm' := by congr 1; rw [unit64_eq]
          rw [this, value_whole] at hq
          rw [← Option.some.inj hq]
          rcases hs with rfl | rfl
          · simp [F64.sv]
          · cases s <;> simp [F64.sv]
      refine ⟨_, hy, fun _ => rfl, fun _ => rfl, fun h => absurd h (n2 _), fun _ _ _ => rfl,
        fun k h => ?_, fun k h => ?_⟩
      · rw [hq] at h; exact absurd ⟨k, Option.some.inj h⟩ hk
      · rw [hq] at h; exact absurd ⟨k, Option.some.inj h⟩ hk

theorem factorial_meaning : Computes b!"factorial" (some 1) (fun args y => ∀ x, args = [x] → FactorialOf x y) := by
  refine ⟨Builtin.factorial.toFunc, rfl, rfl, fun w args h => ?_⟩
  have := h 1 rfl
  match args, this with
  | [x], _ =>
    obtain ⟨y, h1, h2⟩ := factorial_of x
    exact ⟨y, h1, by rintro _ ⟨⟩; exact h2⟩

/-- C55: every documented name is a function of the documented number of arguments, and
calls of it mean what the documentation says: for the functions the platform supplies,
that of this name, with the arguments in the order they are written. -/
theorem C55_manual : ∀ r ∈ manual, ∃ f, Ident.fromStr r.name = .func f ∧ Answers r f := by
  simp only [manual, List.forall_mem_cons]
  refine ⟨⟨_, rfl, answersStd1 .sin _ rfl fun _ _ => rfl⟩, ⟨_, rfl, answersStd1 .cos _ rfl fun _ _ => rfl⟩,
    ⟨_, rfl, answersStd1 .tan _ rfl fun _ _ => rfl⟩, ⟨_, rfl, answersStd1 .asin _ rfl fun _ _ => rfl⟩,
    ⟨_, rfl, answersStd1 .acos _ rfl fun _ _ => rfl⟩, ⟨_, rfl, answersStd1 .atan _ rfl fun _ _ => rfl⟩,
    ⟨_, rfl, answersStd2 .atan2 _ rfl fun _ _ _ => rfl⟩,
    ⟨_, rfl, answersStd1 .sinh _ rfl fun _ _ => rfl⟩, ⟨_, rfl, answersStd1 .cosh _ rfl fun _ _ => rfl⟩,
    ⟨_, rfl, answersStd1 .tanh _ rfl fun _ _ => rfl⟩, ⟨_, rfl, answersStd1 .asinh _ rfl fun _ _ => rfl⟩,
    ⟨_, rfl, answersStd1 .acosh _ rfl fun _ _ => rfl⟩, ⟨_, rfl, answersStd1 .atanh _ rfl fun _ _ => rfl⟩,
    ⟨_, rfl, answersStd1 .ln _ rfl fun _ _ => rfl⟩, ⟨_, rfl, answersStd1 .log _ rfl fun _ _ => rfl⟩,
    ⟨_, rfl, answersStd2 .logn _ rfl fun _ _ _ => rfl⟩,
    ⟨_, rfl, answers1 .sqrt (fun _ => F64.sqrt) rfl (fun _ _ => rfl) fun _ x => ⟨x, rfl, roots x⟩⟩,
    ⟨_, rfl, answersStd1 .cbrt _ rfl fun _ _ => rfl⟩, ⟨_, rfl, answersStd1 .exp _ rfl fun _ _ => rfl⟩,
    answers_of C47_floor, answers_of C47_ceil, answers_of C47_round, answers_of C47_trunc,
    answers_of1 C47_abs, answers_of C44_min, answers_of C44_max,
    ⟨_, rfl, answersStd2 .hypot _ rfl fun _ _ _ => rfl⟩, answers_of1 C47_fract,
    answers_of1 (C54_recip _ (by simp)), answers_of1 (C54_recip _ (by simp)),
    answers_of C44_sum, answers_of C44_mean, answers_of1 factorial_meaning,
    ⟨_, rfl, answersStd1 .gamma _ rfl fun _ _ => rfl⟩, by simp⟩

/-- C55, other names: besides the documented functions only `pi` and `e` are not
variables. -/
theorem C55_only (n : Bytes) : Ident.fromStr n = .var n ∨ n = b!"pi" ∨ n = b!"e" ∨ ∃ r ∈ manual, n = r.name := by
  by_cases h : n = b!"pi"
  · exact .inr (.inl h)
  by_cases h' : n = b!"e"
  · exact .inr (.inr (.inl h'))
  by_cases hm : ∃ r ∈ manual, n = r.name
  · exact .inr (.inr (.inr hm))
  · refine .inl ?_
    simp only [manual, List.exists_mem_cons_iff, List.not_mem_nil, false_and, exists_false, or_false, not_or] at hm
    unfold Ident.fromStr builtinByName
    simp [h, h', hm]

theorem manual_names : ∀ r ∈ manual, IsName r.name := by
  have h : ∀ n ∈ manual.map Row.name, IsName n := by
    intro n hn
    have h1 : (manual.map Row.name).all (fun n => n.all (fun c => decide (nameChar c)) &&
        (match n with | c :: _ => decide (letter c) | [] => false)) = true := by decide +kernel
    have h2 := List.all_eq_true.1 h1 n hn
    rw [Bool.and_eq_true, List.all_eq_true] at h2
    match n, h2 with
    | c :: t, h2 => exact ⟨⟨c, rfl, of_decide_eq_true h2.2⟩, fun d hd => of_decide_eq_true (h2.1 d hd)⟩
  exact fun r hr => h _ (List.mem_map_of_mem hr)

theorem trees_length (ctx : Context) : ∀ as : CArgs, (as.trees ctx).length = as.count
  | .last _ _ => rfl
  | .more _ _ as => by rw [CArgs.trees, CArgs.count, List.length_cons, trees_length ctx as]

/-- C55 from the text to the value: a call of a documented function, with arguments
written in any legal way, evaluates to what the manual says of the values of the
arguments, unless the context defines that name. (In builds without compile-time
optimization; what this changes is the subject of C30 and C38.) -/
theorem C55_call (cfg : Cfg) (w : World) (ctx : Context) (r : Row) (ws ws2 tw : Bytes) (as : CArgs)
    (m : HMap F64) (vs : List F64) (ho : cfg.opt = false) (hr : r ∈ manual) (hc : ctx.get r.name = none)
    (h1 : spaces ws) (h2 : spaces ws2) (h3 : spaces tw) (ha : as.good cfg ctx)
    (hk : ∀ k, r.args = some k → as.count = k) (hd : ∀ t ∈ as.trees ctx, Declared ctx t)
    (hv : evalL w m (as.trees ctx) = .ok vs) :
    ∃ x y, (∀ o, parse cfg w o ctx (ws ++ r.name ++ ws2 ++ b!"(" ++ as.text ++ b!")" ++ tw) = .ok x) ∧
      x.eval w m = .ok y ∧ r.meaning w vs y := by
  obtain ⟨f, hf, hfa, hfm⟩ := C55_manual r hr
  have hl : lookup ctx r.name = .func f := by unfold lookup; rw [hc, hf]
  obtain ⟨x, hx, _, hx'⟩ := C09_written cfg w ctx (.call ws r.name ws2 as) tw (by simp [ho])
    ⟨h1, manual_names r hr, h2, ⟨f, hl, by rw [hfa]; exact hk⟩, ha⟩ h3 (by
      intro vars hvars n hn
      simp only [Cst.tree, hl] at hn
      cases hn with
      | arg hmem ho => exact hd _ hmem vars hvars n ho)
  obtain ⟨y, hy, hm⟩ := hfm w vs fun k hkk => by
    rw [evalL_length w m _ hv, trees_length, hk k hkk]
  refine ⟨x, y, fun o => ?_, ?_, hm⟩
  · rw [← hx o]
    congr 1
    simp [Cst.text]
  · unfold Xpr.eval
    rw [hx' ho]
    simp only [Cst.tree, hl]
    rw [eval, hv]
    simp only [hy]
    rfl

/-- A point of the grid with 53 bits is nearest to every real number less than half a
unit away. -/
theorem nearest_half {a k : Nat} {t : ℝ} (h1 : 2 ^ 52 < a) (h2 : a < 2 ^ 53)
    (ht : |(a : ℝ) - t| < 1 / 2) : NearestReal (t * 2 ^ k) (a * 2 ^ k) := by
  have hp : (0 : ℝ) < 2 ^ k := by positivity
  have hd : ∀ m : Nat, |((m * 2 ^ k : ℕ) : ℝ) - t * 2 ^ k| = |(m : ℝ) - t| * 2 ^ k := by
    intro m
    push_cast
    rw [← sub_mul, abs_mul, abs_of_pos hp]
  have key : ∀ m : Nat, Grid m → m ≠ a * 2 ^ k →
      |((a * 2 ^ k : ℕ) : ℝ) - t * 2 ^ k| < |(m : ℝ) - t * 2 ^ k| := by
    intro m hm hne
    have hfar : a * 2 ^ k + 2 ^ k ≤ m ∨ m + 2 ^ k ≤ a * 2 ^ k := by
      obtain ⟨b, j, hb, rfl⟩ := hm
      rcases Nat.lt_or_ge j k with hj | hj
      · right
        obtain ⟨i, rfl⟩ := Nat.exists_eq_add_of_lt hj
        have e : (2 : Nat) ^ (j + i + 1) = 2 ^ j * 2 ^ i * 2 := by rw [Nat.pow_succ, Nat.pow_add]
        have q : 1 ≤ 2 ^ i := Nat.one_le_two_pow
        rw [e]
        have e2 : b * 2 ^ j + 2 ^ j * 2 ^ i * 2 = 2 ^ j * (b + 2 ^ i * 2) := by ring
        have e3 : a * (2 ^ j * 2 ^ i * 2) = 2 ^ j * (a * (2 ^ i * 2)) := by ring
        rw [e2, e3]
        refine Nat.mul_le_mul_left _ ?_
        generalize 2 ^ i = c at q
        have : (2 ^ 52 + 1) * (c * 2) ≤ a * (c * 2) := Nat.mul_le_mul_right _ h1
        omega
      · obtain ⟨i, rfl⟩ := Nat.exists_eq_add_of_le hj
        rw [Nat.pow_add, Nat.mul_comm (2 ^ k), ← Nat.mul_assoc] at hne ⊢
        generalize b * 2 ^ i = c at hne
        have : c ≠ a := fun h => hne (by rw [h])
        rcases Nat.lt_or_gt_of_ne this with h | h
        · right
          calc c * 2 ^ k + 2 ^ k = (c + 1) * 2 ^ k := by ring
            _ ≤ a * 2 ^ k := Nat.mul_le_mul_right _ h
        · left
          calc a * 2 ^ k + 2 ^ k = (a + 1) * 2 ^ k := by ring
            _ ≤ c * 2 ^ k := Nat.mul_le_mul_right _ h
    have hlt : |((a * 2 ^ k : ℕ) : ℝ) - t * 2 ^ k| < 2 ^ k / 2 := by
      rw [hd]
      calc |(a : ℝ) - t| * 2 ^ k < 1 / 2 * 2 ^ k := mul_lt_mul_of_pos_right ht hp
        _ = 2 ^ k / 2 := by ring
    have hlt' := abs_lt.1 hlt
    refine lt_of_lt_of_le hlt ?_
    rcases hfar with h | h
    · have h' : ((a * 2 ^ k : ℕ) : ℝ) + 2 ^ k ≤ m := by exact_mod_cast h
      refine le_trans ?_ (le_abs_self _)
      linarith
    · have h' : (m : ℝ) + 2 ^ k ≤ ((a * 2 ^ k : ℕ) : ℝ) := by exact_mod_cast h
      refine le_trans ?_ (neg_le_abs _)
      linarith
  refine ⟨⟨a, k, h2, rfl⟩, fun m hm => ?_, fun m hm hne he => ?_⟩
  · by_cases hne : m = a * 2 ^ k
    · rw [hne]
    · exact (key m hm hne).le
  · exact absurd he (ne_of_gt (key m hm hne))

theorem nearestTo_of {v : F64} {t : ℝ} {a i : Nat} (hi : i ≤ 1074) (h1 : 2 ^ 52 < a) (h2 : a < 2 ^ 53)
    (hv : ∃ h, v = .fin false (a * 2 ^ (1074 - i)) h) (ht : |(a : ℝ) - t * 2 ^ i| < 1 / 2) :
    NearestTo t v := by
  obtain ⟨h, rfl⟩ := hv
  refine ⟨_, h, rfl, ?_⟩
  have := nearest_half (k := 1074 - i) h1 h2 ht
  have e : t * 2 ^ i * 2 ^ (1074 - i) = t * 2 ^ 1074 := by
    rw [mul_assoc, ← pow_add, Nat.add_sub_cancel' hi]
  rwa [e] at this

/-- C56: `pi` is the float nearest to π, `e` the one nearest to e. -/
theorem C56_constants :
    (∃ v, Ident.fromStr b!"pi" = .const v ∧ NearestTo Real.pi v) ∧
    (∃ v, Ident.fromStr b!"e" = .const v ∧ NearestTo (Real.exp 1) v) := by
  constructor
  · refine ⟨_, rfl, nearestTo_of (a := 7074237752028440) (i := 51) (by decide) (by decide) (by decide) ?_ ?_⟩
    · exact ⟨by decide +kernel, by decide +kernel⟩
    · have h1 := Real.pi_gt_d20
      have h2 := Real.pi_lt_d20
      rw [abs_lt]
      constructor <;> norm_num at h1 h2 ⊢ <;> linarith
  · refine ⟨_, rfl, nearestTo_of (a := 6121026514868073) (i := 51) (by decide) (by decide) (by decide) ?_ ?_⟩
    · exact ⟨by decide +kernel, by decide +kernel⟩
    · have h := abs_le.1 Real.exp_one_near_20
      have h1 := h.1
      have h2 := h.2
      rw [abs_lt]
      constructor <;> norm_num at h1 h2 ⊢ <;> linarith

/-- C56 from the text to the value, in every build: unless the context defines the name
otherwise, `pi` (with spaces around it) evaluates to the float nearest to π, under every
assignment, and `e` to the one nearest to e. -/
theorem C56_text (cfg : Cfg) (w : World) (ctx : Context) (ws tw : Bytes) (m : HMap F64)
    (h1 : spaces ws) (h2 : spaces tw) :
    (ctx.get b!"pi" = none → ∃ x v, (∀ o, parse cfg w o ctx (ws ++ b!"pi" ++ tw) = .ok x) ∧
      x.vars = [] ∧ x.eval w m = .ok v ∧ NearestTo Real.pi v) ∧
    (ctx.get b!"e" = none → ∃ x v, (∀ o, parse cfg w o ctx (ws ++ b!"e" ++ tw) = .ok x) ∧
      x.vars = [] ∧ x.eval w m = .ok v ∧ NearestTo (Real.exp 1) v) := by
  have main : ∀ (nm : Bytes) (v : F64), IsName nm → ctx.get nm = none → Ident.fromStr nm = .const v →
      ∃ x, (∀ o, parse cfg w o ctx (ws ++ nm ++ tw) = .ok x) ∧ x.vars = [] ∧ x.eval w m = .ok v := by
    intro nm v hn hc hv
    have hl : lookup ctx nm = .const v := by unfold lookup; rw [hc, hv]
    have hN : Name nm tw := ⟨hn.1, hn.2, by
      intro c hc
      cases tw with
      | nil => cases hc
      | cons d t => cases hc; exact space_not_nameChar (h2 c (by simp))⟩
    have := parseImpl_text cfg w ctx (.name ws nm) tw ⟨h1, hN, by simp [hl]⟩ h2
    simp only [Cst.text] at this
    have hf : finOf cfg w (.num v) = .ok (.num v) := by
      unfold finOf; split
      · rw [simplify]
      · rfl
    simp only [Cst.meaning, Cst.den, hl, hf] at this
    refine ⟨⟨.num v, []⟩, fun o => parse_of_impl (by rw [this]; rfl) (by intro vs _ n hn; cases hn), rfl, rfl⟩
  obtain ⟨⟨v1, e1, n1⟩, ⟨v2, e2, n2⟩⟩ := C56_constants
  constructor
  · intro hc
    obtain ⟨x, a, b, c⟩ := main _ v1 ⟨⟨c!"p", rfl, by decide⟩, by decide⟩ hc e1
    exact ⟨x, v1, a, b, c, n1⟩
  · intro hc
    obtain ⟨x, a, b, c⟩ := main _ v2 ⟨⟨c!"e", rfl, by decide⟩, by decide⟩ hc e2
    exact ⟨x, v2, a, b, c, n2⟩

/-- The manual has the constants in capitals (`/repo/README.md:215-218`); these names are
variables. -/
theorem C56_capitals (cfg : Cfg) (w : World) (o : Oracle) :
    parse cfg w o Context.default b!"PI" = .ok ⟨.var b!"PI", [b!"PI"]⟩ ∧
    parse cfg w o Context.default b!"E" = .ok ⟨.var b!"E", [b!"E"]⟩ := by
  have main : ∀ nm, Name nm [] → lookup Context.default nm = .var nm →
      parse cfg w o Context.default nm = .ok ⟨.var nm, [nm]⟩ := by
    intro nm hn hl
    have := parseImpl_text cfg w Context.default (.name [] nm) [] ⟨by simp [spaces], hn, by simp [hl]⟩
      (by simp [spaces])
    simp only [Cst.text, List.nil_append, List.append_nil] at this
    have hf : finOf cfg w (.var nm) = .ok (.var nm) := by
      unfold finOf; split
      · rw [simplify]
      · rfl
    simp only [Cst.meaning, Cst.den, hl, hf] at this
    exact parse_of_impl (by rw [this]; rfl) (by intro vs hvs; cases hvs)
  exact ⟨main _ ⟨⟨c!"P", rfl, by decide⟩, by decide, by intro c hc; cases hc⟩ rfl,
    main _ ⟨⟨c!"E", rfl, by decide⟩, by decide, by intro c hc; cases hc⟩ rfl⟩

/-! ### Examples -/

/-- A world in which the platform's functions can be told apart. -/
def wTell : World := { w0 with
  libm1 := fun s _ => match s with | .sinh => F64.ofNat 7 | _ => F64.f0
  libm2 := fun _ x y => F64.sub x y }

/-- `sinh(x)` and `atan2(5, x + 1)`, from text to value. -/
example : (match parse cfgPlain wTell Oracle.id Context.default b!"sinh(x)" with
    | .ok e => e.eval wTell (mx F64.f1) | _ => .error (.missing [])) = .ok (F64.ofNat 7) := by decide +kernel
example : (match parse cfgPlain wTell Oracle.id Context.default b!"atan2( 5, x+1 )" with
    | .ok e => e.eval wTell (mx F64.f1) | _ => .error (.missing [])) = .ok (F64.ofNat 3) := by decide +kernel

/-- The hypotheses of `C55_call` are met by `logn(x, y*y)`. -/
example : ∃ r ∈ manual, ∃ as : CArgs, r.name = b!"logn" ∧ Context.default.get r.name = none ∧
    as.good cfgPlain Context.default ∧ as.text = b!"x, y*y" ∧ (∀ k, r.args = some k → as.count = k) ∧
    (∀ t ∈ as.trees Context.default, Declared Context.default t) ∧
    evalL w0 (HMap.ofList [(b!"x", F64.ofNat 8), (b!"y", F64.ofNat 2)]) (as.trees Context.default) =
      .ok [F64.ofNat 8, F64.ofNat 4] := by
  refine ⟨⟨b!"logn", some 2, std2 .log⟩, by simp [manual],
    .more (.name [] b!"x") [] (.last (.bin (.name b!" " b!"y") [] .times (.name [] b!"y")) []),
    rfl, rfl, ?_, rfl, (by rintro k ⟨⟩; rfl), (by intro t _ vs hvs; cases hvs), by decide +kernel⟩
  have hn : ∀ c : UInt8, letter c → IsName [c] := fun c hc =>
    ⟨⟨c, rfl, hc⟩, by intro d hd; rw [List.mem_singleton.1 hd]; exact .inl hc⟩
  have hv : ∀ (ws : Bytes) (c : UInt8), spaces ws → letter c →
      (match lookup Context.default [c] with | .var _ => true | _ => false) = true →
      (Cst.name ws [c]).good cfgPlain Context.default := by
    intro ws c h1 h2 h3
    refine ⟨h1, hn c h2, fun f hf => ?_⟩
    rw [hf] at h3; cases h3
  exact ⟨by decide, hv _ _ (by decide) (by decide) (by decide), by decide, by decide, by decide,
    hv _ _ (by decide) (by decide) (by decide), hv _ _ (by decide) (by decide) (by decide), by decide, by decide⟩

/-- `sqrt(2)`, `sqrt(9)`, `sqrt` of the smallest and of the largest float. -/
example : callFn w0 Builtin.sqrt.toFunc [F64.ofNat 2] = .ok (F64.ofDecimal 14142135623730951 (-16)) := by
  decide +kernel
example : callFn w0 Builtin.sqrt.toFunc [F64.ofNat 9] = .ok (F64.ofNat 3) := by decide +kernel
example : callFn w0 Builtin.sqrt.toFunc [F64.ofDecimal 5 (-324)] =
    .ok (F64.ofDecimal 22227587494850775 (-178)) := by decide +kernel
example : callFn w0 Builtin.sqrt.toFunc [F64.ofDecimal 17976931348623157 292] =
    .ok (F64.ofDecimal 13407807929942596 138) := by decide +kernel
example : callFn w0 Builtin.sqrt.toFunc [F64.neg f75] = .ok .nan := by decide +kernel
example : callFn w0 Builtin.sqrt.toFunc [F64.zero true] = .ok (F64.zero true) := by decide +kernel

end Props
end Xprs
