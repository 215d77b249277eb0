import Verif.Lemmas.Ieee
import Verif.Props.Values
/-
Properties C44, C47 and C54: what the built-in functions and the operators compute.

A built-in function is found by its name, as the parser does it: `Ident.fromStr`.
-/
namespace Xprs
namespace Props
open Spec
set_option exponentiation.threshold 4096

/-- The name `n` is a function that takes `k` arguments (`none`: any number), and `P`
relates its arguments and its result, whatever the platform. -/
def Computes (n : Bytes) (k : Option Nat) (P : List F64 → F64 → Prop) : Prop :=
  ∃ f, Ident.fromStr n = .func f ∧ f.nbArgs = k ∧
    ∀ (w : World) (args : List F64), (∀ i, k = some i → args.length = i) →
      ∃ y, callFn w f args = .ok y ∧ P args y

theorem computes1 {n : Bytes} (b : Builtin) (g : F64 → F64) {P : List F64 → F64 → Prop}
    (h1 : Ident.fromStr n = .func b.toFunc) (h2 : b.nbArgs = some 1)
    (h3 : ∀ w x, b.run w [x] = .ok (g x)) (h4 : ∀ x, P [x] (g x)) : Computes n (some 1) P := by
  refine ⟨_, h1, h2, ?_⟩
  intro w args h
  have := h 1 rfl
  match args, this with
  | [x], _ => exact ⟨g x, h3 w x, h4 x⟩

/-! ### C47 -/

/-- `floor`: the greatest integer not above. -/
theorem C47_floor : Computes b!"floor" (some 1) (Rounding fun q => ⌊q⌋) :=
  computes1 .floor F64.floor rfl rfl (fun _ _ => rfl) fun x => by
    rintro _ ⟨⟩
    exact ⟨fun _ => floor_value, by rintro s rfl; rfl, by rintro rfl; rfl⟩

/-- `ceil`: the least integer not below. -/
theorem C47_ceil : Computes b!"ceil" (some 1) (Rounding fun q => ⌈q⌉) :=
  computes1 .ceil F64.ceil rfl rfl (fun _ _ => rfl) fun x => by
    rintro _ ⟨⟩
    exact ⟨fun _ => ceil_value, by rintro s rfl; rfl, by rintro rfl; rfl⟩

/-- `trunc`: the integer part. -/
theorem C47_trunc : Computes b!"trunc" (some 1) (Rounding truncRat) :=
  computes1 .trunc F64.trunc rfl rfl (fun _ _ => rfl) fun x => by
    rintro _ ⟨⟩
    exact ⟨fun _ => trunc_value, by rintro s rfl; rfl, by rintro rfl; rfl⟩

/-- `round`: the nearest integer, halves away from zero. -/
theorem C47_round : Computes b!"round" (some 1)
    (Rounding fun q => if 0 ≤ q then ⌊q + 1 / 2⌋ else ⌈q - 1 / 2⌉) :=
  computes1 .round F64.round rfl rfl (fun _ _ => rfl) fun x => by
    rintro _ ⟨⟩
    exact ⟨fun _ => round_value, by rintro s rfl; rfl, by rintro rfl; rfl⟩

/-- `fract`: what `trunc` takes away; NaN for the infinities. -/
theorem C47_fract : Computes b!"fract" (some 1) (fun args y => ∀ x, args = [x] →
    (∀ q, value x = some q → value y = some (q - truncRat q)) ∧ (value x = none → y = .nan)) :=
  computes1 .fract F64.fract rfl rfl (fun _ _ => rfl) fun x => by
    rintro _ ⟨⟩
    refine ⟨fun _ => fract_value, ?_⟩
    intro h
    cases x with
    | nan => rfl
    | inf s => cases s <;> rfl
    | fin s n k => rw [value_fin] at h; cases h

/-- `abs`: the absolute value. -/
theorem C47_abs : Computes b!"abs" (some 1) (fun args y => ∀ x, args = [x] →
    (∀ q, value x = some q → value y = some |q| ∧ signBit y = false) ∧
    (∀ s, x = .inf s → y = .inf false) ∧ (x = .nan → y = .nan)) :=
  computes1 .abs F64.abs rfl rfl (fun _ _ => rfl) fun x => by
    rintro _ ⟨⟩
    exact ⟨fun _ => abs_value, by rintro s rfl; rfl, by rintro rfl; rfl⟩

/-- `trunc(x) + fract(x) = x`, for every finite `x` and without rounding. -/
theorem C47_parts (w : World) (x : F64) (q : ℚ) (hq : value x = some q) :
    ∃ t f ft ff p r, Ident.fromStr b!"trunc" = .func t ∧ Ident.fromStr b!"fract" = .func f ∧
      callFn w t [x] = .ok ft ∧ callFn w f [x] = .ok ff ∧ value ft = some p ∧
      value ff = some r ∧ p + r = q ∧ |r| < 1 ∧ value (F64.add ft ff) = some q := by
  refine ⟨_, _, _, _, _, _, rfl, rfl, rfl, rfl, (trunc_value hq).1, fract_value hq, by ring, ?_, ?_⟩
  · unfold truncRat
    split
    · rw [abs_lt]
      constructor
      · have := Int.floor_le q; linarith
      · have := Int.lt_floor_add_one q; linarith
    · rw [abs_lt]
      constructor
      · have := Int.ceil_lt_add_one q; linarith
      · have := Int.le_ceil q; linarith
  · have h := add_rounds (trunc_value hq).1 (fract_value hq)
    rw [show (truncRat q : ℚ) + (q - truncRat q) = q by ring] at h
    exact roundsTo_exact h hq

/-- Values of the examples below. -/
def f75 : F64 := F64.ofDecimal 75 (-1)
theorem f75_eq : ∃ h, f75 = .fin false (15 * (unit64 / 2)) h := by
  have : f75 = F64.ofMag false (15 * (unit64 / 2)) 1 := by decide +kernel
  have hr : Rep (15 * (unit64 / 2)) := by
    rw [show unit64 / 2 = 2 ^ 1073 by rw [unit64_eq]; rfl]
    constructor
    · rw [maxMag_eq]; decide +kernel
    · decide +kernel
  exact ⟨hr, this.trans (F64.ofMag_rep false hr)⟩

/-- `7.5` has the value 15/2; the theorems above say that it is rounded to 7 and 8. -/
theorem f75_value : value f75 = some (15 / 2) := by
  obtain ⟨h, e⟩ := f75_eq
  rw [e, value_fin]
  have hU := unit64_pos_rat
  have : unit64 = 2 * (unit64 / 2) := by rw [unit64_eq]
  have h2 : ((unit64 : ℕ) : ℚ) = 2 * ((unit64 / 2 : ℕ) : ℚ) := by exact_mod_cast this
  generalize unit64 / 2 = V at *
  congr 1
  have h3 : ((V : ℕ) : ℚ) ≠ 0 := by intro h; rw [h2, h] at hU; simp at hU
  rw [h2]
  simp only [F64.sv]
  push_cast
  field_simp

example : callFn w0 Builtin.floor.toFunc [f75] = .ok (F64.ofNat 7) ∧
    callFn w0 Builtin.ceil.toFunc [f75] = .ok (F64.ofNat 8) ∧
    callFn w0 Builtin.round.toFunc [F64.neg f75] = .ok (F64.neg (F64.ofNat 8)) ∧
    callFn w0 Builtin.fract.toFunc [F64.neg f75] = .ok (F64.neg (F64.ofDecimal 5 (-1))) := by
  decide +kernel

/-! ### C44 -/

/-- `min`: an argument not above any other, NaN not counted; infinity if all are NaN. -/
theorem C44_min : Computes b!"min" none Minimum :=
  ⟨Builtin.min.toFunc, rfl, rfl, fun _ args _ => ⟨_, rfl, min_fold args⟩⟩

/-- `max`: an argument not below any other, NaN not counted; minus infinity if all are
NaN. -/
theorem C44_max : Computes b!"max" none Maximum :=
  ⟨Builtin.max.toFunc, rfl, rfl, fun _ args _ => ⟨_, rfl, max_fold args⟩⟩

/-- `min` and `max` depend on the set of arguments only, up to the sign of zero. -/
theorem C44_order (w : World) (xs ys : List F64) (h : ∀ x, x ∈ xs ↔ x ∈ ys) :
    (∃ f, Ident.fromStr b!"min" = .func f ∧
      ∃ m m', callFn w f xs = .ok m ∧ callFn w f ys = .ok m' ∧ Same m m') ∧
    (∃ f, Ident.fromStr b!"max" = .func f ∧
      ∃ m m', callFn w f xs = .ok m ∧ callFn w f ys = .ok m' ∧ Same m m') :=
  ⟨⟨_, rfl, _, _, rfl, rfl, minimum_unique h (min_fold xs) (min_fold ys)⟩,
    ⟨_, rfl, _, _, rfl, rfl, maximum_unique h (max_fold xs) (max_fold ys)⟩⟩

theorem sumF_same (w : World) (x : F64) (xs : List F64) :
    Same (sumF w (x :: xs)) (xs.foldl F64.add x) :=
  foldl_add_congr xs (add_zero_left _ _)

/-- `sum`: IEEE additions from left to right (up to the sign of zero: the platform may
start from `0` or from `-0`). -/
theorem C44_sum : Computes b!"sum" none (fun args y => ∀ x xs, args = x :: xs →
    ∃ r, SumsTo x xs r ∧ Same y r) := by
  refine ⟨Builtin.sum.toFunc, rfl, rfl, fun w args _ => ⟨_, rfl, ?_⟩⟩
  rintro x xs rfl
  exact ⟨_, sumsTo xs x, sumF_same w x xs⟩

/-- `sum` makes no error on whole numbers up to `2⁵³`. -/
theorem C44_sum_exact : Computes b!"sum" none (fun args y => ∀ zs : List ℤ,
    args.map value = zs.map (fun z : ℤ => some (z : ℚ)) → (zs.map Int.natAbs).sum ≤ 2 ^ 53 →
    value y = some ((zs.sum : ℤ) : ℚ)) := by
  refine ⟨Builtin.sum.toFunc, rfl, rfl, fun w args _ => ⟨_, rfl, ?_⟩⟩
  intro zs h hs
  have := sum_exact args (F64.zero w.sumInit) 0 zs (by rw [value_zero]; simp) h (by simpa using hs)
  simpa [sumF] using this

theorem divs_same {a a' b r : F64} (h : Divs a b r) (hs : Same a a') (hb : ∃ q, value b = some q ∧ q ≠ 0) :
    ∃ r', Divs a' b r' ∧ Same r r' := by
  rcases hs with rfl | ⟨⟨s, rfl⟩, ⟨t, rfl⟩⟩
  · exact ⟨r, h, .inl rfl⟩
  · refine ⟨F64.div (F64.zero t) b, divs _ _, ?_⟩
    obtain ⟨q, hq, hq0⟩ := hb
    have z : ∀ (s : Bool) (r : F64), Divs (F64.zero s) b r → IsZero r := by
      intro s r h
      obtain ⟨t, m, hm, rfl, rfl⟩ := value_some hq
      cases h with
      | zeroZero h1 h2 => rw [hq] at h2; injection h2 with h2; exact absurd h2 hq0
      | byZero h1 h2 h3 => rw [hq] at h3; injection h3 with h3; exact absurd h3 hq0
      | finite h1 h2 h3 h4 h5 =>
        rw [value_zero] at h1; cases h1
        rw [_root_.zero_div] at h4
        have h6 := roundsTo_exact h4 (value_zero false)
        obtain ⟨u, n, hn, rfl, h7⟩ := value_some h6
        have := value_zero_iff.1 h6
        subst this
        exact ⟨u, rfl⟩
    exact .inr ⟨z s r h, z t _ (divs _ _)⟩

/-- `mean`: the sum divided by the number of arguments, rounded once more. -/
theorem C44_mean : Computes b!"mean" none (fun args y => ∀ x xs, args = x :: xs →
    args.length ≤ 2 ^ 53 → ∃ r n m, SumsTo x xs r ∧ value n = some (args.length : ℚ) ∧
      Divs r n m ∧ Same y m) := by
  refine ⟨Builtin.mean.toFunc, rfl, rfl, fun w args _ => ⟨_, rfl, ?_⟩⟩
  rintro x xs rfl hl
  have hn : value (F64.ofNat (x :: xs).length) = some (((x :: xs).length : ℕ) : ℚ) := by
    rw [F64.ofNat_eq (rep_nat hl), value_whole]
    simp [F64.sv]
  obtain ⟨m, h1, h2⟩ := divs_same (divs (sumF w (x :: xs)) (F64.ofNat (x :: xs).length))
    (sumF_same w x xs) ⟨_, hn, by simp; positivity⟩
  exact ⟨_, _, m, sumsTo xs x, hn, h1, h2⟩

example : callFn w0 Builtin.min.toFunc [.nan, f75, F64.ofNat 3, .inf true, .nan] = .ok (.inf true) ∧
    callFn w0 Builtin.max.toFunc [.nan, f75, F64.ofNat 3, .inf true, .nan] = .ok f75 ∧
    callFn w0 Builtin.max.toFunc [.nan] = .ok (.inf true) ∧
    callFn w0 Builtin.mean.toFunc [F64.ofNat 7, F64.ofNat 8] = .ok f75 := by
  decide +kernel

/-! ### C54 -/

/-- The relation of IEEE 754 for an operator (power is left to the platform). -/
def IeeeOp : Op → F64 → F64 → F64 → Prop
  | .plus => Adds
  | .minus => Subs
  | .times => Muls
  | .divide => Divs
  | .modulo => Rems
  | _ => fun _ _ _ => False

/-- The four operations and the remainder follow IEEE 754: every pair of operands,
infinities, NaN and zeros included; in both evaluators. -/
theorem C54_operators (w : World) (m : HMap F64) (op : Op) (l r : Elem) (a b : F64)
    (hop : op ∈ [Op.plus, .minus, .times, .divide, .modulo])
    (hl : eval w m l = .ok a) (hr : eval w m r = .ok b)
    (hl' : evalU w m l = .ok a) (hr' : evalU w m r = .ok b) :
    ∃ v, eval w m (.bin op l r) = .ok v ∧ evalU w m (.bin op l r) = .ok v ∧ IeeeOp op a b v := by
  simp only [List.mem_cons, List.not_mem_nil, or_false] at hop
  rcases hop with rfl | rfl | rfl | rfl | rfl
  · exact ⟨_, eval_bin hl hr rfl, by rw [evalU, hl', hr'], adds a b⟩
  · exact ⟨_, eval_bin hl hr rfl, by rw [evalU, hl', hr'], adds a (F64.neg b)⟩
  · exact ⟨_, eval_bin hl hr rfl, by rw [evalU, hl', hr'], muls a b⟩
  · exact ⟨_, eval_bin hl hr rfl, by rw [evalU, hl', hr'], divs a b⟩
  · exact ⟨_, eval_bin hl hr rfl, by rw [evalU, hl', hr'], rems a b⟩

/-- Negation is exact and changes the sign bit (also of zero). -/
theorem C54_negation (w : World) (m : HMap F64) (e : Elem) (a : F64) (he : eval w m e = .ok a)
    (he' : evalU w m e = .ok a) :
    ∃ v, eval w m (.un .minus e) = .ok v ∧ evalU w m (.un .minus e) = .ok v ∧
      (∀ q, value a = some q → value v = some (-q)) ∧ (∀ s, a = .inf s → v = .inf (!s)) ∧
      (a = .nan → v = .nan) ∧ (a ≠ .nan → signBit v = !signBit a) := by
  refine ⟨F64.neg a, by rw [eval, he]; rfl, by rw [evalU, he'], fun _ => neg_value, ?_, ?_, ?_⟩
  · rintro s rfl; rfl
  · rintro rfl; rfl
  · intro h; cases a <;> first | rfl | exact absurd rfl h

/-- The relations determine the result. -/
theorem C54_determined (op : Op) (a b v v' : F64) (h : IeeeOp op a b v) (h' : IeeeOp op a b v') :
    v = v' := by
  cases op with
  | plus => exact (Adds.eq h).trans (Adds.eq h').symm
  | minus => exact (Adds.eq h).trans (Adds.eq h').symm
  | times => exact (Muls.eq h).trans (Muls.eq h').symm
  | divide => exact (Divs.eq h).trans (Divs.eq h').symm
  | modulo => exact (Rems.eq h).trans (Rems.eq h').symm
  | power => exact h.elim
  | factorial => exact h.elim

/-- `recip`, also called `invert`: one divided by the argument. -/
theorem C54_recip (n : Bytes) (hn : n ∈ [b!"recip", b!"invert"]) :
    Computes n (some 1) (fun args y => ∀ x, args = [x] →
      ∃ one, value one = some 1 ∧ Divs one x y) := by
  have h : ∀ x, ∃ one, value one = some 1 ∧ Divs one x (F64.recip x) := fun x =>
    ⟨F64.f1, by rw [F64.f1_eq, value_whole]; simp [F64.sv], divs _ _⟩
  simp only [List.mem_cons, List.not_mem_nil, or_false] at hn
  rcases hn with rfl | rfl
  · exact computes1 .recip F64.recip rfl rfl (fun _ _ => rfl) fun x => by rintro _ ⟨⟩; exact h x
  · exact computes1 .recip F64.recip rfl rfl (fun _ _ => rfl) fun x => by rintro _ ⟨⟩; exact h x

example : eval w0 HMap.empty (.bin .plus (.num (F64.ofDecimal 1 (-1))) (.num (F64.ofDecimal 2 (-1)))) =
    .ok (F64.ofDecimal 30000000000000004 (-17)) := by decide +kernel
example : eval w0 HMap.empty (.bin .modulo (.num (F64.neg f75)) (.num (F64.ofNat 2))) =
    .ok (F64.neg (F64.ofDecimal 15 (-1))) := by decide +kernel
example : callFn w0 Builtin.recip.toFunc [F64.neg (F64.zero false)] = .ok (.inf true) := by
  decide +kernel

end Props
end Xprs
