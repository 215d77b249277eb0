import Verif.Spec.Cause
import Verif.Spec.Range
import Verif.Lemmas.Laws
import Verif.Props.Factorial
import Verif.Props.Hypot
import Verif.Props.Decimals
import Verif.Props.Lattice
import Verif.Props.Apart
/-
Property C126: where results come from that are not numbers.
-/
namespace Xprs
namespace Props
open _root_.Xprs.Spec
set_option exponentiation.threshold 4096

/-- Below `2¹⁰²⁴` (in units of `2⁻¹⁰⁷⁴`) the grid ends at `2¹⁰²⁴ - 2⁹⁷¹`. -/
theorem grid_top {n : ℕ} (h : Grid n) (hn : n < 2 ^ 2098) : n ≤ 2 ^ 2098 - 2 ^ 2045 := by
  obtain ⟨m, k, hm, rfl⟩ := h
  have e : 2 ^ 2098 - 2 ^ 2045 = (2 ^ 53 - 1) * 2 ^ 2045 := by norm_num
  rw [e]
  rcases le_total k 2045 with l | l
  · exact Nat.mul_le_mul (by omega) (Nat.pow_le_pow_right (by norm_num) l)
  · have e2 : m * 2 ^ k = m * 2 ^ (k - 2045) * 2 ^ 2045 := by
      rw [mul_assoc, ← pow_add, Nat.sub_add_cancel l]
    rw [e2] at hn ⊢
    have e3 : (2 : ℕ) ^ 2098 = 2 ^ 53 * 2 ^ 2045 := by norm_num
    rw [e3] at hn
    have := lt_of_mul_lt_mul_right hn (Nat.zero_le _)
    exact Nat.mul_le_mul_right _ (by omega)

theorem nearest_top {N D n : ℕ} (hD : 0 < D) (h : Nearest N D n) :
    n < 2 ^ 2098 ↔ N < (2 ^ 2098 - 2 ^ 2044) * D := by
  have e1 : (2 : ℕ) ^ 2098 = 2 ^ 54 * 2 ^ 2044 := by norm_num
  have e2 : (2 : ℕ) ^ 2045 = 2 * 2 ^ 2044 := by norm_num
  have gA : Grid (2 ^ 2098 - 2 ^ 2045) := ⟨2 ^ 53 - 1, 2045, by norm_num, by norm_num⟩
  have gB : Grid (2 ^ 2098) := ⟨1, 2098, by norm_num, by norm_num⟩
  have hA := h.closest _ gA
  have hB := h.closest _ gB
  have hU : 0 < 2 ^ 2044 * D := by positivity
  constructor
  · intro hn
    have ht := grid_top h.grid hn
    by_contra hN
    rw [not_lt] at hN
    have hev := h.even _ gB (by omega)
    rw [e1, e2] at *
    generalize hP : (2 : ℕ) ^ 2044 = P at *
    have k1 : (2 ^ 54 * P - P) * D = (2 ^ 54 - 1) * (P * D) := by
      rw [show 2 ^ 54 * P - P = (2 ^ 54 - 1) * P by omega, mul_assoc]
    have k2 : (2 ^ 54 * P) * D = 2 ^ 54 * (P * D) := mul_assoc ..
    have k3 : n * D ≤ (2 ^ 54 - 2) * (P * D) := by
      rw [← mul_assoc]
      exact Nat.mul_le_mul_right _ (by omega)
    rw [k1] at hN
    rw [k2] at hB hev
    unfold Spec.dist at hB hev
    have hnD : n * D = (2 ^ 54 - 2) * (P * D) := by omega
    have hn' : n = (2 ^ 54 - 2) * P := by
      rw [← mul_assoc] at hnD
      exact Nat.eq_of_mul_eq_mul_right hD hnD
    have := hev (by omega)
    rw [hn'] at this
    have e5 : 2 * (2 ^ 54 * P - (2 ^ 54 - 2) * P + ((2 ^ 54 - 2) * P - 2 ^ 54 * P)) = 4 * P := by omega
    rw [e5] at this
    have hP0 : 0 < P := by rw [← hP]; positivity
    have := Nat.dvd_of_mul_dvd_mul_right hP0 this
    omega
  · intro hN
    by_contra hn
    rw [not_lt] at hn
    rw [e1, e2] at *
    generalize hP : (2 : ℕ) ^ 2044 = P at *
    have k1 : (2 ^ 54 * P - P) * D = (2 ^ 54 - 1) * (P * D) := by
      rw [show 2 ^ 54 * P - P = (2 ^ 54 - 1) * P by omega, mul_assoc]
    have k2 : (2 ^ 54 * P - 2 * P) * D = (2 ^ 54 - 2) * (P * D) := by
      rw [show 2 ^ 54 * P - 2 * P = (2 ^ 54 - 2) * P by omega, mul_assoc]
    have k3 : 2 ^ 54 * (P * D) ≤ n * D := by
      rw [← mul_assoc]
      exact Nat.mul_le_mul_right _ hn
    rw [k1] at hN
    rw [k2] at hA
    unfold Spec.dist at hA
    omega

/-- A number is rounded to a number exactly if it is below the limit. -/
theorem rounds_number {q : ℚ} {v : F64} (h : RoundsTo q v) : value v = none ↔ TooLarge q := by
  obtain ⟨⟨N, D, hD, hq, n, hn, hf⟩, -, -⟩ := h
  have hDq : (0 : ℚ) < (D : ℚ) := by exact_mod_cast hD
  have hU : (0 : ℚ) < 2 ^ 1074 := by positivity
  have key : TooLarge q ↔ ¬ N < (2 ^ 2098 - 2 ^ 2044) * D := by
    have e : (N : ℚ) = |q| * 2 ^ 1074 * D := by rw [hq]; field_simp
    have e2 : (((2 ^ 2098 - 2 ^ 2044 : ℕ)) : ℚ) = (2 ^ 1024 - 2 ^ 970) * 2 ^ 1074 := by norm_num
    rw [not_lt, TooLarge, ← Nat.cast_le (α := ℚ), Nat.cast_mul, e, e2, mul_le_mul_iff_of_pos_right hDq,
      mul_le_mul_iff_of_pos_right hU]
  rw [key, ← nearest_top hD hn]
  rcases hf with ⟨h1, h2, h3⟩ | ⟨h1, h2⟩
  · simp only [h1, not_true_eq_false, iff_false]
    cases v with
    | fin s n h => cases s <;> simp [value]
    | _ => cases h3
  · simp only [not_lt.2 h1, not_false_eq_true, iff_true]
    cases v with
    | fin => cases h2
    | _ => rfl

theorem factorial_number {a v : F64} {q : ℚ} (ha : value a = some q) (h : factorial a = .ok v) :
    value v = none ↔ ¬ Countable q := by
  obtain ⟨s, n, hn, rfl, rfl⟩ := value_some ha
  have hU := unit64_pos_rat
  by_cases h1 : s = true ∧ 0 < n
  · obtain ⟨rfl, h1⟩ := h1
    rw [factorial_neg hn h1] at h
    cases h
    simp only [value, true_iff]
    rintro ⟨k, hk, -⟩
    have : (F64.sv true n : ℚ) / (unit64 : ℕ) < 0 := by
      apply div_neg_of_neg_of_pos _ hU
      simp only [F64.sv, if_true]
      push_cast
      have : (0 : ℚ) < n := by exact_mod_cast h1
      linarith
    rw [hk] at this
    exact absurd this (not_lt.2 (Nat.cast_nonneg k))
  have hs : s = false ∨ n = 0 := by
    cases s
    · exact .inl rfl
    · right; by_contra h0; exact h1 ⟨rfl, by omega⟩
  have hsv : (F64.sv s n : ℚ) = n := by
    rcases hs with rfl | rfl
    · simp [F64.sv]
    · cases s <;> simp [F64.sv]
  rw [hsv]
  by_cases hm : n % unit64 = 0
  · obtain ⟨k, rfl⟩ : ∃ k, n = k * unit64 := ⟨n / unit64, by
      have := Nat.div_add_mod n unit64
      rw [hm, Nat.mul_comm] at this; omega⟩
    have e : ((k * unit64 : ℕ) : ℚ) / (unit64 : ℕ) = k := by
      rw [Nat.cast_mul, mul_div_assoc, _root_.div_self hU.ne', _root_.mul_one]
    rw [e]
    by_cases hk : k ≤ 170
    · have hs' : s = false ∨ k = 0 := hs.imp_right fun h => by
        rcases Nat.mul_eq_zero.1 h with h | h
        · exact h
        · exact absurd h (by have := unit64_pos; omega)
      rw [factorial_table hn hk hs'] at h
      obtain ⟨M, hr, h2, -⟩ := C41_table_partial k hk
      rw [F64.ofNat_eq (rep_nat (by omega)), factorial_table _ hk (.inl rfl)] at h2
      rw [h2] at h
      cases h
      simp only [value, reduceCtorEq, false_iff, not_not]
      exact ⟨k, rfl, hk⟩
    · have hs' : s = false := by
        rcases hs with h | h
        · exact h
        · rcases Nat.mul_eq_zero.1 h with h | h
          · omega
          · exact absurd h (by have := unit64_pos; omega)
      subst hs'
      rw [factorial_big hn (by omega)] at h
      cases h
      simp only [value, true_iff]
      rintro ⟨j, hj, hj'⟩
      have : k = j := by exact_mod_cast hj
      omega
  · have hs' : s = false := by
      rcases hs with h | rfl
      · exact h
      · simp at hm
    subst hs'
    rw [factorial_fract hn hm] at h
    cases h
    simp only [value, true_iff]
    rintro ⟨j, hj, -⟩
    rw [div_eq_iff hU.ne'] at hj
    have : n = j * unit64 := by exact_mod_cast hj
    exact hm (by rw [this, Nat.mul_mod_left])

theorem bin_number {w : World} {op : Op} {a b v : F64} {p q : ℚ} (ha : value a = some p) (hb : value b = some q)
    (h : binF w op a b = .ok v) : value v = none ↔ NoNumber w op a p b q := by
  cases op with
  | plus =>
    cases h
    rw [rounds_number (_root_.Xprs.add_rounds ha hb)]
    exact ⟨.plus, fun h => by cases h; assumption⟩
  | minus =>
    cases h
    rw [rounds_number (sub_rounds ha hb)]
    exact ⟨.minus, fun h => by cases h; assumption⟩
  | times =>
    cases h
    rw [rounds_number (mul_rounds ha hb)]
    exact ⟨.times, fun h => by cases h; assumption⟩
  | divide =>
    cases h
    by_cases h0 : q = 0
    · subst h0
      refine iff_of_true ?_ .byZero
      by_cases hn : F64.div a b = .nan
      · rw [hn]; rfl
      · rw [(div_zero' ha hb hn).1]; rfl
    · rw [rounds_number (div_rounds ha hb h0)]
      exact ⟨.divide h0, fun h => by
        cases h with
        | byZero => exact absurd rfl h0
        | divide _ h => exact h⟩
  | modulo =>
    cases h
    by_cases h0 : q = 0
    · subst h0
      refine iff_of_true ?_ .modulo
      rw [rem_zero_right a ⟨_, eq_zero_of_value hb⟩]; rfl
    · rw [rem_exact ha hb h0]
      exact iff_of_false (by simp) fun h => by cases h; exact h0 rfl
  | power =>
    cases h
    exact ⟨.power, fun h => by cases h; assumption⟩
  | factorial => cases h

/-- Something that has a value is a number or is not. -/
theorem number_or (v : F64) : value v = none ∨ ∃ q, value v = some q := by
  cases h : value v with
  | none => exact .inl rfl
  | some q => exact .inr ⟨q, rfl⟩

mutual
theorem no_break (w : World) (m : HMap F64) : ∀ (e : Elem) (v : F64), eval w m e = .ok v →
    (∀ t, Sub t e → ¬ Breaks w m t) → ∃ q, value v = some q
  | .num x, v, h, hb => by
    rw [eval] at h
    cases h
    exact (number_or x).resolve_left fun h => hb _ .refl (.num h)
  | .var n, v, h, hb => by
    rw [eval] at h
    simp only [HMap.get] at h
    split at h
    · rename_i x hx
      cases h
      exact (number_or v).resolve_left fun h => hb _ .refl (.var hx h)
    · cases h
  | .un op e, v, h, hb => by
    obtain ⟨a, h1, h2⟩ := eval_un_ok.1 h
    obtain ⟨q, hq⟩ := no_break w m e a h1 fun t ht => hb t (.operand ht)
    cases op with
    | plus => cases h2; exact ⟨q, hq⟩
    | minus => cases h2; exact ⟨-q, neg_value hq⟩
    | factorial =>
      refine (number_or v).resolve_left fun hn => hb _ .refl (.factorial h1 hq ?_)
      exact (factorial_number hq h2).1 hn
    | _ => cases h2
  | .bin op l r, v, h, hb => by
    obtain ⟨a, b, h1, h2, h3⟩ := eval_bin_ok.1 h
    obtain ⟨p, hp⟩ := no_break w m l a h1 fun t ht => hb t (.left ht)
    obtain ⟨q, hq⟩ := no_break w m r b h2 fun t ht => hb t (.right ht)
    exact (number_or v).resolve_left fun hn => hb _ .refl (.bin h1 h2 hp hq ((bin_number hp hq h3).1 hn))
  | .call f args, v, h, hb => by
    obtain ⟨vs, h1, h2⟩ := eval_call_ok.1 h
    have := no_breakL w m args vs h1 fun a ha t ht => hb t (.arg ha ht)
    exact (number_or v).resolve_left fun hn => hb _ .refl (.call h1 this h2 hn)
theorem no_breakL (w : World) (m : HMap F64) : ∀ (es : List Elem) (vs : List F64), evalL w m es = .ok vs →
    (∀ a ∈ es, ∀ t, Sub t a → ¬ Breaks w m t) → ∀ u ∈ vs, ∃ q, value u = some q
  | [], vs, h, _ => by
    rw [evalL] at h
    cases h
    nofun
  | a :: as, vs, h, hb => by
    obtain ⟨v, us, h1, h2, rfl⟩ := evalL_cons.1 h
    intro u hu
    rcases List.mem_cons.1 hu with rfl | hu
    · exact no_break w m a u h1 fun t ht => hb a List.mem_cons_self t ht
    · exact no_breakL w m as us h2 (fun b hb' t ht => hb b (List.mem_cons_of_mem _ hb') t ht) u hu
end

theorem eval_arg {w : World} {m : HMap F64} : ∀ {es : List Elem} {vs : List F64} {a : Elem}, evalL w m es = .ok vs →
    a ∈ es → ∃ u, eval w m a = .ok u
  | [], _, _, _, h => by cases h
  | b :: bs, vs, a, h, ha => by
    obtain ⟨v, us, h1, h2, rfl⟩ := evalL_cons.1 h
    rcases List.mem_cons.1 ha with rfl | ha
    · exact ⟨v, h1⟩
    · exact eval_arg h2 ha

theorem eval_part {w : World} {m : HMap F64} {t e : Elem} (hs : Sub t e) : ∀ {v : F64}, eval w m e = .ok v →
    ∃ u, eval w m t = .ok u := by
  induction hs with
  | refl => exact fun h => ⟨_, h⟩
  | left _ ih => intro v h; obtain ⟨a, b, h1, -, -⟩ := eval_bin_ok.1 h; exact ih h1
  | right _ ih => intro v h; obtain ⟨a, b, -, h1, -⟩ := eval_bin_ok.1 h; exact ih h1
  | operand _ ih => intro v h; obtain ⟨a, h1, -⟩ := eval_un_ok.1 h; exact ih h1
  | arg ha _ ih =>
    intro v h
    obtain ⟨vs, h1, -⟩ := eval_call_ok.1 h
    obtain ⟨u, hu⟩ := eval_arg h1 ha
    exact ih hu

theorem break_value {w : World} {m : HMap F64} {t : Elem} {v : F64} (h : Breaks w m t) (hv : eval w m t = .ok v) :
    value v = none := by
  cases h with
  | num h => rw [eval] at hv; cases hv; exact h
  | var h1 h2 =>
    rw [eval] at hv
    simp only [HMap.get, h1] at hv
    cases hv
    exact h2
  | bin h1 h2 h3 h4 h5 =>
    obtain ⟨a, b, k1, k2, k3⟩ := eval_bin_ok.1 hv
    rw [h1] at k1; rw [h2] at k2
    cases k1; cases k2
    exact (bin_number h3 h4 k3).2 h5
  | factorial h1 h2 h3 =>
    obtain ⟨a, k1, k2⟩ := eval_un_ok.1 hv
    rw [h1] at k1
    cases k1
    exact (factorial_number h2 k2).2 h3
  | call h1 _ h3 h4 =>
    obtain ⟨vs, k1, k2⟩ := eval_call_ok.1 hv
    rw [h1] at k1
    cases k1
    rw [h3] at k2
    cases k2
    exact h4

/-! ### C126 -/

/-- C126: an evaluation returns infinity or NaN only if one of the listed things happens in it to numbers. -/
theorem C126_cause (w : World) (m : HMap F64) (e : Elem) (v : F64) (h : eval w m e = .ok v) (hv : value v = none) :
    ∃ t, Sub t e ∧ Breaks w m t := by
  by_contra hc
  obtain ⟨q, hq⟩ := no_break w m e v h fun t ht hb => hc ⟨t, ht, hb⟩
  rw [hv] at hq
  cases hq

/-- C126: all parts have numbers for their values exactly if none of this happens. -/
theorem C126_exact (w : World) (m : HMap F64) (e : Elem) (v : F64) (h : eval w m e = .ok v) :
    (∀ t, Sub t e → ∃ u q, eval w m t = .ok u ∧ evalU w m t = .ok u ∧ value u = some q) ↔
      ∀ t, Sub t e → ¬ Breaks w m t := by
  constructor
  · intro hf t ht hb
    obtain ⟨u, q, h1, -, h2⟩ := hf t ht
    rw [break_value hb h1] at h2
    cases h2
  · intro hb t ht
    obtain ⟨u, hu⟩ := eval_part ht h
    obtain ⟨q, hq⟩ := no_break w m t u hu fun s hs => hb s (sub_within hs ht)
    exact ⟨u, q, hu, by rw [evalU_eq, hu]; rfl, hq⟩

mutual
theorem level_runs (w : World) (m : HMap F64) : ∀ (e : Elem) (v : F64), eval w m e = .ok v →
    (∀ t, Sub t e → ¬ Breaks w m t) → NoPower e → NotModOne w m e → (∀ f as, Sub (.call f as) e → ZeroBlind w f) →
    Runs w m e v
  | .num x, v, h, _, _, _, _ => by
    rw [eval] at h
    cases h
    exact .num
  | .var n, v, h, _, _, _, _ => by
    rw [eval] at h
    simp only [HMap.get] at h
    split at h
    · rename_i x hx
      cases h
      exact .var hx
    · cases h
  | .un op e, v, h, hb, hp, h1, hl => by
    obtain ⟨a, h2, h3⟩ := eval_un_ok.1 h
    refine .un (level_runs w m e a h2 (fun t ht => hb t (.operand ht)) (fun l r ht => hp l r (.operand ht))
      (fun l r ht => h1 l r (.operand ht)) fun f as ht => hl f as (.operand ht)) ?_
    cases op with
    | plus => cases h3; exact .plus
    | minus => cases h3; exact .minus
    | factorial => exact .factorial h3
    | _ => cases h3
  | .bin op l r, v, h, hb, hp, h1, hl => by
    obtain ⟨a, b, h2, h3, h4⟩ := eval_bin_ok.1 h
    obtain ⟨s, hs⟩ := no_break w m _ v h hb
    obtain ⟨q, hq⟩ := no_break w m r b h3 fun t ht => hb t (.right ht)
    refine .bin (level_runs w m l a h2 (fun t ht => hb t (.left ht)) (fun l r ht => hp l r (.left ht))
      (fun l r ht => h1 l r (.left ht)) fun f as ht => hl f as (.left ht))
      (level_runs w m r b h3 (fun t ht => hb t (.right ht)) (fun l r ht => hp l r (.right ht))
      (fun l r ht => h1 l r (.right ht)) fun f as ht => hl f as (.right ht)) ?_
    have hn := ne_nan_of_value hs
    cases op with
    | plus => cases h4; exact .plus hn
    | minus => cases h4; exact .minus hn
    | times => cases h4; exact .times hn
    | divide =>
      cases h4
      refine .divide hn (not_zero_of_value hq ?_)
      rintro rfl
      obtain ⟨p, hp'⟩ := no_break w m l a h2 fun t ht => hb t (.left ht)
      exact hb _ .refl (.bin h2 h3 hp' hq .byZero)
    | modulo =>
      cases h4
      exact .modulo hn fun e => absurd (e ▸ h3) (h1 l r .refl)
    | power => exact absurd .refl (hp l r)
    | factorial => cases h4
  | .call f args, v, h, hb, hp, h1, hl => by
    obtain ⟨vs, h2, h3⟩ := eval_call_ok.1 h
    obtain ⟨q, hq⟩ := no_break w m _ v h hb
    refine .call (level_runsL w m args vs h2 (fun a ha t ht => hb t (.arg ha ht)) (fun a ha l r ht => hp l r (.arg ha ht))
      (fun a ha l r ht => h1 l r (.arg ha ht)) fun a ha f as ht => hl f as (.arg ha ht)) ?_
    exact hl f args .refl vs v q (no_breakL w m args vs h2 fun a ha t ht => hb t (.arg ha ht)) h3 hq
theorem level_runsL (w : World) (m : HMap F64) : ∀ (es : List Elem) (vs : List F64), evalL w m es = .ok vs →
    (∀ a ∈ es, ∀ t, Sub t a → ¬ Breaks w m t) → (∀ a ∈ es, NoPower a) → (∀ a ∈ es, NotModOne w m a) →
    (∀ a ∈ es, ∀ f as, Sub (.call f as) a → ZeroBlind w f) → RunsL w m es vs
  | [], vs, h, _, _, _, _ => by
    rw [evalL] at h
    cases h
    exact .nil
  | a :: as, vs, h, hb, hp, h1, hl => by
    obtain ⟨v, us, h2, h3, rfl⟩ := evalL_cons.1 h
    have k : ∀ {b}, b ∈ as → b ∈ a :: as := fun h => List.mem_cons_of_mem _ h
    exact .cons (level_runs w m a v h2 (hb a List.mem_cons_self) (hp a List.mem_cons_self) (h1 a List.mem_cons_self)
      (hl a List.mem_cons_self)) (level_runsL w m as us h3 (fun b hb' => hb b (k hb')) (fun b hb' => hp b (k hb'))
      (fun b hb' => h1 b (k hb')) fun b hb' => hl b (k hb'))
end

/-- C126 for texts, in every build: if none of this happens in the tree of the text, every build computes
a number, and the same. -/
theorem C126_builds (cfg cfg' : Cfg) (w : World) (o o' : Oracle) (ctx : Context) (input : Bytes)
    (f g : Xpr) (m : HMap F64) (v : F64) (hpe : cfg.pejmdas = cfg'.pejmdas)
    (ho : cfg.opt = false) (hn : ∀ ts, Lex input ts → ParensApart ts)
    (h : parse cfg w o ctx input = .ok f) (h' : parse cfg' w o' ctx input = .ok g) (hv : f.eval w m = .ok v)
    (hp : NoPower f.root) (h1 : NotModOne w m f.root) (hl : ∀ k as, Sub (.call k as) f.root → ZeroBlind w k) :
    (∃ t, Sub t f.root ∧ Breaks w m t) ∨
      ∃ u q, g.eval w m = .ok u ∧ value u = some q ∧ value v = some q := by
  by_cases hc : ∃ t, Sub t f.root ∧ Breaks w m t
  · exact .inl hc
  · have hb : ∀ t, Sub t f.root → ¬ Breaks w m t := fun t ht hb => hc ⟨t, ht, hb⟩
    obtain ⟨q, hq⟩ := no_break w m _ v hv hb
    have k := level_runs w m _ v hv hb hp h1 hl
    obtain ⟨-, u, hu, su⟩ := C16_value_partial cfg cfg' w o o' ctx input f g m _ hpe ho (.inl hp) hn h h' k
    exact .inr ⟨u, q, hu, value_same hq su, hq⟩

/-! ### The functions that do not depend on the platform -/

theorem recip_number {x : F64} {q : ℚ} (hx : value x = some q) :
    value (F64.recip x) = none ↔ q = 0 ∨ TooLarge (1 / q) := by
  have v1 : value F64.f1 = some 1 := by decide +kernel
  have := bin_number (w := w0) (op := .divide) (v := F64.recip x) v1 hx rfl
  rw [this]
  constructor
  · intro h
    cases h with
    | byZero => exact .inl rfl
    | divide _ h => exact .inr h
  · intro h
    by_cases h0 : q = 0
    · subst h0; exact .byZero
    · exact .divide h0 (h.resolve_left h0)

theorem root_number {x : F64} {q : ℚ} (hx : value x = some q) : value (F64.sqrt x) = none ↔ q < 0 := by
  constructor
  · intro h
    by_contra hq
    obtain ⟨r, hr, -⟩ := sqrt_value hx (not_lt.1 hq)
    rw [h] at hr
    cases hr
  · intro hq
    have hr := roots x
    generalize F64.sqrt x = r at hr
    cases hr with
    | zero h => rw [hx] at h; cases h; exact absurd hq (lt_irrefl _)
    | positive h1 h2 => rw [hx] at h1; cases h1; exact absurd h2 (not_lt.2 hq.le)
    | _ => rfl

theorem add_stays {a b : F64} (ha : value a = none) : value (F64.add a b) = none := by
  cases a with
  | nan => cases b <;> rfl
  | inf s =>
    cases b with
    | nan => rfl
    | inf t => simp only [F64.add]; split <;> rfl
    | fin => rfl
  | fin s n h => cases s <;> cases ha

theorem fold_stays {vs : List F64} : ∀ {a : F64}, value a = none → value (vs.foldl F64.add a) = none := by
  induction vs with
  | nil => exact fun h => h
  | cons v vs ih => exact fun h => ih (add_stays h)

theorem sum_number {vs : List F64} : ∀ {a : F64} {p : ℚ}, value a = some p → (∀ u ∈ vs, ∃ q, value u = some q) →
    (value (vs.foldl F64.add a) = none ↔ Spills a vs) := by
  intro a p ha h
  constructor
  · induction vs generalizing a p with
    | nil =>
      intro hv
      rw [List.foldl_nil, ha] at hv
      cases hv
    | cons u us ih =>
      intro hv
      obtain ⟨q, hq⟩ := h u List.mem_cons_self
      rcases number_or (F64.add a u) with hn | ⟨r, hr⟩
      · exact .here ha hq ((rounds_number (_root_.Xprs.add_rounds ha hq)).1 hn)
      · exact .later (ih hr (fun v hv => h v (List.mem_cons_of_mem _ hv)) hv)
  · intro hs
    clear ha h
    induction hs with
    | here h1 h2 h3 =>
      rw [List.foldl_cons]
      exact fold_stays ((rounds_number (_root_.Xprs.add_rounds h1 h2)).2 h3)
    | later _ ih => exact ih

theorem mean_number {a : F64} {n : ℕ} (hn : 0 < n) : value (F64.div a (F64.ofNat n)) = none ↔ value a = none := by
  constructor
  · intro h
    by_contra ha
    obtain ⟨p, hp⟩ := (number_or a).resolve_left ha
    have v1 : value F64.f1 = some 1 := by decide +kernel
    rcases number_or (F64.ofNat n) with k | ⟨q, hq⟩
    · have hr := roundsTo_mono (rounds_self v1) (ofNat_rounds n) (by exact_mod_cast hn)
      obtain ⟨s, m, hm, rfl, -⟩ := value_some hp
      cases hf : F64.ofNat n with
      | nan => rw [hf] at hr; exact absurd rfl (leF_right hr)
      | inf t =>
        rw [hf] at h
        have : value (F64.zero (s != t)) = none := h
        revert this
        cases s <;> cases t <;> decide +kernel
      | fin t j hj => rw [hf] at k; cases t <;> cases k
    · have h1 : 1 ≤ q := leF_values (roundsTo_mono (rounds_self v1) (ofNat_rounds n) (by exact_mod_cast hn)) v1 hq
      have := (rounds_number (div_rounds hp hq (by linarith))).1 h
      have hx := (rounds_number (rounds_self hp)).not.1 (by rw [hp]; simp)
      refine hx (le_trans this ?_)
      rw [abs_div]
      refine (div_le_self (abs_nonneg p) ?_)
      rw [_root_.abs_of_nonneg (by linarith)]
      exact h1
  · intro ha
    cases a with
    | nan => cases F64.ofNat n <;> rfl
    | inf s => cases F64.ofNat n <;> rfl
    | fin s m h => cases s <;> cases ha

/-- C126: when the functions that do not depend on the platform, called with numbers, have no number for
their result. -/
theorem C126_functions (w : World) (x : F64) (q : ℚ) (vs : List F64) (hx : value x = some q)
    (hv : ∀ u ∈ vs, ∃ q, value u = some q) (h0 : vs ≠ []) :
    (∀ b ∈ [Builtin.abs, .floor, .ceil, .round, .trunc, .fract], ∃ v r, b.run w [x] = .ok v ∧ value v = some r) ∧
    (∀ b ∈ [Builtin.min, .max], ∃ v r, b.run w vs = .ok v ∧ value v = some r) ∧
    (∃ v, Builtin.sqrt.run w [x] = .ok v ∧ (value v = none ↔ q < 0)) ∧
    (∃ v, Builtin.recip.run w [x] = .ok v ∧ (value v = none ↔ q = 0 ∨ TooLarge (1 / q))) ∧
    (∃ v, Builtin.factorial.run w [x] = .ok v ∧ (value v = none ↔ ¬ Countable q)) ∧
    (∃ v, Builtin.sum.run w vs = .ok v ∧ (value v = none ↔ Spills (F64.zero w.sumInit) vs)) ∧
    (∃ v, Builtin.mean.run w vs = .ok v ∧ (value v = none ↔ Spills (F64.zero w.sumInit) vs)) := by
  have hz : value (F64.zero w.sumInit) = some 0 := by cases w.sumInit <;> decide +kernel
  refine ⟨?_, ?_, ⟨_, rfl, root_number hx⟩, ⟨_, rfl, recip_number hx⟩, ?_, ⟨_, rfl, sum_number (p := 0) hz hv⟩,
    ⟨_, rfl, (mean_number (List.length_pos_iff.2 h0)).trans (sum_number (p := 0) hz hv)⟩⟩
  · intro b hb
    have hw : ∀ {f : Builtin}, f ∈ toWhole → ∃ v r, f.run w [x] = .ok v ∧ value v = some r := fun hf => by
      obtain ⟨v, N, h1, h2, -⟩ := whole_step w hf hx
      exact ⟨v, N, h1, h2⟩
    simp only [List.mem_cons, List.not_mem_nil, or_false] at hb
    rcases hb with rfl | rfl | rfl | rfl | rfl | rfl
    · exact ⟨_, _, rfl, (abs_value hx).1⟩
    · exact hw (by decide)
    · exact hw (by decide)
    · exact hw (by decide)
    · exact hw (by decide)
    · exact ⟨_, _, rfl, fract_value hx⟩
  · intro b hb
    obtain ⟨u, us, rfl⟩ := List.exists_cons_of_ne_nil h0
    have hu : u ≠ .nan := by
      obtain ⟨r, hr⟩ := hv u List.mem_cons_self
      exact ne_nan_of_value hr
    simp only [List.mem_cons, List.not_mem_nil, or_false] at hb
    rcases hb with rfl | rfl
    · obtain ⟨r, hr⟩ := hv _ ((min_fold (u :: us)).2 ⟨u, List.mem_cons_self, hu⟩).1
      exact ⟨_, r, rfl, hr⟩
    · obtain ⟨r, hr⟩ := hv _ ((max_fold (u :: us)).2 ⟨u, List.mem_cons_self, hu⟩).1
      exact ⟨_, r, rfl, hr⟩
  · obtain ⟨v, hv⟩ := factorial_ok x
    exact ⟨v, hv, factorial_number hx hv⟩

theorem level_one {w : World} {b : Builtin} (hb : b.nbArgs = some 1)
    (h : ∀ s t v q, b.run w [F64.zero s] = .ok v → value v = some q →
      ∃ u, b.run w [F64.zero t] = .ok u ∧ Same v u) : ZeroBlind w b.toFunc := by
  intro vs v q _ hv hq
  refine ⟨hv, fun us hu => ?_⟩
  cases hu with
  | nil => exact ⟨v, hv, .refl _⟩
  | @cons x y xs ys h1 h2 =>
    have drop : ∀ (z : F64) (zs : List F64), b.run w (z :: zs) = b.run w [z] := by
      intro z zs; cases b <;> first | rfl | cases hb
    have hv' : b.run w [x] = .ok v := by rw [← drop x xs]; exact hv
    rcases h1 with rfl | ⟨⟨s, rfl⟩, ⟨t, rfl⟩⟩
    · exact ⟨v, (drop _ ys).trans hv', .refl _⟩
    · obtain ⟨u, k1, k2⟩ := h s t v q hv' hq
      exact ⟨u, (drop _ ys).trans k1, k2⟩

/-- C126: these functions satisfy the condition of `C126_builds`. -/
theorem C126_level (w : World) (b : Builtin) (hb : b ∈ [Builtin.abs, .floor, .ceil, .round, .trunc, .fract, .recip,
    .factorial, .sqrt, .sum, .mean, .min, .max]) : ZeroBlind w b.toFunc := by
  have z : ∀ (g : F64 → F64), (∀ s t, value (g (F64.zero s)) = none ∨ Same (g (F64.zero s)) (g (F64.zero t))) →
      ∀ s t v q, (Except.ok (g (F64.zero s)) : PM F64) = .ok v → value v = some q →
        ∃ u, (Except.ok (g (F64.zero t)) : PM F64) = .ok u ∧ Same v u := by
    intro g hg s t v q h hq
    cases h
    refine ⟨_, rfl, (hg s t).resolve_left fun h => ?_⟩
    rw [h] at hq
    cases hq
  have zz : ∀ {a b : F64}, IsZero a → IsZero b → value a = none ∨ Same a b := fun ha hb => .inr (.inr ⟨ha, hb⟩)
  simp only [List.mem_cons, List.not_mem_nil, or_false] at hb
  rcases hb with rfl | rfl | rfl | rfl | rfl | rfl | rfl | rfl | rfl | rfl | rfl | rfl | rfl
  · exact level_one rfl (z F64.abs fun s t => zz ⟨false, by cases s <;> decide +kernel⟩ ⟨false, by cases t <;> decide +kernel⟩)
  · exact level_one rfl (z F64.floor fun s t => zz ⟨s, by cases s <;> decide +kernel⟩ ⟨t, by cases t <;> decide +kernel⟩)
  · exact level_one rfl (z F64.ceil fun s t => zz ⟨s, by cases s <;> decide +kernel⟩ ⟨t, by cases t <;> decide +kernel⟩)
  · exact level_one rfl (z F64.round fun s t => zz ⟨s, by cases s <;> decide +kernel⟩ ⟨t, by cases t <;> decide +kernel⟩)
  · exact level_one rfl (z F64.trunc fun s t => zz ⟨s, by cases s <;> decide +kernel⟩ ⟨t, by cases t <;> decide +kernel⟩)
  · exact level_one rfl (z F64.fract fun s t => zz ⟨false, by cases s <;> decide +kernel⟩ ⟨false, by cases t <;> decide +kernel⟩)
  · exact level_one rfl (z F64.recip fun s t => .inl (by cases s <;> decide +kernel))
  · refine level_one rfl fun s t v q h hq => ⟨v, ?_, .refl _⟩
    have : ∀ s, factorial (F64.zero s) = .ok F64.f1 := by intro s; cases s <;> decide +kernel
    have h' : factorial (F64.zero s) = .ok v := h
    rw [this] at h'
    exact (this t).trans h'
  · exact level_one rfl (z F64.sqrt fun s t => zz ⟨s, by cases s <;> decide +kernel⟩ ⟨t, by cases t <;> decide +kernel⟩)
  · intro vs v q _ hv _
    refine ⟨hv, fun us hu => ⟨_, rfl, ?_⟩⟩
    cases hv
    exact foldl_add_same hu (.refl _)
  · intro vs v q _ hv _
    refine ⟨hv, fun us hu => ⟨_, rfl, ?_⟩⟩
    cases hv
    have hl : ∀ {vs us : List F64}, SameL vs us → vs.length = us.length := fun h => by
      induction h with
      | nil => rfl
      | cons _ _ ih => simp [ih]
    rw [hl hu]
    exact div_congr_left (foldl_add_same hu (.refl _))
  · intro vs v q _ hv _
    obtain ⟨u, hu⟩ := min_step w vs
    have : u = v := Except.ok.inj (hu.1.symm.trans hv)
    exact this ▸ hu
  · intro vs v q _ hv _
    obtain ⟨u, hu⟩ := max_step w vs
    have : u = v := Except.ok.inj (hu.1.symm.trans hv)
    exact this ▸ hu

/-! ### Cases -/

/-- The square of 10²⁰⁰ is too large. -/
example : eval w0 (mx (F64.ofDecimal 1 200)) (.bin .times vx vx) = .ok (.inf false) ∧
    Breaks w0 (mx (F64.ofDecimal 1 200)) (.bin .times vx vx) := by
  have h : eval w0 (mx (F64.ofDecimal 1 200)) vx = .ok (F64.ofDecimal 1 200) := by decide +kernel
  obtain ⟨p, hp⟩ : ∃ p, value (F64.ofDecimal 1 200) = some p := (number_or _).resolve_left (by decide +kernel)
  refine ⟨by decide +kernel, .bin h h hp hp ((bin_number (w := w0) hp hp rfl).1 (by decide +kernel))⟩

/-- The limit: half a step above the largest number goes to infinity, a quarter does not. -/
example : (∃ x, value x = some (2 ^ 1024 - 2 ^ 971)) ∧ TooLarge (2 ^ 1024 - 2 ^ 971 + 2 ^ 970) ∧
    ¬ TooLarge (2 ^ 1024 - 2 ^ 971 + 2 ^ 969) := by
  refine ⟨⟨.fin false (2 ^ 2098 - 2 ^ 2045) (by decide +kernel), by decide +kernel⟩, ?_, ?_⟩
  · unfold TooLarge; rw [abs_of_pos (by norm_num)]; norm_num
  · unfold TooLarge; rw [abs_of_pos (by norm_num)]; norm_num

/-- A tree in which nothing breaks (the hypotheses of `C126_builds`): `sqrt(x*x)` at 3. -/
example : ∀ t, Sub t (.call Builtin.sqrt.toFunc [.bin .times vx vx]) → ¬ Breaks w0 (mx (F64.ofNat 3)) t := by
  have h : eval w0 (mx (F64.ofNat 3)) (.call Builtin.sqrt.toFunc [.bin .times vx vx]) = .ok (F64.ofNat 3) := by
    decide +kernel
  refine (C126_exact _ _ _ _ h).1 fun t ht => ?_
  have three : ∃ q, value (F64.ofNat 3) = some q := ⟨_, ofNat_value (by norm_num)⟩
  have nine : ∃ q, value (F64.ofNat 9) = some q := ⟨_, ofNat_value (by norm_num)⟩
  have hv : ∃ u q, eval w0 (mx (F64.ofNat 3)) vx = .ok u ∧ evalU w0 (mx (F64.ofNat 3)) vx = .ok u ∧ value u = some q :=
    ⟨F64.ofNat 3, three.choose, by decide +kernel, by decide +kernel, three.choose_spec⟩
  have var : ∀ t, Sub t vx → t = vx := fun t h => by cases h; rfl
  cases ht with
  | refl => exact ⟨F64.ofNat 3, three.choose, h, by rw [evalU_eq, h]; rfl, three.choose_spec⟩
  | arg ha hs =>
    rw [List.mem_singleton] at ha
    subst ha
    cases hs with
    | refl => exact ⟨F64.ofNat 9, nine.choose, by decide +kernel, by decide +kernel, nine.choose_spec⟩
    | left hs => rw [var t hs]; exact hv
    | right hs => rw [var t hs]; exact hv

/-- A build can hide the cause: `x-x` at infinity is NaN, but 0 after simplification. -/
example : (match parse0 cfgPlain b!"x-x", parse0 cfgOpt b!"x-x" with
    | .ok f, .ok g => decide (f.eval w0 (mx (.inf false)) = .ok .nan ∧ g.eval w0 (mx (.inf false)) = .ok F64.f0)
    | _, _ => false) = true ∧ Breaks w0 (mx (.inf false)) vx :=
  ⟨by decide +kernel, .var rfl rfl⟩

end Props
end Xprs
