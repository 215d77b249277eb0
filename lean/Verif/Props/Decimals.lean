import Verif.Spec.Decimals
import Verif.Props.Wrap
import Verif.Props.Print
import Verif.Props.Square
import Verif.Lemmas.Terms
/-
Property C112: rounding to decimal places.
-/
namespace Xprs
namespace Props
open Spec
set_option exponentiation.threshold 4096

theorem trunc_picks (r : ℚ) : Picks .trunc r (truncRat r) := by
  show |((truncRat r : ℤ) : ℚ)| ≤ |r| ∧ |r - (truncRat r : ℤ)| < 1
  unfold truncRat
  split
  · rename_i h
    have h1 := Int.floor_le r
    have h2 := Int.lt_floor_add_one r
    have h3 : (0 : ℚ) ≤ ⌊r⌋ := by exact_mod_cast Int.floor_nonneg.2 h
    rw [_root_.abs_of_nonneg h, _root_.abs_of_nonneg h3, abs_lt]
    exact ⟨h1, by linarith, by linarith⟩
  · rename_i h
    rw [not_le] at h
    have h1 := Int.le_ceil r
    have h2 := Int.ceil_lt_add_one r
    have h3 : (⌈r⌉ : ℚ) ≤ 0 := by exact_mod_cast Int.ceil_le.2 (by simpa using h.le)
    rw [abs_of_neg h, abs_of_nonpos h3, abs_lt]
    exact ⟨by linarith, by linarith, by linarith⟩

theorem round_picks (r : ℚ) : Picks .round r (if 0 ≤ r then ⌊r + 1 / 2⌋ else ⌈r - 1 / 2⌉) := by
  generalize hN : (if 0 ≤ r then ⌊r + 1 / 2⌋ else ⌈r - 1 / 2⌉) = N
  show |r - N| ≤ 1 / 2 ∧ (|r - N| = 1 / 2 → |r| < |(N : ℚ)|)
  subst hN
  split
  · rename_i h
    have h1 := Int.floor_le (r + 1 / 2)
    have h2 := Int.lt_floor_add_one (r + 1 / 2)
    have h3 : (0 : ℚ) ≤ ⌊r + 1 / 2⌋ := by exact_mod_cast Int.floor_nonneg.2 (by linarith)
    refine ⟨abs_le.2 ⟨by linarith, by linarith⟩, fun he => ?_⟩
    rw [_root_.abs_of_nonneg h, _root_.abs_of_nonneg h3]
    rcases abs_eq (by norm_num : (0 : ℚ) ≤ 1 / 2) |>.1 he with he | he <;> linarith
  · rename_i h
    rw [not_le] at h
    have h1 := Int.le_ceil (r - 1 / 2)
    have h2 := Int.ceil_lt_add_one (r - 1 / 2)
    have h3 : (⌈r - 1 / 2⌉ : ℚ) ≤ 0 := by exact_mod_cast Int.ceil_le.2 (by push_cast; linarith)
    refine ⟨abs_le.2 ⟨by linarith, by linarith⟩, fun he => ?_⟩
    rw [abs_of_neg h, abs_of_nonpos h3]
    rcases abs_eq (by norm_num : (0 : ℚ) ≤ 1 / 2) |>.1 he with he | he <;> linarith

/-- What the four functions do. -/
theorem whole_step (w : World) {f : Builtin} (hf : f ∈ toWhole) {y : F64} {r : ℚ} (hy : value y = some r) :
    ∃ v N, callFn w f.toFunc [y] = .ok v ∧ value v = some ((N : ℤ) : ℚ) ∧ Picks f r N ∧
      CallStep w f.toFunc [y] v := by
  have step : ∀ (g : F64 → F64) (z : ℤ), (∀ x, callFn w f.toFunc [x] = .ok (g x)) →
      (∀ x, value x = some r → value (g x) = some (z : ℚ)) → Picks f r z →
      ∃ v N, callFn w f.toFunc [y] = .ok v ∧ value v = some ((N : ℤ) : ℚ) ∧ Picks f r N ∧
        CallStep w f.toFunc [y] v := by
    intro g z h1 h2 h3
    refine ⟨g y, z, h1 y, h2 y hy, h3, h1 y, ?_⟩
    intro us hs
    cases hs with
    | cons h4 h5 =>
      cases h5
      exact ⟨_, h1 _, same_of_value (h2 y hy) (h2 _ (value_same hy h4))⟩
  simp only [toWhole, List.mem_cons, List.not_mem_nil, or_false] at hf
  rcases hf with rfl | rfl | rfl | rfl
  · exact step F64.floor ⌊r⌋ (fun _ => rfl) (fun _ h => (floor_value h).1)
      ⟨Int.floor_le r, Int.lt_floor_add_one r⟩
  · exact step F64.ceil ⌈r⌉ (fun _ => rfl) (fun _ h => (ceil_value h).1)
      ⟨by have := Int.ceil_lt_add_one r; linarith, Int.le_ceil r⟩
  · exact step F64.round _ (fun _ => rfl) (fun _ h => (round_value h).1) (round_picks r)
  · exact step F64.trunc _ (fun _ => rfl) (fun _ h => (trunc_value h).1) (trunc_picks r)

/-- What is rounded to `N / 10^k` is the literal. -/
theorem literal_of_rounds {N : ℤ} {k : ℕ} {v : F64} {s : ℚ} (h : RoundsTo ((N : ℚ) / 10 ^ k) v)
    (hv : value v = some s) : LiteralAt N k v := by
  have hk : (0 : ℚ) < 10 ^ k := by positivity
  obtain ⟨⟨P, D, hD, he, hn⟩, h1, h2⟩ := h
  have ed : (decNum N.natAbs (-k) : ℚ) / decDen (-k) = |(N : ℚ)| / 10 ^ k := by
    simp only [decNum, decDen, neg_neg, Int.toNat_natCast, Int.toNat_neg_natCast, pow_zero, mul_one]
    push_cast [Nat.cast_natAbs]
    rfl
  have ha : RoundsTo (|(N : ℚ)| / 10 ^ k) (F64.abs v) := by
    have e0 : |(|(N : ℚ)| / 10 ^ k)| = |(N : ℚ) / 10 ^ k| := by rw [abs_div, abs_div, abs_abs]
    refine ⟨⟨P, D, hD, by rw [e0]; exact he, by rw [show F64.abs (F64.abs v) = F64.abs v by cases v <;> rfl]; exact hn⟩, fun hh => absurd hh (not_lt.2 (by positivity)), fun _ => by cases v <;> rfl⟩
  refine ⟨?_, s, hv, ?_⟩
  · have := roundsTo_unique ha (ed ▸ rounds_decimal N.natAbs (-k)) ?_
    · rw [this]; exact ofDecimal_nearest _ _
    · intro _
      have : signBit (F64.ofDecimal N.natAbs (-k)) = false := by
        unfold F64.ofDecimal
        split <;> exact signBit_ofMag ..
      rw [this]
      cases v <;> rfl
  · rcases lt_trichotomy N 0 with hN | rfl | hN
    · have hN : (N : ℚ) < 0 := by exact_mod_cast hN
      have h0 := h1 (div_neg_of_neg_of_pos hN hk)
      refine mul_nonneg_of_nonpos_of_nonpos ?_ hN.le
      cases v with
      | nan => cases hv
      | inf => cases hv
      | fin b n hb => cases h0; cases hv; exact div_nonpos_of_nonpos_of_nonneg (by simp) (by positivity)
    · simp
    · have hN : (0 : ℚ) < N := by exact_mod_cast hN
      have h0 := h2 (div_pos hN hk)
      refine mul_nonneg ?_ hN.le
      cases v with
      | nan => cases hv
      | inf => cases hv
      | fin b n hb => cases h0; cases hv; positivity

theorem rounds_le {q : ℚ} {u v : F64} {c : ℚ} (h : RoundsTo q v) (hu : value u = some c) (hq : |q| ≤ |c|) :
    ∃ s, value v = some s := by
  obtain ⟨h1, h2⟩ := abs_le.1 hq
  have ha := (abs_value hu).1
  have hn : value (F64.neg (F64.abs u)) = some (-|c|) := neg_value ha
  obtain ⟨s, hs, -⟩ := value_between (roundsTo_mono (rounds_self hn) h h1) (roundsTo_mono h (rounds_self ha) h2) hn ha
  exact ⟨s, hs⟩

/-- What C112 says of a value: it is the literal of a whole number over `10^k`, the one that the
function makes of `p * 10^k` as far as this is in the format. -/
def Rounded (f : Builtin) (k : ℕ) (p : ℚ) (v : F64) : Prop :=
  ∃ (r : ℚ) (N : ℤ), |r - p * 10 ^ k| ≤ |p * 10 ^ k| / 2 ^ 52 + 1 / 2 ^ 1073 ∧
    (InF64 (p * 10 ^ k) → r = p * 10 ^ k) ∧ Picks f r N ∧ LiteralAt N k v

theorem places_steps (w : World) {f : Builtin} (hf : f ∈ toWhole) {k : ℕ} {x t : F64} {p : ℚ}
    (hx : value x = some p) (ht : value t = some (10 ^ k)) (hp : |p * 10 ^ k| ≤ 2 ^ 1023) :
    ∃ (u : F64) (r s : ℚ), value (F64.mul x t) = some r ∧ CallStep w f.toFunc [F64.mul x t] u ∧
      value (F64.div u t) = some s ∧ Rounded f k p (F64.div u t) := by
  have hk : (0 : ℚ) < 10 ^ k := by positivity
  have hm := mul_rounds hx ht
  obtain ⟨r, hr, he⟩ := round_abs hm hp
  obtain ⟨u, N, -, hu, hN, hc⟩ := whole_step w hf hr
  have hd := div_rounds hu ht hk.ne'
  obtain ⟨s, hs⟩ := rounds_le hd hu (by
    rw [abs_div, abs_of_pos hk]
    exact div_le_self (abs_nonneg _) (one_le_pow₀ (by norm_num)))
  refine ⟨u, r, s, hr, hc, hs, r, N, ?_, fun hf => ?_, hN, literal_of_rounds hd hs⟩
  · have h0 := abs_nonneg (p * 10 ^ k)
    have h1 : (0 : ℚ) ≤ 1 / 2 ^ 1074 := by positivity
    have h2 : max (|p * 10 ^ k| * roundoff) (1 / 2 ^ 1074) ≤ |p * 10 ^ k| * roundoff + 1 / 2 ^ 1074 :=
      max_le (le_add_of_nonneg_right h1) (le_add_of_nonneg_left (mul_nonneg h0 (by unfold roundoff; norm_num)))
    have h3 := he.trans h2
    have e2 : (1 : ℚ) / 2 ^ 1073 = 2 * (1 / 2 ^ 1074) := by
      rw [show (1074 : ℕ) = 1073 + 1 from rfl, pow_succ, mul_one_div, div_eq_div_iff (by positivity) (by positivity)]
      ring
    rw [e2]
    generalize (1 : ℚ) / 2 ^ 1074 = η at h1 h3
    generalize |p * 10 ^ k| = P at h0 h3 ⊢
    generalize |r - p * 10 ^ k| = X at h3 ⊢
    unfold roundoff at h3
    nlinarith
  · have := value_of_rounds hm hf
    rw [hr] at this
    exact Option.some.inj this

/-- The text of a literal with `k` places has no more. -/
theorem literal_prints {N : ℤ} {k : ℕ} {v : F64} (h : LiteralAt N k v) : AtMostPlaces k (fmtF64 v) := by
  obtain ⟨h1, s, hs, -⟩ := h
  have hd : ∀ {l : Bytes}, (∀ c ∈ l, digit c) → c!"." ∉ l := fun h hm => absurd (h _ hm) (by decide)
  have plain : ∀ (n : Nat) (hn : Rep n), ReadsTo N.natAbs (-k) (.fin false n hn) → ∀ pre : Bytes, c!"." ∉ pre →
      AtMostPlaces k (pre ++ fmtF64 (.fin false n hn)) := by
    intro n hn h1 pre hpre ip fp he
    rcases Nat.eq_zero_or_pos n with rfl | h0
    · rw [(C72_zero hn).1] at he
      have : c!"." ∈ pre ++ b!"0" := by rw [he]; simp
      simp only [List.mem_append] at this
      rcases this with h | h
      · exact absurd h hpre
      · exact absurd h (by decide)
    · obtain ⟨M, E, hS, ⟨i, q, hi, hq, -, -, h3⟩, -⟩ := C72_shortest n hn h0
      have hE : -(k : ℤ) ≤ E := by
        by_contra hlt
        exact hS.places _ _ (not_le.1 hlt) h1
      rcases h3 with ⟨-, -, ht, -⟩ | ⟨-, hl, ht, -⟩
      · rw [ht] at he
        have : c!"." ∈ pre ++ i := by rw [he]; simp
        simp only [List.mem_append] at this
        rcases this with h | h
        · exact absurd h hpre
        · exact absurd h (hd hi)
      · rw [ht, ← List.append_assoc] at he
        have hpi : c!"." ∉ pre ++ i := by
          simp only [List.mem_append, not_or]
          exact ⟨hpre, hd hi⟩
        have : fp = q := by
          rcases List.append_eq_append_iff.1 he with ⟨a, h4, h5⟩ | ⟨a, h4, h5⟩
          · cases a with
            | nil => simpa using h5.symm
            | cons b l =>
              simp only [List.cons_append, List.cons.injEq] at h5
              exact absurd (by rw [h5.2]; simp) (hd hq)
          · cases a with
            | nil => simpa using h5
            | cons b l =>
              simp only [List.cons_append, List.cons.injEq] at h5
              rw [h4] at hpi
              exact absurd (by rw [h5.1]; simp) hpi
        rw [this, hl]
        omega
  cases v with
  | nan => cases hs
  | inf => cases hs
  | fin b n hn =>
    cases b
    · exact plain n hn h1 [] (by simp)
    · exact plain n hn h1 b!"-" (by decide)

theorem literal_same {N : ℤ} {k : ℕ} {u v : F64} (h : LiteralAt N k u) (hs : Same u v) : LiteralAt N k v := by
  obtain ⟨h1, s, h2, h3⟩ := h
  refine ⟨?_, s, value_same h2 hs, h3⟩
  rcases hs with rfl | ⟨⟨a, rfl⟩, ⟨b, rfl⟩⟩
  · exact h1
  · exact h1

section
variable {w : World} {m : HMap F64} {a b : Elem} {x y : F64}

theorem eval_divide (ha : eval w m a = .ok x) (hb : eval w m b = .ok y) :
    eval w m (.bin .divide a b) = .ok (F64.div x y) := by rw [eval, ha, hb]; rfl

theorem eval_places {f : Builtin} {u : F64} (ha : eval w m a = .ok x) (hb : eval w m b = .ok y)
    (hu : CallStep w f.toFunc [F64.mul x y] u) : eval w m (placesTree f a b) = .ok (F64.div u y) := by
  refine eval_divide (a := app f (.bin .times a b)) ?_ hb
  exact (eval_call_ok).2 ⟨_, by rw [evalL, eval_times ha hb]; rfl, hu.1⟩

end

/-! ### C112 -/

/-- C112: for every finite `a`, every `t` that is a power `10^k` of ten, and each of `floor`, `ceil`,
`round`, `trunc`, if `a * 10^k` does not overflow: `f(a*t)/t` is the literal `N · 10^-k` for the whole
number `N` that `f` makes of `a * 10^k`, rounded to the format; and its text has at most `k` places. -/
theorem C112_places (w : World) (m : HMap F64) (f : Builtin) (a b : Elem) (x t : F64) (k : ℕ) (p : ℚ)
    (hf : f ∈ toWhole) (ha : eval w m a = .ok x) (hb : eval w m b = .ok t) (hx : value x = some p)
    (ht : value t = some (10 ^ k)) (hp : |p * 10 ^ k| ≤ 2 ^ 1023) :
    ∃ v, eval w m (placesTree f a b) = .ok v ∧ Rounded f k p v ∧ AtMostPlaces k (fmtF64 v) := by
  obtain ⟨u, r, s, -, h1, -, h2⟩ := places_steps w hf hx ht hp
  exact ⟨_, eval_places ha hb h1, h2, by obtain ⟨r, N, -, -, -, h⟩ := h2; exact literal_prints h⟩

theorem literal_abs {N : ℤ} {k : ℕ} {u : F64} (h : LiteralAt N k u) :
    RoundsTo (|(N : ℚ)| / 10 ^ k) (F64.abs u) := by
  have ed : (decNum N.natAbs (-k) : ℚ) / decDen (-k) = |(N : ℚ)| / 10 ^ k := by
    simp only [decNum, decDen, neg_neg, Int.toNat_natCast, Int.toNat_neg_natCast, pow_zero, mul_one]
    push_cast [Nat.cast_natAbs]
    rfl
  rw [nearestF64_unique h.1 (ofDecimal_nearest _ _), ← ed]
  exact rounds_decimal _ _

theorem literal_zero {k : ℕ} {u : F64} {p : ℚ} (h : LiteralAt 0 k u) (hu : value u = some p) : p = 0 := by
  have := roundsTo_exact (literal_abs h) (u := F64.f0) (by rw [value_f0]; simp)
  rw [(abs_value hu).1] at this
  have := Option.some.inj this
  simpa using this

theorem literal_unique {N : ℤ} {k : ℕ} {u v : F64} (h : LiteralAt N k u) (h' : LiteralAt N k v) : Same u v := by
  obtain ⟨h1, p, hp, h2⟩ := h
  obtain ⟨h3, q, hq, h4⟩ := h'
  have ea := nearestF64_unique h1 h3
  have e1 := (abs_value hp).1
  have e2 := (abs_value hq).1
  rw [ea, e2] at e1
  have e1 : |q| = |p| := Option.some.inj e1
  have : p = q := by
    rcases eq_or_ne N 0 with rfl | hN
    · rw [literal_zero ⟨h1, p, hp, h2⟩ hp, literal_zero ⟨h3, q, hq, h4⟩ hq]
    · have hN : (N : ℚ) ≠ 0 := by exact_mod_cast hN
      rcases abs_eq_abs.1 e1 with h | h
      · exact h.symm
      · have : p * N = 0 := by rw [h] at h4; linarith
        rcases mul_eq_zero.1 this with h0 | h0
        · rw [h0] at h ⊢; simpa using h.symm
        · exact absurd h0 hN
  subst this
  exact same_of_value hp hq

/-- What is a literal with `k` places already stays what it is. -/
def Keeps (f : Builtin) : Prop :=
  ∀ (w : World) (m : HMap F64) (a b : Elem) (x t : F64) (k : ℕ) (N : ℤ), eval w m a = .ok x → eval w m b = .ok t →
    value t = some (10 ^ k) → k ≤ 22 → |N| ≤ 2 ^ 49 → LiteralAt N k x →
    ∃ v, eval w m (placesTree f a b) = .ok v ∧ Same v x

theorem literal_near {N : ℤ} {k : ℕ} {x : F64} {p : ℚ} (hk : k ≤ 22) (hN : |N| ≤ 2 ^ 60) (h : LiteralAt N k x)
    (hx : value x = some p) : |p * 10 ^ k - N| ≤ |(N : ℚ)| / 2 ^ 52 := by
  rcases eq_or_ne N 0 with rfl | h0
  · rw [literal_zero h hx]; simp
  have hk0 : (0 : ℚ) < 10 ^ k := by positivity
  have hk1 : (10 : ℚ) ^ k ≤ 2 ^ 1022 := calc
    (10 : ℚ) ^ k ≤ 10 ^ 22 := pow_le_pow_right₀ (by norm_num) hk
    _ ≤ 2 ^ 100 := by norm_num
    _ ≤ 2 ^ 1022 := pow_le_pow_right₀ (by norm_num) (by norm_num)
  have hN0 : (1 : ℚ) ≤ |(N : ℚ)| := by exact_mod_cast Int.one_le_abs h0
  have hN1 : |(N : ℚ)| ≤ 2 ^ 1023 :=
    (show |(N : ℚ)| ≤ 2 ^ 60 by exact_mod_cast hN).trans (pow_le_pow_right₀ (by norm_num) (by norm_num))
  have hq : |(|(N : ℚ)| / 10 ^ k)| = |(N : ℚ)| / 10 ^ k := _root_.abs_of_nonneg (by positivity)
  obtain ⟨r, h1, ρ, h2, h3, h4⟩ := round_within (literal_abs h)
    (by rw [hq]; exact div_le_div₀ (abs_nonneg _) hN0 hk0 hk1)
    (by rw [hq]; exact (div_le_self (abs_nonneg _) (one_le_pow₀ (by norm_num))).trans hN1)
  rw [(abs_value hx).1] at h1
  have h1 : |p| = r := Option.some.inj h1
  rw [pow_one] at h3 h4
  have e1 : |p| * 10 ^ k = |(N : ℚ)| * ρ := by
    rw [h1, h2]; field_simp
  have e2 : |p * 10 ^ k - N| = |(|p| * 10 ^ k - |(N : ℚ)|)| := by
    obtain ⟨-, s, hs, hsN⟩ := h
    rw [hx] at hs
    cases hs
    rcases lt_or_gt_of_ne h0 with hn | hn
    · have hn : (N : ℚ) < 0 := by exact_mod_cast hn
      have hp : p ≤ 0 := by
        by_contra hp
        exact absurd hsN (not_le.2 (mul_neg_of_pos_of_neg (not_le.1 hp) hn))
      rw [abs_of_nonpos hp, abs_of_neg hn, ← abs_neg]
      congr 1
      ring
    · have hn : (0 : ℚ) < N := by exact_mod_cast hn
      have hp : 0 ≤ p := by
        by_contra hp
        exact absurd hsN (not_le.2 (mul_neg_of_neg_of_pos (not_le.1 hp) hn))
      rw [_root_.abs_of_nonneg hp, abs_of_pos hn]
  rw [e2, e1, show |(N : ℚ)| * ρ - |(N : ℚ)| = |(N : ℚ)| * (ρ - 1) by ring, abs_mul, abs_abs, div_eq_mul_one_div]
  refine mul_le_mul_of_nonneg_left ?_ (abs_nonneg _)
  unfold roundoff at h3 h4
  rw [abs_le]
  constructor <;> nlinarith

/-- C112: `round(a * 10^k) / 10^k` does not change a literal with `k` places (and not more than about
15 digits), except for the sign of a zero. -/
theorem C112_kept : Keeps .round := by
  intro w m a b x t k N ha hb ht hk hN hl
  obtain ⟨p, hx⟩ : ∃ p, value x = some p := by obtain ⟨-, p, hp, -⟩ := hl; exact ⟨p, hp⟩
  have hn := literal_near hk (hN.trans (by norm_num)) hl hx
  have hN' : |(N : ℚ)| ≤ 2 ^ 49 := by exact_mod_cast hN
  have hP : |p * 10 ^ k| ≤ 2 ^ 50 := by
    have := abs_sub_abs_le_abs_sub (p * 10 ^ k) N
    linarith
  obtain ⟨u, r, s, -, h1, -, r', N', h3, -, ⟨h4, -⟩, h5⟩ := places_steps w (f := .round) (by decide) hx ht
    (hP.trans (pow_le_pow_right₀ (by norm_num) (by norm_num)))
  have : N' = N := by
    have h6 : |(N' : ℚ) - N| < 1 := by
      have h7 : (N' : ℚ) - N = -(r' - N') + (r' - p * 10 ^ k) + (p * 10 ^ k - N) := by ring
      have h8 : (1 : ℚ) / 2 ^ 1073 ≤ 1 / 2 ^ 10 :=
        one_div_le_one_div_of_le (by positivity) (pow_le_pow_right₀ (by norm_num) (by norm_num))
      rw [h7]
      refine lt_of_le_of_lt (abs_add_three _ _ _) ?_
      rw [abs_neg]
      linarith
    have h6 : |N' - N| < 1 := by exact_mod_cast h6
    have := Int.abs_lt_one_iff.1 h6
    omega
  subst this
  exact ⟨_, eval_places ha hb h1, literal_unique h5 hl⟩

/-- C112: with `floor`, `ceil` and `trunc` this is not so: `floor(0.29*100)/100` and
`trunc(0.29*100)/100` are `0.28`, `ceil(1.1*100)/100` is `1.11`. -/
theorem C112_kept_refuted : ∀ f ∈ [Builtin.floor, .ceil, .trunc], ¬ Keeps f := by
  have lit : ∀ (M : ℕ) s, value (F64.ofDecimal M (-2)) = some s → LiteralAt M 2 (F64.ofDecimal M (-2)) :=
    fun M s hs => by
      have h := rounds_decimal M (-2)
      refine literal_of_rounds (s := s) ?_ hs
      convert h using 1
      simp [decNum, decDen]
      norm_num
  have ten : value (F64.ofNat 100) = some (10 ^ 2) := by decide +kernel
  have run : ∀ (f : Builtin) (M : ℕ) s (v : F64) (q : ℚ), value (F64.ofDecimal M (-2)) = some s → M ≤ 1000 →
      eval w0 (mx (F64.ofDecimal M (-2))) (placesTree f vx (.num (F64.ofNat 100))) = .ok v →
      value v = some q → s ≠ q → ¬ Keeps f := by
    intro f M s v q hs hM hv hq hn h
    obtain ⟨u, h1, h2⟩ := h w0 (mx (F64.ofDecimal M (-2))) vx (.num (F64.ofNat 100)) _ _ 2 M rfl rfl ten
      (by norm_num) (by rw [_root_.abs_of_nonneg (by positivity)]; omega) (lit M s hs)
    rw [hv] at h1
    cases h1
    have := value_same hq h2
    rw [hs] at this
    exact hn (Option.some.inj this)
  intro f hf
  simp only [List.mem_cons, List.not_mem_nil, or_false] at hf
  rcases hf with rfl | rfl | rfl
  · exact run .floor 29 (5224175567749775 / 18014398509481984) (F64.ofDecimal 28 (-2))
      (1261007895663739 / 4503599627370496) (by decide +kernel) (by norm_num) (by decide +kernel) (by decide +kernel) (by norm_num)
  · exact run .ceil 110 (2476979795053773 / 2251799813685248) (F64.ofDecimal 111 (-2))
      (4998995586381251 / 4503599627370496) (by decide +kernel) (by norm_num) (by decide +kernel) (by decide +kernel) (by norm_num)
  · exact run .trunc 29 (5224175567749775 / 18014398509481984) (F64.ofDecimal 28 (-2))
      (1261007895663739 / 4503599627370496) (by decide +kernel) (by norm_num) (by decide +kernel) (by decide +kernel) (by norm_num)

/-- The tree rounds `p` to `k` places, no step of the operands is doubtful. -/
inductive PlacesOf (w : World) (m : HMap F64) (f : Builtin) (k : ℕ) (p : ℚ) : Elem → Prop
  | mk {a b x t} : Runs w m a x → Runs w m b t → value x = some p → value t = some (10 ^ k) →
      |p * 10 ^ k| ≤ 2 ^ 1023 → PlacesOf w m f k p (placesTree f a b)

theorem placesOf_runs {w : World} {m : HMap F64} {f : Builtin} {k : ℕ} {p : ℚ} {e : Elem} (hf : f ∈ toWhole)
    (h : PlacesOf w m f k p e) : ∃ v, Runs w m e v ∧ Rounded f k p v := by
  obtain @⟨a, b, x, t, ra, rb, hx, ht, hp⟩ := h
  obtain ⟨u, r, s, h1, h2, h3, h4⟩ := places_steps w hf hx ht hp
  exact ⟨_, .bin (.call (.cons (.bin ra rb (.times (ne_nan' h1))) .nil) h2) rb
    (.divide (ne_nan' h3) (not_zero_of_value ht (by positivity))), h4⟩

theorem rounded_same {f : Builtin} {k : ℕ} {p : ℚ} {u v : F64} (h : Rounded f k p u) (hs : Same u v) :
    Rounded f k p v ∧ AtMostPlaces k (fmtF64 v) := by
  obtain ⟨r, N, h1, h2, h3, h4⟩ := h
  exact ⟨⟨r, N, h1, h2, h3, literal_same h4 hs⟩, literal_prints (literal_same h4 hs)⟩

/-- C112: simplification, in every build, keeps this. -/
theorem C112_simplified (cfg : Cfg) (w : World) (m : HMap F64) (e e' : Elem) (f : Builtin) (k : ℕ) (p : ℚ)
    (hf : f ∈ toWhole) (hw : NoPower e ∨ PowLaws w) (h : PlacesOf w m f k p e) (hs : simplify cfg w e = .ok e') :
    ∃ v, eval w m e' = .ok v ∧ Rounded f k p v ∧ AtMostPlaces k (fmtF64 v) := by
  obtain ⟨v, h1, h2⟩ := placesOf_runs hf h
  obtain ⟨u, h4, h5⟩ := simplify_runs' hw h1 hs
  exact ⟨u, runs_eval _ h4, rounded_same h2 h5⟩

/-- C112: the same for `simplify_for`. -/
theorem C112_fixed (cfg : Cfg) (w : World) (m : HMap F64) (e e' : Xpr) (n : Bytes) (c : F64) (f : Builtin) (k : ℕ)
    (p : ℚ) (hf : f ∈ toWhole) (hw : NoPower e.root ∨ PowLaws w) (h : PlacesOf w (m.insert n c) f k p e.root)
    (hs : e.simplifyFor cfg w n c = .ok e') :
    ∃ v, e'.eval w m = .ok v ∧ Rounded f k p v ∧ AtMostPlaces k (fmtF64 v) := by
  obtain ⟨v, h1, h2⟩ := placesOf_runs hf h
  obtain ⟨-, u, h4, h5⟩ := C29_partial cfg w m e e' n c v hw h1 hs
  exact ⟨u, h4, rounded_same h2 h5⟩

/-- C112 for texts, in builds without compile-time optimisations: whatever the text of `a` is and
however the power of ten is written, if the context leaves the function its meaning. -/
theorem C112_texts (cfg : Cfg) (w : World) (o : Oracle) (ctx : Context) (s t : Bytes) (x y : Xpr) (f : Builtin)
    (hf : f ∈ toWhole) (hl : lookup ctx f.name = .func f.toFunc)
    (ho : cfg.opt = false) (hs : parse cfg w o ctx s = .ok x) (ht : parse cfg w o ctx t = .ok y) :
    ∃ z, parse cfg w o ctx ((placesForm f).text fun i => if i = 0 then s else t) = .ok z ∧
      ∀ m a b p k, x.eval w m = .ok a → y.eval w m = .ok b → value a = some p → value b = some (10 ^ k) →
        |p * 10 ^ k| ≤ 2 ^ 1023 →
        ∃ v, z.eval w m = .ok v ∧ Rounded f k p v ∧ AtMostPlaces k (fmtF64 v) := by
  have hn : IsName f.name ∧ f.nbArgs ≠ some 2 := by
    simp only [toWhole, List.mem_cons, List.not_mem_nil, or_false] at hf
    rcases hf with rfl | rfl | rfl | rfl <;> exact ⟨⟨⟨_, rfl, by decide⟩, by decide⟩, by decide⟩
  obtain ⟨z, hz, hr⟩ := form_parse cfg w o ctx ho (fun i => if i = 0 then s else t)
    (fun i => if i = 0 then x else y) (by intro i; by_cases hi : i = 0 <;> simp [hi, hs, ht]) (placesForm f)
    ⟨by decide, ⟨hn.1, hl, hn.2, by decide, trivial, trivial⟩, trivial⟩
  refine ⟨z, hz, fun m a b p k ha hb hp hk h0 => ?_⟩
  show ∃ v, eval w m z.root = _ ∧ _
  rw [hr]
  exact C112_places w m f x.root y.root a b k p hf ha hb hp hk h0

/-- C112 for texts, in every build. -/
theorem C112_builds (cfg cfg' : Cfg) (w : World) (o o' : Oracle) (ctx : Context) (input : Bytes)
    (x y : Xpr) (m : HMap F64) (f : Builtin) (k : ℕ) (p : ℚ) (hf : f ∈ toWhole)
    (hp : cfg.pejmdas = cfg'.pejmdas) (ho : cfg.opt = false)
    (hw : NoPower x.root ∨ PowLaws w) (hn : ∀ ts, Lex input ts → ParensApart ts)
    (h : parse cfg w o ctx input = .ok x) (h' : parse cfg' w o' ctx input = .ok y)
    (hd : PlacesOf w m f k p x.root) :
    (∃ v, x.eval w m = .ok v ∧ Rounded f k p v ∧ AtMostPlaces k (fmtF64 v)) ∧
      ∃ v, y.eval w m = .ok v ∧ Rounded f k p v ∧ AtMostPlaces k (fmtF64 v) := by
  obtain ⟨v, h1, h2⟩ := placesOf_runs hf hd
  obtain ⟨h4, u, h5, h6⟩ := C16_value_partial cfg cfg' w o o' ctx input x y m v hp ho hw hn h h' h1
  exact ⟨⟨v, h4, rounded_same h2 (.inl rfl)⟩, u, h5, rounded_same h2 h6⟩

/-- `round(x*100)/100` in both builds. -/
example : parse0 cfgPlain b!"round(x*100)/100" = .ok ⟨placesTree .round vx (.num (F64.ofNat 100)), [b!"x"]⟩ ∧
    parse0 cfgOpt b!"round(x*100)/100" = .ok ⟨placesTree .round vx (.num (F64.ofNat 100)), [b!"x"]⟩ := by
  constructor <;> decide +kernel

/-- `2.71875` rounded to two places. -/
example : PlacesOf w0 (mx (F64.ofDecimal 271875 (-5))) .round 2 (87 / 32) (placesTree .round vx (.num (F64.ofNat 100))) ∧
    eval w0 (mx (F64.ofDecimal 271875 (-5))) (placesTree .round vx (.num (F64.ofNat 100)))
      = .ok (F64.ofDecimal 272 (-2)) ∧
    fmtF64 (F64.ofDecimal 272 (-2)) = b!"2.72" := by
  refine ⟨.mk (.var rfl) .num (by decide +kernel) (by decide +kernel) ?_, by decide +kernel, by decide +kernel⟩
  exact le_trans (b := 2 ^ 10) (by norm_num [abs_le]) (pow_le_pow_right₀ (by norm_num) (by norm_num))

/-- The product is rounded first: the number `1.15` is less than 115/100, so that the nearest number
with one place is `1.1`, but the result is `1.2`. -/
example : (∃ p, value (F64.ofDecimal 115 (-2)) = some p ∧ p < 115 / 100) ∧
    eval w0 (mx (F64.ofDecimal 115 (-2))) (placesTree .round vx (.num (F64.ofNat 10))) = .ok (F64.ofDecimal 12 (-1)) := by
  refine ⟨⟨(2589569785738035 / 2251799813685248), by decide +kernel, by norm_num⟩, by decide +kernel⟩

/-- `0.29` has two places, and is kept. -/
example : eval w0 (mx (F64.ofDecimal 29 (-2))) (placesTree .round vx (.num (F64.ofNat 100))) = .ok (F64.ofDecimal 29 (-2)) := by
  decide +kernel

end Props
end Xprs
