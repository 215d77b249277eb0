import Verif.Lemmas.Solve
import Verif.Props.Back
import Verif.Props.Apart
import Verif.Props.Square
/-
Property C119: comparing a product or a quotient with a number.
-/
namespace Xprs
namespace Props
open Spec
set_option exponentiation.threshold 4096

/-- The number `k·p/s`, rounded, compares with `k` as it does unrounded. -/
theorem ratio_compare {v z x y : F64} {k p s : ℚ} (hv : RoundsTo (k * (p / s)) v) (hz : value z = some k)
    (hx : value x = some p) (hy : value y = some s) (hs : s ≠ 0) (hk : 1 / 2 ^ 1021 ≤ |k|) :
    v ≠ .nan ∧ (Less v z ↔ k * (p / s) < k) ∧ (Less z v ↔ k < k * (p / s)) ∧ (OnPar v z ↔ k * (p / s) = k) := by
  have hk0 : k ≠ 0 := by
    rintro rfl
    rw [abs_zero] at hk
    exact absurd hk (not_le.2 (by positivity))
  have hn : v ≠ .nan := by
    rintro rfl
    have := roundsTo_mono hv hv le_rfl
    cases this with
    | fin h _ _ => cases h
  have hzn : z ≠ .nan := by rintro rfl; cases hz
  have hself := rounds_self hz
  -- at the place of `k` only if equal
  have key : OnPar v z → k * (p / s) = k := by
    intro hp
    have hval : value v = some k := by
      rcases fin_cases v with h | ⟨t, rfl⟩ | ⟨r, hr⟩
      · exact absurd h hn
      · obtain ⟨h1, h2⟩ := hp
        cases t with
        | true =>
          cases h2 with
          | bot => cases hz
          | fin _ h _ => cases h
        | false =>
          cases h1 with
          | top => cases hz
          | fin h _ _ => cases h
      · rw [hr, (less_values hr hz).2.1 hp]
    obtain ⟨P, gP, eP⟩ := grid_of_value hx
    obtain ⟨S, gS, eS⟩ := grid_of_value hy
    obtain ⟨Q, gQ, eQ⟩ := grid_of_value hz
    have hS0 : 0 < S := by
      rcases Nat.eq_zero_or_pos S with h | h
      · rw [h] at eS
        refine absurd (abs_pos.2 hs) ?_
        rw [eS]; simp
      · exact h
    have hSq : (0 : ℚ) < S := by exact_mod_cast hS0
    have hU : (0 : ℚ) < 2 ^ 1074 := by positivity
    have e : |k * (p / s)| * 2 ^ 1074 = ((Q * P : ℕ) : ℚ) / S := by
      rw [abs_mul, abs_div, eP, eS, eQ]
      push_cast
      field_simp
    obtain ⟨n, hn1, hn2⟩ := nearest_of_rounds hv hval hS0 e
    have hnQ : n = Q := by
      rw [eQ, div_left_inj' hU.ne'] at hn2
      exact_mod_cast hn2.symm
    subst hnQ
    have hQ : 2 ^ 53 ≤ n := by
      rw [eQ, div_le_div_iff₀ (by positivity) hU] at hk
      have h2 : (2 : ℚ) ^ 1074 = 2 ^ 1021 * 2 ^ 53 := by rw [← pow_add]
      rw [h2, one_mul, mul_comm (n : ℚ)] at hk
      have := le_of_mul_le_mul_left hk (by positivity)
      exact_mod_cast this
    have hPS := nearest_times gP gS hS0 hQ hn1
    have habs : |p| = |s| := by rw [eP, eS, hPS]
    rcases abs_eq_abs.1 habs with h | h
    · rw [h, _root_.div_self hs, _root_.mul_one]
    · exfalso
      have h1 : RoundsTo (-k) v := by
        rw [h, neg_div, _root_.div_self hs] at hv
        simpa using hv
      have h2 : value (F64.neg z) = some (-k) := neg_value hz
      have h3 := rounds_self h2
      have h4 := (less_values hval h2).2.1 ⟨roundsTo_mono h1 h3 le_rfl, roundsTo_mono h3 h1 le_rfl⟩
      exact hk0 (by linarith)
  have i1 : k * (p / s) < k → Less v z := fun h =>
    ⟨roundsTo_mono hv hself h.le, fun l => h.ne (key ⟨roundsTo_mono hv hself h.le, l⟩)⟩
  have i2 : k < k * (p / s) → Less z v := fun h =>
    ⟨roundsTo_mono hself hv h.le, fun l => h.ne' (key ⟨l, roundsTo_mono hself hv h.le⟩)⟩
  have i3 : k * (p / s) = k → OnPar v z := fun h => by
    rw [h] at hv
    exact ⟨roundsTo_mono hv hself le_rfl, roundsTo_mono hself hv le_rfl⟩
  obtain ⟨-, b2, b3⟩ := trichotomy hn hzn
  refine ⟨hn, ⟨fun h => ?_, i1⟩, ⟨fun h => ?_, i2⟩, key, i3⟩
  · rcases lt_trichotomy (k * (p / s)) k with l | l | l
    · exact l
    · exact absurd (i3 l) (b2 h).2
    · exact absurd (i2 l) (b2 h).1
  · rcases lt_trichotomy (k * (p / s)) k with l | l | l
    · exact absurd h (b2 (i1 l)).1
    · exact absurd (i3 l) (b3 h)
    · exact l

theorem normal_ne {k : ℚ} (hk : 1 / 2 ^ 1021 ≤ |k|) : k ≠ 0 := by
  rintro rfl
  rw [abs_zero] at hk
  exact absurd hk (not_le.2 (by positivity))

theorem quotient_compare {x y z : F64} {p q k : ℚ} (hx : value x = some p) (hy : value y = some q)
    (hz : value z = some k) (hq : q ≠ 0) (hk : 1 / 2 ^ 1021 ≤ |k|) (h : InF64 (k * q) ∨ InF64 (p / k)) :
    F64.div x y ≠ .nan ∧ (Less (F64.div x y) z ↔ p / q < k) ∧ (Less z (F64.div x y) ↔ k < p / q) ∧
      (OnPar (F64.div x y) z ↔ p / q = k) := by
  have hk0 := normal_ne hk
  have hr := div_rounds hx hy hq
  rcases h with ⟨s, hs⟩ | ⟨s, hs⟩
  · have e : p / q = k * (p / (k * q)) := by field_simp
    rw [e] at hr ⊢
    exact ratio_compare hr hz hx hs (mul_ne_zero hk0 hq) hk
  · have e : p / q = k * (p / k / q) := by field_simp
    rw [e] at hr ⊢
    exact ratio_compare hr hz hs hy hq hk

theorem product_compare {x y z : F64} {p q k : ℚ} (hx : value x = some p) (hy : value y = some q)
    (hz : value z = some k) (hq : q ≠ 0) (hk : 1 / 2 ^ 1021 ≤ |k|) (h : InF64 (k / q)) :
    F64.mul x y ≠ .nan ∧ (Less (F64.mul x y) z ↔ p * q < k) ∧ (Less z (F64.mul x y) ↔ k < p * q) ∧
      (OnPar (F64.mul x y) z ↔ p * q = k) := by
  have hk0 := normal_ne hk
  have hr := Xprs.mul_rounds hx hy
  obtain ⟨s, hs⟩ := h
  have e : p * q = k * (p / (k / q)) := by field_simp
  rw [e] at hr ⊢
  exact ratio_compare hr hz hx hs (div_ne_zero hk0 hq) hk

/-! ### C119 -/

/-- C119: the computed quotient is less than, equal to or greater than a number `k` of the format
exactly if the quotient of the numbers is, provided that the dividend with the quotient `k`, or
the divisor with the quotient `k`, is in the format. -/
theorem C119_quotient (w : World) (m : HMap F64) (a b : Elem) (x y z : F64) (p q k : ℚ)
    (ha : eval w m a = .ok x) (hb : eval w m b = .ok y) (hx : value x = some p) (hy : value y = some q)
    (hz : value z = some k) (hq : q ≠ 0) (hk : 1 / 2 ^ 1021 ≤ |k|) (h : InF64 (k * q) ∨ InF64 (p / k)) :
    ∃ r, eval w m (.bin .divide a b) = .ok r ∧ evalU w m (.bin .divide a b) = .ok r ∧
      (Less r z ↔ p / q < k) ∧ (Less z r ↔ k < p / q) ∧ (OnPar r z ↔ p / q = k) := by
  have he := (eval_bin' ha hb).2
  exact ⟨_, he, by rw [evalU_eq, he]; rfl, (quotient_compare hx hy hz hq hk h).2⟩

/-- C119: the same for products, provided that the factor with the product `k` is in the format. -/
theorem C119_product (w : World) (m : HMap F64) (a b : Elem) (x y z : F64) (p q k : ℚ)
    (ha : eval w m a = .ok x) (hb : eval w m b = .ok y) (hx : value x = some p) (hy : value y = some q)
    (hz : value z = some k) (hq : q ≠ 0) (hk : 1 / 2 ^ 1021 ≤ |k|) (h : InF64 (k / q)) :
    ∃ r, eval w m (.bin .times a b) = .ok r ∧ evalU w m (.bin .times a b) = .ok r ∧
      (Less r z ↔ p * q < k) ∧ (Less z r ↔ k < p * q) ∧ (OnPar r z ↔ p * q = k) := by
  have he : eval w m (.bin .times a b) = .ok (F64.mul x y) := by rw [eval, ha, hb]; rfl
  exact ⟨_, he, by rw [evalU_eq, he]; rfl, (product_compare hx hy hz hq hk h).2⟩

/-- C119, solving equations: if `s` is in the format and `s·q = k`, `s/q = k` or `q/s = k`, then
`x*y`, `x/y` or `y/x` computes to `k` at no other `x` than `s`. -/
theorem C119_solution (w : World) (m : HMap F64) (a b : Elem) (x y : F64) (p q s k : ℚ)
    (ha : eval w m a = .ok x) (hb : eval w m b = .ok y) (hx : value x = some p) (hy : value y = some q)
    (hz : InF64 k) (hs : InF64 s) (hk : 1 / 2 ^ 1021 ≤ |k|) :
    (s * q = k → ∃ r, eval w m (.bin .times a b) = .ok r ∧ (value r = some k ↔ p = s)) ∧
    (q ≠ 0 → s / q = k → ∃ r, eval w m (.bin .divide a b) = .ok r ∧ (value r = some k ↔ p = s)) ∧
    (s ≠ 0 → q / s = k → ∃ r, eval w m (.bin .divide b a) = .ok r ∧ (value r = some k ↔ p = s)) := by
  obtain ⟨z, hz⟩ := hz
  have hk0 := normal_ne hk
  have par : ∀ {r : F64}, r ≠ .nan → (OnPar r z ↔ value r = some k) := by
    intro r hr
    rcases fin_cases r with h | ⟨t, rfl⟩ | ⟨c, hc⟩
    · exact absurd h hr
    · refine ⟨fun hp => ?_, fun h => by cases h⟩
      obtain ⟨h1, h2⟩ := hp
      cases t with
      | true =>
        cases h2 with
        | bot => cases hz
        | fin _ h _ => cases h
      | false =>
        cases h1 with
        | top => cases hz
        | fin h _ _ => cases h
    · rw [(less_values hc hz).2, hc, Option.some_inj]
  refine ⟨fun h => ?_, fun hq h => ?_, fun hs0 h => ?_⟩
  · have hq : q ≠ 0 := by rintro rfl; exact hk0 (by rw [← h, mul_zero])
    have e : k / q = s := by rw [← h]; field_simp
    obtain ⟨h1, -, -, h2⟩ := product_compare hx hy hz hq hk (by rw [e]; exact hs)
    refine ⟨_, by rw [eval, ha, hb]; rfl, (par h1).symm.trans (h2.trans ?_)⟩
    rw [← h]
    exact ⟨fun h => mul_right_cancel₀ hq h, fun h => by rw [h]⟩
  · have e : k * q = s := by rw [← h]; field_simp
    obtain ⟨h1, -, -, h2⟩ := quotient_compare hx hy hz hq hk (.inl (by rw [e]; exact hs))
    refine ⟨_, (eval_bin' ha hb).2, (par h1).symm.trans (h2.trans ?_)⟩
    rw [div_eq_iff hq, e]
  · have hq0 : q ≠ 0 := by rintro rfl; exact hk0 (by rw [← h, _root_.zero_div])
    have e : q / k = s := by rw [← h]; field_simp
    have he := (eval_bin' hb ha).2
    by_cases hp0 : p = 0
    · refine ⟨_, he, ⟨fun hv => absurd hv ?_, fun hv => absurd (hp0 ▸ hv).symm hs0⟩⟩
      subst hp0
      obtain ⟨t, n, hn, rfl, -⟩ := value_some hx
      have hn0 : n = 0 := value_zero_iff.1 hx
      subst hn0
      obtain ⟨t', n', hn', rfl, -⟩ := value_some hy
      have hn0' : n' ≠ 0 := fun h => hq0 (by
        have := (value_zero_iff (s := t') (h := hn')).2 h
        rw [hy] at this
        exact Option.some.inj this)
      have : F64.div (.fin t' n' hn') (.fin t 0 hn) = .inf (t' != t) := by
        simp [F64.div, hn0']
      rw [this]
      exact nofun
    · obtain ⟨h1, -, -, h2⟩ := quotient_compare hy hx hz hp0 hk (.inr (by rw [e]; exact hs))
      refine ⟨_, he, (par h1).symm.trans (h2.trans ?_)⟩
      rw [← e, div_eq_iff hp0, eq_div_iff hk0]
      exact ⟨fun h => by rw [h]; ring, fun h => by rw [← h]; ring⟩

section
variable (cfg : Cfg) (w : World) (o : Oracle) (ctx : Context)

/-- C119 for the texts `(s)/(t)` and `(s)*(t)` in builds without compile-time optimizations. -/
theorem C119_text (ho : cfg.opt = false) (s t : Bytes) (x y : Xpr)
    (hs : parse cfg w o ctx s = .ok x) (ht : parse cfg w o ctx t = .ok y) :
    (∃ z, parse cfg w o ctx (inParens s ++ c!"/" :: inParens t) = .ok z ∧
      ∀ m a b c p q k, x.eval w m = .ok a → y.eval w m = .ok b → value a = some p → value b = some q →
        value c = some k → q ≠ 0 → 1 / 2 ^ 1021 ≤ |k| → InF64 (k * q) ∨ InF64 (p / k) → ∃ r, z.eval w m = .ok r ∧
        (Less r c ↔ p / q < k) ∧ (Less c r ↔ k < p / q) ∧ (OnPar r c ↔ p / q = k)) ∧
    (∃ z, parse cfg w o ctx (inParens s ++ c!"*" :: inParens t) = .ok z ∧
      ∀ m a b c p q k, x.eval w m = .ok a → y.eval w m = .ok b → value a = some p → value b = some q →
        value c = some k → q ≠ 0 → 1 / 2 ^ 1021 ≤ |k| → InF64 (k / q) → ∃ r, z.eval w m = .ok r ∧
        (Less r c ↔ p * q < k) ∧ (Less c r ↔ k < p * q) ∧ (OnPar r c ↔ p * q = k)) := by
  obtain ⟨z, hz, -, hv, -⟩ := C62_operators cfg w o ctx ho s t x y .divide (by decide) hs ht
  obtain ⟨z', hz', -, hv', -⟩ := C62_operators cfg w o ctx ho s t x y .times (by decide) hs ht
  refine ⟨⟨z, hz, fun m a b c p q k ha hb pa pb pc hq hk h => ?_⟩,
    ⟨z', hz', fun m a b c p q k ha hb pa pb pc hq hk h => ?_⟩⟩
  · obtain ⟨v, h1, -, h2⟩ := hv m a b ha hb
    rw [if_neg (by decide)] at h2
    have h2 : Divs a b v := h2
    have e : v = F64.div a b := Spec.Divs.eq h2
    exact ⟨v, h1, e ▸ (quotient_compare pa pb pc hq hk h).2⟩
  · obtain ⟨v, h1, -, h2⟩ := hv' m a b ha hb
    rw [if_neg (by decide)] at h2
    have h2 : Muls a b v := h2
    have e : v = F64.mul a b := Spec.Muls.eq h2
    exact ⟨v, h1, e ▸ (product_compare pa pb pc hq hk h).2⟩

/-- C119 for these texts in every build, where the parts have no doubtful step. -/
theorem C119_builds (s t : Bytes) (x y : Xpr) (hc : CtxTotal w ctx) (hbs : ¬ DoubleBang s)
    (hbt : ¬ DoubleBang t) (hs : parse cfg w o ctx s = .ok x) (ht : parse cfg w o ctx t = .ok y) :
    (∃ z, parse cfg w o ctx (inParens s ++ c!"/" :: inParens t) = .ok z ∧
      ∀ m a b c p q k, (NoPower x.root ∧ NoPower y.root ∨ PowLaws w) → Runs w m x.root a → Runs w m y.root b →
        value a = some p → value b = some q → value c = some k → q ≠ 0 → 1 / 2 ^ 1021 ≤ |k| →
        InF64 (k * q) ∨ InF64 (p / k) → ∃ r, z.eval w m = .ok r ∧
        (Less r c ↔ p / q < k) ∧ (Less c r ↔ k < p / q) ∧ (OnPar r c ↔ p / q = k)) ∧
    (∃ z, parse cfg w o ctx (inParens s ++ c!"*" :: inParens t) = .ok z ∧
      ∀ m a b c p q k, (NoPower x.root ∧ NoPower y.root ∨ PowLaws w) → Runs w m x.root a → Runs w m y.root b →
        value a = some p → value b = some q → value c = some k → q ≠ 0 → 1 / 2 ^ 1021 ≤ |k| →
        InF64 (k / q) → ∃ r, z.eval w m = .ok r ∧
        (Less r c ↔ p * q < k) ∧ (Less c r ↔ k < p * q) ∧ (OnPar r c ↔ p * q = k)) := by
  obtain ⟨z, hz, -, hv⟩ :=
    C62_builds_operators_partial cfg w o ctx s t x y .divide (by decide) hc hbs hbt hs ht
  obtain ⟨z', hz', -, hv'⟩ :=
    C62_builds_operators_partial cfg w o ctx s t x y .times (by decide) hc hbs hbt hs ht
  refine ⟨⟨z, hz, fun m a b c p q k hw ra rb pa pb pc hq hk h => ?_⟩,
    ⟨z', hz', fun m a b c p q k hw ra rb pa pb pc hq hk h => ?_⟩⟩
  · obtain ⟨h1, h2⟩ := quotient_compare pa pb pc hq hk h
    obtain ⟨u, hu, su⟩ := hv m a b _ (hw.imp_left fun h => noPower_bin.2 ⟨by decide, h⟩) ra rb
      (.divide h1 (not_zero_of_value pb hq))
    obtain ⟨k1, k2, k3⟩ := less_iff_same (b := c) su
    exact ⟨u, hu, k1.trans h2.1, k2.trans h2.2.1, k3.trans h2.2.2⟩
  · obtain ⟨h1, h2⟩ := product_compare pa pb pc hq hk h
    obtain ⟨u, hu, su⟩ := hv' m a b _ (hw.imp_left fun h => noPower_bin.2 ⟨by decide, h⟩) ra rb (.times h1)
    obtain ⟨k1, k2, k3⟩ := less_iff_same (b := c) su
    exact ⟨u, hu, k1.trans h2.1, k2.trans h2.2.1, k3.trans h2.2.2⟩

end

/-- The number next below six. -/
def belowSix : F64 := .fin false (6 * 2 ^ 1074 - 2 ^ 1024) (by decide +kernel)

theorem value_belowSix : value belowSix = some (6 - 1 / 2 ^ 50) := by
  rw [belowSix, value_fin]
  simp only [F64.sv, unit64_cast]
  norm_num

/-- A case of `C119_builds`: `(x)/(3)` in an optimizing build is less than 2 at the number next
below 6, and `(x)*(3)` is less than 18. -/
example : ∃ z, parse0 cfgOpt b!"(x)/(3)" = .ok z ∧
    ∃ r, z.eval w0 (mx belowSix) = .ok r ∧ Less r (F64.ofNat 2) := by
  have hb : ∀ {l : Bytes}, c!"!" ∉ l → ¬ DoubleBang l := by
    rintro _ h ⟨a, ws, b, _, rfl⟩
    simp at h
  obtain ⟨⟨z, hz, h⟩, -⟩ := C119_builds cfgOpt w0 Oracle.id Context.default b!"x" b!"3"
    ⟨.var b!"x", [b!"x"]⟩ ⟨.num (F64.ofNat 3), []⟩ (ctxTotal_default w0)
    (hb (by decide)) (hb (by decide)) (by decide +kernel) (by decide +kernel)
  refine ⟨z, hz, ?_⟩
  obtain ⟨r, h1, h2, -⟩ := h (mx belowSix) belowSix (F64.ofNat 3) (F64.ofNat 2) (6 - 1 / 2 ^ 50) 3 2
    (.inl ⟨(by intro l r h; cases h), (by intro l r h; cases h)⟩) (.var rfl) .num value_belowSix
    (ofNat_value (n := 3) (by norm_num)) (ofNat_value (n := 2) (by norm_num)) (by norm_num)
    (by rw [abs_of_pos (by norm_num : (0 : ℚ) < 2)]
        exact (div_le_one (by positivity)).2 (one_le_pow₀ (by norm_num)) |>.trans (by norm_num))
    (.inl ⟨F64.ofNat 6, by rw [ofNat_value (n := 6) (by norm_num)]; norm_num⟩)
  exact ⟨r, h1, h2.2 (by norm_num)⟩

/-- The hypotheses of `C119_quotient` are needed.  One divided by three is equal to the number `k`
it is rounded to, though `3·k` is not one; and `k = 2⁻¹⁰²²` is the quotient of two numbers, although not
quite, where `4·k` is in the format.  No such rule holds of sums: `1 + x` is one not only at zero. -/
example : F64.div F64.f1 (F64.ofNat 3) ≠ .nan ∧ F64.mul (F64.div F64.f1 (F64.ofNat 3)) (F64.ofNat 3) = F64.f1 ∧
    F64.div (.fin false (2 ^ 54 - 2) (by decide +kernel)) (F64.ofNat 4) = .fin false (2 ^ 52) (by decide +kernel) ∧
    F64.mul (.fin false (2 ^ 52) (by decide +kernel)) (F64.ofNat 4) = .fin false (2 ^ 54) (by decide +kernel) ∧
    F64.add F64.f1 tiny = F64.f1 := by
  refine ⟨by decide +kernel, by decide +kernel, by decide +kernel, by decide +kernel, by decide +kernel⟩

end Props
end Xprs
