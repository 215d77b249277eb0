import Verif.Spec.Apart
import Verif.Lemmas.Apart
import Verif.Lemmas.Range
import Verif.Props.ComposeBuilds
/-
Property C104: differences and quotients compare numbers.
-/
namespace Xprs
namespace Props
open Spec
set_option exponentiation.threshold 4096

theorem trichotomy {a b : F64} (ha : a ≠ .nan) (hb : b ≠ .nan) :
    (Less a b ∨ Less b a ∨ OnPar a b) ∧ (Less a b → ¬ Less b a ∧ ¬ OnPar a b) ∧
      (Less b a → ¬ OnPar a b) := by
  cases hx : F64.key a with
  | none => exact absurd (key_none.1 hx) ha
  | some x =>
    cases hy : F64.key b with
    | none => exact absurd (key_none.1 hy) hb
    | some y =>
      have e : LeF a b ↔ x ≤ y := by rw [leF_iff]; simp [hx, hy]
      have e' : LeF b a ↔ y ≤ x := by rw [leF_iff]; simp [hx, hy]
      unfold Less OnPar
      rw [e, e']
      omega

/-- Three implications between two trichotomies are equivalences. -/
theorem compare_iff {x y r z : F64} (hx : x ≠ .nan) (hy : y ≠ .nan) (hr : r ≠ .nan) (hz : z ≠ .nan)
    (h1 : Less x y → Less r z) (h2 : Less y x → Less z r) (h3 : OnPar x y → OnPar r z) :
    (Less r z ↔ Less x y) ∧ (Less z r ↔ Less y x) ∧ (OnPar r z ↔ OnPar x y) := by
  obtain ⟨a1, a2, a3⟩ := trichotomy hx hy
  obtain ⟨b1, b2, b3⟩ := trichotomy hr hz
  tauto

theorem less_same {a a' b : F64} (h : Less a b ) (hs : Same a a') : Less a' b :=
  ⟨leF_same' h.1 hs, fun k => h.2 (Xprs.Spec.leF_same k hs.symm)⟩

theorem less_same' {a b b' : F64} (h : Less a b ) (hs : Same b b') : Less a b' :=
  ⟨Xprs.Spec.leF_same h.1 hs, fun k => h.2 (leF_same' k hs.symm)⟩

theorem less_iff_same {a a' b : F64} (hs : Same a a') :
    (Less a' b ↔ Less a b) ∧ (Less b a' ↔ Less b a) ∧ (OnPar a' b ↔ OnPar a b) :=
  ⟨⟨fun h => less_same h hs.symm, fun h => less_same h hs⟩, ⟨fun h => less_same' h hs.symm, fun h => less_same' h hs⟩,
    ⟨fun h => ⟨leF_same' h.1 hs.symm, Xprs.Spec.leF_same h.2 hs.symm⟩,
      fun h => ⟨leF_same' h.1 hs, Xprs.Spec.leF_same h.2 hs⟩⟩⟩

theorem less_values {a b : F64} {p q : ℚ} (ha : value a = some p) (hb : value b = some q) :
    (Less a b ↔ p < q) ∧ (OnPar a b ↔ p = q) := by
  have e : LeF a b ↔ p ≤ q := ⟨fun h => leF_values h ha hb, fun h => .fin ha hb h⟩
  have e' : LeF b a ↔ q ≤ p := ⟨fun h => leF_values h hb ha, fun h => .fin hb ha h⟩
  unfold Less OnPar
  rw [e, e']
  constructor
  · exact ⟨fun h => not_le.1 h.2, fun h => ⟨h.le, not_le.2 h⟩⟩
  · exact ⟨fun h => le_antisymm h.1 h.2, fun h => ⟨h.le, h.ge⟩⟩

theorem less_trans_le {a b c : F64} (h : LeF a b) (k : Less b c) : Less a c :=
  ⟨leF_trans h k.1, fun l => k.2 (leF_trans l h)⟩
theorem less_trans_le' {a b c : F64} (h : Less a b) (k : LeF b c) : Less a c :=
  ⟨leF_trans h.1 k, fun l => h.2 (leF_trans k l)⟩

theorem value_f0 : value F64.f0 = some 0 := value_zero false

theorem value_neg_tiny : value (F64.neg tiny) = some (-(1 / 2 ^ 1074)) := by
  simp [tiny, value, F64.neg, neg_div]

theorem sub_compare {x y : F64} (hx : x ≠ .nan) (hy : y ≠ .nan) (hi : ∀ s, x = .inf s → y ≠ .inf s) :
    F64.sub x y ≠ .nan ∧ (Less (F64.sub x y) F64.f0 ↔ Less x y) ∧
      (Less F64.f0 (F64.sub x y) ↔ Less y x) ∧ (OnPar (F64.sub x y) F64.f0 ↔ OnPar x y) := by
  have h0 : F64.f0 ≠ .nan := by rintro h; cases h
  have ht : ∀ s, (Less (.inf s) F64.f0 ↔ s = true) ∧ (Less F64.f0 (.inf s) ↔ s = false) := by
    intro s
    have k1 : ¬ LeF (.inf false) F64.f0 := by
      intro h; cases h with
      | fin h _ _ => cases h
    have k2 : ¬ LeF F64.f0 (.inf true) := by
      intro h; cases h with
      | fin _ h _ => cases h
    cases s with
    | true => exact ⟨⟨fun _ => rfl, fun _ => ⟨.bot h0, k2⟩⟩, ⟨fun h => absurd h.1 k2, nofun⟩⟩
    | false => exact ⟨⟨fun h => absurd h.1 k1, nofun⟩, ⟨fun _ => rfl, fun _ => ⟨.top h0, k1⟩⟩⟩
  have htp : ∀ {a : F64}, LeF (.inf false) a → a = .inf false := by
    intro a k
    cases k with
    | top => rfl
    | fin h _ _ => cases h
  have hbt : ∀ {a : F64}, LeF a (.inf true) → a = .inf true := by
    intro a k
    cases k with
    | bot => rfl
    | fin _ h _ => cases h
  rcases fin_cases x with rfl | ⟨s, rfl⟩ | ⟨p, hp⟩
  · exact absurd rfl hx
  · have hr : F64.sub (.inf s) y = .inf s := by
      cases y with
      | nan => exact absurd rfl hy
      | inf t => have := hi s rfl; cases s <;> cases t <;> simp_all <;> rfl
      | fin t n h => rfl
    rw [hr]
    have hn : F64.inf s ≠ .nan := nofun
    refine ⟨hn, compare_iff hx hy hn h0 (fun h => ?_) (fun h => ?_) (fun h => ?_)⟩
    · cases s with
      | true => exact (ht _).1.2 rfl
      | false => rw [htp h.1] at h; exact absurd h.1 h.2
    · cases s with
      | false => exact (ht _).2.2 rfl
      | true => rw [hbt h.1] at h; exact absurd h.1 h.2
    · cases s with
      | false => exact absurd (htp h.1) (hi _ rfl)
      | true => exact absurd (hbt h.2) (hi _ rfl)
  · rcases fin_cases y with rfl | ⟨s, rfl⟩ | ⟨q, hq⟩
    · exact absurd rfl hy
    · have hr : F64.sub x (.inf s) = .inf (!s) := by
        cases x with
        | nan => cases hp
        | inf t => cases hp
        | fin t n h => rfl
      rw [hr]
      have hn : F64.inf (!s) ≠ .nan := nofun
      refine ⟨hn, compare_iff hx hy hn h0 (fun h => ?_) (fun h => ?_) (fun h => ?_)⟩
      · cases s with
        | false => exact (ht _).1.2 rfl
        | true => rw [hbt h.1] at hp; cases hp
      · cases s with
        | true => exact (ht _).2.2 rfl
        | false => rw [htp h.1] at hp; cases hp
      · cases s with
        | false => rw [htp h.2] at hp; cases hp
        | true => rw [hbt h.1] at hp; cases hp
    · have hr := sub_rounds hp hq
      generalize F64.sub x y = r at hr
      have hn : r ≠ .nan := by
        rintro rfl
        have := roundsTo_mono hr hr le_rfl
        cases this with
        | fin h _ _ => cases h
      refine ⟨hn, compare_iff hx hy hn h0 (fun h => ?_) (fun h => ?_) (fun h => ?_)⟩
      · have h := (less_values hp hq).1.1 h
        have hg := values_gap hp hq h
        have := roundsTo_mono hr (rounds_self value_neg_tiny) (by linarith)
        exact less_trans_le this ((less_values value_neg_tiny value_f0).1.2 (by
          rw [neg_lt_zero]; positivity))
      · have h := (less_values hq hp).1.1 h
        have hg := values_gap hq hp h
        have := roundsTo_mono (rounds_self value_tiny) hr (by linarith)
        exact less_trans_le' ((less_values value_f0 value_tiny).1.2 (by positivity)) this
      · have h := (less_values hp hq).2.1 h
        subst h
        rw [_root_.sub_self] at hr
        exact ⟨roundsTo_mono hr (roundsTo_zero false) le_rfl, roundsTo_mono (roundsTo_zero false) hr le_rfl⟩

theorem div_compare {x y : F64} {p q : ℚ} (hp : value x = some p) (hq : value y = some q)
    (hs : 0 < p * q) :
    F64.div x y ≠ .nan ∧ (Less (F64.div x y) F64.f1 ↔ |p| < |q|) ∧
      (Less F64.f1 (F64.div x y) ↔ |q| < |p|) ∧ (OnPar (F64.div x y) F64.f1 ↔ p = q) := by
  have hp0 : p ≠ 0 := by rintro rfl; simp at hs
  have hq0 : q ≠ 0 := by rintro rfl; simp at hs
  have hP : 0 < |p| := abs_pos.2 hp0
  have hQ : 0 < |q| := abs_pos.2 hq0
  have e : p / q = |p| / |q| := by
    rw [← abs_div, abs_of_pos]
    have := div_pos hs (mul_pos hQ hQ)
    rw [abs_mul_abs_self, mul_div_mul_right _ _ hq0] at this
    exact this
  have ea : p = q ↔ |p| = |q| := by
    constructor
    · rintro rfl; rfl
    · intro h
      rcases abs_eq_abs.1 h with h | h
      · exact h
      · rw [h] at hs; nlinarith [mul_self_nonneg q]
  have hr := div_rounds hp hq hq0
  rw [e] at hr
  generalize F64.div x y = r at hr
  have hn : r ≠ .nan := by
    rintro rfl
    have := roundsTo_mono hr hr le_rfl
    cases this with
    | fin h _ _ => cases h
  have h1 : F64.f1 ≠ .nan := by
    intro h; have := one_value; rw [h] at this; cases this
  have i1 : |p| < |q| → Less r F64.f1 := fun h =>
    less_trans_le (roundsTo_mono hr (rounds_self value_belowOne) (quotient_below hp hq h))
      ((less_values value_belowOne one_value).1.2 (by norm_num))
  have i2 : |q| < |p| → Less F64.f1 r := fun h => by
    have hb := quotient_below hq hp h
    have hpos : 0 < |q| / |p| := div_pos hQ hP
    have : (1 + 1 / 2 ^ 53 + 1 / 2 ^ 106 : ℚ) ≤ |p| / |q| := by
      rw [← inv_div |q| |p|, le_inv_comm₀ (by positivity) hpos]
      refine le_trans hb ?_
      rw [le_inv_comm₀ (by norm_num) (by positivity), inv_eq_one_div, le_div_iff₀ (by norm_num)]
      norm_num
    exact less_trans_le' ((less_values one_value value_aboveOne).1.2 (by norm_num))
      (roundsTo_mono above_rounds hr this)
  have i3 : |p| = |q| → OnPar r F64.f1 := fun h => by
    rw [h, _root_.div_self hQ.ne'] at hr
    have := rounds_self one_value
    exact ⟨roundsTo_mono hr this le_rfl, roundsTo_mono this hr le_rfl⟩
  obtain ⟨-, b2, b3⟩ := trichotomy hn h1
  refine ⟨hn, ⟨fun h => ?_, i1⟩, ⟨fun h => ?_, i2⟩, ⟨fun h => ea.2 ?_, fun h => i3 (ea.1 h)⟩⟩
  · rcases lt_trichotomy |p| |q| with k | k | k
    · exact k
    · exact absurd (i3 k) (b2 h).2
    · exact absurd (i2 k) (b2 h).1
  · rcases lt_trichotomy |p| |q| with k | k | k
    · exact absurd h (b2 (i1 k)).1
    · exact absurd (i3 k) (b3 h)
    · exact k
  · rcases lt_trichotomy |p| |q| with k | k | k
    · exact absurd h (b2 (i1 k)).2
    · exact k
    · exact absurd h (b3 (i2 k))

/-! ### C104 -/

theorem eval_bin' {w : World} {m : HMap F64} {a b : Elem} {x y : F64} (ha : eval w m a = .ok x)
    (hb : eval w m b = .ok y) :
    eval w m (.bin .minus a b) = .ok (F64.sub x y) ∧ eval w m (.bin .divide a b) = .ok (F64.div x y) := by
  constructor <;> (rw [eval, ha, hb]; rfl)

/-- C104: the difference of two numbers (not NaN, not the same infinity) is negative, zero or
positive as the first is less than, level with or greater than the second. -/
theorem C104_difference (w : World) (m : HMap F64) (a b : Elem) (x y : F64) (ha : eval w m a = .ok x)
    (hb : eval w m b = .ok y) (hx : x ≠ .nan) (hy : y ≠ .nan) (hi : ∀ s, x = .inf s → y ≠ .inf s) :
    ∃ r, eval w m (.bin .minus a b) = .ok r ∧ evalU w m (.bin .minus a b) = .ok r ∧
      (Less r F64.f0 ↔ Less x y) ∧ (Less F64.f0 r ↔ Less y x) ∧ (OnPar r F64.f0 ↔ OnPar x y) := by
  have h := (eval_bin' ha hb).1
  exact ⟨_, h, by rw [evalU_eq, h]; rfl, (sub_compare hx hy hi).2⟩

/-- C104: the quotient of two numbers of the same sign is less than, equal to or greater than
one as the first is smaller than, equal to or larger than the second. -/
theorem C104_quotient (w : World) (m : HMap F64) (a b : Elem) (x y : F64) (p q : ℚ)
    (ha : eval w m a = .ok x) (hb : eval w m b = .ok y) (hx : value x = some p) (hy : value y = some q)
    (hs : 0 < p * q) :
    ∃ r, eval w m (.bin .divide a b) = .ok r ∧ evalU w m (.bin .divide a b) = .ok r ∧
      (Less r F64.f1 ↔ |p| < |q|) ∧ (Less F64.f1 r ↔ |q| < |p|) ∧ (OnPar r F64.f1 ↔ p = q) := by
  have h := (eval_bin' ha hb).2
  exact ⟨_, h, by rw [evalU_eq, h]; rfl, (div_compare hx hy hs).2⟩

section
variable (cfg : Cfg) (w : World) (o : Oracle) (ctx : Context)

/-- C104 for the texts `(s)-(t)` and `(s)/(t)` in builds without compile-time optimizations. -/
theorem C104_text (ho : cfg.opt = false) (s t : Bytes) (x y : Xpr)
    (hs : parse cfg w o ctx s = .ok x) (ht : parse cfg w o ctx t = .ok y) :
    (∃ z, parse cfg w o ctx (inParens s ++ c!"-" :: inParens t) = .ok z ∧
      ∀ m a b, x.eval w m = .ok a → y.eval w m = .ok b → a ≠ .nan → b ≠ .nan →
        (∀ s, a = .inf s → b ≠ .inf s) → ∃ r, z.eval w m = .ok r ∧
        (Less r F64.f0 ↔ Less a b) ∧ (Less F64.f0 r ↔ Less b a) ∧ (OnPar r F64.f0 ↔ OnPar a b)) ∧
    (∃ z, parse cfg w o ctx (inParens s ++ c!"/" :: inParens t) = .ok z ∧
      ∀ m a b p q, x.eval w m = .ok a → y.eval w m = .ok b → value a = some p → value b = some q →
        0 < p * q → ∃ r, z.eval w m = .ok r ∧
        (Less r F64.f1 ↔ |p| < |q|) ∧ (Less F64.f1 r ↔ |q| < |p|) ∧ (OnPar r F64.f1 ↔ p = q)) := by
  obtain ⟨z, hz, -, hv, -⟩ := C62_operators cfg w o ctx ho s t x y .minus (by decide) hs ht
  obtain ⟨z', hz', -, hv', -⟩ := C62_operators cfg w o ctx ho s t x y .divide (by decide) hs ht
  refine ⟨⟨z, hz, fun m a b ha hb na nb hi => ?_⟩, ⟨z', hz', fun m a b p q ha hb pa pb hpq => ?_⟩⟩
  · obtain ⟨v, h1, -, h2⟩ := hv m a b ha hb
    rw [if_neg (by decide)] at h2
    have h2 : Subs a b v := h2
    have e : v = F64.sub a b := Spec.Adds.eq h2
    exact ⟨v, h1, e ▸ (sub_compare na nb hi).2⟩
  · obtain ⟨v, h1, -, h2⟩ := hv' m a b ha hb
    rw [if_neg (by decide)] at h2
    have h2 : Divs a b v := h2
    have e : v = F64.div a b := Spec.Divs.eq h2
    exact ⟨v, h1, e ▸ (div_compare pa pb hpq).2⟩

/-- C104 for these texts in every build, where the parts have no doubtful step. -/
theorem C104_builds (s t : Bytes) (x y : Xpr) (hc : CtxTotal w ctx) (hbs : ¬ DoubleBang s)
    (hbt : ¬ DoubleBang t) (hs : parse cfg w o ctx s = .ok x) (ht : parse cfg w o ctx t = .ok y) :
    (∃ z, parse cfg w o ctx (inParens s ++ c!"-" :: inParens t) = .ok z ∧
      ∀ m a b, (NoPower x.root ∧ NoPower y.root ∨ PowLaws w) → Runs w m x.root a → Runs w m y.root b →
        a ≠ .nan → b ≠ .nan → (∀ s, a = .inf s → b ≠ .inf s) → ∃ r, z.eval w m = .ok r ∧
        (Less r F64.f0 ↔ Less a b) ∧ (Less F64.f0 r ↔ Less b a) ∧ (OnPar r F64.f0 ↔ OnPar a b)) ∧
    (∃ z, parse cfg w o ctx (inParens s ++ c!"/" :: inParens t) = .ok z ∧
      ∀ m a b p q, (NoPower x.root ∧ NoPower y.root ∨ PowLaws w) → Runs w m x.root a → Runs w m y.root b →
        value a = some p → value b = some q → 0 < p * q → ∃ r, z.eval w m = .ok r ∧
        (Less r F64.f1 ↔ |p| < |q|) ∧ (Less F64.f1 r ↔ |q| < |p|) ∧ (OnPar r F64.f1 ↔ p = q)) := by
  obtain ⟨z, hz, -, hv⟩ :=
    C62_builds_operators_partial cfg w o ctx s t x y .minus (by decide) hc hbs hbt hs ht
  obtain ⟨z', hz', -, hv'⟩ :=
    C62_builds_operators_partial cfg w o ctx s t x y .divide (by decide) hc hbs hbt hs ht
  refine ⟨⟨z, hz, fun m a b hw ra rb na nb hi => ?_⟩, ⟨z', hz', fun m a b p q hw ra rb pa pb hpq => ?_⟩⟩
  · obtain ⟨h1, h2⟩ := sub_compare na nb hi
    obtain ⟨u, hu, su⟩ := hv m a b _ (hw.imp_left fun h => noPower_bin.2 ⟨by decide, h⟩) ra rb (.minus h1)
    obtain ⟨k1, k2, k3⟩ := less_iff_same (b := F64.f0) su
    exact ⟨u, hu, k1.trans h2.1, k2.trans h2.2.1, k3.trans h2.2.2⟩
  · obtain ⟨h1, h2⟩ := div_compare pa pb hpq
    obtain ⟨u, hu, su⟩ := hv' m a b _ (hw.imp_left fun h => noPower_bin.2 ⟨by decide, h⟩) ra rb
      (.divide h1 (not_zero_of_value pb (by rintro rfl; simp at hpq)))
    obtain ⟨k1, k2, k3⟩ := less_iff_same (b := F64.f1) su
    exact ⟨u, hu, k1.trans h2.1, k2.trans h2.2.1, k3.trans h2.2.2⟩

end

/-- The hypotheses of `C104_builds` hold of `x` and `y*2` in an optimizing build at the smallest
positive number and its double; the difference is not lost. -/
example : ∃ z, parse0 cfgOpt b!"(x)-(y*2)" = .ok z ∧
    ∃ r, z.eval w0 ((HMap.empty.insert b!"x" tiny).insert b!"y" tiny) = .ok r ∧ Less r F64.f0 := by
  have hb : ∀ {l : Bytes}, c!"!" ∉ l → ¬ DoubleBang l := by
    rintro _ h ⟨a, ws, b, _, rfl⟩
    simp at h
  obtain ⟨⟨z, hz, h⟩, -⟩ := C104_builds cfgOpt w0 Oracle.id Context.default b!"x" b!"y*2"
    ⟨.var b!"x", [b!"x"]⟩ ⟨.bin .times (.var b!"y") (.num (F64.ofNat 2)), [b!"y"]⟩ (ctxTotal_default w0)
    (hb (by decide)) (hb (by decide)) (by decide +kernel) (by decide +kernel)
  refine ⟨z, hz, ?_⟩
  have hne : F64.mul tiny (F64.ofNat 2) ≠ .nan := by decide +kernel
  obtain ⟨r, h1, h2, -⟩ := h ((HMap.empty.insert b!"x" tiny).insert b!"y" tiny) tiny _
    (.inl ⟨(by intro l r h; cases h), noPower_bin.2 ⟨by decide, (by intro l r h; cases h),
      (by intro l r h; cases h)⟩⟩) (.var rfl) (.bin (.var rfl) .num (.times hne)) (by decide +kernel) hne
    (by intro s h; cases h)
  refine ⟨r, h1, h2.2 ((less_values value_tiny (q := 2 / 2 ^ 1074) ?_).1.2 ?_)⟩
  · rw [show F64.mul tiny (F64.ofNat 2) = .fin false 2 (by decide +kernel) by decide +kernel]
    simp [value]
  · rw [div_lt_div_iff_of_pos_right (by positivity)]; norm_num


end Props
end Xprs
