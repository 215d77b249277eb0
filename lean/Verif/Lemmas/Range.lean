import Verif.Spec.Range
import Verif.Props.Monotone
import Verif.Lemmas.Scale
import Verif.Lemmas.Accuracy
/-
Lemmas on bounds.
-/
namespace Xprs
namespace Spec
open Props

theorem between_bounded {lo x hi : F64} (h : Between lo x hi) (ha : Bounded lo) (hb : Bounded hi) :
    Bounded x := by
  obtain ⟨a, ha⟩ := ha
  obtain ⟨b, hb⟩ := hb
  rcases fin_cases x with rfl | ⟨s, rfl⟩ | h1
  · exact absurd rfl (leF_left h.2)
  · cases s
    · have := h.2
      cases this with
      | top => cases hb
      | fin h _ _ => cases h
    · have := h.1
      cases this with
      | bot => cases ha
      | fin _ h _ => cases h
  · exact h1

theorem bounded_ne_nan {x : F64} (h : Bounded x) : x ≠ .nan := by
  rintro rfl; obtain ⟨q, hq⟩ := h; cases hq

theorem bounded_neg {x : F64} (h : Bounded x) : Bounded (F64.neg x) := by
  obtain ⟨q, hq⟩ := h; exact ⟨_, neg_value hq⟩

theorem bounded_f0 : Bounded F64.f0 := ⟨0, value_zero false⟩

theorem between_self {x : F64} (h : Bounded x) : Between x x x :=
  ⟨leF_refl (bounded_ne_nan h), leF_refl (bounded_ne_nan h)⟩

theorem Between.wider {a b lo hi x : F64} (h : Between a x b) (h1 : LeF lo a) (h2 : LeF b hi) :
    Between lo x hi := ⟨leF_trans h1 h.1, leF_trans h.2 h2⟩

theorem Between.neg {a b x : F64} (h : Between a x b) : Between (F64.neg b) (F64.neg x) (F64.neg a) :=
  ⟨neg_mono h.2, neg_mono h.1⟩

theorem leF_same {a b b' : F64} (h : LeF a b) (hs : Same b b') : LeF a b' :=
  moves_same (d := true) h (.inl rfl) hs

theorem leF_same' {a a' b : F64} (h : LeF a b) (hs : Same a a') : LeF a' b :=
  moves_same (d := true) h hs (.inl rfl)

theorem Between.same {a b x y : F64} (h : Between a x b) (hs : Same x y) : Between a y b :=
  ⟨leF_same h.1 hs, leF_same' h.2 hs⟩

theorem add_rounds {a b : F64} {p q : ℚ} (ha : value a = some p) (hb : value b = some q) :
    RoundsTo (p + q) (F64.add a b) := by
  have k := adds a b
  generalize F64.add a b = r at k
  cases k with
  | finite h1 h2 h3 _ => rw [ha] at h1; rw [hb] at h2; cases h1; cases h2; exact h3
  | _ => first | cases ha | cases hb

theorem mul_rounds {a b : F64} {p q : ℚ} (ha : value a = some p) (hb : value b = some q) :
    RoundsTo (p * q) (F64.mul a b) := by
  have k := muls a b
  generalize F64.mul a b = r at k
  cases k with
  | finite h1 h2 h3 _ => rw [ha] at h1; rw [hb] at h2; cases h1; cases h2; exact h3
  | _ => first | cases ha | cases hb

theorem div_rounds {a b : F64} {p q : ℚ} (ha : value a = some p) (hb : value b = some q) (hq : q ≠ 0) :
    RoundsTo (p / q) (F64.div a b) := by
  have k := divs a b
  generalize F64.div a b = r at k
  cases k with
  | finite h1 h2 _ h3 _ => rw [ha] at h1; rw [hb] at h2; cases h1; cases h2; exact h3
  | zeroZero _ h => rw [hb] at h; cases h; exact absurd rfl hq
  | byZero _ _ h => rw [hb] at h; cases h; exact absurd rfl hq
  | _ => first | cases ha | cases hb

theorem between_add {a x b c y d : F64} (ha : Bounded a) (hb : Bounded b) (hc : Bounded c) (hd : Bounded d)
    (hx : Between a x b) (hy : Between c y d) :
    Between (F64.add a c) (F64.add x y) (F64.add b d) := by
  obtain ⟨p, hp⟩ := between_bounded hx ha hb
  obtain ⟨q, hq⟩ := between_bounded hy hc hd
  obtain ⟨a', ha⟩ := ha
  obtain ⟨b', hb⟩ := hb
  obtain ⟨c', hc⟩ := hc
  obtain ⟨d', hd⟩ := hd
  have h1 := leF_values hx.1 ha hp
  have h2 := leF_values hx.2 hp hb
  have h3 := leF_values hy.1 hc hq
  have h4 := leF_values hy.2 hq hd
  exact ⟨roundsTo_mono (add_rounds ha hc) (add_rounds hp hq) (by linarith),
    roundsTo_mono (add_rounds hp hq) (add_rounds hb hd) (by linarith)⟩

theorem between_sub {a x b c y d : F64} (ha : Bounded a) (hb : Bounded b) (hc : Bounded c) (hd : Bounded d)
    (hx : Between a x b) (hy : Between c y d) :
    Between (F64.sub a d) (F64.sub x y) (F64.sub b c) :=
  between_add ha hb (bounded_neg hd) (bounded_neg hc) hx hy.neg

/-- A bilinear form on a box is between its values at the corners. -/
theorem corner_le {a b c d p q : ℚ} (h1 : a ≤ p) (h2 : p ≤ b) (h3 : c ≤ q) (h4 : q ≤ d) :
    (∃ u, (u = a ∨ u = b) ∧ ∃ v, (v = c ∨ v = d) ∧ u * v ≤ p * q) ∧
    (∃ u, (u = a ∨ u = b) ∧ ∃ v, (v = c ∨ v = d) ∧ p * q ≤ u * v) := by
  have lin : ∀ (k : ℚ), (∃ v, (v = c ∨ v = d) ∧ k * v ≤ k * q) ∧ ∃ v, (v = c ∨ v = d) ∧ k * q ≤ k * v := by
    intro k
    rcases le_total 0 k with hk | hk
    · exact ⟨⟨c, .inl rfl, by nlinarith⟩, ⟨d, .inr rfl, by nlinarith⟩⟩
    · exact ⟨⟨d, .inr rfl, by nlinarith⟩, ⟨c, .inl rfl, by nlinarith⟩⟩
  have lin' : (∃ u, (u = a ∨ u = b) ∧ u * q ≤ p * q) ∧ ∃ u, (u = a ∨ u = b) ∧ p * q ≤ u * q := by
    rcases le_total 0 q with hk | hk
    · exact ⟨⟨a, .inl rfl, by nlinarith⟩, ⟨b, .inr rfl, by nlinarith⟩⟩
    · exact ⟨⟨b, .inr rfl, by nlinarith⟩, ⟨a, .inl rfl, by nlinarith⟩⟩
  obtain ⟨⟨u, hu, hu'⟩, ⟨t, ht, ht'⟩⟩ := lin'
  obtain ⟨v, hv, hv'⟩ := (lin u).1
  obtain ⟨s, hs, hs'⟩ := (lin t).2
  exact ⟨⟨u, hu, v, hv, hv'.trans hu'⟩, ⟨t, ht, s, hs, ht'.trans hs'⟩⟩

theorem between_mul {a x b c y d lo hi : F64} (ha : Bounded a) (hb : Bounded b) (hc : Bounded c) (hd : Bounded d)
    (hx : Between a x b) (hy : Between c y d)
    (h : ∀ x ∈ [a, b], ∀ y ∈ [c, d], Between lo (F64.mul x y) hi) : Between lo (F64.mul x y) hi := by
  obtain ⟨p, hp⟩ := between_bounded hx ha hb
  obtain ⟨q, hq⟩ := between_bounded hy hc hd
  obtain ⟨a', ha⟩ := ha
  obtain ⟨b', hb⟩ := hb
  obtain ⟨c', hc⟩ := hc
  obtain ⟨d', hd⟩ := hd
  obtain ⟨⟨u, hu, v, hv, h1⟩, ⟨s, hs, t, ht, h2⟩⟩ := corner_le (leF_values hx.1 ha hp)
    (leF_values hx.2 hp hb) (leF_values hy.1 hc hq) (leF_values hy.2 hq hd)
  have pick : ∀ {a b : F64} {a' b' u : ℚ}, value a = some a' → value b = some b' → u = a' ∨ u = b' →
      ∃ z ∈ [a, b], value z = some u := by
    rintro a b a' b' u h h' (rfl | rfl)
    · exact ⟨a, by simp, h⟩
    · exact ⟨b, by simp, h'⟩
  obtain ⟨x1, m1, e1⟩ := pick ha hb hu
  obtain ⟨y1, m2, e2⟩ := pick hc hd hv
  obtain ⟨x2, m3, e3⟩ := pick ha hb hs
  obtain ⟨y2, m4, e4⟩ := pick hc hd ht
  exact ⟨leF_trans (h x1 m1 y1 m2).1 (roundsTo_mono (mul_rounds e1 e2) (mul_rounds hp hq) h1),
    leF_trans (roundsTo_mono (mul_rounds hp hq) (mul_rounds e3 e4) h2) (h x2 m3 y2 m4).2⟩

theorem positive_value {c : F64} {q : ℚ} (h : Positive c) (hq : value c = some q) : 0 < q := by
  have hU := unit64_pos_rat
  cases h with
  | inf => cases hq
  | @fin n k h0 =>
    rcases lt_trichotomy q 0 with h | rfl | h
    · have := (sign_of_value hq).1 h
      cases this
    · have := value_zero_iff.1 hq
      exact absurd this h0
    · exact h

theorem apart_values {c d y : F64} {c' d' q : ℚ} (h : Apart c d) (hc : value c = some c') (hd : value d = some d')
    (hq : value y = some q) (hy : Between c y d) :
    (0 < c' ∧ 0 < d' ∧ 0 < q) ∨ (c' < 0 ∧ d' < 0 ∧ q < 0) := by
  have h1 := leF_values hy.1 hc hq
  have h2 := leF_values hy.2 hq hd
  rcases h with h | h
  · have := positive_value h hc
    exact .inl ⟨this, by linarith, by linarith⟩
  · have := positive_value h (neg_value hd)
    exact .inr ⟨by linarith, by linarith, by linarith⟩

theorem apart_not_zero {c d y : F64} (h : Apart c d) (hc : Bounded c) (hd : Bounded d) (hy : Between c y d) :
    ¬ IsZero y := by
  obtain ⟨q, hq⟩ := between_bounded hy hc hd
  obtain ⟨c', hc⟩ := hc
  obtain ⟨d', hd⟩ := hd
  refine not_zero_of_value hq ?_
  rcases apart_values h hc hd hq hy with ⟨-, -, h⟩ | ⟨-, -, h⟩
  · exact h.ne'
  · exact h.ne

theorem positive_of_value {y : F64} {q : ℚ} (hq : value y = some q) (h : 0 < q) : Positive y := by
  cases y with
  | nan => cases hq
  | inf s => cases hq
  | fin s n k =>
    have h1 := (sign_of_value hq).2 h
    cases h1
    refine .fin fun h0 => ?_
    exact h.ne' (Option.some.inj (hq.symm.trans (value_zero_iff.2 h0)))

theorem positive_mono {c d y : F64} (h : Positive c) (hc : Bounded c) (hy : Between c y d) (hb : Bounded y) :
    Positive y := by
  obtain ⟨q, hq⟩ := hb
  obtain ⟨c', hc⟩ := hc
  exact positive_of_value hq (lt_of_lt_of_le (positive_value h hc) (leF_values hy.1 hc hq))

theorem between_div {a x b c y d lo hi : F64} (ha : Bounded a) (hb : Bounded b) (hc : Bounded c) (hd : Bounded d)
    (hx : Between a x b) (hy : Between c y d) (h0 : Apart c d)
    (h : ∀ x ∈ [a, b], ∀ y ∈ [c, d], Between lo (F64.div x y) hi) : Between lo (F64.div x y) hi := by
  obtain ⟨p, hp⟩ := between_bounded hx ha hb
  obtain ⟨q, hq⟩ := between_bounded hy hc hd
  obtain ⟨a', ha⟩ := ha
  obtain ⟨b', hb⟩ := hb
  obtain ⟨c', hc⟩ := hc
  obtain ⟨d', hd⟩ := hd
  have hs := apart_values h0 hc hd hq hy
  have h1 := leF_values hy.1 hc hq
  have h2 := leF_values hy.2 hq hd
  have nc : c' ≠ 0 := by rcases hs with ⟨i, _, _⟩ | ⟨i, _, _⟩; exact ne_of_gt i; exact ne_of_lt i
  have nd : d' ≠ 0 := by rcases hs with ⟨_, i, _⟩ | ⟨_, i, _⟩; exact ne_of_gt i; exact ne_of_lt i
  have i1 : 1 / d' ≤ 1 / q := by
    rcases hs with ⟨i, j, k⟩ | ⟨i, j, k⟩
    · exact one_div_le_one_div_of_le k h2
    · exact one_div_le_one_div_of_neg_of_le j h2
  have i2 : 1 / q ≤ 1 / c' := by
    rcases hs with ⟨i, j, k⟩ | ⟨i, j, k⟩
    · exact one_div_le_one_div_of_le i h1
    · exact one_div_le_one_div_of_neg_of_le k h1
  obtain ⟨⟨u, hu, v, hv, h1⟩, ⟨s, hs', t, ht, h2⟩⟩ := corner_le (leF_values hx.1 ha hp)
    (leF_values hx.2 hp hb) i1 i2
  have pick : ∀ {u : ℚ}, u = a' ∨ u = b' → ∃ z ∈ [a, b], value z = some u := by
    rintro u (rfl | rfl)
    · exact ⟨a, by simp, ha⟩
    · exact ⟨b, by simp, hb⟩
  have pick' : ∀ {u : ℚ}, u = 1 / d' ∨ u = 1 / c' → ∃ z ∈ [c, d], ∃ t, value z = some t ∧ t ≠ 0 ∧ u = 1 / t := by
    rintro u (rfl | rfl)
    · exact ⟨d, by simp, d', hd, nd, rfl⟩
    · exact ⟨c, by simp, c', hc, nc, rfl⟩
  obtain ⟨x1, m1, e1⟩ := pick hu
  obtain ⟨y1, m2, v1, e2, n2, rfl⟩ := pick' hv
  obtain ⟨x2, m3, e3⟩ := pick hs'
  obtain ⟨y2, m4, v2, e4, n4, rfl⟩ := pick' ht
  have hq0 : q ≠ 0 := by rcases hs with ⟨_, _, k⟩ | ⟨_, _, k⟩; exact ne_of_gt k; exact ne_of_lt k
  rw [mul_one_div, mul_one_div] at h1 h2
  exact ⟨leF_trans (h x1 m1 y1 m2).1 (roundsTo_mono (div_rounds e1 e2 n2) (div_rounds hp hq hq0) h1),
    leF_trans (roundsTo_mono (div_rounds hp hq hq0) (div_rounds e3 e4 n4) h2) (h x2 m3 y2 m4).2⟩

theorem between_rem {a x b c y d hi : F64} (ha : Bounded a) (hb : Bounded b) (hc : Bounded c) (hd : Bounded d)
    (hx : Between a x b) (hy : Between c y d) (h0 : LeF F64.f0 a) (h1 : Positive c)
    (h : LeF b hi ∨ LeF d hi) : Between F64.f0 (F64.rem x y) hi := by
  obtain ⟨p, hp⟩ := between_bounded hx ha hb
  obtain ⟨q, hq⟩ := between_bounded hy hc hd
  obtain ⟨a', ha⟩ := ha
  obtain ⟨b', hb⟩ := hb
  obtain ⟨c', hc⟩ := hc
  obtain ⟨d', hd⟩ := hd
  have hc0 := positive_value h1 hc
  have hq0 : 0 < q := by have := leF_values hy.1 hc hq; linarith
  have hp0 : 0 ≤ p := by
    have h1 := leF_values h0 (value_zero false) ha
    have h2 := leF_values hx.1 ha hp
    linarith
  have k := rems x y
  generalize F64.rem x y = r at k
  cases k with
  | finite k1 k2 _ k3 _ =>
    rw [hp] at k1; rw [hq] at k2; cases k1; cases k2
    have ht : truncRat (p / q) = ⌊p / q⌋ := by
      unfold truncRat; rw [if_pos (div_nonneg hp0 hq0.le)]
    rw [ht] at k3
    have f1 : (⌊p / q⌋ : ℚ) ≤ p / q := Int.floor_le _
    have f2 : p / q < ⌊p / q⌋ + 1 := Int.lt_floor_add_one _
    have f3 : (0 : ℚ) ≤ ⌊p / q⌋ := by exact_mod_cast Int.floor_nonneg.2 (div_nonneg hp0 hq0.le)
    have e : p = q * (p / q) := by field_simp
    refine ⟨.fin (value_zero false) k3 (by nlinarith), ?_⟩
    rcases h with h | h
    · refine leF_trans (.fin k3 hb ?_) h
      have := leF_values hx.2 hp hb
      nlinarith
    · refine leF_trans (.fin k3 hd ?_) h
      have := leF_values hy.2 hq hd
      nlinarith
  | byZero h => rw [hq] at h; cases h; exact absurd hq0 (lt_irrefl _)
  | _ => first | cases hp | cases hq

/-! ### Functions -/

theorem BetweenL.lows {los vs his : List F64} (h : BetweenL los vs his) : List.Forall₂ LeF los vs := by
  induction h with
  | nil => exact .nil
  | cons h _ ih => exact .cons h.1 ih

theorem BetweenL.highs {los vs his : List F64} (h : BetweenL los vs his) : List.Forall₂ LeF vs his := by
  induction h with
  | nil => exact .nil
  | cons h _ ih => exact .cons h.2 ih

theorem BetweenL.same {los vs his us : List F64} (h : BetweenL los vs his) (hs : SameL vs us) :
    BetweenL los us his := by
  induction h generalizing us with
  | nil => cases hs; exact .nil
  | cons h _ ih =>
    cases hs with
    | cons h1 h2 => exact .cons (h.same h1) (ih h2)

theorem bounded_same {x y : F64} (h : Bounded x) (hs : Same x y) : Bounded y := by
  obtain ⟨q, hq⟩ := h; exact ⟨q, value_same hq hs⟩

theorem boundedL_same {vs us : List F64} (hs : SameL vs us) (h : ∀ v ∈ vs, Bounded v) : ∀ u ∈ us, Bounded u := by
  induction hs with
  | nil => exact h
  | cons h1 _ ih =>
    intro u hu
    rcases List.mem_cons.1 hu with rfl | hu
    · exact bounded_same (h _ List.mem_cons_self) h1
    · exact ih (fun v hv => h v (List.mem_cons_of_mem _ hv)) u hu

theorem same_leF {x y : F64} (h : Same x y) (hx : Bounded x) : LeF x y ∧ LeF y x := by
  obtain ⟨q, hq⟩ := hx
  have := value_same hq h
  exact ⟨.fin hq this le_rfl, .fin this hq le_rfl⟩

theorem sameL_leF {vs us : List F64} (hs : SameL vs us) (h : ∀ v ∈ vs, Bounded v) :
    List.Forall₂ LeF vs us ∧ List.Forall₂ LeF us vs := by
  induction hs with
  | nil => exact ⟨.nil, .nil⟩
  | cons h1 _ ih =>
    have h2 := same_leF h1 (h _ List.mem_cons_self)
    have h3 := ih fun v hv => h v (List.mem_cons_of_mem _ hv)
    exact ⟨.cons h2.1 h3.1, .cons h2.2 h3.2⟩

theorem add_bounded_ne_nan {a x : F64} (ha : a ≠ .nan) (hx : Bounded x) : F64.add a x ≠ .nan := by
  obtain ⟨q, hq⟩ := hx
  have k := adds a x
  generalize F64.add a x = r at k
  cases k with
  | nanL => exact absurd rfl ha
  | nanR => cases hq
  | opposite => cases hq
  | infL => simp
  | infR => simp
  | finite _ _ h _ => exact leF_left (roundsTo_mono h h le_rfl)

theorem fold_add_ne_nan {vs : List F64} (h : ∀ v ∈ vs, Bounded v) : ∀ {a : F64}, a ≠ .nan →
    vs.foldl F64.add a ≠ .nan := by
  induction vs with
  | nil => exact fun h => h
  | cons x xs ih =>
    intro a ha
    exact ih (fun v hv => h v (List.mem_cons_of_mem _ hv)) (add_bounded_ne_nan ha (h x List.mem_cons_self))

/-- Where both ends have finite values, so has everything between them. -/
theorem rises_total {w : World} {b : Builtin} {los his vs : List F64} {lo hi : F64}
    (hb : b ∈ [Builtin.floor, .ceil, .round, .trunc, .sqrt, .sum, .mean, .min, .max])
    (h1 : b.run w los = .ok lo) (h2 : b.run w his = .ok hi) (k1 : Bounded lo) (k2 : Bounded hi)
    (hv : ∀ v ∈ vs, Bounded v) (h : BetweenL los vs his) : ∃ v, b.run w vs = .ok v ∧ v ≠ .nan := by
  have one : ∀ {g : F64 → F64} {ls : List F64} {r : F64}, wrap1 (fun x => .ok (g x)) los = .ok r →
      (∀ a x, LeF a x → g a = r → Bounded x → g x ≠ .nan) →
      ∃ v, wrap1 (fun x => .ok (g x)) vs = .ok v ∧ v ≠ .nan := by
    intro g ls r h3 h4
    cases h with
    | nil => cases h3
    | cons h5 _ =>
      cases h3
      exact ⟨_, rfl, h4 _ _ h5.1 rfl (hv _ List.mem_cons_self)⟩
  have rnd : ∀ {r : ℚ → ℤ} {g : F64 → F64},
      (∀ x q, value x = some q → value (g x) = some (r q : ℚ) ∧ signBit (g x) = signBit x) →
      ∀ x, Bounded x → g x ≠ .nan := by
    rintro r g hg x ⟨q, hq⟩ h0
    have := (hg x q hq).1
    rw [h0] at this; cases this
  have sne : sumF w vs ≠ .nan := fold_add_ne_nan hv (by simp [F64.zero])
  simp only [List.mem_cons, List.not_mem_nil, or_false] at hb
  rcases hb with rfl | rfl | rfl | rfl | rfl | rfl | rfl | rfl | rfl
  · exact one (ls := los) h1 fun _ x _ _ hx => rnd (r := fun q => ⌊q⌋) (fun _ _ h => floor_value h) x hx
  · exact one (ls := los) h1 fun _ x _ _ hx => rnd (r := fun q => ⌈q⌉) (fun _ _ h => ceil_value h) x hx
  · exact one (ls := los) h1 fun _ x _ _ hx =>
      rnd (r := fun q => if 0 ≤ q then ⌊q + 1 / 2⌋ else ⌈q - 1 / 2⌉) (fun _ _ h => round_value h) x hx
  · exact one (ls := los) h1 fun _ x _ _ hx => rnd (r := truncRat) (fun _ _ h => trunc_value h) x hx
  · refine one (ls := los) h1 fun a x hax hr hx h0 => ?_
    obtain ⟨q, hq⟩ := hx
    have hq0 : q < 0 := by
      have k := roots x
      rw [h0] at k
      cases k with
      | nan => cases hq
      | negInf => cases hq
      | zero h => cases h
      | negative h1 h2 => rw [hq] at h1; cases h1; exact h2
      | positive _ _ h => cases h
    have ha : F64.sqrt a = .nan := by
      have k := roots a
      generalize F64.sqrt a = s at k
      cases hax with
      | bot _ =>
        cases k with
        | negInf => rfl
        | zero h => cases h
        | negative h => cases h
        | positive h => cases h
      | top _ => cases hq
      | @fin _ _ p q' h3 h4 h5 =>
        rw [hq] at h4; cases h4
        cases k with
        | nan => rfl
        | inf => cases h3
        | negInf => rfl
        | zero h => rw [h3] at h; cases h; linarith
        | negative h => rfl
        | positive h h' => rw [h3] at h; cases h; linarith
    rw [ha] at hr
    exact absurd hr.symm (bounded_ne_nan k1)
  · exact ⟨_, rfl, sne⟩
  · refine ⟨_, rfl, ?_⟩
    cases h1; cases h2
    have l1 : los.length = vs.length := h.lows.length_eq
    have l2 : vs.length = his.length := h.highs.length_eq
    rw [l1] at k1
    rw [← l2] at k2
    have n1 : sumF w los ≠ .nan := by
      intro h0; rw [h0] at k1; exact bounded_ne_nan k1 rfl
    have n2 : sumF w his ≠ .nan := by
      intro h0; rw [h0] at k2; exact bounded_ne_nan k2 rfl
    have b1 : LeF (sumF w los) (sumF w vs) := fold_add_mono h.lows (leF_refl (by simp [F64.zero])) n1 sne
    have b2 : LeF (sumF w vs) (sumF w his) := fold_add_mono h.highs (leF_refl (by simp [F64.zero])) sne n2
    intro h0
    generalize F64.ofNat vs.length = L at *
    have k := divs (sumF w vs) L
    rw [h0] at k
    generalize sumF w vs = S at *
    cases k with
    | nanL => exact sne rfl
    | nanR =>
      have e : ∀ x : F64, F64.div x .nan = .nan := fun x => by cases x <;> rfl
      rw [e] at k1
      exact bounded_ne_nan k1 rfl
    | @infInf s t =>
      cases s
      · have e : sumF w his = .inf false := by
          generalize sumF w his = B at b2
          cases b2 with
          | top => rfl
          | fin h => cases h
        rw [e] at k2
        exact bounded_ne_nan k2 rfl
      · have e : sumF w los = .inf true := by
          generalize sumF w los = A at b1
          cases b1 with
          | bot => rfl
          | fin _ h => cases h
        rw [e] at k1
        exact bounded_ne_nan k1 rfl
    | zeroZero h3 h4 =>
      obtain ⟨q, hq⟩ := k1
      have k := divs (sumF w los) L
      generalize sumF w los = A at k hq
      generalize F64.div A L = r at k hq
      cases k with
      | infR _ _ _ => cases h4
      | finite _ h5 h6 _ _ => rw [h4] at h5; cases h5; exact h6 rfl
      | _ => cases hq
    | infR _ h _ => cases h
    | finite _ _ _ h => exact leF_left (roundsTo_mono h h le_rfl) rfl
  · refine ⟨_, rfl, ?_⟩
    cases h with
    | nil => cases h1; obtain ⟨q, hq⟩ := k1; cases hq
    | @cons _ x _ _ _ _ _ _ =>
      exact ((min_fold _).2 ⟨x, List.mem_cons_self, bounded_ne_nan (hv x List.mem_cons_self)⟩).2.1
  · refine ⟨_, rfl, ?_⟩
    cases h with
    | nil => cases h1; obtain ⟨q, hq⟩ := k1; cases hq
    | @cons _ x _ _ _ _ _ _ =>
      exact ((max_fold _).2 ⟨x, List.mem_cons_self, bounded_ne_nan (hv x List.mem_cons_self)⟩).2.1

theorem rises_of {b : Builtin}
    (hb : b ∈ [Builtin.floor, .ceil, .round, .trunc, .sqrt, .sum, .mean, .min, .max]) : Rises b := by
  simp only [Rises, List.mem_cons, List.not_mem_nil, or_false] at hb ⊢
  tauto

theorem natural_sound (w : World) : Sound w (natural w) := by
  refine ⟨fun f los his lo hi hk => ?_, fun _ _ _ _ _ _ h => h.elim⟩
  cases hk with
  | rises hf hb h1 h2 k1 k2 =>
    refine ⟨k1, k2, fun vs hv h => ?_⟩
    obtain ⟨v, h3, h4⟩ := rises_total hb h1 h2 k1 k2 hv h
    have hr := rises_of hb
    exact ⟨v, by rw [call_builtin hf, h3],
      rises_mono hr h.lows h1 h3 (bounded_ne_nan k1) h4, rises_mono hr h.highs h3 h2 h4 (bounded_ne_nan k2)⟩
  | abs hf ha hb h1 h2 k2 =>
    refine ⟨bounded_f0, k2, fun vs hv h => ?_⟩
    cases h with
    | @cons _ x _ _ xs _ h3 h4 =>
      cases h4
      refine ⟨F64.abs x, by rw [call_builtin hf]; rfl, ?_⟩
      obtain ⟨q, hq⟩ := hv x List.mem_cons_self
      obtain ⟨a', ha⟩ := ha
      obtain ⟨b', hb⟩ := hb
      refine ⟨.fin (value_zero false) (abs_value hq).1 (abs_nonneg q), ?_⟩
      have h4 := leF_values h3.1 ha hq
      have h5 := leF_values h3.2 hq hb
      rcases le_total 0 q with h0 | h0
      · exact leF_trans (.fin (abs_value hq).1 (abs_value hb).1 (abs_le_abs_of_nonneg h0 h5)) h2
      · exact leF_trans (.fin (abs_value hq).1 (abs_value ha).1
          (abs_le_abs_of_nonpos h0 h4)) h1
  | absPos hf ha hb h1 =>
    refine ⟨ha, hb, fun vs hv h => ?_⟩
    cases h with
    | @cons _ x _ _ xs _ h3 h4 =>
      cases h4
      refine ⟨F64.abs x, by rw [call_builtin hf]; rfl, ?_⟩
      obtain ⟨q, hq⟩ := hv x List.mem_cons_self
      obtain ⟨a', ha⟩ := ha
      have h0 := leF_values h1 (value_zero false) ha
      have h4 := leF_values h3.1 ha hq
      refine h3.same (same_of_value hq ?_)
      rw [(abs_value hq).1, abs_of_nonneg (h0.trans h4)]
  | absNeg hf ha hb h1 =>
    refine ⟨bounded_neg hb, bounded_neg ha, fun vs hv h => ?_⟩
    cases h with
    | @cons _ x _ _ xs _ h3 h4 =>
      cases h4
      refine ⟨F64.abs x, by rw [call_builtin hf]; rfl, ?_⟩
      obtain ⟨q, hq⟩ := hv x List.mem_cons_self
      obtain ⟨b', hb⟩ := hb
      have h0 := leF_values h1 hb (value_zero false)
      have h4 := leF_values h3.2 hq hb
      refine h3.neg.same (same_of_value (neg_value hq) ?_)
      rw [(abs_value hq).1, abs_of_nonpos (h4.trans h0)]
  | recip hf ha hb h0 k1 k2 =>
    refine ⟨k2, k1, fun vs hv h => ?_⟩
    cases h with
    | @cons _ x _ _ xs _ h3 h4 =>
      cases h4
      refine ⟨F64.div F64.f1 x, by rw [call_builtin hf]; rfl, ?_⟩
      obtain ⟨q, hq⟩ := hv x List.mem_cons_self
      obtain ⟨a', ha⟩ := ha
      obtain ⟨b', hb⟩ := hb
      have h1 := leF_values h3.1 ha hq
      have h2 := leF_values h3.2 hq hb
      have o : value F64.f1 = some 1 := one_value
      rcases apart_values h0 ha hb hq h3 with ⟨i, j, k⟩ | ⟨i, j, k⟩
      · exact ⟨roundsTo_mono (div_rounds o hb j.ne') (div_rounds o hq k.ne') (one_div_le_one_div_of_le k h2),
          roundsTo_mono (div_rounds o hq k.ne') (div_rounds o ha i.ne') (one_div_le_one_div_of_le i h1)⟩
      · exact ⟨roundsTo_mono (div_rounds o hb j.ne) (div_rounds o hq k.ne) (one_div_le_one_div_of_neg_of_le j h2),
          roundsTo_mono (div_rounds o hq k.ne) (div_rounds o ha i.ne) (one_div_le_one_div_of_neg_of_le k h1)⟩

theorem natural_steady (w : World) : Steady w (natural w) := by
  intro f los his lo hi hk vs hv h us hs
  cases hk with
  | rises hf hb h1 h2 k1 k2 =>
    obtain ⟨v, h3, h4⟩ := rises_total hb h1 h2 k1 k2 hv h
    obtain ⟨u, h5, h6⟩ := rises_total hb h1 h2 k1 k2 (boundedL_same hs hv) (h.same hs)
    have hr := rises_of hb
    obtain ⟨l1, l2⟩ := sameL_leF hs hv
    exact ⟨v, u, by rw [call_builtin hf, h3], by rw [call_builtin hf, h5],
      leF_antisymm (rises_mono hr l1 h3 h5 h4 h6) (rises_mono hr l2 h5 h3 h6 h4)⟩
  | abs hf =>
    cases h with
    | @cons _ x _ _ xs _ h3 h4 =>
      cases h4
      cases hs with
      | cons h5 h6 =>
        cases h6
        exact ⟨_, _, by rw [call_builtin hf]; rfl, by rw [call_builtin hf]; rfl, abs_same h5⟩
  | absPos hf =>
    cases h with
    | @cons _ x _ _ xs _ h3 h4 =>
      cases h4
      cases hs with
      | cons h5 h6 =>
        cases h6
        exact ⟨_, _, by rw [call_builtin hf]; rfl, by rw [call_builtin hf]; rfl, abs_same h5⟩
  | absNeg hf =>
    cases h with
    | @cons _ x _ _ xs _ h3 h4 =>
      cases h4
      cases hs with
      | cons h5 h6 =>
        cases h6
        exact ⟨_, _, by rw [call_builtin hf]; rfl, by rw [call_builtin hf]; rfl, abs_same h5⟩
  | recip hf ha hb h0 =>
    cases h with
    | @cons _ x _ _ xs _ h3 h4 =>
      cases h4
      cases hs with
      | cons h5 h6 =>
        cases h6
        obtain ⟨q, hq⟩ := hv x List.mem_cons_self
        obtain ⟨a', ha⟩ := ha
        obtain ⟨b', hb⟩ := hb
        have hz : ¬ IsZero x := by
          rintro ⟨s, rfl⟩
          rw [value_zero] at hq; cases hq
          rcases apart_values h0 ha hb (value_zero s) h3 with ⟨_, _, k⟩ | ⟨_, _, k⟩ <;> exact lt_irrefl _ k
        exact ⟨_, _, by rw [call_builtin hf]; rfl, by rw [call_builtin hf]; rfl, div_congr (.inl rfl) h5 hz⟩

end Spec
end Xprs
