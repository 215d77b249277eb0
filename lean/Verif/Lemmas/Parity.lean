import Verif.Spec.Parity
import Verif.Lemmas.Safe
/- How the operations of `f64` treat signs (for C96). -/
namespace Xprs
open Spec
set_option exponentiation.threshold 4096

theorem flip_false {x y : F64} : Flip false x y ↔ Same x y := Iff.rfl
theorem flip_true {x y : F64} : Flip true x y ↔ Same (F64.neg x) y := Iff.rfl

theorem isZero_neg {a : F64} : IsZero (F64.neg a) ↔ IsZero a := by
  cases a with
  | nan => exact Iff.rfl
  | inf s => exact ⟨fun h => absurd h not_isZero_inf, fun h => absurd h not_isZero_inf⟩
  | fin s n h => exact isZero_fin.trans isZero_fin.symm

theorem fneg_nan {a : F64} : F64.neg a = .nan ↔ a = .nan := by cases a <;> simp [F64.neg]

theorem flip_zero {p : Bool} {x y : F64} (h : Flip p x y) : IsZero x ↔ IsZero y := by
  rw [← h.isZero]
  cases p
  · exact Iff.rfl
  · exact isZero_neg.symm

theorem flip_nan {p : Bool} {x y : F64} (h : Flip p x y) : x = .nan ↔ y = .nan := by
  rw [← h.nan]
  cases p
  · exact Iff.rfl
  · exact fneg_nan.symm

theorem flip_same {p : Bool} {x x' y y' : F64} (h : Flip p x y) (hx : Same x x') (hy : Same y y') :
    Flip p x' y' := by
  cases p
  · exact (hx.symm.trans h).trans hy
  · exact ((neg_congr hx.symm).trans h).trans hy

theorem flip_neg {p : Bool} {x y : F64} (h : Flip p x y) : Flip p (F64.neg x) (F64.neg y) := by
  cases p
  · exact neg_congr h
  · exact neg_congr (a := F64.neg x) h

theorem neg_ofMag (s : Bool) (N D : Nat) : F64.neg (F64.ofMag s N D) = F64.ofMag (!s) N D := by
  unfold F64.ofMag
  split <;> rfl

theorem sv_not (s : Bool) (n : Nat) : F64.sv (!s) n = -F64.sv s n := by cases s <;> simp [F64.sv]

theorem neg_add (a b : F64) : Same (F64.neg (F64.add a b)) (F64.add (F64.neg a) (F64.neg b)) := by
  cases a with
  | nan => exact .inl rfl
  | inf s =>
    cases b with
    | nan => exact .inl rfl
    | inf t => left; cases s <;> cases t <;> rfl
    | fin t m k => exact .inl rfl
  | fin s n h =>
    cases b with
    | nan => exact .inl rfl
    | inf t => exact .inl rfl
    | fin t m k =>
      simp only [F64.add, F64.neg, sv_not]
      by_cases hz : F64.sv s n + F64.sv t m = 0
      · rw [if_pos hz, if_pos (by omega)]
        exact .inr ⟨isZero_neg.2 isZero_zero, isZero_zero⟩
      · rw [if_neg hz, if_neg (by omega)]
        left
        have e : (-F64.sv s n + -F64.sv t m).natAbs = (F64.sv s n + F64.sv t m).natAbs := by omega
        have := neg_ofMag (decide (F64.sv s n + F64.sv t m < 0)) (F64.sv s n + F64.sv t m).natAbs 1
        rw [e]
        refine this.trans ?_
        congr 1
        by_cases h0 : F64.sv s n + F64.sv t m < 0
        · rw [decide_eq_true h0, decide_eq_false (by omega)]; rfl
        · rw [decide_eq_false h0, decide_eq_true (by omega)]; rfl

theorem neg_mul_left (a b : F64) : F64.mul (F64.neg a) b = F64.neg (F64.mul a b) := by
  cases a with
  | nan => cases b <;> rfl
  | inf s =>
    cases b with
    | nan => rfl
    | inf t => cases s <;> cases t <;> rfl
    | fin t m k =>
      simp only [F64.mul, F64.neg]
      split
      · rfl
      · cases s <;> cases t <;> rfl
  | fin s n h =>
    cases b with
    | nan => rfl
    | inf t =>
      simp only [F64.mul, F64.neg]
      split
      · rfl
      · cases s <;> cases t <;> rfl
    | fin t m k =>
      have := neg_ofMag (s != t) (n * m) unit64
      refine Eq.trans ?_ this.symm
      show F64.ofMag ((!s) != t) (n * m) unit64 = _
      cases s <;> cases t <;> rfl

theorem neg_mul_right (a b : F64) : F64.mul a (F64.neg b) = F64.neg (F64.mul a b) := by
  rw [fmul_comm, neg_mul_left, fmul_comm]

theorem neg_div_left (a b : F64) : F64.div (F64.neg a) b = F64.neg (F64.div a b) := by
  cases a with
  | nan => cases b <;> rfl
  | inf s =>
    cases b with
    | nan => rfl
    | inf t => rfl
    | fin t m k => cases s <;> cases t <;> rfl
  | fin s n h =>
    cases b with
    | nan => rfl
    | inf t => cases s <;> cases t <;> rfl
    | fin t m k =>
      have d : ∀ s t, F64.div (.fin s n h) (.fin t m k) =
          if m = 0 then (if n = 0 then .nan else .inf (s != t)) else F64.ofMag (s != t) (n * unit64) m :=
        fun _ _ => rfl
      have e : ((!s) != t) = !(s != t) := by cases s <;> cases t <;> rfl
      refine (d (!s) t).trans ?_
      rw [d s t, e]
      split
      · split <;> rfl
      · exact (neg_ofMag ..).symm

theorem neg_div_right (a b : F64) : F64.div a (F64.neg b) = F64.neg (F64.div a b) := by
  cases a with
  | nan => cases b <;> rfl
  | inf s =>
    cases b with
    | nan => rfl
    | inf t => rfl
    | fin t m k => cases s <;> cases t <;> rfl
  | fin s n h =>
    cases b with
    | nan => rfl
    | inf t => cases s <;> cases t <;> rfl
    | fin t m k =>
      have d : ∀ s t, F64.div (.fin s n h) (.fin t m k) =
          if m = 0 then (if n = 0 then .nan else .inf (s != t)) else F64.ofMag (s != t) (n * unit64) m :=
        fun _ _ => rfl
      have e : (s != !t) = !(s != t) := by cases s <;> cases t <;> rfl
      refine (d s (!t)).trans ?_
      rw [d s t, e]
      split
      · split <;> rfl
      · exact (neg_ofMag ..).symm

theorem neg_rem (a b : F64) : F64.rem (F64.neg a) b = F64.neg (F64.rem a b) := by
  cases a with
  | nan => cases b <;> rfl
  | inf s => cases b <;> rfl
  | fin s n h =>
    cases b with
    | nan => rfl
    | inf t => rfl
    | fin t m k =>
      simp only [F64.rem, F64.neg]
      split
      · rfl
      · exact (neg_ofMag s (n % m) 1).symm

theorem whole_neg {a : F64} (h : Whole a) : Whole (F64.neg a) := by
  obtain ⟨s, k, h, rfl⟩ := h
  exact ⟨!s, k, h, rfl⟩

theorem whole_same {a b : F64} (h : Whole a) (k : Same a b) : Whole b := by
  rcases k with rfl | ⟨_, s, rfl⟩
  · exact h
  · exact ⟨s, 0, by rw [Nat.zero_mul]; exact F64.rep_zero, by
      unfold F64.zero; congr 1⟩

/-! ### Steps -/

section
variable {w : World} {p q : Bool} {a a' b b' v : F64}

theorem flip_add (ha : Flip p a a') (hb : Flip p b b') : Flip p (F64.add a b) (F64.add a' b') := by
  cases p
  · exact add_congr ha hb
  · exact (neg_add a b).trans (add_congr (a := F64.neg a) (b := F64.neg b) ha hb)

theorem flip_sub (ha : Flip p a a') (hb : Flip p b b') : Flip p (F64.sub a b) (F64.sub a' b') :=
  flip_add ha (flip_neg hb)

theorem flip_mul (ha : Flip p a a') (hb : Flip q b b') : Flip (p != q) (F64.mul a b) (F64.mul a' b') := by
  have := mul_congr ha hb
  cases p <;> cases q <;>
    simp only [Bool.false_eq_true, if_true, if_false, neg_mul_left, neg_mul_right, fneg_neg] at this <;>
    exact this

theorem flip_div (ha : Flip p a a') (hb : Flip q b b') (h : ¬ IsZero b) :
    Flip (p != q) (F64.div a b) (F64.div a' b') := by
  have := div_congr ha hb (by cases q <;> simpa [isZero_neg] using h)
  cases p <;> cases q <;>
    simp only [Bool.false_eq_true, if_true, if_false, neg_div_left, neg_div_right, fneg_neg] at this <;>
    exact this

theorem flip_rem (ha : Flip p a a') (hb : Same b b') : Flip p (F64.rem a b) (F64.rem a' b') := by
  have := rem_congr ha hb
  cases p <;> simp only [Bool.false_eq_true, if_true, if_false, neg_rem] at this <;> exact this

theorem sameL_neg : ∀ {vs us : List F64}, SameL vs us → SameL (vs.map F64.neg) (us.map F64.neg)
  | _, _, .nil => .nil
  | _, _, .cons h k => .cons (neg_congr h) (sameL_neg k)

theorem map_neg_neg : ∀ vs : List F64, (vs.map F64.neg).map F64.neg = vs
  | [] => rfl
  | v :: vs => by rw [List.map, List.map, map_neg_neg vs, fneg_neg]

theorem callStep_neg {f : Func} {vs us : List F64} (hf : FnParity w f p) (h : CallStep w f vs v)
    (hs : SameL (vs.map F64.neg) us) : ∃ u, CallStep w f us u ∧ Flip p v u := by
  have key : ∀ us', SameL (vs.map F64.neg) us' → ∃ u, callFn w f us' = .ok u ∧ Flip p v u := by
    intro us' hs
    have h1 := sameL_neg hs
    rw [map_neg_neg] at h1
    obtain ⟨x, h2, h3⟩ := h.2 _ h1
    obtain ⟨u, h4, h5⟩ := hf _ _ h2
    rw [map_neg_neg] at h4
    exact ⟨u, h4, flip_same h5 h3.symm (.refl u)⟩
  obtain ⟨u, h1, h2⟩ := key us hs
  refine ⟨u, ⟨h1, fun us' h3 => ?_⟩, h2⟩
  obtain ⟨u', h4, h5⟩ := key us' (hs.trans h3)
  exact ⟨u', h4, (Spec.Same.symm h2).trans h5⟩

end

/-! ### Built-in functions -/

theorem fnParity_wrap1 {w : World} {f : Func} {b : Builtin} {g : F64 → F64} {p : Bool}
    (hf : f.func = .builtin b) (hb : b.run w = wrap1 fun x => .ok (g x))
    (hg : ∀ x, Flip p (g x) (g (F64.neg x))) : FnParity w f p := by
  intro vs v h
  unfold callFn at h ⊢
  rw [hf] at h ⊢
  simp only [hb] at h ⊢
  cases vs with
  | nil => cases h
  | cons x xs =>
    cases h
    exact ⟨_, rfl, hg x⟩

theorem neg_trunc (a : F64) : F64.trunc (F64.neg a) = F64.neg (F64.trunc a) := by
  cases a with
  | nan => rfl
  | inf s => rfl
  | fin s n h => exact (neg_ofMag ..).symm

theorem neg_round (a : F64) : F64.round (F64.neg a) = F64.neg (F64.round a) := by
  cases a with
  | nan => rfl
  | inf s => rfl
  | fin s n h => exact (neg_ofMag ..).symm

theorem neg_fract (a : F64) : Same (F64.neg (F64.fract a)) (F64.fract (F64.neg a)) := by
  unfold F64.fract F64.sub
  rw [neg_trunc]
  exact neg_add a _

theorem neg_abs (a : F64) : F64.abs (F64.neg a) = F64.abs a := by cases a <;> rfl

theorem neg_fold : ∀ (vs : List F64) {a b : F64}, Same (F64.neg a) b →
    Same (F64.neg (vs.foldl F64.add a)) ((vs.map F64.neg).foldl F64.add b)
  | [], _, _, h => h
  | v :: vs, a, _, h => neg_fold vs ((neg_add a v).trans (add_congr h (.refl _)))

theorem neg_sum (w : World) (vs : List F64) :
    Same (F64.neg (sumF w vs)) (sumF w (vs.map F64.neg)) :=
  neg_fold vs (.inr ⟨isZero_neg.2 isZero_zero, isZero_zero⟩)

end Xprs
