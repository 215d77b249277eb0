import Verif.Lemmas.Float
import Verif.Lemmas.Eval
import Verif.Lemmas.Simplify
import Verif.Spec.Safe
/-
Float arithmetic up to the sign of zero.
-/
namespace Xprs
open Spec
set_option exponentiation.threshold 4096

theorem isZero_fin {s : Bool} {n : Nat} {h : Rep n} : IsZero (.fin s n h) ↔ n = 0 := by
  constructor
  · rintro ⟨t, h⟩; injection h
  · rintro rfl; exact ⟨s, rfl⟩

theorem not_isZero_nan : ¬ IsZero .nan := by rintro ⟨s, h⟩; cases h
theorem not_isZero_inf {s : Bool} : ¬ IsZero (.inf s) := by rintro ⟨s, h⟩; cases h
theorem isZero_zero {s : Bool} : IsZero (F64.zero s) := ⟨s, rfl⟩

/-- Two finite floats are the same up to the sign of zero when they have the same
signed magnitude. -/
theorem same_fin {s t : Bool} {n m : Nat} {h : Rep n} {k : Rep m} :
    Same (.fin s n h) (.fin t m k) ↔ F64.sv s n = F64.sv t m := by
  unfold Same
  rw [isZero_fin, isZero_fin]
  cases s <;> cases t <;> simp [F64.sv] <;> omega

theorem Spec.Same.refl (a : F64) : Same a a := .inl rfl
theorem Spec.Same.symm {a b : F64} (h : Same a b) : Same b a := by
  rcases h with rfl | ⟨h, k⟩
  · exact .inl rfl
  · exact .inr ⟨k, h⟩
theorem Spec.Same.trans {a b c : F64} (h : Same a b) (k : Same b c) : Same a c := by
  rcases h with rfl | ⟨h1, h2⟩
  · exact k
  · rcases k with rfl | ⟨k1, k2⟩
    · exact .inr ⟨h1, h2⟩
    · exact .inr ⟨h1, k2⟩
theorem Spec.Same.isZero {a b : F64} (h : Same a b) : IsZero a ↔ IsZero b := by
  rcases h with rfl | ⟨h1, h2⟩
  · exact Iff.rfl
  · exact ⟨fun _ => h2, fun _ => h1⟩
theorem Spec.Same.nan {a b : F64} (h : Same a b) : a = .nan ↔ b = .nan := by
  rcases h with rfl | ⟨⟨s, rfl⟩, t, rfl⟩
  · exact Iff.rfl
  · exact ⟨fun h => (by cases h), fun h => (by cases h)⟩
theorem Spec.Same.of_not_zero {a b : F64} (h : Same a b) (hz : ¬ IsZero a) : a = b := by
  rcases h with rfl | ⟨h, _⟩
  · rfl
  · exact absurd h hz

theorem Spec.SameL.refl : ∀ l : List F64, SameL l l
  | [] => .nil
  | a :: as => .cons (Same.refl a) (SameL.refl as)
theorem Spec.SameL.symm {as bs : List F64} (h : SameL as bs) : SameL bs as := by
  induction h with
  | nil => exact .nil
  | cons h _ ih => exact .cons h.symm ih
theorem Spec.SameL.trans {as bs : List F64} (h : SameL as bs) : ∀ {cs : List F64},
    SameL bs cs → SameL as cs := by
  induction h with
  | nil => exact fun h => h
  | cons h _ ih =>
    intro cs hc
    cases hc with
    | cons h1 h2 => exact .cons (h.trans h1) (ih h2)

/-! ### The two zeros under the operations -/

theorem ofMag_zero (s : Bool) (D : Nat) : F64.ofMag s 0 D = F64.zero s :=
  F64.ofMag_of_eq s (roundMag_zero D) F64.rep_zero

theorem add_zero_left (s : Bool) (b : F64) : Same (F64.add (F64.zero s) b) b := by
  cases b with
  | nan => exact .inl rfl
  | inf t => exact .inl rfl
  | fin t m h =>
    by_cases hm : m = 0
    · subst hm
      exact .inr ⟨⟨s && t, by simp [F64.add, F64.zero, F64.sv]⟩, ⟨t, rfl⟩⟩
    · left
      have hz : F64.sv s 0 + F64.sv t m = F64.sv t m := by cases s <;> simp [F64.sv]
      have hne : F64.sv t m ≠ 0 := by cases t <;> simp [F64.sv] <;> omega
      have hab : (F64.sv t m).natAbs = m := by cases t <;> simp [F64.sv]
      have hs : decide (F64.sv t m < 0) = t := by cases t <;> simp [F64.sv] <;> omega
      simp only [F64.add, F64.zero, hz, if_neg hne, hab, hs]
      exact F64.ofMag_rep t h

theorem fadd_comm (a b : F64) : F64.add a b = F64.add b a := by
  cases a with
  | nan => cases b <;> rfl
  | inf s =>
    cases b with
    | nan => rfl
    | inf t => cases s <;> cases t <;> rfl
    | fin => rfl
  | fin s n h =>
    cases b with
    | nan => rfl
    | inf t => rfl
    | fin t m k =>
      simp only [F64.add]
      rw [Int.add_comm, Bool.and_comm]

theorem fmul_comm (a b : F64) : F64.mul a b = F64.mul b a := by
  cases a with
  | nan => cases b <;> rfl
  | inf s =>
    cases b with
    | nan => rfl
    | inf t => cases s <;> cases t <;> rfl
    | fin t m k => cases s <;> cases t <;> rfl
  | fin s n h =>
    cases b with
    | nan => rfl
    | inf t => cases s <;> cases t <;> rfl
    | fin t m k =>
      simp only [F64.mul]
      rw [Nat.mul_comm]
      cases s <;> cases t <;> rfl

theorem fneg_neg (a : F64) : F64.neg (F64.neg a) = a := by
  cases a <;> simp [F64.neg]

theorem neg_congr {a a' : F64} (h : Same a a') : Same (F64.neg a) (F64.neg a') := by
  rcases h with rfl | ⟨⟨s, rfl⟩, t, rfl⟩
  · exact .inl rfl
  · exact .inr ⟨⟨!s, rfl⟩, ⟨!t, rfl⟩⟩

theorem add_congr_right {a b b' : F64} (h : Same b b') : Same (F64.add a b) (F64.add a b') := by
  rcases h with rfl | ⟨⟨s, rfl⟩, t, rfl⟩
  · exact .inl rfl
  · rw [fadd_comm a, fadd_comm a]
    exact (add_zero_left s a).trans (add_zero_left t a).symm

theorem add_congr {a a' b b' : F64} (h : Same a a') (k : Same b b') :
    Same (F64.add a b) (F64.add a' b') := by
  refine (add_congr_right k).trans ?_
  rw [fadd_comm a, fadd_comm a']
  exact add_congr_right h

theorem sub_congr {a a' b b' : F64} (h : Same a a') (k : Same b b') :
    Same (F64.sub a b) (F64.sub a' b') := add_congr h (neg_congr k)

/-- `0 * b` is zero, or NaN for infinite and NaN `b`, whatever the sign of the zero. -/
theorem mul_zero_left (s : Bool) (b : F64) :
    F64.mul (F64.zero s) b = .nan ∨ IsZero (F64.mul (F64.zero s) b) := by
  cases b with
  | nan => exact .inl rfl
  | inf t => exact .inl rfl
  | fin t m h =>
    right
    refine ⟨s != t, ?_⟩
    simp only [F64.mul, F64.zero, Nat.zero_mul]
    exact ofMag_zero _ _

theorem mul_congr_left {a a' b : F64} (h : Same a a') : Same (F64.mul a b) (F64.mul a' b) := by
  rcases h with rfl | ⟨⟨s, rfl⟩, t, rfl⟩
  · exact .inl rfl
  · cases b with
    | nan => exact .inl rfl
    | inf u => exact .inl rfl
    | fin u m h =>
      right
      simp only [F64.mul, F64.zero, Nat.zero_mul]
      exact ⟨⟨_, ofMag_zero _ _⟩, ⟨_, ofMag_zero _ _⟩⟩

theorem mul_congr {a a' b b' : F64} (h : Same a a') (k : Same b b') :
    Same (F64.mul a b) (F64.mul a' b') := by
  refine (mul_congr_left h).trans ?_
  rw [fmul_comm a', fmul_comm a']
  exact mul_congr_left k

/-- Division does not see the sign of a zero dividend (up to the sign of the result). -/
theorem div_congr_left {a a' b : F64} (h : Same a a') : Same (F64.div a b) (F64.div a' b) := by
  rcases h with rfl | ⟨⟨s, rfl⟩, t, rfl⟩
  · exact .inl rfl
  · cases b with
    | nan => exact .inl rfl
    | inf u => exact .inr ⟨⟨_, rfl⟩, ⟨_, rfl⟩⟩
    | fin u m h =>
      simp only [F64.div, F64.zero, Nat.zero_mul]
      split
      · exact .inl rfl
      · exact .inr ⟨⟨_, ofMag_zero _ _⟩, ⟨_, ofMag_zero _ _⟩⟩

theorem div_congr {a a' b b' : F64} (h : Same a a') (k : Same b b') (hb : ¬ IsZero b) :
    Same (F64.div a b) (F64.div a' b') := by
  rw [← k.of_not_zero hb]
  exact div_congr_left h

theorem rem_congr_left {a a' b : F64} (h : Same a a') : Same (F64.rem a b) (F64.rem a' b) := by
  rcases h with rfl | ⟨⟨s, rfl⟩, t, rfl⟩
  · exact .inl rfl
  · cases b with
    | nan => exact .inl rfl
    | inf u => exact .inr ⟨⟨_, rfl⟩, ⟨_, rfl⟩⟩
    | fin u m h =>
      simp only [F64.rem, F64.zero, Nat.zero_mod]
      split
      · exact .inl rfl
      · exact .inr ⟨⟨_, ofMag_zero _ _⟩, ⟨_, ofMag_zero _ _⟩⟩

theorem rem_zero_right (a : F64) {b : F64} (h : IsZero b) : F64.rem a b = .nan := by
  obtain ⟨s, rfl⟩ := h
  cases a <;> simp [F64.rem, F64.zero]

theorem rem_congr {a a' b b' : F64} (h : Same a a') (k : Same b b') :
    Same (F64.rem a b) (F64.rem a' b') := by
  refine (rem_congr_left h).trans ?_
  rcases k with rfl | ⟨hb, hb'⟩
  · exact .inl rfl
  · rw [rem_zero_right _ hb, rem_zero_right _ hb']; exact .inl rfl

theorem factorial_zero_true : factorial (F64.zero true) = factorial (F64.zero false) := by
  decide +kernel

theorem factorial_congr {a a' : F64} (h : Same a a') : factorial a = factorial a' := by
  rcases h with rfl | ⟨⟨s, rfl⟩, t, rfl⟩
  · rfl
  · cases s <;> cases t <;> first | rfl | exact factorial_zero_true | exact factorial_zero_true.symm

/-! ### Literals compared with `==` -/

theorem beq_iff {a b : F64} : F64.beq a b = true ↔ a ≠ .nan ∧ Same a b := by
  unfold Same
  cases a with
  | nan => simp [F64.beq, F64.key]
  | inf s =>
    cases b with
    | nan => simp [F64.beq, F64.key, not_isZero_inf]
    | inf t =>
      have := maxMag_pos
      cases s <;> cases t <;> simp [F64.beq, F64.key, F64.sv, not_isZero_inf] <;> omega
    | fin t m h =>
      have := h.1
      cases s <;> cases t <;> simp [F64.beq, F64.key, F64.sv, not_isZero_inf] <;> omega
  | fin s n h =>
    have hn := h.1
    cases b with
    | nan => simp [F64.beq, F64.key, not_isZero_nan]
    | inf t =>
      cases s <;> cases t <;> simp [F64.beq, F64.key, F64.sv, not_isZero_inf] <;> omega
    | fin t m k =>
      have := @same_fin s t n m h k
      unfold Same at this
      rw [this]
      simp [F64.beq, F64.key]

theorem isNumEq_iff {e : Elem} {c : F64} : e.isNumEq c = true ↔ ∃ x, e = .num x ∧ F64.beq x c = true := by
  cases e <;> simp [Elem.isNumEq]

theorem is0_iff {e : Elem} : e.is0 = true ↔ ∃ x, e = .num x ∧ IsZero x := by
  unfold Elem.is0
  rw [isNumEq_iff]
  constructor
  · rintro ⟨x, rfl, h⟩
    refine ⟨x, rfl, ?_⟩
    rcases (beq_iff.1 h).2 with rfl | h
    · exact ⟨_, rfl⟩
    · exact h.1
  · rintro ⟨x, rfl, s, rfl⟩
    refine ⟨_, rfl, beq_iff.2 ⟨(by intro h; cases h), .inr ⟨⟨_, rfl⟩, ⟨_, rfl⟩⟩⟩⟩

theorem f1_not_zero : ¬ IsZero F64.f1 := by
  rw [F64.f1_eq, isZero_fin]
  have := unit64_pos
  omega

theorem f1_ne_nan : F64.f1 ≠ .nan := by rw [F64.f1_eq]; intro h; cases h

theorem is1_iff {e : Elem} : e.is1 = true ↔ e = .num F64.f1 := by
  unfold Elem.is1
  rw [isNumEq_iff]
  constructor
  · rintro ⟨x, rfl, h⟩
    rcases (beq_iff.1 h).2 with rfl | h
    · rfl
    · exact absurd h.2 f1_not_zero
  · rintro rfl
    exact ⟨_, rfl, beq_iff.2 ⟨f1_ne_nan, .inl rfl⟩⟩

/-! ### The identities behind the rules -/

theorem mul_one_left (b : F64) : F64.mul F64.f1 b = b := by
  rw [F64.f1_eq]
  have hu := unit64_pos
  cases b with
  | nan => rfl
  | inf t =>
    simp only [F64.mul]
    rw [if_neg (by omega)]
    cases t <;> rfl
  | fin t m h =>
    simp only [F64.mul]
    have e : roundMag (1 * unit64 * m) unit64 = m := by
      rw [Nat.one_mul, Nat.mul_comm]; exact roundMag_mul m unit64 hu h.2
    rw [F64.ofMag_of_eq _ e h]
    cases t <;> rfl

theorem mul_one_right (b : F64) : F64.mul b F64.f1 = b := by
  rw [fmul_comm]; exact mul_one_left b

theorem div_one (a : F64) : F64.div a F64.f1 = a := by
  rw [F64.f1_eq]
  have hu := unit64_pos
  cases a with
  | nan => rfl
  | inf t => cases t <;> rfl
  | fin t m h =>
    simp only [F64.div]
    rw [if_neg (by omega)]
    have e : roundMag (m * unit64) (1 * unit64) = m := by
      rw [Nat.one_mul]; exact roundMag_mul m unit64 hu h.2
    rw [F64.ofMag_of_eq _ e h]
    cases t <;> rfl

theorem fmul_neg_neg (a b : F64) : F64.mul (F64.neg a) (F64.neg b) = F64.mul a b := by
  cases a <;> cases b <;> simp [F64.mul, F64.neg] <;> rename_i s _ _ <;> cases s <;> simp

theorem fdiv_neg_neg (a b : F64) : F64.div (F64.neg a) (F64.neg b) = F64.div a b := by
  cases a <;> cases b <;> simp [F64.div, F64.neg] <;> rename_i s _ _ <;> cases s <;> simp

theorem zero_sub (s : Bool) (b : F64) : Same (F64.sub (F64.zero s) b) (F64.neg b) :=
  add_zero_left s _

theorem sub_zero (a : F64) {b : F64} (h : IsZero b) : Same (F64.sub a b) a := by
  obtain ⟨s, rfl⟩ := h
  show Same (F64.add a (F64.zero (!s))) a
  rw [fadd_comm]; exact add_zero_left _ a

/-- `a - a` is zero unless it is NaN. -/
theorem sub_self {a b : F64} (h : Same a b) : F64.sub a b = .nan ∨ IsZero (F64.sub a b) := by
  have key : F64.sub a a = .nan ∨ IsZero (F64.sub a a) := by
    cases a with
    | nan => exact .inl rfl
    | inf s => left; cases s <;> rfl
    | fin s n k =>
      right
      refine ⟨s && !s, ?_⟩
      simp only [F64.sub, F64.neg, F64.add, sv_neg]
      rw [if_pos (by omega)]
  have hc := sub_congr (Same.refl a) h
  rcases key with key | key
  · left; exact hc.nan.1 key
  · right; exact hc.isZero.1 key

/-- `a / a` is one unless it is NaN. -/
theorem div_self {a b : F64} (h : Same a b) (hb : ¬ IsZero b) :
    F64.div a b = .nan ∨ F64.div a b = F64.f1 := by
  rw [h.of_not_zero (fun h' => hb (h.isZero.1 h'))]
  cases b with
  | nan => exact .inl rfl
  | inf s => exact .inl rfl
  | fin s n k =>
    have hn : n ≠ 0 := fun e => hb (isZero_fin.2 e)
    right
    simp only [F64.div]
    rw [if_neg hn, F64.f1_eq, Nat.mul_comm]
    have e : roundMag (unit64 * n) n = 1 * unit64 := by
      rw [Nat.one_mul]
      refine roundMag_mul unit64 n (Nat.pos_of_ne_zero hn) ?_
      have := (rep_nat (k := 1) (by decide)).2
      rwa [Nat.one_mul] at this
    rw [F64.ofMag_of_eq _ e (rep_nat (by decide))]
    simp

/-- `a % a` is zero unless it is NaN. -/
theorem rem_self {a b : F64} (h : Same a b) : F64.rem a b = .nan ∨ IsZero (F64.rem a b) := by
  by_cases hb : IsZero b
  · left; exact rem_zero_right _ hb
  rw [h.of_not_zero (fun h' => hb (h.isZero.1 h'))]
  cases b with
  | nan => exact .inl rfl
  | inf s => exact .inl rfl
  | fin s n k =>
    have hn : n ≠ 0 := fun e => hb (isZero_fin.2 e)
    right
    simp only [F64.rem, if_neg hn, Nat.mod_self]
    exact ⟨_, ofMag_zero _ _⟩

theorem zero_div {a : F64} (h : IsZero a) (b : F64) : F64.div a b = .nan ∨ IsZero (F64.div a b) := by
  obtain ⟨s, rfl⟩ := h
  cases b with
  | nan => exact .inl rfl
  | inf t => exact .inr ⟨_, rfl⟩
  | fin t m k =>
    simp only [F64.div, F64.zero, Nat.zero_mul]
    split
    · exact .inl rfl
    · exact .inr ⟨_, ofMag_zero _ _⟩

theorem zero_rem {a : F64} (h : IsZero a) (b : F64) : F64.rem a b = .nan ∨ IsZero (F64.rem a b) := by
  obtain ⟨s, rfl⟩ := h
  cases b with
  | nan => exact .inl rfl
  | inf t => exact .inr ⟨_, rfl⟩
  | fin t m k =>
    simp only [F64.rem, F64.zero, Nat.zero_mod]
    split
    · exact .inl rfl
    · exact .inr ⟨_, ofMag_zero _ _⟩

theorem whole_rem_one {a : F64} (h : Whole a) : IsZero (F64.rem a F64.f1) := by
  obtain ⟨s, k, h, rfl⟩ := h
  have hu := unit64_pos
  rw [F64.f1_eq]
  simp only [F64.rem]
  rw [if_neg (by omega), Nat.one_mul, ← unit64_eq, Nat.mul_mod_left]
  exact ⟨_, ofMag_zero _ _⟩

theorem Spec.Whole.same {a b : F64} (h : Whole a) (k : Same a b) : Whole b := by
  rcases k with rfl | ⟨_, s, rfl⟩
  · exact h
  · exact ⟨s, 0, by rw [Nat.zero_mul]; exact F64.rep_zero, by
      simp [F64.zero]⟩

theorem Spec.Positive.same {a b : F64} (h : Positive a) (k : Same a b) : Positive b := by
  have hz : ¬ IsZero a := by
    cases h with
    | inf => exact not_isZero_inf
    | fin hn => rw [isZero_fin]; exact hn
  rw [← k.of_not_zero hz]; exact h

end Xprs
