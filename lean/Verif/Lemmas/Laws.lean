import Verif.Spec.Laws
import Verif.Lemmas.Equal
import Verif.Lemmas.Value
import Verif.Lemmas.Arith
import Verif.Lemmas.RoundOrder
import Mathlib.Tactic.Ring
import Mathlib.Tactic.FieldSimp
/-
Lemmas for property C90: each law, on floats.
-/
namespace Xprs
open Spec
set_option linter.unusedSimpArgs false
set_option linter.unnecessarySeqFocus false
set_option exponentiation.threshold 4096

/-- Only the quotient matters to rounding. -/
theorem roundMag_ratio {N D N' D' : Nat} (hD : 0 < D) (hD' : 0 < D') (h : N * D' = N' * D) :
    roundMag N D = roundMag N' D' := by
  rw [← roundMag_scale N D D' hD', ← roundMag_scale N' D' D hD, h, Nat.mul_comm D D']

theorem ofMag_ratio (s : Bool) {N D N' D' : Nat} (hD : 0 < D) (hD' : 0 < D') (h : N * D' = N' * D) :
    F64.ofMag s N D = F64.ofMag s N' D' := by
  unfold F64.ofMag
  simp only [roundMag_ratio hD hD' h]

theorem ofMag_neg (s : Bool) (N D : Nat) : F64.neg (F64.ofMag s N D) = F64.ofMag (!s) N D := by
  unfold F64.ofMag
  split <;> rfl

theorem neg_of_nan : F64.neg .nan = .nan := rfl
theorem neg_inf (s : Bool) : F64.neg (.inf s) = .inf !s := rfl
theorem neg_fin (s : Bool) (n : Nat) (h : Rep n) : F64.neg (.fin s n h) = .fin (!s) n h := rfl
theorem abs_nan : F64.abs .nan = .nan := rfl
theorem abs_inf (s : Bool) : F64.abs (.inf s) = .inf false := rfl
theorem abs_fin (s : Bool) (n : Nat) (h : Rep n) : F64.abs (.fin s n h) = .fin false n h := rfl

theorem neg_ite {p : Prop} [Decidable p] (a b : F64) :
    F64.neg (if p then a else b) = if p then F64.neg a else F64.neg b := by split <;> rfl
theorem abs_ite {p : Prop} [Decidable p] (a b : F64) :
    F64.abs (if p then a else b) = if p then F64.abs a else F64.abs b := by split <;> rfl

theorem fmul_neg (a b : F64) : F64.mul (F64.neg a) b = F64.neg (F64.mul a b) := by
  cases a with
  | nan => rfl
  | inf s => cases b with
    | nan => rfl
    | inf t => cases s <;> cases t <;> rfl
    | fin t m hm => simp only [F64.mul, neg_fin, neg_inf, neg_ite, neg_of_nan]; split <;> cases s <;> cases t <;> rfl
  | fin s n hn => cases b with
    | nan => rfl
    | inf t => simp only [F64.mul, neg_fin, neg_inf, neg_ite, neg_of_nan]; split <;> cases s <;> cases t <;> rfl
    | fin t m hm => simp only [F64.mul, neg_fin, ofMag_neg]; cases s <;> cases t <;> rfl

theorem fdiv_neg (a b : F64) : F64.div (F64.neg a) b = F64.neg (F64.div a b) := by
  cases a with
  | nan => rfl
  | inf s => cases b with
    | nan => rfl
    | inf t => cases s <;> cases t <;> rfl
    | fin t m hm => cases s <;> cases t <;> rfl
  | fin s n hn => cases b with
    | nan => rfl
    | inf t => cases s <;> cases t <;> rfl
    | fin t m hm =>
      simp only [F64.div, neg_fin, neg_inf, neg_ite, neg_of_nan, ofMag_neg]
      split
      · split <;> cases s <;> cases t <;> rfl
      · cases s <;> cases t <;> rfl

theorem fneg_div (a b : F64) : F64.div a (F64.neg b) = F64.neg (F64.div a b) := by
  rw [← fdiv_neg]
  cases a with
  | nan => rfl
  | inf s => cases b with
    | nan => rfl
    | inf t => rfl
    | fin t m hm => cases s <;> cases t <;> rfl
  | fin s n hn => cases b with
    | nan => rfl
    | inf t => cases s <;> cases t <;> rfl
    | fin t m hm =>
      simp only [F64.div, neg_fin, neg_inf, neg_ite, neg_of_nan, ofMag_neg]
      split
      · split <;> cases s <;> cases t <;> rfl
      · cases s <;> cases t <;> rfl

theorem frem_neg (a b : F64) : F64.rem (F64.neg a) b = F64.neg (F64.rem a b) := by
  cases a with
  | nan => rfl
  | inf s => cases b <;> rfl
  | fin s n hn => cases b with
    | nan => rfl
    | inf t => rfl
    | fin t m hm => simp only [F64.rem, neg_fin, neg_ite, neg_of_nan, ofMag_neg]

theorem fneg_rem (a b : F64) : F64.rem a (F64.neg b) = F64.rem a b := by
  cases a with
  | nan => rfl
  | inf s => cases b <;> rfl
  | fin s n hn => cases b <;> rfl

theorem fdouble (a : F64) : F64.add a a = F64.mul (F64.ofNat 2) a := by
  rw [F64.ofNat_eq (rep_nat (by decide))]
  cases a with
  | nan => rfl
  | inf s =>
    have : 2 * unit64 ≠ 0 := Nat.mul_ne_zero (by decide) unit64_pos.ne'
    simp [F64.add, F64.mul, this]
  | fin s n hn =>
    have e : F64.ofMag s (2 * unit64 * n) unit64 = F64.ofMag s (2 * n) 1 :=
      ofMag_ratio s unit64_pos Nat.one_pos (by ring)
    simp only [F64.add, F64.mul, Bool.false_bne, e]
    by_cases h0 : n = 0
    · subst h0
      have : F64.ofMag s 0 1 = .fin s 0 F64.rep_zero := F64.ofMag_rep s F64.rep_zero
      cases s <;> simp [F64.sv, F64.zero, this]
    · have hz : F64.sv s n + F64.sv s n ≠ 0 := by cases s <;> simp [F64.sv] <;> omega
      have hs : decide (F64.sv s n + F64.sv s n < 0) = s := by
        cases s <;> simp [F64.sv] <;> omega
      have hn : (F64.sv s n + F64.sv s n).natAbs = 2 * n := by
        cases s <;> simp [F64.sv] <;> omega
      rw [if_neg hz, hs, hn]

theorem fone (a : F64) : F64.mul F64.f1 a = a := by
  rw [F64.f1_eq]
  cases a with
  | nan => rfl
  | inf s => simp [F64.mul, unit64_pos.ne']
  | fin s n hn =>
    simp only [F64.mul, Bool.false_bne]
    rw [ofMag_ratio s (N' := n) (D' := 1) unit64_pos Nat.one_pos (by ring), F64.ofMag_rep]

theorem finv {c d : F64} {p q : ℚ} (hc : value c = some p) (hd : value d = some q) (h : p * q = 1)
    (a : F64) : F64.div a c = F64.mul a d := by
  obtain ⟨s, n, hn, rfl, hp⟩ : ∃ s n h, c = .fin s n h ∧ p = (if s then -1 else 1) * (n : ℚ) / 2 ^ 1074 := by
    cases c with
    | nan => cases hc
    | inf s => cases hc
    | fin s n h => refine ⟨s, n, h, rfl, ?_⟩; cases s <;> cases hc <;> simp
  obtain ⟨t, m, hm, rfl, hq⟩ : ∃ s n h, d = .fin s n h ∧ q = (if s then -1 else 1) * (n : ℚ) / 2 ^ 1074 := by
    cases d with
    | nan => cases hd
    | inf s => cases hd
    | fin s n h => refine ⟨s, n, h, rfl, ?_⟩; cases s <;> cases hd <;> simp
  have hu : (2:ℚ) ^ 1074 = (unit64 : ℚ) := by rw [unit64_eq, Nat.cast_pow, Nat.cast_ofNat]
  have hnm : s = t ∧ n * m = unit64 * unit64 := by
    rw [hp, hq, hu] at h
    have hpos : (0:ℚ) < (unit64 : ℚ) := by exact_mod_cast unit64_pos
    generalize unit64 = u at h hpos
    have hge : (0:ℚ) ≤ (n : ℚ) * m := by positivity
    have hgt : (0:ℚ) < (u : ℚ) * u := by positivity
    rw [div_mul_div_comm, div_eq_iff hgt.ne', one_mul] at h
    cases s <;> cases t <;> simp only [if_true, if_false, Bool.false_eq_true, one_mul, neg_mul, neg_neg,
      mul_neg] at h
    · exact ⟨rfl, by exact_mod_cast h⟩
    · linarith
    · linarith
    · exact ⟨rfl, by exact_mod_cast h⟩
  obtain ⟨rfl, hnm⟩ := hnm
  have hn0 : n ≠ 0 := by
    rintro rfl
    have := Nat.mul_pos unit64_pos unit64_pos
    omega
  have hm0 : m ≠ 0 := by
    rintro rfl
    have := Nat.mul_pos unit64_pos unit64_pos
    omega
  cases a with
  | nan => rfl
  | inf r => simp [F64.div, F64.mul, hm0]
  | fin r k hk =>
    simp only [F64.div, F64.mul, if_neg hn0]
    refine ofMag_ratio _ (Nat.pos_of_ne_zero hn0) unit64_pos ?_
    rw [Nat.mul_assoc, ← hnm]; ring

theorem fsub0 (a : F64) : F64.sub a F64.f0 = a := by
  cases a with
  | nan => rfl
  | inf s => rfl
  | fin s n hn =>
    simp only [F64.sub, F64.f0, F64.zero, F64.neg, F64.add]
    have e : F64.sv (!false) 0 = 0 := rfl
    rw [e, Int.add_zero]
    by_cases h0 : n = 0
    · subst h0; cases s <;> simp [F64.sv, F64.zero]
    · have hz : F64.sv s n ≠ 0 := by cases s <;> simp [F64.sv] <;> omega
      have hs : decide (F64.sv s n < 0) = s := by cases s <;> simp [F64.sv] <;> omega
      have hnn : (F64.sv s n).natAbs = n := by cases s <;> simp [F64.sv]
      rw [if_neg hz, hs, hnn, F64.ofMag_rep]

theorem fabs_neg (a : F64) : F64.abs (F64.neg a) = F64.abs a := by cases a <;> rfl
theorem fabs_abs (a : F64) : F64.abs (F64.abs a) = F64.abs a := by cases a <;> rfl

theorem fabs_mul (a b : F64) : F64.abs (F64.mul a b) = F64.mul (F64.abs a) (F64.abs b) := by
  cases a with
  | nan => rfl
  | inf s => cases b with
    | nan => rfl
    | inf t => rfl
    | fin t m hm => simp only [F64.mul, abs_fin, abs_inf, abs_ite, abs_nan]; split <;> rfl
  | fin s n hn => cases b with
    | nan => rfl
    | inf t => simp only [F64.mul, abs_fin, abs_inf, abs_ite, abs_nan]; split <;> rfl
    | fin t m hm => simp only [F64.mul, abs_fin, abs_ofMag]; rfl

theorem fabs_div (a b : F64) : F64.abs (F64.div a b) = F64.div (F64.abs a) (F64.abs b) := by
  cases a with
  | nan => rfl
  | inf s => cases b <;> rfl
  | fin s n hn => cases b with
    | nan => rfl
    | inf t => rfl
    | fin t m hm =>
      simp only [F64.div, abs_fin, abs_inf, abs_ite, abs_nan, abs_ofMag]
      split
      · split <;> rfl
      · rfl

theorem ffloor_neg (a : F64) : F64.floor (F64.neg a) = F64.neg (F64.ceil a) := by
  cases a with
  | nan => rfl
  | inf s => rfl
  | fin s n hn => simp only [F64.floor, neg_fin, F64.ceil, ofMag_neg]; cases s <;> simp

theorem ftrunc_neg (a : F64) : F64.trunc (F64.neg a) = F64.neg (F64.trunc a) := by
  cases a <;> simp only [F64.trunc, neg_fin, neg_inf, neg_of_nan, ofMag_neg]

theorem fround_neg (a : F64) : F64.round (F64.neg a) = F64.neg (F64.round a) := by
  cases a <;> simp only [F64.round, neg_fin, neg_inf, neg_of_nan, ofMag_neg]

/-- Rounding to a whole number gives a float that all four functions leave alone. -/
theorem whole_of {n : Nat} (h : n % unit64 = 0) : n / unit64 * unit64 = n ∧ F64.ceilMag n = n ∧
    (n + unit64 / 2) / unit64 * unit64 = n := by
  obtain ⟨k, rfl⟩ := Nat.dvd_of_mod_eq_zero h
  have hu := unit64_pos
  unfold F64.ceilMag
  generalize unit64 = u at hu
  refine ⟨by rw [Nat.mul_div_cancel_left _ hu, Nat.mul_comm], ?_, ?_⟩
  · rw [Nat.mul_add_div hu, Nat.div_eq_of_lt (by omega), Nat.add_zero, Nat.mul_comm]
  · rw [Nat.mul_add_div hu, Nat.div_eq_of_lt (by omega), Nat.add_zero, Nat.mul_comm]

theorem fwhole {f g : Builtin} (hf : f ∈ toWhole) (hg : g ∈ toWhole) (w : World) (a : F64) :
    ∃ v, g.run w [a] = .ok v ∧ f.run w [v] = .ok v := by
  have key : ∃ v, g.run w [a] = .ok v ∧ (v = .nan ∨ (∃ s, v = .inf s) ∨ ∃ s k h, v = .fin s (k * unit64) h) := by
    cases a with
    | nan => simp [toWhole] at hg; rcases hg with rfl | rfl | rfl | rfl <;> exact ⟨_, rfl, .inl rfl⟩
    | inf s =>
      simp [toWhole] at hg; rcases hg with rfl | rfl | rfl | rfl <;> exact ⟨_, rfl, .inr (.inl ⟨s, rfl⟩)⟩
    | fin s n hn =>
      have ht := F64.ofMag_rep s hn.trunc
      have hc := F64.ofMag_rep s hn.ceil
      simp [toWhole] at hg
      rcases hg with rfl | rfl | rfl | rfl
      · cases s
        · exact ⟨F64.ofMag false (n / unit64 * unit64) 1, rfl, .inr (.inr ⟨_, _, _, ht⟩)⟩
        · exact ⟨F64.ofMag true (F64.ceilMag n) 1, rfl, .inr (.inr ⟨_, _, _, hc⟩)⟩
      · cases s
        · exact ⟨F64.ofMag false (F64.ceilMag n) 1, rfl, .inr (.inr ⟨_, _, _, hc⟩)⟩
        · exact ⟨F64.ofMag true (n / unit64 * unit64) 1, rfl, .inr (.inr ⟨_, _, _, ht⟩)⟩
      · exact ⟨_, rfl, .inr (.inr ⟨_, _, _, F64.ofMag_rep s hn.round⟩)⟩
      · exact ⟨_, rfl, .inr (.inr ⟨_, _, _, ht⟩)⟩
  obtain ⟨v, hv, h⟩ := key
  refine ⟨v, hv, ?_⟩
  rcases h with rfl | ⟨s, rfl⟩ | ⟨s, k, h, rfl⟩
  · simp [toWhole] at hf; rcases hf with rfl | rfl | rfl | rfl <;> rfl
  · simp [toWhole] at hf; rcases hf with rfl | rfl | rfl | rfl <;> rfl
  · obtain ⟨h1, h2, h3⟩ := whole_of (n := k * unit64) (Nat.mul_mod_left _ _)
    simp [toWhole] at hf
    rcases hf with rfl | rfl | rfl | rfl <;>
      simp [Builtin.run, wrap1, F64.floor, F64.ceil, F64.round, F64.trunc, h1, h2, h3, F64.ofMag_rep s h]

theorem frem_rem (a b : F64) : F64.rem (F64.rem a b) b = F64.rem a b := by
  cases a with
  | nan => rfl
  | inf s => cases b <;> rfl
  | fin s n hn => cases b with
    | nan => rfl
    | inf t => rfl
    | fin t m hm =>
      by_cases h : m = 0
      · simp [F64.rem, h]
      · have e := F64.ofMag_rep s (hn.mod hm h)
        simp [F64.rem, h, e]

theorem fabs_rem (a b : F64) : F64.abs (F64.rem a b) = F64.rem (F64.abs a) b := by
  cases a with
  | nan => rfl
  | inf s => cases b <;> rfl
  | fin s n hn => cases b with
    | nan => rfl
    | inf t => rfl
    | fin t m hm => by_cases h : m = 0 <;> simp [F64.rem, h, abs_fin, abs_nan, abs_ofMag]

/-! ### Evaluation -/

theorem law_eval (w : World) (m : HMap F64) {e e' : Elem} (h : Law e e') (v : F64) :
    eval w m e = .ok v ↔ eval w m e' = .ok v := by
  cases h with
  | whole a hf hg =>
    cases ha : eval w m a with
    | error r => simp [app, eval, evalL, ha]
    | ok x =>
      obtain ⟨u, h1, h2⟩ := fwhole hf hg w x
      simp [app, eval, evalL, ha, callFn, Builtin.toFunc, h1, h2, liftP]
  | inverse a hc hd hpq =>
    cases ha : eval w m a <;> simp [eval, ha, binF, liftP, finv hc hd hpq]
  | addComm a b | mulComm a b =>
    cases ha : eval w m a <;> cases hb : eval w m b <;> simp [eval, ha, hb, binF, liftP, fadd_comm, fmul_comm]
  | sub a b | mulNeg a b | divNeg a b | negDiv a b | remNeg a b | negRem a b | absMul a b
  | absDiv a b | absRem a b | remRem a b =>
    cases ha : eval w m a <;> cases hb : eval w m b <;>
      simp [eval, evalL, app, ha, hb, binF, unF, liftP, callFn, Builtin.toFunc, Builtin.run, wrap1, fmul_neg, fdiv_neg,
        fneg_div, frem_neg, fneg_rem, fabs_mul, fabs_div, fabs_rem, frem_rem, F64.sub]
  | double a | recip a | absNeg a | absAbs a | floorNeg a | truncNeg a | roundNeg a =>
    cases ha : eval w m a <;>
      simp [eval, evalL, app, ha, binF, unF, liftP, callFn, Builtin.toFunc, Builtin.run, wrap1, fdouble, fabs_neg,
        fabs_abs, ffloor_neg, ftrunc_neg, fround_neg, F64.recip]
  | plus | negNeg | one | subZero =>
    cases ha : eval w m e' <;> simp [eval, ha, binF, unF, liftP, fneg_neg, fone, fsub0]

theorem evalL_app {w : World} {m : HMap F64} : ∀ {as bs : List Elem} {vs : List F64},
    evalL w m (as ++ bs) = .ok vs ↔ ∃ us us', evalL w m as = .ok us ∧ evalL w m bs = .ok us' ∧ vs = us ++ us'
  | [], bs, vs => by simp [evalL]
  | a :: as, bs, vs => by
    simp only [List.cons_append, evalL_cons, evalL_app]
    constructor
    · rintro ⟨v, us, h1, ⟨u, u', h2, h3, rfl⟩, rfl⟩
      exact ⟨_, _, ⟨v, u, h1, h2, rfl⟩, h3, rfl⟩
    · rintro ⟨_, u', ⟨v, u, h1, h2, rfl⟩, h3, rfl⟩
      exact ⟨v, _, h1, ⟨u, u', h2, h3, rfl⟩, rfl⟩

theorem eval_un_ok {w : World} {m : HMap F64} {op : Op} {a : Elem} {v : F64} :
    eval w m (.un op a) = .ok v ↔ ∃ x, eval w m a = .ok x ∧ unF op x = .ok v := by
  rw [eval]
  cases eval w m a with
  | error r => simp
  | ok x => cases hb : unF op x <;> simp [liftP, hb]

theorem eval_call_ok {w : World} {m : HMap F64} {f : Func} {as : List Elem} {v : F64} :
    eval w m (.call f as) = .ok v ↔ ∃ vs, evalL w m as = .ok vs ∧ callFn w f vs = .ok v := by
  rw [eval]
  cases evalL w m as with
  | error r => simp
  | ok x => cases hb : callFn w f x <;> simp [liftP, hb]

theorem byLaws_eval (w : World) (m : HMap F64) {e e' : Elem} (h : ByLaws e e') :
    ∀ v, eval w m e = .ok v ↔ eval w m e' = .ok v := by
  induction h with
  | law h => exact law_eval w m h
  | refl => exact fun _ => .rfl
  | symm _ ih => exact fun v => (ih v).symm
  | trans _ _ ih ih' => exact fun v => (ih v).trans (ih' v)
  | un _ ih => intro v; simp only [eval_un_ok, ih]
  | bin _ _ ih ih' => intro v; simp only [eval_bin_ok, ih, ih']
  | arg _ ih => intro v; simp only [eval_call_ok, evalL_app, evalL_cons, ih]

/-! ### Up to the sign of zero -/

theorem neg_add_same (a b : F64) : Same (F64.neg (F64.add a b)) (F64.add (F64.neg a) (F64.neg b)) := by
  cases a with
  | nan => exact .refl _
  | inf s => cases b with
    | nan => exact .refl _
    | inf t => cases s <;> cases t <;> exact .refl _
    | fin => exact .refl _
  | fin s n hn => cases b with
    | nan => exact .refl _
    | inf t => exact .refl _
    | fin t m hm =>
      simp only [F64.add, neg_fin, sv_neg, neg_ite, ofMag_neg]
      by_cases hz : F64.sv s n + F64.sv t m = 0
      · have hz' : - F64.sv s n + - F64.sv t m = 0 := by omega
        rw [if_pos hz, if_pos hz']
        exact .inr ⟨⟨_, rfl⟩, ⟨_, rfl⟩⟩
      · have hz' : - F64.sv s n + - F64.sv t m ≠ 0 := by omega
        rw [if_neg hz, if_neg hz']
        have e1 : (- F64.sv s n + - F64.sv t m).natAbs = (F64.sv s n + F64.sv t m).natAbs := by omega
        have e2 : decide (- F64.sv s n + - F64.sv t m < 0) = !decide (F64.sv s n + F64.sv t m < 0) := by
          by_cases h : F64.sv s n + F64.sv t m < 0
          · have : ¬ (- F64.sv s n + - F64.sv t m < 0) := by omega
            simp [h, this]
          · have : - F64.sv s n + - F64.sv t m < 0 := by omega
            simp [h, this]
        rw [e1, e2]
        exact .refl _

theorem zeroLaw_eval (w : World) (m : HMap F64) {e e' : Elem} (h : ZeroLaw e e') :
    (∃ v u, eval w m e = .ok v ∧ eval w m e' = .ok u ∧ Same v u) ∨
      (∃ r r', eval w m e = .error r ∧ eval w m e' = .error r') := by
  cases h with
  | addZero =>
    cases ha : eval w m e' with
    | error r => exact .inr ⟨r, r, by simp [eval, ha], rfl⟩
    | ok x =>
      refine .inl ⟨F64.add x F64.f0, x, by simp [eval, ha, binF, liftP], rfl, ?_⟩
      rw [fadd_comm]; exact add_zero_left _ _
  | zeroSub a =>
    cases ha : eval w m a with
    | error r => exact .inr ⟨r, r, by simp [eval, ha], by simp [eval, ha]⟩
    | ok x =>
      exact .inl ⟨_, _, by simp [eval, ha, binF, liftP]; rfl, by simp [eval, ha, unF, liftP], add_zero_left _ _⟩
  | negAdd a b =>
    cases ha : eval w m a with
    | error r => exact .inr ⟨r, r, by simp [eval, ha], by simp [eval, ha]⟩
    | ok x => cases hb : eval w m b with
      | error r => exact .inr ⟨r, r, by simp [eval, ha, hb], by simp [eval, ha, hb, unF, liftP]⟩
      | ok y =>
        exact .inl ⟨_, _, by simp [eval, ha, hb, unF, binF, liftP], by simp [eval, ha, hb, unF, binF, liftP],
          neg_add_same x y⟩
  | negSub a b =>
    cases ha : eval w m a with
    | error r => cases hb : eval w m b with
      | error r' => exact .inr ⟨r, r', by simp [eval, ha], by simp [eval, hb]⟩
      | ok y => exact .inr ⟨r, r, by simp [eval, ha], by simp [eval, ha, hb]⟩
    | ok x => cases hb : eval w m b with
      | error r => exact .inr ⟨r, r, by simp [eval, ha, hb], by simp [eval, hb]⟩
      | ok y =>
        refine .inl ⟨F64.neg (F64.sub x y), F64.sub y x, by simp [eval, ha, hb, unF, binF, liftP],
          by simp [eval, ha, hb, binF, liftP], ?_⟩
        have := neg_add_same x (F64.neg y)
        rw [fneg_neg, fadd_comm (F64.neg x)] at this
        exact this
  | fractNeg a =>
    cases ha : eval w m a with
    | error r => exact .inr ⟨r, r, by simp [app, eval, evalL, ha], by simp [app, eval, evalL, ha]⟩
    | ok x =>
      refine .inl ⟨F64.fract (F64.neg x), F64.neg (F64.fract x),
        by simp [app, eval, evalL, ha, unF, liftP, callFn, Builtin.toFunc, Builtin.run, wrap1],
        by simp [app, eval, evalL, ha, unF, liftP, callFn, Builtin.toFunc, Builtin.run, wrap1], ?_⟩
      have := neg_add_same x (F64.neg (F64.trunc x))
      unfold F64.fract F64.sub
      rw [ftrunc_neg]
      exact this.symm

end Xprs
