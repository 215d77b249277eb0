import Verif.Spec.Threshold
import Verif.Lemmas.Threshold
import Verif.Props.Solve
/-
Property C121: where the value of a formula passes a number.
-/
namespace Xprs
namespace Props
open Spec
set_option exponentiation.threshold 4096

/-! ### Sides -/

theorem sides_of {v z x s : F64} {up : Bool} (hv : v ≠ .nan) (hz : z ≠ .nan) (hx : x ≠ .nan) (hs : s ≠ .nan)
    (h1 : Less x s → if up then Less v z else Less z v) (h2 : Less s x → if up then Less z v else Less v z)
    (h3 : OnPar x s → OnPar v z) : Sides v z x s up := by
  obtain ⟨a1, a2, a3⟩ := trichotomy hv hz
  obtain ⟨b1, b2, b3⟩ := trichotomy hx hs
  cases up
  · simp only [Bool.false_eq_true, if_false] at h1 h2
    refine ⟨⟨fun h => ?_, h2⟩, ⟨fun h => ?_, h1⟩, fun h => ?_, h3⟩
    · rcases b1 with l | l | l
      · exact absurd (h1 l) (a2 h).1
      · exact l
      · exact absurd (h3 l) (a2 h).2
    · rcases b1 with l | l | l
      · exact l
      · exact absurd h (a2 (h2 l)).1
      · exact absurd (h3 l) (a3 h)
    · rcases b1 with l | l | l
      · exact absurd h (a3 (h1 l))
      · exact absurd h (a2 (h2 l)).2
      · exact l
  · simp only [if_true] at h1 h2
    refine ⟨⟨fun h => ?_, h1⟩, ⟨fun h => ?_, h2⟩, fun h => ?_, h3⟩
    · rcases b1 with l | l | l
      · exact l
      · exact absurd (h2 l) (a2 h).1
      · exact absurd (h3 l) (a2 h).2
    · rcases b1 with l | l | l
      · exact absurd h (a2 (h1 l)).1
      · exact l
      · exact absurd (h3 l) (a3 h)
    · rcases b1 with l | l | l
      · exact absurd h (a2 (h1 l)).2
      · exact absurd h (a3 (h2 l))
      · exact l

theorem sides_trans {v z u t x s : F64} {a b : Bool} (h : Sides v z u t a) (h' : Sides u t x s b) :
    Sides v z x s (b == a) := by
  cases a <;> cases b <;> obtain ⟨h1, h2, h3⟩ := h <;> obtain ⟨g1, g2, g3⟩ := h'
  · exact ⟨h1.trans g2, h2.trans g1, h3.trans g3⟩
  · exact ⟨h1.trans g2, h2.trans g1, h3.trans g3⟩
  · exact ⟨h1.trans g1, h2.trans g2, h3.trans g3⟩
  · exact ⟨h1.trans g1, h2.trans g2, h3.trans g3⟩

theorem inf_sides {z : F64} {k : ℚ} (hz : value z = some k) :
    Less (.inf true) z ∧ Less z (.inf false) ∧ ¬ OnPar (.inf true) z ∧ ¬ OnPar (.inf false) z ∧
      ¬ Less z (.inf true) ∧ ¬ Less (.inf false) z := by
  have hn : z ≠ .nan := by rintro rfl; cases hz
  have a : ¬ LeF z (.inf true) := fun h => by
    cases h with
    | bot => cases hz
    | fin _ h _ => cases h
  have b : ¬ LeF (.inf false) z := fun h => by
    cases h with
    | top => cases hz
    | fin h _ _ => cases h
  exact ⟨⟨.bot hn, a⟩, ⟨.top hn, b⟩, fun h => a h.2, fun h => b h.1, fun h => a h.1, fun h => b h.1⟩

theorem inf_step {z s : F64} {k p : ℚ} (hz : value z = some k) (hs : value s = some p) (t u : Bool) :
    Sides (.inf t) z (.inf u) s (u == t) := by
  obtain ⟨z1, z2, z3, z4, z5, z6⟩ := inf_sides hz
  obtain ⟨s1, s2, s3, s4, s5, s6⟩ := inf_sides hs
  cases t <;> cases u
  · exact ⟨iff_of_false z6 s6, iff_of_true z2 s2, iff_of_false z4 s4⟩
  · exact ⟨iff_of_false z6 s5, iff_of_true z2 s1, iff_of_false z4 s3⟩
  · exact ⟨iff_of_true z1 s2, iff_of_false z5 s6, iff_of_false z3 s4⟩
  · exact ⟨iff_of_true z1 s1, iff_of_false z5 s5, iff_of_false z3 s3⟩

theorem neg_step (x s : F64) : Sides (F64.neg x) (F64.neg s) x s false := by
  have e : ∀ a b : F64, (LeF (F64.neg a) (F64.neg b) ↔ LeF b a) := fun a b => neg_leF
  refine ⟨?_, ?_, ?_⟩
  · unfold Less; rw [e, e]
  · unfold Less; rw [e, e]
  · unfold OnPar; rw [e, e]; exact and_comm

/-! ### The steps -/

theorem add_step {x y z t : F64} {q s : ℚ} (hx : x ≠ .nan) (hy : value y = some q) (ht : value t = some s)
    (hz : value z = some (s + q)) (h : Coarser s (s + q)) :
    F64.add x y ≠ .nan ∧ Sides (F64.add x y) z x t true := by
  have hzn : z ≠ .nan := by rintro rfl; cases hz
  have htn : t ≠ .nan := by rintro rfl; cases ht
  rcases fin_cases x with h0 | ⟨u, rfl⟩ | ⟨p, hp⟩
  · exact absurd h0 hx
  · obtain ⟨c, n, hn, rfl, -⟩ := value_some hy
    refine ⟨by simp [F64.add], ?_⟩
    have := inf_step hz ht u u
    rwa [beq_self_eq_true] at this
  · have hr := Xprs.add_rounds hp hy
    have hn : F64.add x y ≠ .nan := by
      intro h0
      rw [h0] at hr
      have := roundsTo_mono hr hr le_rfl
      cases this with
      | fin h _ _ => cases h
    refine ⟨hn, sides_of hn hzn hx htn (fun hl => ?_) (fun hl => ?_) (fun hl => ?_)⟩
    · rw [(less_values hp ht).1] at hl
      obtain ⟨r, r1, r2, f, hf⟩ := coarser_next (neg_value hp) (neg_value hz) (neg_value ht)
        (by simpa only [abs_neg, Coarser] using h) (by linarith)
      have hf' := neg_value hf
      have l1 : LeF (F64.add x y) (F64.neg f) := roundsTo_mono hr (rounds_self hf') (by linarith)
      have l2 : Less (F64.neg f) z := (less_values hf' hz).1.2 (by linarith)
      exact ⟨leF_trans l1 l2.1, fun h => l2.2 (leF_trans h l1)⟩
    · rw [(less_values ht hp).1] at hl
      obtain ⟨r, r1, r2, f, hf⟩ := coarser_next hp hz ht h hl
      have l1 : LeF f (F64.add x y) := roundsTo_mono (rounds_self hf) hr (by linarith)
      have l2 : Less z f := (less_values hz hf).1.2 (by linarith)
      exact ⟨leF_trans l2.1 l1, fun h => l2.2 (leF_trans l1 h)⟩
    · rw [(less_values hp ht).2] at hl
      have hs := rounds_self hz
      exact ⟨roundsTo_mono hr hs (by linarith), roundsTo_mono hs hr (by linarith)⟩

theorem mul_step {x y z t : F64} {q s : ℚ} (hx : x ≠ .nan) (hy : value y = some q) (ht : value t = some s)
    (hz : value z = some (s * q)) (hk : 1 / 2 ^ 1021 ≤ |s * q|) :
    F64.mul x y ≠ .nan ∧ Sides (F64.mul x y) z x t (decide (0 < q)) := by
  have hq : q ≠ 0 := right_ne_zero_of_mul (normal_ne hk)
  rcases fin_cases x with h0 | ⟨u, rfl⟩ | ⟨p, hp⟩
  · exact absurd h0 hx
  · have h0 : F64.mul (.inf u) y = .inf (u == decide (0 < q)) := by
      obtain ⟨c, n, hn, rfl, hv⟩ := value_some hy
      have hn0 : n ≠ 0 := fun h => hq (by
        have := (value_zero_iff (s := c) (h := hn)).2 h
        rw [hy] at this
        exact Option.some.inj this)
      have hnp : (0 : ℚ) < n := by exact_mod_cast Nat.pos_of_ne_zero hn0
      have hU : (0 : ℚ) < (unit64 : ℚ) := by rw [unit64_cast]; positivity
      cases c
      · have : 0 < q := by rw [hv]; simp only [F64.sv]; push_cast; positivity
        rw [decide_eq_true this]
        cases u <;> simp [F64.mul, hn0]
      · have : ¬ 0 < q := by
          rw [hv]; simp only [F64.sv, not_lt]; push_cast
          exact (div_neg_of_neg_of_pos (by linarith) hU).le
        rw [decide_eq_false this]
        cases u <;> simp [F64.mul, hn0]
    rw [h0]
    refine ⟨nofun, ?_⟩
    have := inf_step hz ht (u == decide (0 < q)) u
    cases u <;> simpa using this
  · obtain ⟨h1, h2, h3, h4⟩ := product_compare hp hy hz hq hk ⟨t, by rw [ht]; congr 1; field_simp⟩
    obtain ⟨k1, k2⟩ := less_values hp ht
    obtain ⟨k3, -⟩ := less_values ht hp
    refine ⟨h1, ?_⟩
    rcases lt_or_gt_of_ne hq with l | l
    · rw [decide_eq_false (not_lt.2 l.le)]
      refine ⟨h2.trans ?_, h3.trans ?_, h4.trans ?_⟩
      · rw [k3, mul_lt_mul_right_of_neg l]
      · rw [k1, mul_lt_mul_right_of_neg l]
      · rw [k2]; exact ⟨fun h => mul_right_cancel₀ hq h, fun h => by rw [h]⟩
    · rw [decide_eq_true l]
      refine ⟨h2.trans ?_, h3.trans ?_, h4.trans ?_⟩
      · rw [k1, mul_lt_mul_iff_left₀ l]
      · rw [k3, mul_lt_mul_iff_left₀ l]
      · rw [k2]; exact ⟨fun h => mul_right_cancel₀ hq h, fun h => by rw [h]⟩

theorem div_step {x y z t : F64} {q s : ℚ} (hx : x ≠ .nan) (hy : value y = some q) (ht : value t = some s)
    (hz : value z = some (s / q)) (hk : 1 / 2 ^ 1021 ≤ |s / q|) :
    F64.div x y ≠ .nan ∧ Sides (F64.div x y) z x t (decide (0 < q)) := by
  have hq : q ≠ 0 := (div_ne_zero_iff.1 (normal_ne hk)).2
  rcases fin_cases x with h0 | ⟨u, rfl⟩ | ⟨p, hp⟩
  · exact absurd h0 hx
  · have h0 : F64.div (.inf u) y = .inf (u == decide (0 < q)) := by
      obtain ⟨c, n, hn, rfl, hv⟩ := value_some hy
      have hn0 : n ≠ 0 := fun h => hq (by
        have := (value_zero_iff (s := c) (h := hn)).2 h
        rw [hy] at this
        exact Option.some.inj this)
      have hnp : (0 : ℚ) < n := by exact_mod_cast Nat.pos_of_ne_zero hn0
      have hU : (0 : ℚ) < (unit64 : ℚ) := by rw [unit64_cast]; positivity
      cases c
      · have : 0 < q := by rw [hv]; simp only [F64.sv]; push_cast; positivity
        rw [decide_eq_true this]
        cases u <;> simp [F64.div]
      · have : ¬ 0 < q := by
          rw [hv]; simp only [F64.sv, not_lt]; push_cast
          exact (div_neg_of_neg_of_pos (by linarith) hU).le
        rw [decide_eq_false this]
        cases u <;> simp [F64.div]
    rw [h0]
    refine ⟨nofun, ?_⟩
    have := inf_step hz ht (u == decide (0 < q)) u
    cases u <;> simpa using this
  · obtain ⟨h1, h2, h3, h4⟩ := quotient_compare hp hy hz hq hk (.inl ⟨t, by rw [ht]; congr 1; field_simp⟩)
    obtain ⟨k1, k2⟩ := less_values hp ht
    obtain ⟨k3, -⟩ := less_values ht hp
    refine ⟨h1, ?_⟩
    rcases lt_or_gt_of_ne hq with l | l
    · rw [decide_eq_false (not_lt.2 l.le)]
      refine ⟨h2.trans ?_, h3.trans ?_, h4.trans ?_⟩
      · rw [k3, div_lt_div_right_of_neg l]
      · rw [k1, div_lt_div_right_of_neg l]
      · rw [k2]; exact div_left_inj' hq
    · rw [decide_eq_true l]
      refine ⟨h2.trans ?_, h3.trans ?_, h4.trans ?_⟩
      · rw [k1, div_lt_div_iff_of_pos_right l]
      · rw [k3, div_lt_div_iff_of_pos_right l]
      · rw [k2]; exact div_left_inj' hq

/-- What the induction needs of a way of evaluating. -/
structure Steps (V : Elem → F64 → Prop) : Prop where
  pos : ∀ {e v}, V e v → V (.un .plus e) v
  neg : ∀ {e v}, V e v → V (.un .minus e) (F64.neg v)
  add : ∀ {l r a b}, V l a → V r b → F64.add a b ≠ .nan → V (.bin .plus l r) (F64.add a b)
  sub : ∀ {l r a b}, V l a → V r b → F64.sub a b ≠ .nan → V (.bin .minus l r) (F64.sub a b)
  mul : ∀ {l r a b}, V l a → V r b → F64.mul a b ≠ .nan → V (.bin .times l r) (F64.mul a b)
  div : ∀ {l r a b}, V l a → V r b → F64.div a b ≠ .nan → ¬ IsZero b → V (.bin .divide l r) (F64.div a b)

theorem steps_eval (w : World) (m : HMap F64) : Steps fun e v => eval w m e = .ok v where
  pos h := by rw [eval, h]; rfl
  neg h := by rw [eval, h]; rfl
  add h1 h2 _ := by rw [eval, h1, h2]; rfl
  sub h1 h2 _ := by rw [eval, h1, h2]; rfl
  mul h1 h2 _ := by rw [eval, h1, h2]; rfl
  div h1 h2 _ _ := by rw [eval, h1, h2]; rfl

theorem steps_runs (w : World) (m : HMap F64) : Steps (Runs w m) where
  pos h := .un h .plus
  neg h := .un h .minus
  add h1 h2 h := .bin h1 h2 (.plus h)
  sub h1 h2 h := .bin h1 h2 (.minus h)
  mul h1 h2 h := .bin h1 h2 (.times h)
  div h1 h2 h h0 := .bin h1 h2 (.divide h h0)

theorem passes_sides {V : Elem → F64 → Prop} (hV : Steps V) {e a : Elem} {k s : ℚ} {up : Bool}
    (h : Passes V e k up a s) {x : F64} (hx : V a x) (hn : x ≠ .nan) :
    InF64 k ∧ InF64 s ∧ ∃ v, V e v ∧ v ≠ .nan ∧
      ∀ z t, value z = some k → value t = some s → Sides v z x t up := by
  induction h with
  | @here a k hk =>
    refine ⟨hk, hk, x, hx, hn, fun z t hz ht => ?_⟩
    rcases fin_cases x with h | ⟨u, rfl⟩ | ⟨p, hp⟩
    · exact absurd h hn
    · have := inf_step hz ht u u
      rwa [beq_self_eq_true] at this
    · refine ⟨?_, ?_, ?_⟩
      · rw [(less_values hp hz).1, (less_values hp ht).1]
      · rw [(less_values hz hp).1, (less_values ht hp).1]
      · rw [(less_values hp hz).2, (less_values hp ht).2]
  | pos _ ih =>
    obtain ⟨h1, h2, v, h3, h4⟩ := ih hx
    exact ⟨h1, h2, v, hV.pos h3, h4⟩
  | @neg e k up a s _ ih =>
    obtain ⟨⟨f, hf⟩, h2, v, h3, h4, h5⟩ := ih hx
    refine ⟨⟨_, neg_value hf⟩, h2, _, hV.neg h3, fun h => h4 ?_, fun z t hz ht => ?_⟩
    · cases v <;> first | rfl | cases h
    · have hz' : value (F64.neg z) = some k := by rw [neg_value hz, neg_neg]
      have e : F64.neg (F64.neg z) = z := by cases z <;> simp [F64.neg]
      have := sides_trans (e ▸ neg_step v (F64.neg z)) (h5 _ t hz' ht)
      cases up <;> exact this
  | add _ hc hq hi hg ih =>
    obtain ⟨⟨f, hf⟩, h2, v, h3, h4, h5⟩ := ih hx
    obtain ⟨g, hg'⟩ := hi
    refine ⟨⟨g, hg'⟩, h2, _, hV.add h3 hc (add_step h4 hq hf hg' hg).1, (add_step h4 hq hf hg' hg).1,
      fun z t hz ht => ?_⟩
    have := sides_trans (add_step h4 hq hf hz hg).2 (h5 f t hf ht)
    rwa [beq_true] at this
  | @addTo e t up a s c y q _ hc hq hi hg ih =>
    obtain ⟨⟨f, hf⟩, h2, v, h3, h4, h5⟩ := ih hx
    obtain ⟨g, hg'⟩ := hi
    have a1 := (add_step h4 hq hf hg' hg).1
    rw [fadd_comm] at a1
    refine ⟨⟨g, hg'⟩, h2, _, hV.add hc h3 a1, a1, fun z t hz ht => ?_⟩
    have := sides_trans (add_step h4 hq hf hz hg).2 (h5 f t hf ht)
    rwa [beq_true, fadd_comm] at this
  | @sub e t up a s c y q _ hc hq hi hg ih =>
    obtain ⟨⟨f, hf⟩, h2, v, h3, h4, h5⟩ := ih hx
    obtain ⟨g, hg'⟩ := hi
    rw [sub_eq_add_neg] at hg' hg ⊢
    have a1 := (add_step h4 (neg_value hq) hf hg' hg).1
    refine ⟨⟨g, hg'⟩, h2, F64.sub v y, hV.sub h3 hc a1, a1, fun z t hz ht => ?_⟩
    have := sides_trans (add_step h4 (neg_value hq) hf hz hg).2 (h5 f t hf ht)
    rwa [beq_true] at this
  | @subFrom e t up a s c y q _ hc hq hi hg ih =>
    obtain ⟨⟨f, hf⟩, h2, v, h3, h4, h5⟩ := ih hx
    obtain ⟨g, hg'⟩ := hi
    have h4' : F64.neg v ≠ .nan := fun h => h4 (by cases v <;> first | rfl | cases h)
    have eq : q - t = -t + q := by ring
    rw [eq] at hg' hg ⊢
    have hg : Coarser (-t) (-t + q) := by
      obtain ⟨i, i1, i2, i3⟩ := hg
      exact ⟨i, i1, by rwa [abs_neg], i3⟩
    have es : F64.sub y v = F64.add (F64.neg v) y := fadd_comm _ _
    have a1 := (add_step h4' hq (neg_value hf) hg' hg).1
    rw [← es] at a1
    refine ⟨⟨g, hg'⟩, h2, F64.sub y v, hV.sub hc h3 a1, a1, fun z t hz ht => ?_⟩
    rw [es]
    have := sides_trans (sides_trans (add_step h4' hq (neg_value hf) hz hg).2 (neg_step v f)) (h5 f t hf ht)
    cases up <;> exact this
  | mul _ hc hq hi hg ih =>
    obtain ⟨⟨f, hf⟩, h2, v, h3, h4, h5⟩ := ih hx
    obtain ⟨g, hg'⟩ := hi
    have a1 := (mul_step h4 hq hf hg' hg).1
    refine ⟨⟨g, hg'⟩, h2, _, hV.mul h3 hc a1, a1, fun z t hz ht => ?_⟩
    exact sides_trans (mul_step h4 hq hf hz hg).2 (h5 f t hf ht)
  | mulBy _ hc hq hi hg ih =>
    obtain ⟨⟨f, hf⟩, h2, v, h3, h4, h5⟩ := ih hx
    obtain ⟨g, hg'⟩ := hi
    have a1 := (mul_step h4 hq hf hg' hg).1
    rw [fmul_comm] at a1
    refine ⟨⟨g, hg'⟩, h2, _, hV.mul hc h3 a1, a1, fun z t hz ht => ?_⟩
    rw [fmul_comm]
    exact sides_trans (mul_step h4 hq hf hz hg).2 (h5 f t hf ht)
  | div _ hc hq hi hg ih =>
    obtain ⟨⟨f, hf⟩, h2, v, h3, h4, h5⟩ := ih hx
    obtain ⟨g, hg'⟩ := hi
    have a1 := (div_step h4 hq hf hg' hg).1
    refine ⟨⟨g, hg'⟩, h2, _, hV.div h3 hc a1
      (not_zero_of_value hq (div_ne_zero_iff.1 (normal_ne hg)).2), a1, fun z t hz ht => ?_⟩
    exact sides_trans (div_step h4 hq hf hz hg).2 (h5 f t hf ht)

/-! ### C121 -/

/-- C121: if the steps of a formula lead exactly from the number `s` to the number `k`, through
numbers of the format, then the computed value of the formula lies with respect to `k` as the
value of the inner expression does with respect to `s`, whatever that value is (not NaN): the
formula is computed to be less than, equal to or greater than `k` exactly where it is. -/
theorem C121_threshold (w : World) (m : HMap F64) (e a : Elem) (k s : ℚ) (up : Bool) (x z t : F64)
    (h : Passes (fun c y => eval w m c = .ok y) e k up a s) (hx : eval w m a = .ok x) (hn : x ≠ .nan)
    (hz : value z = some k) (ht : value t = some s) :
    ∃ v, eval w m e = .ok v ∧ evalU w m e = .ok v ∧ v ≠ .nan ∧ Sides v z x t up := by
  obtain ⟨-, -, v, h1, h2, h3⟩ := passes_sides (steps_eval w m) h hx hn
  exact ⟨v, h1, by rw [evalU_eq, h1]; rfl, h2, h3 z t hz ht⟩

/-- C121 with the rational numbers: at a finite value `p` of the inner expression, the computed
value is `k` exactly if `p` is `s`. -/
theorem C121_solution (w : World) (m : HMap F64) (e a : Elem) (k s p : ℚ) (up : Bool) (x : F64)
    (h : Passes (fun c y => eval w m c = .ok y) e k up a s) (hx : eval w m a = .ok x) (hp : value x = some p) :
    ∃ v, eval w m e = .ok v ∧ (value v = some k ↔ p = s) := by
  have hn : x ≠ .nan := by rintro rfl; cases hp
  obtain ⟨⟨z, hz⟩, ⟨t, ht⟩, v, h1, h2, h3⟩ := passes_sides (steps_eval w m) h hx hn
  refine ⟨v, h1, ?_⟩
  have hs := h3 z t hz ht
  have hp' : OnPar v z ↔ p = s := by
    rw [← (less_values hp ht).2]
    cases up
    · exact hs.2.2
    · exact hs.2.2
  rw [← hp']
  rcases fin_cases v with h | ⟨u, rfl⟩ | ⟨c, hc⟩
  · exact absurd h h2
  · obtain ⟨-, -, i3, i4, -⟩ := inf_sides hz
    refine iff_of_false nofun ?_
    cases u
    · exact i4
    · exact i3
  · rw [(less_values hc hz).2, hc, Option.some_inj]

theorem sides_same {v u z x t : F64} {up : Bool} (hs : Same v u) (h : Sides v z x t up) : Sides u z x t up := by
  obtain ⟨k1, k2, k3⟩ := less_iff_same (b := z) hs
  cases up
  · exact ⟨k1.trans h.1, k2.trans h.2.1, k3.trans h.2.2⟩
  · exact ⟨k1.trans h.1, k2.trans h.2.1, k3.trans h.2.2⟩

/-- C121 and the simplifier: a simplified formula has the same thresholds. -/
theorem C121_simplified (cfg : Cfg) (w : World) (m : HMap F64) (e a e' : Elem) (k s : ℚ) (up : Bool) (x z t : F64)
    (hw : NoPower e ∨ PowLaws w) (h : Passes (Runs w m) e k up a s) (hx : Runs w m a x) (hn : x ≠ .nan)
    (hz : value z = some k) (ht : value t = some s) (hs : simplify cfg w e = .ok e') :
    ∃ v, eval w m e' = .ok v ∧ Sides v z x t up := by
  obtain ⟨-, -, v, h1, h2, h3⟩ := passes_sides (steps_runs w m) h hx hn
  obtain ⟨u, hu, su⟩ := simplify_runs' hw h1 hs
  exact ⟨u, runs_eval _ hu, sides_same su (h3 z t hz ht)⟩

/-- C121 for texts, in every build: if the tree of a text in the build without compile-time
optimizations is a formula with the threshold `s` for `k`, so is what any build makes of the text. -/
theorem C121_builds (cfg cfg' : Cfg) (w : World) (o o' : Oracle) (ctx : Context) (input : Bytes)
    (f g : Xpr) (m : HMap F64) (a : Elem) (k s : ℚ) (up : Bool) (x z t : F64) (hp : cfg.pejmdas = cfg'.pejmdas)
    (ho : cfg.opt = false) (hw : NoPower f.root ∨ PowLaws w) (hn : ∀ ts, Lex input ts → ParensApart ts)
    (h : parse cfg w o ctx input = .ok f) (h' : parse cfg' w o' ctx input = .ok g)
    (hps : Passes (Runs w m) f.root k up a s) (hx : Runs w m a x) (hxn : x ≠ .nan)
    (hz : value z = some k) (ht : value t = some s) :
    ∃ v, g.eval w m = .ok v ∧ Sides v z x t up := by
  obtain ⟨-, -, v, h1, h2, h3⟩ := passes_sides (steps_runs w m) hps hx hxn
  obtain ⟨-, u, hu, su⟩ := C16_value_partial cfg cfg' w o o' ctx input f g m v hp ho hw hn h h' h1
  exact ⟨u, hu, sides_same su (h3 z t hz ht)⟩

/-! ### Degrees -/

/-- From degrees Fahrenheit. -/
def celsius : Elem :=
  .bin .divide (.bin .times (.bin .minus vx (.num (F64.ofNat 32))) (.num (F64.ofNat 5))) (.num (F64.ofNat 9))

/-- To degrees Fahrenheit. -/
def fahrenheit : Elem :=
  .bin .plus (.bin .divide (.bin .times vx (.num (F64.ofNat 9))) (.num (F64.ofNat 5))) (.num (F64.ofNat 32))

example : parse0 cfgPlain b!"(x-32)*5/9" = .ok ⟨celsius, [b!"x"]⟩ := by decide +kernel
example : parse0 cfgPlain b!"x*9/5+32" = .ok ⟨fahrenheit, [b!"x"]⟩ := by decide +kernel

theorem fahrenheit_plain : NoPower fahrenheit := by
  have h : ∀ x, NoPower (.num x) := fun x l r h => by cases h
  exact noPower_bin.2 ⟨by decide, noPower_bin.2 ⟨by decide, noPower_bin.2 ⟨by decide, (fun l r h => by cases h), h _⟩, h _⟩, h _⟩

theorem whole_inF64 {n : ℕ} {q : ℚ} (h : n ≤ 2 ^ 53) (e : q = n) : InF64 q := ⟨F64.ofNat n, by rw [e, ofNat_value h]⟩

theorem one_normal {q : ℚ} (h : 1 ≤ |q|) : 1 / 2 ^ 1021 ≤ |q| :=
  le_trans ((div_le_one (by positivity)).2 (one_le_pow₀ (by norm_num))) h

theorem celsius_passes {G : Elem → F64 → Prop} (hG : ∀ n, G (.num n) n) : Passes G celsius 100 true vx 212 := by
  have v32 := ofNat_value (n := 32) (by norm_num)
  have v5 := ofNat_value (n := 5) (by norm_num)
  have v9 := ofNat_value (n := 9) (by norm_num)
  have h0 : Passes G vx 212 true vx 212 := .here (whole_inF64 (n := 212) (by norm_num) (by norm_num))
  have h1 := h0.sub (hG _) v32 (whole_inF64 (n := 180) (by norm_num) (by norm_num)) ⟨7, by norm_num, by norm_num, by norm_num⟩
  have h2 := h1.mul (hG _) v5 (whole_inF64 (n := 900) (by norm_num) (by norm_num)) (one_normal (by norm_num))
  have h3 := h2.div (hG _) v9 (whole_inF64 (n := 100) (by norm_num) (by norm_num)) (one_normal (by norm_num))
  norm_num at h3
  exact h3

theorem fahrenheit_passes {G : Elem → F64 → Prop} (hG : ∀ n, G (.num n) n) :
    Passes G fahrenheit 212 true vx 100 := by
  have v32 := ofNat_value (n := 32) (by norm_num)
  have v5 := ofNat_value (n := 5) (by norm_num)
  have v9 := ofNat_value (n := 9) (by norm_num)
  have h0 : Passes G vx 100 true vx 100 := .here (whole_inF64 (n := 100) (by norm_num) (by norm_num))
  have h1 := h0.mul (hG _) v9 (whole_inF64 (n := 900) (by norm_num) (by norm_num)) (one_normal (by norm_num))
  have h2 := h1.div (hG _) v5 (whole_inF64 (n := 180) (by norm_num) (by norm_num)) (one_normal (by norm_num))
  have h3 := h2.add (hG _) v32 (whole_inF64 (n := 212) (by norm_num) (by norm_num)) ⟨7, by norm_num, by norm_num, by norm_num⟩
  norm_num at h3
  exact h3

/-- A case of `C121_solution`: `(x-32)*5/9` is computed to be 100 at 212 and nowhere else. -/
example (x : F64) (p : ℚ) (hx : value x = some p) :
    ∃ v, eval w0 (mx x) celsius = .ok v ∧ (value v = some 100 ↔ p = 212) :=
  C121_solution w0 (mx x) celsius vx 100 212 p true x (celsius_passes fun _ => rfl) rfl hx

theorem lex_mem {s : Bytes} {ts : List Bytes} (h : Lex s ts) : ∀ t ∈ ts, ∀ c ∈ t, c ∈ s := by
  induction h with
  | nil _ => exact nofun
  | num _ _ _ ih | name _ _ _ ih | sym _ _ _ ih =>
    intro t ht c hc
    rcases List.mem_cons.1 ht with rfl | ht
    · simp_all
    · simp [ih t ht c hc]

theorem no_paren_apart {s : Bytes} (h : c!")" ∉ s) : ∀ ts, Lex s ts → ParensApart ts := by
  rintro _ ht p b q rfl
  exact absurd (lex_mem ht b!")" (by simp) c!")" (by simp)) h

/-- A case of `C121_builds`: `x*9/5+32` in an optimizing build is less than 212, or greater, exactly
if `x` is less than 100, or greater; infinities included. -/
example (x : F64) (hx : x ≠ .nan) : ∃ g v, parse0 cfgOpt b!"x*9/5+32" = .ok g ∧ g.eval w0 (mx x) = .ok v ∧
    (Less v (F64.ofNat 212) ↔ Less x (F64.ofNat 100)) ∧ (Less (F64.ofNat 212) v ↔ Less (F64.ofNat 100) x) := by
  obtain ⟨v, hv, h1, h2, -⟩ := C121_builds cfgPlain cfgOpt w0 Oracle.id Oracle.id Context.default b!"x*9/5+32"
    ⟨fahrenheit, [b!"x"]⟩ ⟨fahrenheit, [b!"x"]⟩ (mx x) vx 212 100 true x (F64.ofNat 212) (F64.ofNat 100)
    rfl rfl (.inl fahrenheit_plain) (no_paren_apart (by decide)) (by decide +kernel) (by decide +kernel)
    (fahrenheit_passes fun _ => .num) (.var rfl) hx (ofNat_value (n := 212) (by norm_num))
    (ofNat_value (n := 100) (by norm_num))
  exact ⟨_, v, by decide +kernel, hv, h1, h2⟩

/-- Without `Coarser` there is no threshold: `x*9/5+32` is computed to be 32 not only at zero. -/
example : eval w0 (mx tiny) fahrenheit = .ok (F64.ofNat 32) ∧ eval w0 (mx (F64.zero false)) fahrenheit = .ok (F64.ofNat 32) := by
  decide +kernel

end Props
end Xprs
