import Verif.Lemmas.Lattice
import Verif.Lemmas.Laws
import Verif.Props.Apart
import Verif.Props.Monotone
import Verif.Props.Builds
import Verif.Props.Constants
/-
Property C108: `min` and `max`.
-/
namespace Xprs
namespace Props
open Spec
set_option exponentiation.threshold 4096

/-! ### C108 -/

/-- C108: nested calls of `min` (of `max`) are one call, whatever the arguments are, NaN
included. -/
theorem C108_nested (w : World) (xs ys zs : List F64) (u v v' : F64) :
    (Gives w b!"min" ys u → Gives w b!"min" (xs ++ u :: zs) v → Gives w b!"min" (xs ++ ys ++ zs) v' →
      Same v v') ∧
    (Gives w b!"max" ys u → Gives w b!"max" (xs ++ u :: zs) v → Gives w b!"max" (xs ++ ys ++ zs) v' →
      Same v v') := by
  constructor
  · intro h1 h2 h3
    rw [gives_min h1] at h2
    rw [gives_min h2, gives_min h3]
    have k1 := min_fold ys
    generalize ys.foldl F64.fmin (.inf false) = u at *
    have k2 := min_fold (xs ++ u :: zs)
    have k3 := min_fold (xs ++ ys ++ zs)
    refine same_above (min_ne k2) (min_ne k3) fun z hz => ?_
    rw [min_of k2 z hz, min_of k3 z hz]
    simp only [List.mem_append, List.mem_cons]
    constructor
    · rintro h x ((hx | hx) | hx) hn
      · exact h x (.inl hx) hn
      · exact (min_of k1 z hz).1 (h u (.inr (.inl rfl)) (min_ne k1)) x hx hn
      · exact h x (.inr (.inr hx)) hn
    · rintro h x (hx | rfl | hx) hn
      · exact h x (.inl (.inl hx)) hn
      · exact (min_of k1 z hz).2 fun y hy hn => h y (.inl (.inr hy)) hn
      · exact h x (.inr hx) hn
  · intro h1 h2 h3
    rw [gives_max h1] at h2
    rw [gives_max h2, gives_max h3]
    have k1 := max_fold ys
    generalize ys.foldl F64.fmax (.inf true) = u at *
    have k2 := max_fold (xs ++ u :: zs)
    have k3 := max_fold (xs ++ ys ++ zs)
    refine same_below (max_ne k2) (max_ne k3) fun z hz => ?_
    rw [max_of k2 z hz, max_of k3 z hz]
    simp only [List.mem_append, List.mem_cons]
    constructor
    · rintro h x ((hx | hx) | hx) hn
      · exact h x (.inl hx) hn
      · exact (max_of k1 z hz).1 (h u (.inr (.inl rfl)) (max_ne k1)) x hx hn
      · exact h x (.inr (.inr hx)) hn
    · rintro h x (hx | rfl | hx) hn
      · exact h x (.inl (.inl hx)) hn
      · exact (max_of k1 z hz).2 fun y hy hn => h y (.inl (.inr hy)) hn
      · exact h x (.inr hx) hn

/-- C108: `-min(x, …) = max(-x, …)` and the other way round, NaN included. -/
theorem C108_mirror (w : World) (xs : List F64) (u v : F64) :
    (Gives w b!"min" xs u → Gives w b!"max" (xs.map F64.neg) v → Same (F64.neg u) v) ∧
    (Gives w b!"max" xs u → Gives w b!"min" (xs.map F64.neg) v → Same (F64.neg u) v) := by
  constructor
  · intro h1 h2
    rw [gives_min h1, gives_max h2]
    have k1 := min_fold xs
    have k2 := max_fold (xs.map F64.neg)
    refine same_below (fun h => min_ne k1 (neg_nan_iff.1 h)) (max_ne k2) fun z hz => ?_
    rw [max_of k2 z hz, ← fneg_neg z, neg_leF, min_of k1 _ fun h => hz (neg_nan_iff.1 h)]
    simp only [List.mem_map, forall_exists_index, and_imp, forall_apply_eq_imp_iff₂, neg_leF, ne_eq, neg_nan_iff]
  · intro h1 h2
    rw [gives_max h1, gives_min h2]
    have k1 := max_fold xs
    have k2 := min_fold (xs.map F64.neg)
    refine same_above (fun h => max_ne k1 (neg_nan_iff.1 h)) (min_ne k2) fun z hz => ?_
    rw [min_of k2 z hz, ← fneg_neg z, neg_leF, max_of k1 _ fun h => hz (neg_nan_iff.1 h)]
    simp only [List.mem_map, forall_exists_index, and_imp, forall_apply_eq_imp_iff₂, neg_leF, ne_eq, neg_nan_iff]

theorem two_mem {P : F64 → Prop} {a b : F64} : (∀ x ∈ [a, b], P x) ↔ P a ∧ P b := by simp

/-- C108: `min` and `max` absorb each other. -/
theorem C108_absorb (w : World) (a b u v : F64) (ha : a ≠ .nan) :
    (Gives w b!"max" [a, b] u → Gives w b!"min" [a, u] v → Same v a) ∧
    (Gives w b!"min" [a, b] u → Gives w b!"max" [a, u] v → Same v a) := by
  constructor
  · intro h1 h2
    rw [gives_max h1] at h2
    rw [gives_min h2]
    have k1 := max_fold [a, b]
    generalize [a, b].foldl F64.fmax (.inf true) = u at *
    exact (min_two (min_fold [a, u]) ha (max_ne k1)).1 ((k1.2 ⟨a, by simp, ha⟩).2.2 a (by simp) ha)
  · intro h1 h2
    rw [gives_min h1] at h2
    rw [gives_max h2]
    have k1 := min_fold [a, b]
    generalize [a, b].foldl F64.fmin (.inf false) = u at *
    exact (max_two (max_fold [a, u]) ha (min_ne k1)).2 ((k1.2 ⟨a, by simp, ha⟩).2.2 a (by simp) ha)

/-- C108: `min` and `max` distribute over each other. -/
theorem C108_distribute (w : World) (a b c u v p q r : F64) (ha : a ≠ .nan) (hb : b ≠ .nan)
    (hc : c ≠ .nan) :
    (Gives w b!"max" [b, c] u → Gives w b!"min" [a, u] v → Gives w b!"min" [a, b] p →
      Gives w b!"min" [a, c] q → Gives w b!"max" [p, q] r → Same v r) ∧
    (Gives w b!"min" [b, c] u → Gives w b!"max" [a, u] v → Gives w b!"max" [a, b] p →
      Gives w b!"max" [a, c] q → Gives w b!"min" [p, q] r → Same v r) := by
  constructor
  · intro h1 h2 h3 h4 h5
    have k1 := max_fold [b, c]
    rw [← gives_max h1] at k1
    have k2 := min_fold [a, u]
    rw [← gives_min h2] at k2
    have k3 := min_fold [a, b]
    rw [← gives_min h3] at k3
    have k4 := min_fold [a, c]
    rw [← gives_min h4] at k4
    have k5 := max_fold [p, q]
    rw [← gives_max h5] at k5
    have hu := max_ne k1
    have hp := min_ne k3
    have hq := min_ne k4
    -- `u` is the greater of `b` and `c`, and so is the result
    rcases leF_total hb hc with h | h
    · have e : Same u c := (max_two k1 hb hc).1 h
      have lpq : LeF p q := (min_of k4 p hp).2 (two_mem.2
        ⟨fun _ => (min_of k3 p hp).1 (leF_refl hp) a (by simp) ha,
          fun _ => leF_trans ((min_of k3 p hp).1 (leF_refl hp) b (by simp) hb) h⟩)
      refine Same.trans ?_ ((max_two k5 hp hq).1 lpq).symm
      refine same_above (min_ne k2) hq fun z hz => ?_
      rw [min_of k2 z hz, min_of k4 z hz, two_mem, two_mem]
      exact and_congr_right fun _ => ⟨fun k _ => Spec.leF_same (k hu) e, fun k _ => Spec.leF_same (k hc) e.symm⟩
    · have e : Same u b := (max_two k1 hb hc).2 h
      have lqp : LeF q p := (min_of k3 q hq).2 (two_mem.2
        ⟨fun _ => (min_of k4 q hq).1 (leF_refl hq) a (by simp) ha,
          fun _ => leF_trans ((min_of k4 q hq).1 (leF_refl hq) c (by simp) hc) h⟩)
      refine Same.trans ?_ ((max_two k5 hp hq).2 lqp).symm
      refine same_above (min_ne k2) hp fun z hz => ?_
      rw [min_of k2 z hz, min_of k3 z hz, two_mem, two_mem]
      exact and_congr_right fun _ => ⟨fun k _ => Spec.leF_same (k hu) e, fun k _ => Spec.leF_same (k hb) e.symm⟩
  · intro h1 h2 h3 h4 h5
    have k1 := min_fold [b, c]
    rw [← gives_min h1] at k1
    have k2 := max_fold [a, u]
    rw [← gives_max h2] at k2
    have k3 := max_fold [a, b]
    rw [← gives_max h3] at k3
    have k4 := max_fold [a, c]
    rw [← gives_max h4] at k4
    have k5 := min_fold [p, q]
    rw [← gives_min h5] at k5
    have hu := min_ne k1
    have hp := max_ne k3
    have hq := max_ne k4
    rcases leF_total hb hc with h | h
    · have e : Same u b := (min_two k1 hb hc).1 h
      have lpq : LeF p q := (max_of k3 q hq).2 (two_mem.2
        ⟨fun _ => (max_of k4 q hq).1 (leF_refl hq) a (by simp) ha,
          fun _ => leF_trans h ((max_of k4 q hq).1 (leF_refl hq) c (by simp) hc)⟩)
      refine Same.trans ?_ ((min_two k5 hp hq).1 lpq).symm
      refine same_below (max_ne k2) hp fun z hz => ?_
      rw [max_of k2 z hz, max_of k3 z hz, two_mem, two_mem]
      exact and_congr_right fun _ => ⟨fun k _ => leF_same' (k hu) e, fun k _ => leF_same' (k hb) e.symm⟩
    · have e : Same u c := (min_two k1 hb hc).2 h
      have lqp : LeF q p := (max_of k4 p hp).2 (two_mem.2
        ⟨fun _ => (max_of k3 p hp).1 (leF_refl hp) a (by simp) ha,
          fun _ => leF_trans h ((max_of k3 p hp).1 (leF_refl hp) b (by simp) hb)⟩)
      refine Same.trans ?_ ((min_two k5 hp hq).2 lqp).symm
      refine same_below (max_ne k2) hq fun z hz => ?_
      rw [max_of k2 z hz, max_of k4 z hz, two_mem, two_mem]
      exact and_congr_right fun _ => ⟨fun k _ => leF_same' (k hu) e, fun k _ => leF_same' (k hc) e.symm⟩

theorem abs_same {a b : F64} (h : Same a b) : Same (F64.abs a) (F64.abs b) := by
  rcases h with rfl | ⟨⟨s, rfl⟩, ⟨t, rfl⟩⟩
  · exact .refl _
  · exact .inr ⟨⟨false, rfl⟩, ⟨false, rfl⟩⟩

theorem abs_of_nonneg {a : F64} (h : LeF F64.f0 a) : Same (F64.abs a) a := by
  cases a with
  | nan => exact absurd rfl (leF_right h)
  | inf s =>
    cases s with
    | false => exact .refl _
    | true =>
      cases h with
      | fin _ h _ => cases h
  | fin s n hn =>
    cases s with
    | false => exact .refl _
    | true =>
      have h := leF_values h value_f0 rfl
      by_cases h0 : n = 0
      · subst h0; exact .inr ⟨⟨_, rfl⟩, ⟨_, rfl⟩⟩
      · exfalso
        rw [div_nonneg_iff] at h
        have : (0 : ℚ) < n := by exact_mod_cast Nat.pos_of_ne_zero h0
        rcases h with ⟨h, -⟩ | ⟨-, h⟩
        · linarith
        · have : (0 : ℚ) < 2 ^ 1074 := by positivity
          linarith

theorem sub_nonneg' {a b : F64} (ha : a ≠ .nan) (hb : b ≠ .nan) (h : LeF a b) :
    Same (F64.abs (F64.sub b a)) (F64.sub b a) := by
  by_cases hi : ∃ s, b = .inf s ∧ a = .inf s
  · obtain ⟨s, rfl, rfl⟩ := hi
    cases s <;> exact .refl _
  · obtain ⟨h1, h2, -, -⟩ := sub_compare hb ha fun s h k => hi ⟨s, h, k⟩
    refine abs_of_nonneg ?_
    rcases leF_total (a := F64.f0) (b := F64.sub b a) (by intro h; have := value_f0; rw [h] at this; cases this) h1 with k | k
    · exact k
    · by_contra hn
      exact (h2.1 ⟨k, hn⟩).2 h

/-- C108: the smaller and the larger of two numbers are the two numbers: they have the same sum
and product, and differ by `abs(a - b)`. -/
theorem C108_parts (w : World) (a b u v : F64) (ha : a ≠ .nan) (hb : b ≠ .nan)
    (hu : Gives w b!"min" [a, b] u) (hv : Gives w b!"max" [a, b] v) :
    Same (F64.add u v) (F64.add a b) ∧ Same (F64.mul u v) (F64.mul a b) ∧
      Same (F64.sub v u) (F64.abs (F64.sub a b)) := by
  have k1 := min_fold [a, b]
  rw [← gives_min hu] at k1
  have k2 := max_fold [a, b]
  rw [← gives_max hv] at k2
  rcases leF_total ha hb with h | h
  · have e1 := (min_two k1 ha hb).1 h
    have e2 := (max_two k2 ha hb).1 h
    refine ⟨add_congr e1 e2, mul_congr e1 e2, (sub_congr e2 e1).trans ?_⟩
    refine (sub_nonneg' ha hb h).symm.trans (Same.trans ?_ (.inl (fabs_neg _)))
    refine abs_same ?_
    have := neg_add_same a (F64.neg b)
    rw [fneg_neg, fadd_comm (F64.neg a)] at this
    exact this.symm
  · have e1 := (min_two k1 ha hb).2 h
    have e2 := (max_two k2 ha hb).2 h
    refine ⟨?_, ?_, (sub_congr e2 e1).trans (sub_nonneg' hb ha h).symm⟩
    · rw [fadd_comm a b]; exact add_congr e1 e2
    · rw [fmul_comm a b]; exact mul_congr e1 e2

/-- C108: `max(a, -a)` is `abs(a)`. -/
theorem C108_abs (w : World) (a v u : F64) (ha : a ≠ .nan) (hv : Gives w b!"max" [a, F64.neg a] v)
    (hu : Gives w b!"abs" [a] u) : Same v u := by
  have k := max_fold [a, F64.neg a]
  rw [← gives_max hv] at k
  have e : u = F64.abs a := by
    obtain ⟨f, hf, h⟩ := hu
    cases hf; cases h; rfl
  have hn : F64.neg a ≠ .nan := fun h => ha (neg_nan_iff.1 h)
  have h0 : F64.f0 ≠ .nan := by intro h; have := value_f0; rw [h] at this; cases this
  have hz : Same (F64.neg F64.f0) F64.f0 := .inr ⟨⟨_, rfl⟩, ⟨_, rfl⟩⟩
  subst e
  rcases leF_total h0 ha with h | h
  · have h' : LeF (F64.neg a) a := leF_trans (Spec.leF_same (neg_mono h) hz) h
    exact ((max_two k ha hn).2 h').trans (abs_of_nonneg h).symm
  · have h1 : LeF F64.f0 (F64.neg a) := leF_same' (neg_mono h) hz
    have h' : LeF a (F64.neg a) := leF_trans h h1
    refine ((max_two k ha hn).1 h').trans ((abs_of_nonneg h1).symm.trans (.inl ?_))
    exact fabs_neg a

/-- C108: what rises with `x` passes through `min` and `max` of values of `x`, roundings included;
what falls turns them round. -/
theorem C108_through (w : World) (m : HMap F64) (x : Bytes) (P : Bytes → Prop) (d : Bool) (e : Elem)
    (he : Goes (fun n d => n = x → d = true) P d e) (as vs : List F64) (hne : as ≠ [])
    (hm : ∀ n a, n ≠ x → m n = some a → a ≠ .nan ∧ (P n → signBit a = false))
    (ha : ∀ a ∈ as, a ≠ .nan ∧ (P x → signBit a = false) ∧ Clean w (m.insert x a) e)
    (hv : List.Forall₂ (fun a v => eval w (m.insert x a) e = .ok v) as vs) (lo hi lo' hi' : F64)
    (h1 : Gives w b!"min" as lo) (h2 : Gives w b!"max" as hi) (h3 : Gives w b!"min" vs lo')
    (h4 : Gives w b!"max" vs hi') :
    ∃ r s, eval w (m.insert x lo) e = .ok r ∧ eval w (m.insert x hi) e = .ok s ∧
      Same r (if d then lo' else hi') ∧ Same s (if d then hi' else lo') := by
  have k1 := min_fold as
  rw [← gives_min h1] at k1
  have k2 := max_fold as
  rw [← gives_max h2] at k2
  have k3 := min_fold vs
  rw [← gives_min h3] at k3
  have k4 := max_fold vs
  rw [← gives_max h4] at k4
  -- the order of two values
  have mono : ∀ a b, a ∈ as → b ∈ as → LeF a b → ∀ u v, eval w (m.insert x a) e = .ok u →
      eval w (m.insert x b) e = .ok v → Moves d u v := by
    intro a b h h' hab u v hu hv
    refine C76_tree w _ P _ _ ⟨?_, ?_⟩ d e he (ha a h).2.2 (ha b h').2.2 u v hu hv
    · intro n d p q hd hp hq
      by_cases hn : n = x
      · subst hn
        rw [hd rfl]
        have : p = a := by simpa [HMap.insert] using hp.symm
        have : q = b := by simpa [HMap.insert] using hq.symm
        subst_vars
        exact hab
      · have hp : m n = some p := by simpa [HMap.insert, hn] using hp
        have hq : m n = some q := by simpa [HMap.insert, hn] using hq
        rw [hp] at hq
        cases hq
        have := leF_refl (hm n p hn hp).1
        cases d <;> exact this
    · intro n p hp h
      by_cases hn : n = x
      · subst hn
        rcases h with h | h
        · have : p = a := by simpa [HMap.insert] using h.symm
          subst this
          exact (ha _ ‹_›).2.1 hp
        · have : p = b := by simpa [HMap.insert] using h.symm
          subst this
          exact (ha _ ‹_›).2.1 hp
      · simp only [HMap.insert, hn, if_false, or_self] at h
        exact (hm n p hn h).2 hp
  have val : ∀ a ∈ as, ∃ v ∈ vs, eval w (m.insert x a) e = .ok v := by
    clear * - hv
    intro a h
    induction hv with
    | nil => cases h
    | cons h1 _ ih =>
      rcases List.mem_cons.1 h with rfl | h
      · exact ⟨_, List.mem_cons_self, h1⟩
      · obtain ⟨v, k1, k2⟩ := ih h
        exact ⟨v, List.mem_cons_of_mem _ k1, k2⟩
  have arg : ∀ v ∈ vs, ∃ a ∈ as, eval w (m.insert x a) e = .ok v := by
    clear * - hv
    intro v h
    induction hv with
    | nil => cases h
    | cons h1 _ ih =>
      rcases List.mem_cons.1 h with rfl | h
      · exact ⟨_, List.mem_cons_self, h1⟩
      · obtain ⟨a, k1, k2⟩ := ih h
        exact ⟨a, List.mem_cons_of_mem _ k1, k2⟩
  obtain ⟨a0, ha0⟩ := List.exists_mem_of_ne_nil as hne
  obtain ⟨l1, -, l2⟩ := k1.2 ⟨a0, ha0, (ha a0 ha0).1⟩
  obtain ⟨g1, -, g2⟩ := k2.2 ⟨a0, ha0, (ha a0 ha0).1⟩
  obtain ⟨r, hr, er⟩ := val lo l1
  obtain ⟨s, hs, es⟩ := val hi g1
  have nn : ∀ v ∈ vs, v ≠ .nan := by
    intro v h
    obtain ⟨a, h', k⟩ := arg v h
    rintro rfl
    exact (ha a h').2.2 e .refl k
  have low : ∀ v ∈ vs, Moves d r v := by
    intro v h
    obtain ⟨a, h, k⟩ := arg v h
    exact mono lo a l1 h (l2 a h (ha a h).1) r v er k
  have high : ∀ v ∈ vs, Moves d v s := by
    intro v h
    obtain ⟨a, h, k⟩ := arg v h
    exact mono a hi h g1 (g2 a h (ha a h).1) v s k es
  refine ⟨r, s, er, es, ?_⟩
  obtain ⟨m1, m2, m3⟩ := k3.2 ⟨r, hr, nn r hr⟩
  obtain ⟨n1, n2, n3⟩ := k4.2 ⟨r, hr, nn r hr⟩
  cases d with
  | true => exact ⟨leF_antisymm (low _ m1) (m3 r hr (nn r hr)), leF_antisymm (n3 s hs (nn s hs)) (high _ n1)⟩
  | false => exact ⟨leF_antisymm (n3 r hr (nn r hr)) (low _ n1), leF_antisymm (high _ m1) (m3 s hs (nn s hs))⟩

/-- C108: `max(lo, min(x, hi))` brings `x` between `lo` and `hi`; where `x` is NaN it is `hi`. -/
theorem C108_clamp (w : World) (lo x hi u v : F64) (h : LeF lo hi) (hu : Gives w b!"min" [x, hi] u)
    (hv : Gives w b!"max" [lo, u] v) : Clamped lo x hi v ∧ (x = .nan → Same v hi) := by
  have hl := leF_left h
  have hh := leF_right h
  have k1 := min_fold [x, hi]
  rw [← gives_min hu] at k1
  have k2 := max_fold [lo, u]
  rw [← gives_max hv] at k2
  have nu := min_ne k1
  have uh : LeF u hi := (min_of k1 u nu).1 (leF_refl nu) hi (by simp) hh
  have top : Same u hi → Same v hi := fun e => ((max_two k2 hl nu).1 (Spec.leF_same h e.symm)).trans e
  refine ⟨⟨?_, ?_, ?_, ?_, ?_⟩, ?_⟩
  · exact (max_of k2 v (max_ne k2)).1 (leF_refl (max_ne k2)) lo (by simp) hl
  · exact (max_of k2 hi hh).2 (two_mem.2 ⟨fun _ => h, fun _ => uh⟩)
  · intro a b
    have e := (min_two k1 (leF_left b) hh).1 b
    exact ((max_two k2 hl nu).1 (Spec.leF_same a e.symm)).trans e
  · intro a
    have e := (min_two k1 (leF_left a) hh).1 (leF_trans a h)
    exact (max_two k2 hl nu).2 (leF_same' a e.symm)
  · intro a
    exact top ((min_two k1 (leF_right a) hh).2 a)
  · rintro rfl
    refine top (leF_antisymm uh ((min_of k1 hi hh).2 (two_mem.2 ⟨fun h => absurd rfl h, fun _ => leF_refl hh⟩)))

section
variable (cfg : Cfg) (w : World) (o : Oracle) (ctx : Context)

/-- The text `max(s,min(t,u))`. -/
def clampText (s t u : Bytes) : Bytes :=
  b!"max" ++ inParens (commas [s, b!"min" ++ inParens (commas [t, u])])

theorem clamp_parse (ho : cfg.opt = false) (hmin : lookup ctx b!"min" = Ident.fromStr b!"min")
    (hmax : lookup ctx b!"max" = Ident.fromStr b!"max") (s t u : Bytes) (x y z : Xpr)
    (hs : parse cfg w o ctx s = .ok x) (ht : parse cfg w o ctx t = .ok y) (hu : parse cfg w o ctx u = .ok z) :
    ∃ r, parse cfg w o ctx (clampText s t u) = .ok r ∧
      r.root = .call Builtin.max.toFunc [x.root, .call Builtin.min.toFunc [y.root, z.root]] := by
  have n1 : IsName b!"min" := ⟨⟨_, rfl, by decide⟩, by decide⟩
  have n2 : IsName b!"max" := ⟨⟨_, rfl, by decide⟩, by decide⟩
  have h1 := C62_call cfg w o ctx b!"min" Builtin.min.toFunc [t, u] [y, z] n1 hmin nofun nofun (.cons ht (.cons hu .nil))
  rw [finOf_plain ho] at h1
  have h2 := C62_call cfg w o ctx b!"max" Builtin.max.toFunc [s, _] [x, _] n2 hmax nofun nofun (.cons hs (.cons h1 .nil))
  rw [finOf_plain ho] at h2
  exact ⟨_, h2, rfl⟩

theorem clamp_run {lo x hi : F64} {e e' e'' : Elem} {m : HMap F64} (h1 : eval w m e = .ok lo)
    (h2 : eval w m e' = .ok x) (h3 : eval w m e'' = .ok hi) :
    ∃ u v, Gives w b!"min" [x, hi] u ∧ Gives w b!"max" [lo, u] v ∧
      eval w m (.call Builtin.max.toFunc [e, .call Builtin.min.toFunc [e', e'']]) = .ok v := by
  refine ⟨_, _, min_gives w _, max_gives w _, ?_⟩
  simp only [eval, evalL, h1, h2, h3]
  rfl

theorem sameL_members {vs us : List F64} (h : SameL vs us) :
    (∀ v ∈ vs, ∃ u ∈ us, Same v u) ∧ (∀ u ∈ us, ∃ v ∈ vs, Same v u) := by
  induction h with
  | nil => exact ⟨nofun, nofun⟩
  | cons h _ ih =>
    constructor
    · intro v hv
      rcases List.mem_cons.1 hv with rfl | hv
      · exact ⟨_, List.mem_cons_self, h⟩
      · obtain ⟨u, k1, k2⟩ := ih.1 v hv
        exact ⟨u, List.mem_cons_of_mem _ k1, k2⟩
    · intro v hv
      rcases List.mem_cons.1 hv with rfl | hv
      · exact ⟨_, List.mem_cons_self, h⟩
      · obtain ⟨u, k1, k2⟩ := ih.2 v hv
        exact ⟨u, List.mem_cons_of_mem _ k1, k2⟩

theorem same_nan {a b : F64} (h : Same a b) : a = .nan ↔ b = .nan := by
  rcases h with rfl | ⟨⟨s, rfl⟩, ⟨t, rfl⟩⟩
  · rfl
  · exact ⟨nofun, nofun⟩

theorem min_step (vs : List F64) : ∃ v, CallStep w Builtin.min.toFunc vs v := by
  refine ⟨vs.foldl F64.fmin (.inf false), rfl, fun us h => ⟨_, rfl, ?_⟩⟩
  obtain ⟨h1, h2⟩ := sameL_members h
  refine same_above (min_ne (min_fold vs)) (min_ne (min_fold us)) fun z hz => ?_
  rw [min_of (min_fold vs) z hz, min_of (min_fold us) z hz]
  constructor
  · intro k u hu hn
    obtain ⟨v, hv, e⟩ := h2 u hu
    exact Spec.leF_same (k v hv fun h => hn ((same_nan e).1 h)) e
  · intro k u hu hn
    obtain ⟨v, hv, e⟩ := h1 u hu
    exact Spec.leF_same (k v hv fun h => hn ((same_nan e).2 h)) e.symm

theorem max_step (vs : List F64) : ∃ v, CallStep w Builtin.max.toFunc vs v := by
  refine ⟨vs.foldl F64.fmax (.inf true), rfl, fun us h => ⟨_, rfl, ?_⟩⟩
  obtain ⟨h1, h2⟩ := sameL_members h
  refine same_below (max_ne (max_fold vs)) (max_ne (max_fold us)) fun z hz => ?_
  rw [max_of (max_fold vs) z hz, max_of (max_fold us) z hz]
  constructor
  · intro k u hu hn
    obtain ⟨v, hv, e⟩ := h2 u hu
    exact leF_same' (k v hv fun h => hn ((same_nan e).1 h)) e
  · intro k u hu hn
    obtain ⟨v, hv, e⟩ := h1 u hu
    exact leF_same' (k v hv fun h => hn ((same_nan e).2 h)) e.symm

/-- C108 for the text `max(s,min(t,u))` in builds without compile-time optimizations. -/
theorem C108_text (ho : cfg.opt = false) (hmin : lookup ctx b!"min" = Ident.fromStr b!"min")
    (hmax : lookup ctx b!"max" = Ident.fromStr b!"max") (s t u : Bytes) (x y z : Xpr)
    (hs : parse cfg w o ctx s = .ok x) (ht : parse cfg w o ctx t = .ok y) (hu : parse cfg w o ctx u = .ok z) :
    ∃ r, parse cfg w o ctx (clampText s t u) = .ok r ∧
      ∀ m lo a hi, x.eval w m = .ok lo → y.eval w m = .ok a → z.eval w m = .ok hi → LeF lo hi →
        ∃ v, r.eval w m = .ok v ∧ Clamped lo a hi v ∧ (a = .nan → Same v hi) := by
  obtain ⟨r, h, hr⟩ := clamp_parse cfg w o ctx ho hmin hmax s t u x y z hs ht hu
  refine ⟨r, h, fun m lo a hi h1 h2 h3 hl => ?_⟩
  obtain ⟨u, v, k1, k2, k3⟩ := clamp_run w h1 h2 h3
  exact ⟨v, by rw [← hr] at k3; exact k3, C108_clamp w lo a hi u v hl k1 k2⟩

/-- C108 for that text in every build that accepts it, where the parts have no doubtful step. -/
theorem C108_builds (cfg' : Cfg) (o' : Oracle) (hp : cfg.pejmdas = cfg'.pejmdas) (ho : cfg.opt = false)
    (hmin : lookup ctx b!"min" = Ident.fromStr b!"min") (hmax : lookup ctx b!"max" = Ident.fromStr b!"max")
    (s t u : Bytes) (x y z r : Xpr) (hs : parse cfg w o ctx s = .ok x) (ht : parse cfg w o ctx t = .ok y)
    (hu : parse cfg w o ctx u = .ok z) (hr : parse cfg' w o' ctx (clampText s t u) = .ok r)
    (hn : ∀ ts, Lex (clampText s t u) ts → ParensApart ts)
    (hw : (NoPower x.root ∧ NoPower y.root ∧ NoPower z.root) ∨ PowLaws w) (m : HMap F64) (lo a hi : F64)
    (h1 : Runs w m x.root lo) (h2 : Runs w m y.root a) (h3 : Runs w m z.root hi) (hl : LeF lo hi) :
    ∃ v, r.eval w m = .ok v ∧ Clamped lo a hi v ∧ (a = .nan → Same v hi) := by
  obtain ⟨p, hp', er⟩ := clamp_parse cfg w o ctx ho hmin hmax s t u x y z hs ht hu
  obtain ⟨b, hb⟩ := min_step w [a, hi]
  obtain ⟨v, hv⟩ := max_step w [lo, b]
  have run : Runs w m p.root v := by
    rw [er]
    exact .call (.cons h1 (.cons (.call (.cons h2 (.cons h3 .nil)) hb) .nil)) hv
  obtain ⟨-, v', k1, k2⟩ := C16_value_partial cfg cfg' w o o' ctx _ p r m v hp ho
    (hw.imp_left fun h => by
      rw [er]
      simp only [noPower_call, List.mem_cons, List.not_mem_nil, or_false, forall_eq_or_imp, forall_eq]
      exact ⟨h.1, h.2.1, h.2.2⟩) hn hp' hr run
  have hg : Gives w b!"min" [a, hi] b := ⟨_, rfl, hb.1⟩
  have hg' : Gives w b!"max" [lo, b] v := ⟨_, rfl, hv.1⟩
  obtain ⟨⟨c1, c2, c3, c4, c5⟩, c6⟩ := C108_clamp w lo a hi b v hl hg hg'
  have e := k2.symm
  exact ⟨v', k1, ⟨Spec.leF_same c1 k2, leF_same' c2 k2, fun p q => e.trans (c3 p q), fun p => e.trans (c4 p),
    fun p => e.trans (c5 p)⟩, fun p => e.trans (c6 p)⟩

end

/-- `max(y,min(x*x,z))` at `7`, `0`, `10` in an optimizing build: the hypotheses of `C108_builds` hold,
and the value is the upper bound. -/
example : ∃ r, parse0 cfgOpt b!"max(y,min(x*x,z))" = .ok r ∧
    ∃ v, r.eval w0 (((HMap.empty.insert b!"x" (F64.ofNat 7)).insert b!"y" F64.f0).insert b!"z" (F64.ofNat 10)) = .ok v ∧
      Same v (F64.ofNat 10) := by
  have hr : ∃ r, parse0 cfgOpt b!"max(y,min(x*x,z))" = .ok r := ⟨⟨.call Builtin.max.toFunc [.var b!"y",
    .call Builtin.min.toFunc [.bin .times (.var b!"x") (.var b!"x"), .var b!"z"]], [b!"y", b!"x", b!"z"]⟩,
    by decide +kernel⟩
  obtain ⟨r, hr⟩ := hr
  refine ⟨r, hr, ?_⟩
  have hne : F64.mul (F64.ofNat 7) (F64.ofNat 7) ≠ .nan := by decide +kernel
  have np : ∀ v, NoPower (.var v) := by intro v l r h; cases h
  have ht : value F64.f0 = some 0 ∧ value (F64.ofNat 10) = some 10 ∧
      value (F64.mul (F64.ofNat 7) (F64.ofNat 7)) = some 49 := by decide +kernel
  obtain ⟨v, h1, h2, -⟩ := C108_builds cfgPlain w0 Oracle.id Context.default cfgOpt Oracle.id rfl rfl rfl rfl
    b!"y" b!"x*x" b!"z" ⟨.var b!"y", [b!"y"]⟩ ⟨.bin .times (.var b!"x") (.var b!"x"), [b!"x"]⟩
    ⟨.var b!"z", [b!"z"]⟩ r (by decide +kernel) (by decide +kernel) (by decide +kernel) hr
    (by
      rintro ts h p b q rfl ⟨c, hc, hd⟩
      have := lex_bytes h b (by simp) c (List.mem_of_mem_head? hc)
      exact absurd hd ((by decide : ∀ c ∈ clampText b!"y" b!"x*x" b!"z", ¬ digit c) c this))
    (.inl ⟨np _, noPower_bin.2 ⟨by decide, np _, np _⟩, np _⟩)
    (((HMap.empty.insert b!"x" (F64.ofNat 7)).insert b!"y" F64.f0).insert b!"z" (F64.ofNat 10)) F64.f0 _ (F64.ofNat 10) (.var rfl)
    (.bin (.var rfl) (.var rfl) (.times hne)) (.var rfl) (.fin ht.1 ht.2.1 (by norm_num))
  exact ⟨v, h1, h2.2.2.2.2 (.fin ht.2.1 ht.2.2 (by norm_num))⟩

/-- `2 * x + 1` rises with `x`: the hypotheses of `C108_through` hold at `1`, `4` and `2`. -/
example : ∃ r s, eval w0 (HMap.empty.insert b!"x" F64.f1) (.bin .plus (.bin .times (.num (F64.ofNat 2)) vx) (.num F64.f1)) = .ok r ∧
    eval w0 (HMap.empty.insert b!"x" (F64.ofNat 4)) (.bin .plus (.bin .times (.num (F64.ofNat 2)) vx) (.num F64.f1)) = .ok s ∧
    Same r (F64.ofNat 3) ∧ Same s (F64.ofNat 9) := by
  refine C108_through w0 HMap.empty b!"x" (fun _ => False) true _ (.add (.timesL ?_) .num) [F64.f1, F64.ofNat 4, F64.ofNat 2]
    [F64.ofNat 3, F64.ofNat 9, F64.ofNat 5] nofun nofun ?_ ?_ F64.f1 (F64.ofNat 4) (F64.ofNat 3) (F64.ofNat 9) ?_ ?_ ?_ ?_
  · rw [ofNat_sign]; exact .var fun _ => rfl
  · intro a ha
    have hs : ∀ a ∈ [F64.f1, F64.ofNat 4, F64.ofNat 2], a ≠ .nan ∧
        F64.mul (F64.ofNat 2) a ≠ .nan ∧ F64.add (F64.mul (F64.ofNat 2) a) F64.f1 ≠ .nan := by decide +kernel
    obtain ⟨h1, h2, h3⟩ := hs a ha
    refine ⟨h1, False.elim, fun t ht h => ?_⟩
    have n2 : F64.ofNat 2 ≠ .nan := by decide +kernel
    have n1 : F64.f1 ≠ .nan := by decide +kernel
    rcases ht with _ | ht | ht
    · exact h3 (Except.ok.inj h)
    · rcases ht with _ | ht | ht
      · exact h2 (Except.ok.inj h)
      · cases ht; exact n2 (Except.ok.inj h)
      · cases ht; exact h1 (Except.ok.inj h)
    · cases ht; exact n1 (Except.ok.inj h)
  · exact .cons (by decide +kernel) (.cons (by decide +kernel) (.cons (by decide +kernel) .nil))
  all_goals exact ⟨_, rfl, by decide +kernel⟩

/-- With NaN `min` and `max` do not absorb each other: `min(a, max(a, 1))` is `1` where `a` is NaN. -/
example (w : World) : Gives w b!"max" [.nan, F64.f1] F64.f1 ∧ Gives w b!"min" [.nan, F64.f1] F64.f1 ∧
    ¬ Same F64.f1 .nan := by
  have h1 : [F64.nan, F64.f1].foldl F64.fmax (.inf true) = F64.f1 := by decide +kernel
  have h2 : [F64.nan, F64.f1].foldl F64.fmin (.inf false) = F64.f1 := by decide +kernel
  refine ⟨by have := max_gives w [F64.nan, F64.f1]; rwa [h1] at this,
    by have := min_gives w [F64.nan, F64.f1]; rwa [h2] at this, fun h => ?_⟩
  have := (same_nan h).2 rfl
  revert this; decide +kernel

end Props
end Xprs
