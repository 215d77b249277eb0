import Verif.Lemmas.Whole
import Verif.Props.Decimals
import Verif.Props.Exact
import Verif.Props.Lattice
import Mathlib.Tactic.IntervalCases
/-
Property C115: whole numbers, with quotients that are brought to whole numbers.
-/
namespace Xprs
namespace Props
open Spec
set_option exponentiation.threshold 4096

/-- The values of the floats are these whole numbers. -/
def Reads (vs : List F64) (zs : List ℤ) : Prop := List.Forall₂ (fun v (z : ℤ) => value v = some (z : ℚ)) vs zs

theorem reads_same {vs us : List F64} {zs : List ℤ} (h : Reads vs zs) (hs : SameL vs us) : Reads us zs := by
  induction h generalizing us with
  | nil => cases hs; exact .nil
  | cons h _ ih => cases hs with | cons h1 h2 => exact .cons (value_same h h1) (ih h2)

/-- A call whose result is determined by the values of the arguments. -/
theorem step_of_reads {w : World} {f : Func} {zs : List ℤ} {z : ℤ} {vs : List F64} (h : Reads vs zs)
    (hf : ∀ us, Reads us zs → ∃ u, callFn w f us = .ok u ∧ value u = some (z : ℚ)) :
    ∃ v, CallStep w f vs v ∧ value v = some (z : ℚ) := by
  obtain ⟨v, h1, h2⟩ := hf vs h
  refine ⟨v, ⟨h1, fun us hs => ?_⟩, h2⟩
  obtain ⟨u, h3, h4⟩ := hf us (reads_same h hs)
  exact ⟨u, h3, same_of_value h2 h4⟩

theorem reads_mem {us : List F64} {zs : List ℤ} (h : Reads us zs) :
    (∀ u ∈ us, ∃ z ∈ zs, value u = some (z : ℚ)) ∧ ∀ z ∈ zs, ∃ u ∈ us, value u = some (z : ℚ) := by
  induction h with
  | nil => simp
  | @cons u z us zs h _ ih =>
    constructor
    · intro x hx
      rcases List.mem_cons.1 hx with rfl | hx
      · exact ⟨z, List.mem_cons_self, h⟩
      · obtain ⟨y, h1, h2⟩ := ih.1 x hx
        exact ⟨y, List.mem_cons_of_mem _ h1, h2⟩
    · intro x hx
      rcases List.mem_cons.1 hx with rfl | hx
      · exact ⟨u, List.mem_cons_self, h⟩
      · obtain ⟨y, h1, h2⟩ := ih.2 x hx
        exact ⟨y, List.mem_cons_of_mem _ h1, h2⟩

theorem reads_min {us : List F64} {zs : List ℤ} {a : ℤ} (h : Reads us zs) (ha : a ∈ zs) (hm : ∀ z ∈ zs, a ≤ z) :
    value (us.foldl F64.fmin (.inf false)) = some (a : ℚ) := by
  obtain ⟨h1, h2⟩ := reads_mem h
  obtain ⟨u, hu, hv⟩ := h2 a ha
  obtain ⟨h3, -, h4⟩ := (min_fold us).2 ⟨u, hu, ne_nan_of_value hv⟩
  obtain ⟨z, hz, e⟩ := h1 _ h3
  have h5 := leF_value (h4 u hu (ne_nan_of_value hv)) e hv
  have h6 := hm z hz
  have h7 : z ≤ a := by exact_mod_cast h5
  rw [e, le_antisymm h7 h6]

theorem reads_max {us : List F64} {zs : List ℤ} {a : ℤ} (h : Reads us zs) (ha : a ∈ zs) (hm : ∀ z ∈ zs, z ≤ a) :
    value (us.foldl F64.fmax (.inf true)) = some (a : ℚ) := by
  obtain ⟨h1, h2⟩ := reads_mem h
  obtain ⟨u, hu, hv⟩ := h2 a ha
  obtain ⟨h3, -, h4⟩ := (max_fold us).2 ⟨u, hu, ne_nan_of_value hv⟩
  obtain ⟨z, hz, e⟩ := h1 _ h3
  have h5 := leF_value (h4 u hu (ne_nan_of_value hv)) hv e
  have h6 := hm z hz
  have h7 : a ≤ z := by exact_mod_cast h5
  rw [e, le_antisymm h6 h7]

theorem reads_map {us : List F64} {zs : List ℤ} (h : Reads us zs) :
    us.map value = zs.map fun z : ℤ => some (z : ℚ) := by
  induction h with
  | nil => rfl
  | cons h _ ih => rw [List.map_cons, List.map_cons, h, ih]

theorem reads_sum {w : World} {us : List F64} {zs : List ℤ} (h : Reads us zs) (hs : (zs.map Int.natAbs).sum ≤ 2 ^ 53) :
    value (sumF w us) = some ((zs.sum : ℤ) : ℚ) := by
  have := sum_exact us (F64.zero w.sumInit) 0 zs (by rw [value_zero]; simp) (reads_map h) (by simpa using hs)
  simpa [sumF] using this

/-- A function that makes a whole number of a finite one. -/
theorem pick_step (w : World) {f : Builtin} {y : F64} {r : ℚ} {N : ℤ} (hf : f ∈ toWhole) (hy : value y = some r)
    (hp : Picks f r N) : ∃ v, CallStep w f.toFunc [y] v ∧ value v = some (N : ℚ) := by
  obtain ⟨v, M, -, h2, h3, h4⟩ := whole_step w hf hy
  rw [picks_unique h3 hp] at h2
  exact ⟨v, h4, h2⟩

theorem picks_self {f : Builtin} (hf : f ∈ toWhole) (N : ℤ) : Picks f (N : ℚ) N := by
  simp only [toWhole, List.mem_cons, List.not_mem_nil, or_false] at hf
  rcases hf with rfl | rfl | rfl | rfl
  · exact ⟨le_rfl, by linarith⟩
  · exact ⟨by linarith, le_rfl⟩
  · refine ⟨?_, ?_⟩ <;> rw [_root_.sub_self, abs_zero]
    · norm_num
    · intro h; norm_num at h
  · exact ⟨le_rfl, by rw [_root_.sub_self, abs_zero]; norm_num⟩

theorem quotient_finite {x y : F64} {i j : ℤ} (hx : value x = some (i : ℚ)) (hy : value y = some (j : ℚ)) (hj : j ≠ 0)
    (hi : |i| < 2 ^ 53) : ∃ r, value (F64.div x y) = some r := by
  have hjq : (j : ℚ) ≠ 0 := by exact_mod_cast hj
  obtain ⟨r, h, -⟩ := round_abs (div_rounds hx hy hjq) (by
    have hj1 : 1 ≤ |(j : ℚ)| := by exact_mod_cast Int.one_le_abs hj
    have hi' : |(i : ℚ)| ≤ 2 ^ 53 := by exact_mod_cast hi.le
    rw [abs_div, div_le_iff₀ (by linarith)]
    have : (2 : ℚ) ^ 53 ≤ 2 ^ 1023 := pow_le_pow_right₀ (by norm_num) (by norm_num)
    nlinarith)
  exact ⟨r, h⟩

theorem quotient_runs {w : World} {m : HMap F64} {l r : Elem} {f : Builtin} {i j N : ℤ} {x y : F64}
    (hf : (f = .floor ∨ f = .ceil ∨ f = .trunc) ∧ |i| < 2 ^ 53 ∨ f = .round ∧ |i| < 2 ^ 52)
    (hl : Runs w m l x) (hr : Runs w m r y) (hx : value x = some (i : ℚ)) (hy : value y = some (j : ℚ)) (hj : j ≠ 0)
    (hp : Picks f (i / j) N) : ∃ v, Runs w m (app f (.bin .divide l r)) v ∧ value v = some (N : ℚ) := by
  have hjq : (j : ℚ) ≠ 0 := by exact_mod_cast hj
  have hf2 : f ∈ toWhole ∧ |i| < 2 ^ 53 := by
    rcases hf with ⟨rfl | rfl | rfl, h⟩ | ⟨rfl, h⟩
    · exact ⟨by decide, h⟩
    · exact ⟨by decide, h⟩
    · exact ⟨by decide, h⟩
    · exact ⟨by decide, by omega⟩
  obtain ⟨q, hq⟩ := quotient_finite hx hy hj hf2.2
  have h1 := (picks_quotient hj ⟨y, hy⟩ hf (div_rounds hx hy hjq) hq).2 hp
  obtain ⟨v, h2, h3⟩ := pick_step w hf2.1 hq h1
  exact ⟨v, .call (.cons (.bin hl hr (.divide (ne_nan_of_value hq) (not_zero_of_value hy hjq))) .nil) h2, h3⟩

mutual
theorem tallies_runs {w : World} {m : HMap F64} : ∀ {e : Elem} {z : ℤ}, Tallies m e z →
    ∃ v, Runs w m e v ∧ value v = some (z : ℚ)
  | _, _, .num h _ => ⟨_, .num, h⟩
  | _, _, .var h1 h2 _ => ⟨_, .var h1, h2⟩
  | _, _, .pos h => by
    obtain ⟨v, h1, h2⟩ := tallies_runs (w := w) h
    exact ⟨v, .un h1 .plus, h2⟩
  | _, _, .neg h => by
    obtain ⟨v, h1, h2⟩ := tallies_runs (w := w) h
    exact ⟨_, .un h1 .minus, by push_cast; exact neg_value h2⟩
  | _, _, .factorial h hs => by
    obtain ⟨v, h1, h2⟩ := tallies_runs (w := w) h
    obtain ⟨u, h3, h4⟩ := factorial_exact h2 hs
    exact ⟨u, .un h1 (.factorial h3), h4⟩
  | _, _, .plus hl hr h => by
    obtain ⟨v, h1, h2⟩ := tallies_runs (w := w) hl
    obtain ⟨u, h3, h4⟩ := tallies_runs (w := w) hr
    have k := add_exact h2 h4 (by have := small_inF64 h; push_cast at this; exact this)
    exact ⟨_, .bin h1 h3 (.plus (ne_nan_of_value k)), by push_cast; exact k⟩
  | _, _, .minus hl hr h => by
    obtain ⟨v, h1, h2⟩ := tallies_runs (w := w) hl
    obtain ⟨u, h3, h4⟩ := tallies_runs (w := w) hr
    have k := sub_exact h2 h4 (by have := small_inF64 h; push_cast at this; exact this)
    exact ⟨_, .bin h1 h3 (.minus (ne_nan_of_value k)), by push_cast; exact k⟩
  | _, _, .times hl hr h => by
    obtain ⟨v, h1, h2⟩ := tallies_runs (w := w) hl
    obtain ⟨u, h3, h4⟩ := tallies_runs (w := w) hr
    have k := mul_exact h2 h4 (by have := small_inF64 h; push_cast at this; exact this)
    exact ⟨_, .bin h1 h3 (.times (ne_nan_of_value k)), by push_cast; exact k⟩
  | _, _, .divide (a := a) (b := b) hl hr h0 h => by
    obtain ⟨v, h1, h2⟩ := tallies_runs (w := w) hl
    obtain ⟨u, h3, h4⟩ := tallies_runs (w := w) hr
    have hb : (b : ℚ) ≠ 0 := by exact_mod_cast h0
    have e : ((a * b : ℤ) : ℚ) / b = a := by push_cast; field_simp
    have k := div_exact h2 h4 hb (by rw [e]; exact small_inF64 h)
    exact ⟨_, .bin h1 h3 (.divide (ne_nan_of_value k) (not_zero_of_value h4 hb)), by rw [k, e]⟩
  | _, _, .modulo (a := a) (b := b) hl hr h0 => by
    obtain ⟨v, h1, h2⟩ := tallies_runs (w := w) hl
    obtain ⟨u, h3, h4⟩ := tallies_runs (w := w) hr
    have hb : (b : ℚ) ≠ 0 := by exact_mod_cast h0
    have k := rem_exact h2 h4 hb
    rw [trunc_tmod a b h0] at k
    exact ⟨_, .bin h1 h3 (.modulo (ne_nan_of_value k) fun _ => whole_of_value h2), k⟩
  | _, _, .quotient hf hl hr h0 ha hp => by
    obtain ⟨v, h1, h2⟩ := tallies_runs (w := w) hl
    obtain ⟨u, h3, h4⟩ := tallies_runs (w := w) hr
    exact quotient_runs (.inl ⟨hf, ha⟩) h1 h3 h2 h4 h0 hp
  | _, _, .rounded hl hr h0 ha hp => by
    obtain ⟨v, h1, h2⟩ := tallies_runs (w := w) hl
    obtain ⟨u, h3, h4⟩ := tallies_runs (w := w) hr
    exact quotient_runs (.inr ⟨rfl, ha⟩) h1 h3 h2 h4 h0 hp
  | _, _, .whole (f := f) (a := a) hf h => by
    obtain ⟨v, h1, h2⟩ := tallies_runs (w := w) h
    have hf : f ∈ toWhole := by rcases hf with rfl | rfl | rfl | rfl <;> decide
    obtain ⟨u, h3, h4⟩ := pick_step w hf h2 (picks_self hf a)
    exact ⟨u, .call (.cons h1 .nil) h3, h4⟩
  | _, _, .abs (a := a) h => by
    obtain ⟨v, h1, h2⟩ := tallies_runs (w := w) h
    obtain ⟨u, h3, h4⟩ := step_of_reads (w := w) (f := Builtin.abs.toFunc) (z := |a|) (.cons h2 .nil : Reads [v] [a]) (by
      intro us hu
      cases hu with
      | cons k1 k2 => cases k2; exact ⟨_, rfl, by push_cast; exact (abs_value k1).1⟩)
    exact ⟨u, .call (.cons h1 .nil) h3, h4⟩
  | _, _, .min h ha hm => by
    obtain ⟨vs, h1, h2⟩ := talliesL_runs (w := w) h
    obtain ⟨u, h3, h4⟩ := step_of_reads (w := w) (f := Builtin.min.toFunc) h2 fun us hu => ⟨_, rfl, reads_min hu ha hm⟩
    exact ⟨u, .call h1 h3, h4⟩
  | _, _, .max h ha hm => by
    obtain ⟨vs, h1, h2⟩ := talliesL_runs (w := w) h
    obtain ⟨u, h3, h4⟩ := step_of_reads (w := w) (f := Builtin.max.toFunc) h2 fun us hu => ⟨_, rfl, reads_max hu ha hm⟩
    exact ⟨u, .call h1 h3, h4⟩
  | _, _, .sum _ h hs => by
    obtain ⟨vs, h1, h2⟩ := talliesL_runs (w := w) h
    obtain ⟨u, h3, h4⟩ := step_of_reads (w := w) (f := Builtin.sum.toFunc) h2 fun us hu => ⟨_, rfl, reads_sum hu hs⟩
    exact ⟨u, .call h1 h3, h4⟩
theorem talliesL_runs {w : World} {m : HMap F64} : ∀ {es : List Elem} {zs : List ℤ}, TalliesL m es zs →
    ∃ vs, RunsL w m es vs ∧ Reads vs zs
  | _, _, .nil => ⟨_, .nil, .nil⟩
  | _, _, .cons h hs => by
    obtain ⟨v, h1, h2⟩ := tallies_runs (w := w) h
    obtain ⟨vs, h3, h4⟩ := talliesL_runs (w := w) hs
    exact ⟨v :: vs, .cons h1 h3, .cons h2 h4⟩
end

theorem tree_call {b : Builtin} {es : List Elem} (hb : b.nbArgs = none) (hne : es ≠ [])
    (h : ∀ e ∈ es, Proper (fun f => ∃ b : Builtin, f = b.toFunc) e ∧ NoPower e) :
    Proper (fun f => ∃ b : Builtin, f = b.toFunc) (.call b.toFunc es) ∧ NoPower (.call b.toFunc es) :=
  ⟨.call ⟨b, rfl⟩ ⟨List.length_pos_of_ne_nil hne, fun n hn => by
    have : b.nbArgs = some n := hn
    rw [hb] at this
    cases this⟩ fun e he => (h e he).1, noPower_call.2 fun e he => (h e he).2⟩

theorem tree_app {b : Builtin} {e : Elem} (hb : b.nbArgs = some 1)
    (h : Proper (fun f => ∃ b : Builtin, f = b.toFunc) e ∧ NoPower e) :
    Proper (fun f => ∃ b : Builtin, f = b.toFunc) (app b e) ∧ NoPower (app b e) :=
  ⟨.call ⟨b, rfl⟩ ⟨by simp, fun n hn => by
    have : b.nbArgs = some n := hn
    rw [hb] at this
    cases this
    rfl⟩ fun a ha => by rw [List.mem_singleton.1 ha]; exact h.1,
    noPower_call.2 fun a ha => by rw [List.mem_singleton.1 ha]; exact h.2⟩

mutual
theorem tallies_tree {m : HMap F64} : ∀ {e : Elem} {z : ℤ}, Tallies m e z →
    Proper (fun f => ∃ b : Builtin, f = b.toFunc) e ∧ NoPower e
  | _, _, .num _ _ => ⟨.num _, by intro l r h; cases h⟩
  | _, _, .var _ _ _ => ⟨.var _, by intro l r h; cases h⟩
  | _, _, .pos h => ⟨.un (.inl rfl) (tallies_tree h).1, noPower_un.2 (tallies_tree h).2⟩
  | _, _, .neg h => ⟨.un (.inr (.inl rfl)) (tallies_tree h).1, noPower_un.2 (tallies_tree h).2⟩
  | _, _, .factorial h _ => ⟨.un (.inr (.inr rfl)) (tallies_tree h).1, noPower_un.2 (tallies_tree h).2⟩
  | _, _, .plus h k _ => ⟨.bin (by decide) (tallies_tree h).1 (tallies_tree k).1,
      noPower_bin.2 ⟨by decide, (tallies_tree h).2, (tallies_tree k).2⟩⟩
  | _, _, .minus h k _ => ⟨.bin (by decide) (tallies_tree h).1 (tallies_tree k).1,
      noPower_bin.2 ⟨by decide, (tallies_tree h).2, (tallies_tree k).2⟩⟩
  | _, _, .times h k _ => ⟨.bin (by decide) (tallies_tree h).1 (tallies_tree k).1,
      noPower_bin.2 ⟨by decide, (tallies_tree h).2, (tallies_tree k).2⟩⟩
  | _, _, .divide h k _ _ => ⟨.bin (by decide) (tallies_tree h).1 (tallies_tree k).1,
      noPower_bin.2 ⟨by decide, (tallies_tree h).2, (tallies_tree k).2⟩⟩
  | _, _, .modulo h k _ => ⟨.bin (by decide) (tallies_tree h).1 (tallies_tree k).1,
      noPower_bin.2 ⟨by decide, (tallies_tree h).2, (tallies_tree k).2⟩⟩
  | _, _, .quotient (f := f) hf h k _ _ _ => tree_app (by rcases hf with rfl | rfl | rfl <;> rfl)
      ⟨.bin (by decide) (tallies_tree h).1 (tallies_tree k).1,
        noPower_bin.2 ⟨by decide, (tallies_tree h).2, (tallies_tree k).2⟩⟩
  | _, _, .rounded h k _ _ _ => tree_app rfl ⟨.bin (by decide) (tallies_tree h).1 (tallies_tree k).1,
      noPower_bin.2 ⟨by decide, (tallies_tree h).2, (tallies_tree k).2⟩⟩
  | _, _, .whole hf h => tree_app (by rcases hf with rfl | rfl | rfl | rfl <;> rfl) (tallies_tree h)
  | _, _, .abs h => tree_app rfl (tallies_tree h)
  | _, _, .min (es := es) h ha _ => tree_call (b := .min) rfl (by
      rintro rfl
      cases h
      cases ha) (talliesL_tree h)
  | _, _, .max h ha _ => tree_call (b := .max) rfl (by
      rintro rfl
      cases h
      cases ha) (talliesL_tree h)
  | _, _, .sum hne h _ => tree_call (b := .sum) rfl hne (talliesL_tree h)
theorem talliesL_tree {m : HMap F64} : ∀ {es : List Elem} {zs : List ℤ}, TalliesL m es zs →
    ∀ e ∈ es, Proper (fun f => ∃ b : Builtin, f = b.toFunc) e ∧ NoPower e
  | _, _, .nil => fun _ h => by cases h
  | _, _, .cons h k => fun e he => by
    cases he with
    | head => exact tallies_tree h
    | tail _ he => exact talliesL_tree k e he
end

/-! ### C115 -/

/-- C115: arithmetic of whole numbers with quotients that `floor`, `ceil`, `trunc` or `round` makes whole,
with `min`, `max`, `sum` and `abs`, is exact as long as no result is beyond `2⁵³`: before
simplification, in both evaluators, and after it, in every build. -/
theorem C115_whole (cfg : Cfg) (w : World) (m : HMap F64) (e : Elem) (z : ℤ) (h : Tallies m e z) :
    (∃ v, eval w m e = .ok v ∧ evalU w m e = .ok v ∧ value v = some (z : ℚ)) ∧
    ∃ e', simplify cfg w e = .ok e' ∧ ∃ v, eval w m e' = .ok v ∧ value v = some (z : ℚ) := by
  obtain ⟨v, h1, h2⟩ := tallies_runs (w := w) h
  have h3 := runs_eval _ h1
  refine ⟨⟨v, h3, by rw [evalU_eq, h3]; rfl, h2⟩, ?_⟩
  obtain ⟨e', h4, -⟩ := simplify_proper cfg w (by rintro _ ⟨b, rfl⟩; exact builtin_total w b) e (tallies_tree h).1
  obtain ⟨u, h5, h6⟩ := simplify_runs' (.inl (tallies_tree h).2) h1 h4
  exact ⟨e', h4, u, runs_eval _ h5, value_same h2 h6⟩

/-- C115: the same for `simplify_for`. -/
theorem C115_fixed (cfg : Cfg) (w : World) (m : HMap F64) (e : Xpr) (x : Bytes) (c : F64) (z : ℤ)
    (h : Tallies (m.insert x c) e.root z) :
    ∃ e', e.simplifyFor cfg w x c = .ok e' ∧ ∃ v, e'.eval w m = .ok v ∧ value v = some (z : ℚ) := by
  obtain ⟨v, h1, h2⟩ := tallies_runs (w := w) h
  obtain ⟨e', h4, -⟩ := simplifyFor_proper cfg w (by rintro _ ⟨b, rfl⟩; exact builtin_total w b) x c e.root (tallies_tree h).1
  have h5 : e.simplifyFor cfg w x c = .ok ⟨e', Xpr.removeVar e.vars x⟩ := by
    unfold Xpr.simplifyFor
    rw [h4]
  obtain ⟨-, v', h6, h7⟩ := C29_partial cfg w m e _ x c v (.inl (tallies_tree h).2) h1 h5
  exact ⟨_, h5, v', h6, value_same h2 h7⟩

/-- C115: the same for texts, in every build. -/
theorem C115_text (cfg cfg' : Cfg) (w : World) (o o' : Oracle) (ctx : Context) (input : Bytes)
    (x y : Xpr) (m : HMap F64) (z : ℤ) (hp : cfg.pejmdas = cfg'.pejmdas) (ho : cfg.opt = false)
    (hn : ∀ ts, Lex input ts → ParensApart ts)
    (h : parse cfg w o ctx input = .ok x) (h' : parse cfg' w o' ctx input = .ok y) (hz : Tallies m x.root z) :
    (∃ v, x.eval w m = .ok v ∧ value v = some (z : ℚ)) ∧ ∃ v, y.eval w m = .ok v ∧ value v = some (z : ℚ) := by
  obtain ⟨v, h1, h2⟩ := tallies_runs (w := w) hz
  obtain ⟨h3, u, h4, h5⟩ := C16_value_partial cfg cfg' w o o' ctx input x y m v hp ho (.inl (tallies_tree hz).2) hn h h' h1
  exact ⟨⟨v, h3, h2⟩, u, h4, value_same h2 h5⟩

/-- C115: for whole numbers, the dividend smaller than `2⁵³`, the computed quotient is whole exactly if the
divisor divides the dividend; and exactly then the remainder is zero. -/
theorem C115_divides (w : World) (m : HMap F64) (a b : Elem) (x y : F64) (i j : ℤ) (ha : eval w m a = .ok x)
    (hb : eval w m b = .ok y) (hx : value x = some (i : ℚ)) (hy : value y = some (j : ℚ)) (hj : j ≠ 0)
    (hi : |i| < 2 ^ 53) : ∃ u v, eval w m (.bin .divide a b) = .ok u ∧ eval w m (.bin .modulo a b) = .ok v ∧
      ((∃ k : ℤ, value u = some (k : ℚ)) ↔ j ∣ i) ∧ (value v = some 0 ↔ j ∣ i) := by
  have hjq : (j : ℚ) ≠ 0 := by exact_mod_cast hj
  obtain ⟨q, hq⟩ := quotient_finite hx hy hj hi
  have hr := div_rounds hx hy hjq
  refine ⟨_, _, eval_divide ha hb, by rw [eval, ha, hb]; rfl, ?_, ?_⟩
  · rw [hq]
    constructor
    · rintro ⟨k, hk⟩
      cases hk
      have h1 := (picks_quotient hj ⟨y, hy⟩ (.inl ⟨.inl rfl, hi⟩) hr hq).1 (picks_self (f := .floor) (by decide) k)
      have h2 := (picks_quotient hj ⟨y, hy⟩ (.inl ⟨.inr (.inl rfl), hi⟩) hr hq).1 (picks_self (f := .ceil) (by decide) k)
      have h3 : (i : ℚ) / j = k := le_antisymm h2.2 h1.1
      rw [div_eq_iff hjq] at h3
      exact ⟨k, by rw [mul_comm]; exact_mod_cast h3⟩
    · rintro ⟨k, rfl⟩
      refine ⟨k, ?_⟩
      have e : ((j * k : ℤ) : ℚ) / j = k := by push_cast; field_simp
      have hk : Small k := by
        have h1 := Int.one_le_abs hj
        have h2 := abs_nonneg k
        rw [abs_mul] at hi
        show |k| ≤ 2 ^ 53
        nlinarith
      have := div_exact hx hy hjq (by rw [e]; exact small_inF64 hk)
      rw [hq, e] at this
      exact this
  · have k := rem_exact hx hy hjq
    rw [trunc_tmod i j hj] at k
    show value (F64.rem x y) = some 0 ↔ _
    rw [k, ← Int.cast_zero, Option.some_inj, Int.cast_inj, Int.dvd_iff_tmod_eq_zero]

/-- C115: `a - b * f(a / b)` is exactly what remains of `a`; with `floor` the remainder with the sign of `b`,
with `trunc` that with the sign of `a`, the value of `a % b`. -/
theorem C115_rest (w : World) (m : HMap F64) (f : Builtin) (a b : Elem) (i j N : ℤ)
    (hf : f = .floor ∨ f = .ceil ∨ f = .trunc) (ha : Tallies m a i) (hb : Tallies m b j)
    (hj : j ≠ 0) (hs : |i| + |j| ≤ 2 ^ 53) (hN : Picks f (i / j) N) :
    ∃ v, eval w m (restTree f a b) = .ok v ∧ value v = some ((i - j * N : ℤ) : ℚ) ∧ |i - j * N| < |j| ∧
      (f = .floor → i - j * N = i.fmod j) ∧
      (f = .trunc → ∃ u, eval w m (.bin .modulo a b) = .ok u ∧ value u = value v) := by
  have hjq : (j : ℚ) ≠ 0 := by exact_mod_cast hj
  have hj1 := Int.one_le_abs hj
  have hnear : |(i : ℚ) / j - N| < 1 := by
    rcases hf with rfl | rfl | rfl
    · exact abs_lt.2 ⟨by linarith [hN.1], by linarith [hN.2]⟩
    · exact abs_lt.2 ⟨by linarith [hN.1], by linarith [hN.2]⟩
    · exact hN.2
  have hrest : |i - j * N| < |j| := by
    have e : ((i - j * N : ℤ) : ℚ) = ((i : ℚ) / j - N) * j := by push_cast; field_simp
    have : |((i - j * N : ℤ) : ℚ)| < |(j : ℚ)| := by
      rw [e, abs_mul]
      have : 0 < |(j : ℚ)| := abs_pos.2 hjq
      nlinarith
    exact_mod_cast this
  have hprod : |j * N| ≤ 2 ^ 53 := by
    have := abs_sub_abs_le_abs_sub (j * N) i
    rw [abs_sub_comm] at this
    omega
  have hsmall : |i - j * N| ≤ 2 ^ 53 := by
    have := abs_nonneg i
    omega
  have ht : Tallies m (restTree f a b) (i - j * N) :=
    .minus ha (.times hb (.quotient hf ha hb hj (by omega) hN) hprod) hsmall
  obtain ⟨v, hv, hv'⟩ := tallies_runs (w := w) ht
  refine ⟨v, runs_eval _ hv, hv', hrest, ?_, ?_⟩
  · rintro rfl
    have e : i = i - j * N + j * N := by ring
    have e' : i.fmod j = (i - j * N).fmod j := by
      conv_lhs => rw [e, Int.add_mul_fmod_self_left]
    rw [e']
    have hlow : (N : ℚ) ≤ i / j := hN.1
    rcases lt_or_gt_of_ne hj with hneg | hpos
    · have hq : (j : ℚ) < 0 := by exact_mod_cast hneg
      rw [le_div_iff_of_neg hq] at hlow
      have h1 : i ≤ N * j := by exact_mod_cast hlow
      rw [abs_lt, abs_of_neg hneg] at hrest
      have := Int.fmod_eq_of_lt (a := -(i - j * N)) (b := -j) (by linarith) (by linarith [hrest.1])
      rw [Int.neg_fmod_neg] at this
      omega
    · have hq : (0 : ℚ) < j := by exact_mod_cast hpos
      rw [le_div_iff₀ hq] at hlow
      have h1 : N * j ≤ i := by exact_mod_cast hlow
      rw [abs_lt, abs_of_pos hpos] at hrest
      exact (Int.fmod_eq_of_lt (by linarith) hrest.2).symm
  · rintro rfl
    have h1 : N = truncRat ((i : ℚ) / j) := picks_unique hN (trunc_picks _)
    have := trunc_tmod i j hj
    rw [← h1] at this
    obtain ⟨u, hu, hu'⟩ := tallies_runs (w := w) (Tallies.modulo ha hb hj)
    refine ⟨u, runs_eval _ hu, ?_⟩
    rw [hu', hv', ← this]
    push_cast
    rfl

/-- C115: the smaller bound for `round` is needed: `(3 * 2⁵¹ + 1) / 3` is computed as `2⁵¹ + 1 / 2`, which
`round` takes up to `2⁵¹ + 1`. -/
theorem C115_limit (w : World) (m : HMap F64) :
    ∃ v, eval w m (app .round (.bin .divide (.num (F64.ofNat (3 * 2 ^ 51 + 1))) (.num (F64.ofNat 3)))) = .ok v ∧
      value v = some ((2 ^ 51 + 1 : ℤ) : ℚ) ∧ Picks .round (((3 * 2 ^ 51 + 1 : ℤ) : ℚ) / (3 : ℤ)) (2 ^ 51) := by
  have hd : value (F64.round (F64.div (F64.ofNat (3 * 2 ^ 51 + 1)) (F64.ofNat 3))) = some ((2 ^ 51 + 1 : ℤ) : ℚ) := by
    decide +kernel
  refine ⟨_, rfl, hd, ?_⟩
  have e : (((3 * 2 ^ 51 + 1 : ℤ) : ℚ) / (3 : ℤ)) - ((2 ^ 51 : ℤ) : ℚ) = 1 / 3 := by norm_num
  show |_| ≤ _ ∧ (|_| = _ → _)
  rw [e]
  norm_num

/-- C115: and so is the bound for `floor`: `(3 * 2⁵² + 2) / 3` is computed as `2⁵² + 1`. -/
theorem C115_bound (w : World) (m : HMap F64) :
    ∃ v, eval w m (app .floor (.bin .divide (.num (F64.ofNat (3 * 2 ^ 52 + 2))) (.num (F64.ofNat 3)))) = .ok v ∧
      value (F64.ofNat (3 * 2 ^ 52 + 2)) = some ((3 * 2 ^ 52 + 2 : ℤ) : ℚ) ∧
      value v = some ((2 ^ 52 + 1 : ℤ) : ℚ) ∧ Picks .floor (((3 * 2 ^ 52 + 2 : ℤ) : ℚ) / (3 : ℤ)) (2 ^ 52) := by
  have hd : value (F64.floor (F64.div (F64.ofNat (3 * 2 ^ 52 + 2)) (F64.ofNat 3))) = some ((2 ^ 52 + 1 : ℤ) : ℚ) := by
    decide +kernel
  refine ⟨_, rfl, by decide +kernel, hd, ?_⟩
  constructor <;> norm_num

/-- C115: and the operands have to be whole: `0.1` is held as something larger, so `6 / 0.1` is less than
`60`, but `floor(6 / 0.1)` is `60`. -/
theorem C115_operands (w : World) (m : HMap F64) :
    ∃ v q, eval w m (app .floor (.bin .divide (.num (F64.ofNat 6)) (.num (F64.ofDecimal 1 (-1))))) = .ok v ∧
      value v = some 60 ∧ value (F64.ofDecimal 1 (-1)) = some q ∧ 6 / q < 60 := by
  have h : (value (F64.ofDecimal 1 (-1))).any (fun q => decide (6 / q < 60)) = true := by decide +kernel
  obtain ⟨q, hq⟩ : ∃ q, value (F64.ofDecimal 1 (-1)) = some q := Option.isSome_iff_exists.1 (by decide +kernel)
  rw [hq] at h
  refine ⟨F64.ofNat 60, q, ?_, by decide +kernel, hq, by simpa using h⟩
  have hd : F64.floor (F64.div (F64.ofNat 6) (F64.ofDecimal 1 (-1))) = F64.ofNat 60 := by decide +kernel
  rw [← hd]
  rfl

/-- A text to which `C115_whole`, `C115_fixed` and `C115_text` apply. -/
def tallyText : Bytes := b!"(max(x, 3) + floor(13 * (x + 1) / 5) + trunc((3 - x) / 4)) % 7"

def tallyTree : Elem :=
  .bin .modulo (.bin .plus (.bin .plus (.call Builtin.max.toFunc [vx, .num (F64.ofNat 3)])
    (app .floor (.bin .divide (.bin .times (.num (F64.ofNat 13)) (.bin .plus vx (.num (F64.ofNat 1)))) (.num (F64.ofNat 5)))))
    (app .trunc (.bin .divide (.bin .minus (.num (F64.ofNat 3)) vx) (.num (F64.ofNat 4))))) (.num (F64.ofNat 7))

example : parse0 cfgPlain tallyText = .ok ⟨tallyTree, [b!"x"]⟩ := by decide +kernel

theorem tallies_tallyTree : Tallies (mx (F64.ofNat 10)) tallyTree 2 := by
  have n : ∀ k : ℕ, k ≤ 100 → value (F64.ofNat k) = some ((k : ℤ) : ℚ) := by
    intro k hk
    interval_cases k <;> decide +kernel
  have s : ∀ z : ℤ, -6000 ≤ z → z ≤ 6000 → Small z := by
    intro z h1 h2
    exact abs_le.2 ⟨by omega, by omega⟩
  have num : ∀ k : ℕ, k ≤ 100 → Tallies (mx (F64.ofNat 10)) (.num (F64.ofNat k)) k := fun k hk =>
    .num (n k hk) (s _ (by omega) (by omega))
  have x : Tallies (mx (F64.ofNat 10)) vx (10 : ℕ) := .var rfl (n 10 (by decide)) (s _ (by decide) (by decide))
  exact .modulo (a := 37) (b := (7 : ℕ)) (.plus (a := 38) (b := -1) (.plus (a := 10) (b := 28)
    (.max (.cons x (.cons (num 3 (by decide)) .nil)) (by decide) (by decide))
    (.quotient (a := 143) (b := (5 : ℕ)) (.inl rfl)
      (.times (a := (13 : ℕ)) (b := 11) (num 13 (by decide)) (.plus (a := (10 : ℕ)) (b := (1 : ℕ)) x (num 1 (by decide))
        (s _ (by decide) (by decide))) (s _ (by decide) (by decide)))
      (num 5 (by decide)) (by decide) (by norm_num) (by constructor <;> norm_num)) (s _ (by decide) (by decide)))
    (.quotient (a := -7) (b := (4 : ℕ)) (.inr (.inr rfl)) (.minus (a := (3 : ℕ)) (b := (10 : ℕ)) (num 3 (by decide)) x
      (s _ (by decide) (by decide))) (num 4 (by decide)) (by decide) (by norm_num)
      (by constructor <;> norm_num [abs_lt])) (s _ (by decide) (by decide))) (num 7 (by decide)) (by decide)

example : (match parse0 cfgOpt tallyText with
    | .ok x => decide (x.eval w0 (mx (F64.ofNat 10)) = .ok (F64.ofNat 2))
    | _ => false) = true := by decide +kernel

/-- Cases of `C115_divides` and `C115_rest`: `91 / 7` and `-92 / 7`. -/
example : (7 : ℤ) ∣ 91 ∧ ¬ (7 : ℤ) ∣ -92 ∧ Picks .floor (((-92 : ℤ) : ℚ) / (7 : ℤ)) (-14) ∧ (-92 : ℤ).fmod 7 = 6 := by
  refine ⟨by decide, by decide, by constructor <;> norm_num, by decide⟩
example : (match parse0 cfgOpt b!"x - 7 * floor(x / 7)" with
    | .ok x => decide (x.eval w0 (mx (F64.neg (F64.ofNat 92))) = .ok (F64.ofNat 6))
    | _ => false) = true := by decide +kernel

end Props
end Xprs
