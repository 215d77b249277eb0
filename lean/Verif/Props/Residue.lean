import Verif.Spec.Residue
import Verif.Lemmas.Residue
import Verif.Props.Builds
/-
Property C105: differences of close numbers are exact, and the rounding error of a sum can be
computed.
-/
namespace Xprs
namespace Props
open Spec
set_option exponentiation.threshold 4096

section
variable {x y s : F64} {a b c : ℤ}

theorem add_units (hx : value x = some ((a : ℚ) / 2 ^ 1074)) (hy : value y = some ((b : ℚ) / 2 ^ 1074))
    (hs : value (F64.add x y) = some ((c : ℚ) / 2 ^ 1074)) : NearZ (a + b) c := by
  refine nearZ_of_rounds (v := F64.add x y) ?_ hs
  have := add_rounds hx hy
  rwa [← add_div, ← Int.cast_add] at this

theorem sub_units (hx : value x = some ((a : ℚ) / 2 ^ 1074)) (hy : value y = some ((b : ℚ) / 2 ^ 1074))
    (hs : value (F64.sub x y) = some ((c : ℚ) / 2 ^ 1074)) : NearZ (a - b) c := by
  refine nearZ_of_rounds (v := F64.sub x y) ?_ hs
  have := sub_rounds hx hy
  rwa [← sub_div, ← Int.cast_sub] at this

theorem sub_units_exact (hx : value x = some ((a : ℚ) / 2 ^ 1074))
    (hy : value y = some ((b : ℚ) / 2 ^ 1074)) (hg : GridZ (a - b)) (hb : |a - b| < 2 ^ 2098) :
    value (F64.sub x y) = some (((a - b : ℤ) : ℚ) / 2 ^ 1074) := by
  have := sub_rounds hx hy
  rw [← sub_div, ← Int.cast_sub] at this
  exact value_of_rounds this (inF64_of_gridZ hg hb)

theorem add_units_exact (hx : value x = some ((a : ℚ) / 2 ^ 1074))
    (hy : value y = some ((b : ℚ) / 2 ^ 1074)) (hg : GridZ (a + b)) (hb : |a + b| < 2 ^ 2098) :
    value (F64.add x y) = some (((a + b : ℤ) : ℚ) / 2 ^ 1074) := by
  have := add_rounds hx hy
  rw [← add_div, ← Int.cast_add] at this
  exact value_of_rounds this (inF64_of_gridZ hg hb)

end

theorem NearZ.small {a b s : ℤ} (ha : GridZ a) (hb : GridZ b) (h : NearZ (a + b) s) :
    |a + b - s| ≤ |a| ∧ |a + b - s| ≤ |b| := by
  have e1 := h.closest a ha
  have e2 := h.closest b hb
  rw [abs_sub_comm s, show a - (a + b) = -b by ring, abs_neg] at e1
  rw [abs_sub_comm s, show b - (a + b) = -a by ring, abs_neg] at e2
  exact ⟨e2, e1⟩

/-- The fast error of a sum, in floats. -/
theorem fast_value {x y : F64} {p q r : ℚ} (hx : value x = some p) (hy : value y = some q)
    (hs : value (F64.add x y) = some r) (hpq : |q| ≤ |p|) :
    (∃ z, value (F64.sub (F64.add x y) x) = some z) ∧
    value (F64.sub y (F64.sub (F64.add x y) x)) = some (p + q - r) := by
  obtain ⟨a, rfl, ga, la⟩ := gridZ_of_value hx
  obtain ⟨b, rfl, gb, lb⟩ := gridZ_of_value hy
  obtain ⟨c, rfl, gc, lc⟩ := gridZ_of_value hs
  have hU : (0 : ℚ) < 2 ^ 1074 := by positivity
  have hab : |b| ≤ |a| := by
    rw [abs_div, abs_div, div_le_div_iff_of_pos_right (abs_pos.2 hU.ne')] at hpq
    exact_mod_cast hpq
  have hn := add_units hx hy hs
  obtain ⟨g1, l1⟩ := fast_gridZ ga gb hn hab
  have g2 := error_gridZ ga gb hn
  have l2 := (NearZ.small ga gb hn).2
  have e1 := sub_units_exact hs hx g1 (lt_of_le_of_lt l1 la)
  have ez : b - (c - a) = a + b - c := by ring
  have e2 := sub_units_exact hy e1 (ez ▸ g2) (ez ▸ lt_of_le_of_lt l2 lb)
  refine ⟨⟨_, e1⟩, ?_⟩
  rw [e2, ez]
  push_cast
  congr 1
  ring

/-- The error of a sum, in floats. -/
theorem residue_value {x y : F64} {p q r t : ℚ} (hx : value x = some p) (hy : value y = some q)
    (hs : value (F64.add x y) = some r) (ht : value (F64.sub (F64.add x y) y) = some t) :
    (∃ z, value (F64.sub (F64.add x y) (F64.sub (F64.add x y) y)) = some z) ∧
    (∃ z, value (F64.sub x (F64.sub (F64.add x y) y)) = some z) ∧
    (∃ z, value (F64.sub y (F64.sub (F64.add x y) (F64.sub (F64.add x y) y))) = some z) ∧
    value (F64.add (F64.sub x (F64.sub (F64.add x y) y))
      (F64.sub y (F64.sub (F64.add x y) (F64.sub (F64.add x y) y)))) = some (p + q - r) := by
  obtain ⟨a, rfl, ga, la⟩ := gridZ_of_value hx
  obtain ⟨b, rfl, gb, lb⟩ := gridZ_of_value hy
  obtain ⟨c, rfl, gc, lc⟩ := gridZ_of_value hs
  obtain ⟨d, rfl, gd, ld⟩ := gridZ_of_value ht
  have hn := add_units hx hy hs
  have hd := sub_units hs hy ht
  have ge := error_gridZ ga gb hn
  obtain ⟨le1, le2⟩ := NearZ.small ga gb hn
  -- three exact differences are enough
  have key : GridZ (c - d) → |c - d| < 2 ^ 2098 → GridZ (a - d) → |a - d| < 2 ^ 2098 →
      GridZ (b - (c - d)) → |b - (c - d)| < 2 ^ 2098 →
      (∃ z, value (F64.sub (F64.add x y) (F64.sub (F64.add x y) y)) = some z) ∧
      (∃ z, value (F64.sub x (F64.sub (F64.add x y) y)) = some z) ∧
      (∃ z, value (F64.sub y (F64.sub (F64.add x y) (F64.sub (F64.add x y) y))) = some z) ∧
      value (F64.add (F64.sub x (F64.sub (F64.add x y) y))
        (F64.sub y (F64.sub (F64.add x y) (F64.sub (F64.add x y) y)))) =
        some ((a : ℚ) / 2 ^ 1074 + b / 2 ^ 1074 - c / 2 ^ 1074) := fun k1 l1 k2 l2 k3 l3 => by
    have e1 := sub_units_exact hs ht k1 l1
    have e2 := sub_units_exact hx ht k2 l2
    have e3 := sub_units_exact hy e1 k3 l3
    have ez : a - d + (b - (c - d)) = a + b - c := by ring
    have e4 := add_units_exact e2 e3 (ez ▸ ge) (ez ▸ lt_of_le_of_lt le2 lb)
    refine ⟨⟨_, e1⟩, ⟨_, e2⟩, ⟨_, e3⟩, ?_⟩
    rw [e4, ez]
    push_cast
    congr 1
    ring
  rcases le_total |a| |b| with hab | hab
  · -- the second is the larger: `s - b` is exact
    have hn' : NearZ (b + a) c := by rwa [add_comm] at hn
    obtain ⟨g1, l1⟩ := fast_gridZ gb ga hn' hab
    have := hd.exact g1
    subst this
    refine key ?_ ?_ ?_ ?_ ?_ ?_
    · rw [show c - (c - b) = b by ring]; exact gb
    · rw [show c - (c - b) = b by ring]; exact lb
    · rw [show a - (c - b) = a + b - c by ring]; exact ge
    · rw [show a - (c - b) = a + b - c by ring]; exact lt_of_le_of_lt le2 lb
    · rw [show b - (c - (c - b)) = 0 by ring]; exact GridZ.zero
    · rw [show b - (c - (c - b)) = 0 by ring]; norm_num
  · -- `d` is nearest to `a` less the error
    have hd' : NearZ (a + -(a + b - c)) d := by rwa [show a + -(a + b - c) = c - b by ring]
    obtain ⟨g2, l2⟩ := fast_gridZ ga ge.neg hd' (by rw [abs_neg]; exact le1)
    have g2' : GridZ (a - d) := by have := g2.neg; rwa [neg_sub] at this
    have l2' : |a - d| < 2 ^ 2098 := by rw [abs_sub_comm]; exact lt_of_le_of_lt l2 la
    rcases le_or_gt |b| |c| with hbc | hbc
    · have hd2 : NearZ (c + -b) d := by rwa [← sub_eq_add_neg]
      obtain ⟨g1, l1⟩ := fast_gridZ gc gb.neg hd2 (by rwa [abs_neg])
      have g3 := error_gridZ gc gb.neg hd2
      have l3 := (NearZ.small gc gb.neg hd2).2
      rw [abs_neg] at l3
      refine key ?_ ?_ g2' l2' ?_ ?_
      · have := g1.neg; rwa [neg_sub] at this
      · rw [abs_sub_comm]; exact lt_of_le_of_lt l1 lc
      · have := g3.neg; rwa [show -(c + -b - d) = b - (c - d) by ring] at this
      · rw [← abs_neg, show -(b - (c - d)) = c + -b - d by ring]; exact lt_of_le_of_lt l3 lb
    · -- the sum is smaller than both parts: it is exact
      have gs : GridZ (a - -b) := by
        have hsub : |a + b| ≤ |b| := by
          by_contra hsub
          rw [not_le] at hsub
          have gB : GridZ |b| := by
            rcases abs_choice b with k | k
            · rwa [k]
            · rw [k]; exact gb.neg
          rcases le_total 0 (a + b) with h0 | h0
          · rw [abs_of_nonneg h0] at hsub
            have := hn.ge gB hsub.le
            exact absurd (this.trans (le_abs_self c)) (not_le.2 hbc)
          · rw [abs_of_nonpos h0] at hsub
            have := hn.le gB.neg (by linarith)
            have := neg_abs_le c
            linarith
        exact sterbenz ga gb.neg (by rw [sub_neg_eq_add]; exact hsub.trans hab)
          (by rw [sub_neg_eq_add, abs_neg]; exact hsub)
      rw [sub_neg_eq_add] at gs
      have := hn.exact gs
      subst this
      have hda := hd.exact (by rwa [add_sub_cancel_right])
      rw [add_sub_cancel_right] at hda
      subst hda
      refine key ?_ ?_ ?_ ?_ ?_ ?_
      · rwa [add_sub_cancel_left]
      · rwa [add_sub_cancel_left]
      · rw [_root_.sub_self]; exact GridZ.zero
      · rw [_root_.sub_self]; norm_num
      · rw [add_sub_cancel_left, _root_.sub_self]; exact GridZ.zero
      · rw [add_sub_cancel_left, _root_.sub_self]; norm_num

theorem ne_nan' {v : F64} {q : ℚ} (h : value v = some q) : v ≠ .nan := ne_nan_of_value h

section
variable {w : World} {m : HMap F64} {a b : Elem} {x y : F64}

theorem runs_plus (ha : Runs w m a x) (hb : Runs w m b y) {q : ℚ} (h : value (F64.add x y) = some q) :
    Runs w m (.bin .plus a b) (F64.add x y) := .bin ha hb (.plus (ne_nan' h))
theorem runs_minus (ha : Runs w m a x) (hb : Runs w m b y) {q : ℚ} (h : value (F64.sub x y) = some q) :
    Runs w m (.bin .minus a b) (F64.sub x y) := .bin ha hb (.minus (ne_nan' h))

theorem eval_plus (ha : eval w m a = .ok x) (hb : eval w m b = .ok y) :
    eval w m (.bin .plus a b) = .ok (F64.add x y) := by rw [eval, ha, hb]; rfl
theorem eval_minus (ha : eval w m a = .ok x) (hb : eval w m b = .ok y) :
    eval w m (.bin .minus a b) = .ok (F64.sub x y) := by rw [eval, ha, hb]; rfl
end

/-! ### C105 -/

section
variable (w : World) (m : HMap F64) (a b : Elem) (x y : F64) (p q : ℚ)

/-- C105: the difference of two numbers that are within a factor of two of each other is exact. -/
theorem C105_close (ha : eval w m a = .ok x) (hb : eval w m b = .ok y) (hx : value x = some p)
    (hy : value y = some q) (hp : |p - q| ≤ |p|) (hq : |p - q| ≤ |q|) :
    ∃ r, eval w m (.bin .minus a b) = .ok r ∧ value r = some (p - q) := by
  refine ⟨_, eval_minus ha hb, ?_⟩
  obtain ⟨i, rfl, gi, li⟩ := gridZ_of_value hx
  obtain ⟨j, rfl, gj, lj⟩ := gridZ_of_value hy
  have hU : (0 : ℚ) < |(2 : ℚ) ^ 1074| := by positivity
  rw [← sub_div, abs_div, abs_div, div_le_div_iff_of_pos_right hU] at hp hq
  have hp : |i - j| ≤ |i| := by exact_mod_cast hp
  have hq : |i - j| ≤ |j| := by exact_mod_cast hq
  rw [sub_units_exact hx hy (sterbenz gi gj hp hq) (lt_of_le_of_lt hp li)]
  push_cast
  rw [sub_div]

/-- C105: if `a` is at least as large as `b` and the sum does not overflow,
`b - ((a + b) - a)` is exactly what the sum lost by rounding. -/
theorem C105_fast (v : F64) (r : ℚ) (ha : eval w m a = .ok x) (hb : eval w m b = .ok y)
    (hx : value x = some p) (hy : value y = some q) (hpq : |q| ≤ |p|)
    (hv : eval w m (.bin .plus a b) = .ok v) (hr : value v = some r) :
    ∃ e, eval w m (fastResidue a b) = .ok e ∧ value e = some (p + q - r) := by
  have hs := eval_plus ha hb
  rw [hv] at hs
  cases hs
  exact ⟨_, eval_minus hb (eval_minus hv ha), (fast_value hx hy hr hpq).2⟩

/-- C105: whichever is larger, if neither `a + b` nor `(a + b) - b` overflows,
`(a - ((a + b) - b)) + (b - ((a + b) - ((a + b) - b)))` is exactly what the sum lost. -/
theorem C105_residue (v u : F64) (r t : ℚ) (ha : eval w m a = .ok x) (hb : eval w m b = .ok y)
    (hx : value x = some p) (hy : value y = some q)
    (hv : eval w m (.bin .plus a b) = .ok v) (hr : value v = some r)
    (hu : eval w m (.bin .minus (.bin .plus a b) b) = .ok u) (ht : value u = some t) :
    ∃ e, eval w m (residue a b) = .ok e ∧ value e = some (p + q - r) := by
  have hs := eval_plus ha hb
  have hd := eval_minus hv hb
  rw [hv] at hs
  cases hs
  rw [hu] at hd
  cases hd
  exact ⟨_, eval_plus (eval_minus ha hu) (eval_minus hb (eval_minus hv hu)),
    (residue_value hx hy hr ht).2.2.2⟩

end

/-- No step of these expressions is doubtful. -/
theorem residue_runs {w : World} {m : HMap F64} {a b : Elem} {x y : F64} {p q r : ℚ}
    (ha : Runs w m a x) (hb : Runs w m b y) (hx : value x = some p) (hy : value y = some q)
    (hr : value (F64.add x y) = some r) :
    (|q| ≤ |p| → ∃ e, Runs w m (fastResidue a b) e ∧ value e = some (p + q - r)) ∧
    (∀ t, value (F64.sub (F64.add x y) y) = some t →
      ∃ e, Runs w m (residue a b) e ∧ value e = some (p + q - r)) := by
  have rs := runs_plus ha hb hr
  constructor
  · intro hpq
    obtain ⟨⟨z, h1⟩, h2⟩ := fast_value hx hy hr hpq
    exact ⟨_, runs_minus hb (runs_minus rs ha h1) h2, h2⟩
  · intro t ht
    obtain ⟨⟨_, h1⟩, ⟨_, h2⟩, ⟨_, h3⟩, h4⟩ := residue_value hx hy hr ht
    have rt := runs_minus rs hb ht
    exact ⟨_, runs_plus (runs_minus ha rt h2) (runs_minus hb (runs_minus rs rt h1) h3) h4, h4⟩

/-- The value of `a + b` is `r`, and the hypotheses of `C105_fast` or `C105_residue` hold of `e`
(where no step of `a` and `b` is doubtful). -/
inductive Loses (w : World) (m : HMap F64) : Elem → ℚ → Prop
  | fast {a b x y p q v r} : Runs w m a x → Runs w m b y → value x = some p → value y = some q →
      eval w m (.bin .plus a b) = .ok v → value v = some r → |q| ≤ |p| →
      Loses w m (fastResidue a b) (p + q - r)
  | any {a b x y p q v r u t} : Runs w m a x → Runs w m b y → value x = some p → value y = some q →
      eval w m (.bin .plus a b) = .ok v → value v = some r →
      eval w m (.bin .minus (.bin .plus a b) b) = .ok u → value u = some t →
      Loses w m (residue a b) (p + q - r)

theorem loses_runs {w : World} {m : HMap F64} {e : Elem} {d : ℚ} (h : Loses w m e d) :
    ∃ v, Runs w m e v ∧ value v = some d := by
  cases h with
  | fast ha hb hx hy hv hr hpq =>
    have hs := eval_plus (runs_eval _ ha) (runs_eval _ hb)
    rw [hv] at hs
    cases hs
    exact (residue_runs ha hb hx hy hr).1 hpq
  | any ha hb hx hy hv hr hu ht =>
    have hs := eval_plus (runs_eval _ ha) (runs_eval _ hb)
    have hd := eval_minus hv (runs_eval _ hb)
    rw [hv] at hs
    cases hs
    rw [hu] at hd
    cases hd
    exact (residue_runs ha hb hx hy hr).2 _ ht

/-- C105: simplification, in every build, keeps the error what it is: no rule treats the
expression as if sums were exact. -/
theorem C105_simplified (cfg : Cfg) (w : World) (m : HMap F64) (e e' : Elem) (d : ℚ)
    (hw : NoPower e ∨ PowLaws w) (h : Loses w m e d) (hs : simplify cfg w e = .ok e') :
    ∃ v, eval w m e' = .ok v ∧ value v = some d := by
  obtain ⟨v, h1, h2⟩ := loses_runs h
  obtain ⟨u, h3, h4⟩ := simplify_runs' hw h1 hs
  exact ⟨u, runs_eval _ h3, value_same h2 h4⟩

/-- C105: the same for `simplify_for`. -/
theorem C105_fixed (cfg : Cfg) (w : World) (m : HMap F64) (e e' : Xpr) (n : Bytes) (c : F64) (d : ℚ)
    (hw : NoPower e.root ∨ PowLaws w) (h : Loses w (m.insert n c) e.root d)
    (hs : e.simplifyFor cfg w n c = .ok e') :
    ∃ v, e'.eval w m = .ok v ∧ value v = some d := by
  obtain ⟨v, h1, h2⟩ := loses_runs h
  obtain ⟨-, u, h3, h4⟩ := C29_partial cfg w m e e' n c v hw h1 hs
  exact ⟨u, h3, value_same h2 h4⟩

/-- C105: the same for texts, in every build. -/
theorem C105_text (cfg cfg' : Cfg) (w : World) (o o' : Oracle) (ctx : Context) (input : Bytes)
    (x y : Xpr) (m : HMap F64) (d : ℚ) (hp : cfg.pejmdas = cfg'.pejmdas) (ho : cfg.opt = false)
    (hw : NoPower x.root ∨ PowLaws w) (hn : ∀ ts, Lex input ts → ParensApart ts)
    (h : parse cfg w o ctx input = .ok x) (h' : parse cfg' w o' ctx input = .ok y)
    (hd : Loses w m x.root d) :
    (∃ v, x.eval w m = .ok v ∧ value v = some d) ∧ ∃ v, y.eval w m = .ok v ∧ value v = some d := by
  obtain ⟨v, h1, h2⟩ := loses_runs hd
  obtain ⟨h4, u, h5, h6⟩ := C16_value_partial cfg cfg' w o o' ctx input x y m v hp ho hw hn h h' h1
  exact ⟨⟨v, h4, h2⟩, u, h5, value_same h2 h6⟩

/-- What `1 + 2⁻⁶⁰` loses: `y-((x+y)-x)` at `x = 1`, `y = 2⁻⁶⁰`, in both builds. -/
example : parse0 cfgPlain b!"y-((x+y)-x)" = .ok ⟨fastResidue (.var b!"x") (.var b!"y"), [b!"y", b!"x"]⟩ ∧
    parse0 cfgOpt b!"y-((x+y)-x)" = .ok ⟨fastResidue (.var b!"x") (.var b!"y"), [b!"y", b!"x"]⟩ := by
  constructor <;> decide +kernel

example : ∃ d, Loses w0 ((HMap.empty.insert b!"x" (F64.ofNat 1)).insert b!"y" (F64.ofMag false (2 ^ 1014) 1))
    (fastResidue (.var b!"x") (.var b!"y")) d ∧ d = 1 / 2 ^ 60 := by
  have e1 : value (F64.ofNat 1) = some 1 := one_value
  have e2 : value (F64.ofMag false (2 ^ 1014) 1) = some (1 / 2 ^ 60) := by
    rw [show F64.ofMag false (2 ^ 1014) 1 = .fin false (2 ^ 1014) (by decide +kernel) by decide +kernel]
    simp only [value]; norm_num
  have e3 : F64.add (F64.ofNat 1) (F64.ofMag false (2 ^ 1014) 1) = F64.ofNat 1 := by decide +kernel
  refine ⟨_, .fast (x := F64.ofNat 1) (y := F64.ofMag false (2 ^ 1014) 1) (v := F64.ofNat 1) (.var rfl) (.var rfl)
    e1 e2 ?_ e1 ?_, ?_⟩
  · exact (eval_plus rfl rfl).trans (by rw [e3])
  · norm_num
  · ring


end Props
end Xprs
