import Verif.Spec.Quotient
import Verif.Props.Solve
import Verif.Props.Whole
/-
Property C120: `floor`, `ceil`, `trunc` and `round` of quotients by whole numbers.
-/
namespace Xprs
namespace Props
open Spec
set_option exponentiation.threshold 4096

theorem far_from_zero {k : ℚ} (h : 1 / 2 ≤ |k|) : 1 / 2 ^ 1021 ≤ |k| := by
  refine le_trans ?_ h
  rw [div_le_div_iff₀ (by positivity) (by norm_num), one_mul, one_mul]
  calc (2 : ℚ) = 2 ^ 1 := by norm_num
    _ ≤ 2 ^ 1021 := pow_le_pow_right₀ (by norm_num) (by norm_num)

/-- A threshold `t ≠ 0`, with `t·q` in the format, has the computed quotient on the side of the quotient. -/
theorem same_side_quotient {x y : F64} {p q r t : ℚ} (hx : value x = some p) (hy : value y = some q)
    (hq : q ≠ 0) (hv : value (F64.div x y) = some r) (ht : InF64 t) (h1 : 1 / 2 ≤ |t|) (h : InF64 (t * q)) :
    (r < t ↔ p / q < t) ∧ (t < r ↔ t < p / q) := by
  obtain ⟨z, hz⟩ := ht
  obtain ⟨-, h2, h3, -⟩ := quotient_compare hx hy hz hq (far_from_zero h1) (.inl h)
  exact ⟨(less_values hv hz).1.symm.trans h2, (less_values hz hv).1.symm.trans h3⟩

/-- The same of zero, if the quotient is not too small. -/
theorem side_of_zero {x y : F64} {p q r : ℚ} (hx : value x = some p) (hy : value y = some q)
    (hq : q ≠ 0) (hv : value (F64.div x y) = some r) :
    (0 ≤ p / q → 0 ≤ r) ∧ (p / q ≤ 0 → r ≤ 0) ∧
    (1 / 2 ^ 1074 ≤ |p / q| → (p / q < 0 → r < 0) ∧ (0 < p / q → 0 < r)) := by
  have hr := div_rounds hx hy hq
  have h0 : ∀ {a b : ℚ} {c : F64}, RoundsTo a (F64.div x y) → RoundsTo b c → value c = some b →
      (a ≤ b → r ≤ b) ∧ (b ≤ a → b ≤ r) := fun {a b c} h1 h2 hc =>
    ⟨fun h => leF_values (roundsTo_mono h1 h2 h) hv hc, fun h => leF_values (roundsTo_mono h2 h1 h) hc hv⟩
  have z := h0 hr (rounds_self value_f0) value_f0
  have t := h0 hr (rounds_self value_tiny) value_tiny
  have n := h0 hr (rounds_self value_neg_tiny) value_neg_tiny
  have hpos : (0 : ℚ) < 1 / 2 ^ 1074 := by positivity
  refine ⟨z.2, z.1, fun h => ⟨fun hn => ?_, fun hn => ?_⟩⟩
  · rw [abs_of_neg hn] at h
    have := n.1 (by linarith)
    linarith
  · rw [abs_of_pos hn] at h
    have := t.2 h
    linarith

theorem half_inF64 {M : ℤ} (hM : |M| < 2 ^ 53) : InF64 ((M : ℚ) / 2) := by
  have e : ((M * 2 ^ 1073 : ℤ) : ℚ) / 2 ^ 1074 = M / 2 := by
    rw [Int.cast_mul, Int.cast_pow, show ((2 : ℤ) : ℚ) = 2 by norm_num,
      show (2 : ℚ) ^ 1074 = 2 * 2 ^ 1073 from pow_succ' 2 1073, mul_div_mul_right _ _ (by positivity)]
  rw [← e]
  refine inF64_of_gridZ ⟨M, 1073, hM, rfl⟩ ?_
  rw [abs_mul, abs_of_pos (by positivity : (0 : ℤ) < 2 ^ 1073)]
  calc |M| * 2 ^ 1073 < 2 ^ 53 * 2 ^ 1073 := by gcongr
    _ ≤ 2 ^ 2098 := by norm_num

theorem fair_picks {x y : F64} {f : Builtin} {p r : ℚ} {j N : ℤ} (hx : value x = some p)
    (hy : value y = some (j : ℚ)) (hj : j ≠ 0) (hv : value (F64.div x y) = some r) (hf : Splits f p j)
    (hp : Picks f (p / j) N) : Picks f r N := by
  have hjq : (j : ℚ) ≠ 0 := by exact_mod_cast hj
  have hJ : 0 < |(j : ℚ)| := abs_pos.2 hjq
  have hJ1 : 1 ≤ |(j : ℚ)| := by exact_mod_cast Int.one_le_abs hj
  obtain ⟨z1, z2, z3⟩ := side_of_zero hx hy hjq hv
  -- thresholds within one of the quotient
  have near : ∀ {t : ℚ}, |t - p / j| ≤ 1 → |t * j| ≤ |p| + |(j : ℚ)| := by
    intro t ht
    have e : t * j = (t - p / j) * j + p := by field_simp; ring
    rw [e]
    refine (abs_add_le _ _).trans ?_
    rw [abs_mul]
    nlinarith
  have whole : |p| + |(j : ℚ)| ≤ 2 ^ 53 → ∀ M : ℤ, |(M : ℚ) - p / j| ≤ 1 → M ≠ 0 →
      (r < M ↔ p / j < M) ∧ ((M : ℚ) < r ↔ (M : ℚ) < p / j) := by
    intro hs M hM h0
    have h1 : |((M * j : ℤ) : ℚ)| ≤ 2 ^ 53 := by
      rw [Int.cast_mul]
      exact (near hM).trans hs
    have h2 : |M * j| ≤ 2 ^ 53 := by exact_mod_cast h1
    have h3 : |M| ≤ 2 ^ 53 := by
      rw [abs_mul] at h2
      have := Int.one_le_abs hj
      have := abs_nonneg M
      nlinarith
    refine same_side_quotient hx hy hjq hv (small_inF64 h3) ?_ ?_
    · have : (1 : ℚ) ≤ |(M : ℚ)| := by exact_mod_cast Int.one_le_abs h0
      linarith
    · have := small_inF64 (z := M * j) h2
      rwa [Int.cast_mul] at this
  have half : |p| + |(j : ℚ)| < 2 ^ 52 → ∀ M : ℤ, |(M : ℚ) / 2 - p / j| ≤ 1 → M ≠ 0 →
      (r < M / 2 ↔ p / j < M / 2) ∧ ((M : ℚ) / 2 < r ↔ (M : ℚ) / 2 < p / j) := by
    intro hs M hM h0
    have h1 : |((M * j : ℤ) : ℚ)| < 2 ^ 53 := by
      have := (near hM).trans_lt hs
      rw [show (M : ℚ) / 2 * j = ((M * j : ℤ) : ℚ) / 2 by push_cast; ring, abs_div, abs_two,
        div_lt_iff₀ (by norm_num)] at this
      linarith
    have h2 : |M * j| < 2 ^ 53 := by exact_mod_cast h1
    have h3 : |M| < 2 ^ 53 := by
      rw [abs_mul] at h2
      have := Int.one_le_abs hj
      have := abs_nonneg M
      nlinarith
    refine same_side_quotient hx hy hjq hv (half_inF64 h3) ?_ ?_
    · rw [abs_div, abs_two]
      have : (1 : ℚ) ≤ |(M : ℚ)| := by exact_mod_cast Int.one_le_abs h0
      linarith
    · have := half_inF64 h2
      rwa [show ((M * j : ℤ) : ℚ) / 2 = (M : ℚ) / 2 * j by push_cast; ring] at this
  unfold Splits at hf
  generalize p / (j : ℚ) = c at *
  rcases hf with ⟨rfl, hs, h0⟩ | ⟨rfl, hs, h0⟩ | ⟨rfl, hs⟩ | ⟨rfl, hs⟩
  · obtain ⟨h1, h2⟩ := hp
    refine ⟨?_, ?_⟩
    · by_cases hN : N = 0
      · subst hN; simpa using z1 (by simpa using h1)
      · exact not_lt.1 fun h => absurd (((whole hs N (abs_le.2 ⟨by linarith, by linarith⟩) hN).1).1 h) (not_lt.2 h1)
    · by_cases hN : N + 1 = 0
      · have e : (N : ℚ) + 1 = 0 := by exact_mod_cast hN
        rw [e] at h2 ⊢
        exact (z3 (h0.resolve_left (not_le.2 h2))).1 h2
      · have := ((whole hs (N + 1) (abs_le.2 ⟨by push_cast; linarith, by push_cast; linarith⟩) hN).1).2
          (by push_cast; exact h2)
        push_cast at this
        exact this
  · obtain ⟨h1, h2⟩ := hp
    refine ⟨?_, ?_⟩
    · by_cases hN : N - 1 = 0
      · have e : (N : ℚ) - 1 = 0 := by exact_mod_cast hN
        rw [e] at h1 ⊢
        exact (z3 (h0.resolve_left (not_le.2 h1))).2 h1
      · have := ((whole hs (N - 1) (abs_le.2 ⟨by push_cast; linarith, by push_cast; linarith⟩) hN).2).2
          (by push_cast; exact h1)
        push_cast at this
        exact this
    · by_cases hN : N = 0
      · subst hN; simpa using z2 (by simpa using h2)
      · exact not_lt.1 fun h => absurd (((whole hs N (abs_le.2 ⟨by linarith, by linarith⟩) hN).2).1 h) (not_lt.2 h2)
  · rw [trunc_iff] at hp ⊢
    push_cast at hp ⊢
    rcases hp with ⟨hN, h1, h2⟩ | ⟨hN, h1, h2⟩ | ⟨hN, h1, h2⟩
    · refine .inl ⟨hN, ?_, ?_⟩
      · exact not_lt.1 fun h => absurd (((whole hs N (abs_le.2 ⟨by linarith, by linarith⟩) (by omega)).1).1 h) (not_lt.2 h1)
      · have := ((whole hs (N + 1) (abs_le.2 ⟨by push_cast; linarith, by push_cast; linarith⟩) (by omega)).1).2
          (by push_cast; exact h2)
        push_cast at this
        exact this
    · refine .inr (.inl ⟨hN, ?_, ?_⟩)
      · rcases le_total 0 c with hc | hc
        · linarith [z1 hc]
        · have := ((whole hs (-1) (abs_le.2 ⟨by push_cast; linarith, by push_cast; linarith⟩) (by omega)).2).2
            (by push_cast; exact h1)
          push_cast at this
          exact this
      · rcases le_total 0 c with hc | hc
        · have := ((whole hs 1 (abs_le.2 ⟨by push_cast; linarith, by push_cast; linarith⟩) (by omega)).1).2
            (by push_cast; exact h2)
          push_cast at this
          exact this
        · linarith [z2 hc]
    · refine .inr (.inr ⟨hN, ?_, ?_⟩)
      · have := ((whole hs (N - 1) (abs_le.2 ⟨by push_cast; linarith, by push_cast; linarith⟩) (by omega)).2).2
          (by push_cast; exact h1)
        push_cast at this
        exact this
      · exact not_lt.1 fun h => absurd (((whole hs N (abs_le.2 ⟨by linarith, by linarith⟩) (by omega)).2).1 h) (not_lt.2 h2)
  · rw [round_iff] at hp ⊢
    push_cast at hp ⊢
    rcases hp with ⟨hN, h1, h2⟩ | ⟨hN, h1, h2⟩ | ⟨hN, h1, h2⟩
    · have k1 := half hs (2 * N - 1) (abs_le.2 ⟨by push_cast; linarith, by push_cast; linarith⟩) (by omega)
      have k2 := half hs (2 * N + 1) (abs_le.2 ⟨by push_cast; linarith, by push_cast; linarith⟩) (by omega)
      push_cast at k1 k2
      exact .inl ⟨hN, not_lt.1 fun h => absurd (k1.1.1 h) (not_lt.2 h1), k2.1.2 h2⟩
    · have k1 := half hs (-1) (abs_le.2 ⟨by push_cast; linarith, by push_cast; linarith⟩) (by omega)
      have k2 := half hs 1 (abs_le.2 ⟨by push_cast; linarith, by push_cast; linarith⟩) (by omega)
      push_cast at k1 k2
      exact .inr (.inl ⟨hN, k1.2.2 h1, k2.1.2 h2⟩)
    · have k1 := half hs (2 * N - 1) (abs_le.2 ⟨by push_cast; linarith, by push_cast; linarith⟩) (by omega)
      have k2 := half hs (2 * N + 1) (abs_le.2 ⟨by push_cast; linarith, by push_cast; linarith⟩) (by omega)
      push_cast at k1 k2
      exact .inr (.inr ⟨hN, k1.2.2 h1, not_lt.1 fun h => absurd (k2.2.1 h) (not_lt.2 h2)⟩)

theorem fair_whole {f : Builtin} {p : ℚ} {j : ℤ} (hf : Splits f p j) :
    f ∈ toWhole ∧ |p| + |(j : ℚ)| ≤ 2 ^ 53 := by
  rcases hf with ⟨rfl, hs, -⟩ | ⟨rfl, hs, -⟩ | ⟨rfl, hs⟩ | ⟨rfl, hs⟩
  · exact ⟨by decide, hs⟩
  · exact ⟨by decide, hs⟩
  · exact ⟨by decide, hs⟩
  · exact ⟨by decide, hs.le.trans (by norm_num)⟩

theorem fair_finite {f : Builtin} {x y : F64} {p : ℚ} {j : ℤ} (hf : Splits f p j) (hx : value x = some p)
    (hy : value y = some (j : ℚ)) (hj : j ≠ 0) : ∃ r, value (F64.div x y) = some r := by
  have hjq : (j : ℚ) ≠ 0 := by exact_mod_cast hj
  obtain ⟨r, h, -⟩ := round_abs (div_rounds hx hy hjq) (by
    have hj1 : 1 ≤ |(j : ℚ)| := by exact_mod_cast Int.one_le_abs hj
    have hs := (fair_whole hf).2
    rw [abs_div, div_le_iff₀ (by linarith)]
    have : (2 : ℚ) ^ 53 ≤ 2 ^ 1023 := pow_le_pow_right₀ (by norm_num) (by norm_num)
    nlinarith [abs_nonneg p])
  exact ⟨r, h⟩

theorem fair_runs {w : World} {m : HMap F64} {l r : Elem} {f : Builtin} {p : ℚ} {j N : ℤ} {x y : F64}
    (hf : Splits f p j) (hl : Runs w m l x) (hr : Runs w m r y) (hx : value x = some p)
    (hy : value y = some (j : ℚ)) (hj : j ≠ 0) (hp : Picks f (p / j) N) :
    ∃ v, Runs w m (shareTree f l r) v ∧ value v = some (N : ℚ) := by
  have hjq : (j : ℚ) ≠ 0 := by exact_mod_cast hj
  obtain ⟨q, hq⟩ := fair_finite hf hx hy hj
  obtain ⟨v, h2, h3⟩ := pick_step w (fair_whole hf).1 hq (fair_picks hx hy hj hq hf hp)
  exact ⟨v, .call (.cons (.bin hl hr (.divide (ne_nan_of_value hq) (not_zero_of_value hy hjq))) .nil) h2, h3⟩

/-! ### C120 -/

/-- C120: `floor`, `ceil`, `trunc` and `round` make of the computed quotient of a number by a whole
number what they make of the quotient. -/
theorem C120_whole (w : World) (m : HMap F64) (f : Builtin) (a b : Elem) (x y : F64) (p : ℚ) (j N : ℤ)
    (ha : eval w m a = .ok x) (hb : eval w m b = .ok y) (hx : value x = some p) (hy : value y = some (j : ℚ))
    (hj : j ≠ 0) (hf : Splits f p j) (hp : Picks f (p / j) N) :
    ∃ v, eval w m (shareTree f a b) = .ok v ∧ evalU w m (shareTree f a b) = .ok v ∧ value v = some (N : ℚ) := by
  obtain ⟨q, hq⟩ := fair_finite hf hx hy hj
  obtain ⟨v, h2, h3⟩ := pick_step w (fair_whole hf).1 hq (fair_picks hx hy hj hq hf hp)
  have h4 : eval w m (shareTree f a b) = .ok v := by
    refine eval_call_ok.2 ⟨[F64.div x y], ?_, h2.1⟩
    rw [evalL, (eval_bin' ha hb).2]
    rfl
  exact ⟨v, h4, by rw [evalU_eq, h4]; rfl, h3⟩

/-- C120 after simplification, and for `simplify_for`, where the parts have no doubtful step. -/
theorem C120_simplified (cfg : Cfg) (w : World) (m : HMap F64) (f : Builtin) (a b : Elem) (x y : F64) (p : ℚ)
    (j N : ℤ) (hw : NoPower (shareTree f a b) ∨ PowLaws w) (ha : Runs w m a x) (hb : Runs w m b y)
    (hx : value x = some p) (hy : value y = some (j : ℚ)) (hj : j ≠ 0) (hf : Splits f p j) (hp : Picks f (p / j) N) :
    ∀ e', simplify cfg w (shareTree f a b) = .ok e' → ∃ v, eval w m e' = .ok v ∧ value v = some (N : ℚ) := by
  intro e' he
  obtain ⟨v, h1, h2⟩ := fair_runs hf ha hb hx hy hj hp
  obtain ⟨u, h5, h6⟩ := simplify_runs' hw h1 he
  exact ⟨u, runs_eval _ h5, value_same h2 h6⟩

/-- C120 for the text `f((s)/(t))` in builds without compile-time optimizations. -/
theorem C120_text (cfg : Cfg) (w : World) (o : Oracle) (ctx : Context) (s t : Bytes) (x y : Xpr) (f : Builtin)
    (hf : f ∈ toWhole) (hl : lookup ctx f.name = .func f.toFunc)
    (ho : cfg.opt = false) (hs : parse cfg w o ctx s = .ok x) (ht : parse cfg w o ctx t = .ok y) :
    ∃ z, parse cfg w o ctx ((shareForm f).text fun i => if i = 0 then s else t) = .ok z ∧
      ∀ m a b p j N, x.eval w m = .ok a → y.eval w m = .ok b → value a = some p → value b = some ((j : ℤ) : ℚ) →
        j ≠ 0 → Splits f p j → Picks f (p / j) N → ∃ v, z.eval w m = .ok v ∧ value v = some (N : ℚ) := by
  have hn : IsName f.name ∧ f.nbArgs ≠ some 2 := by
    simp only [toWhole, List.mem_cons, List.not_mem_nil, or_false] at hf
    rcases hf with rfl | rfl | rfl | rfl <;> exact ⟨⟨⟨_, rfl, by decide⟩, by decide⟩, by decide⟩
  obtain ⟨z, hz, hr⟩ := form_parse cfg w o ctx ho (fun i => if i = 0 then s else t)
    (fun i => if i = 0 then x else y) (by intro i; by_cases hi : i = 0 <;> simp [hi, hs, ht]) (shareForm f)
    ⟨hn.1, hl, hn.2, by decide, trivial, trivial⟩
  refine ⟨z, hz, fun m a b p j N ha hb hp hj h0 h1 h2 => ?_⟩
  show ∃ v, eval w m z.root = _ ∧ _
  rw [hr]
  obtain ⟨v, h3, -, h4⟩ := C120_whole w m f x.root y.root a b p j N ha hb hp hj h0 h1 h2
  exact ⟨v, h3, h4⟩

/-- C120 for texts, in every build. -/
theorem C120_builds (cfg cfg' : Cfg) (w : World) (o o' : Oracle) (ctx : Context) (input : Bytes)
    (x y : Xpr) (m : HMap F64) (f : Builtin) (l r : Elem) (a b : F64) (p : ℚ) (j N : ℤ)
    (hp : cfg.pejmdas = cfg'.pejmdas) (ho : cfg.opt = false)
    (hw : NoPower x.root ∨ PowLaws w) (hn : ∀ ts, Lex input ts → ParensApart ts)
    (h : parse cfg w o ctx input = .ok x) (h' : parse cfg' w o' ctx input = .ok y)
    (hx : x.root = shareTree f l r) (hl : Runs w m l a) (hr : Runs w m r b) (ha : value a = some p)
    (hb : value b = some (j : ℚ)) (hj : j ≠ 0) (hf : Splits f p j) (hN : Picks f (p / j) N) :
    (∃ v, x.eval w m = .ok v ∧ value v = some (N : ℚ)) ∧ ∃ v, y.eval w m = .ok v ∧ value v = some (N : ℚ) := by
  obtain ⟨v, h1, h2⟩ := fair_runs hf hl hr ha hb hj hN
  rw [← hx] at h1
  obtain ⟨h4, u, h5, h6⟩ := C16_value_partial cfg cfg' w o o' ctx input x y m v hp ho hw hn h h' h1
  exact ⟨⟨v, h4, h2⟩, u, h5, value_same h2 h6⟩

/-! ### Dividing twice -/

theorem trunc_split {r : ℚ} {N : ℤ} :
    Picks .trunc r N ↔ (0 ≤ r → Picks .floor r N) ∧ (r ≤ 0 → Picks .ceil r N) := by
  rw [trunc_iff]
  show _ ↔ (0 ≤ r → (N : ℚ) ≤ r ∧ r < N + 1) ∧ (r ≤ 0 → (N : ℚ) - 1 < r ∧ r ≤ N)
  push_cast
  constructor
  · rintro (⟨hN, h1, h2⟩ | ⟨rfl, h1, h2⟩ | ⟨hN, h1, h2⟩)
    · have : (1 : ℚ) ≤ N := by exact_mod_cast hN
      exact ⟨fun _ => ⟨h1, h2⟩, fun h => by linarith⟩
    · push_cast
      exact ⟨fun h => ⟨h, by linarith⟩, fun h => ⟨by linarith, h⟩⟩
    · have : (N : ℚ) ≤ -1 := by exact_mod_cast Int.le_sub_one_of_lt hN
      exact ⟨fun h => by linarith, fun h => ⟨h1, h2⟩⟩
  · rintro ⟨h1, h2⟩
    rcases lt_trichotomy N 0 with hN | rfl | hN
    · have hq : (N : ℚ) ≤ -1 := by exact_mod_cast Int.le_sub_one_of_lt hN
      rcases le_total 0 r with h | h
      · have := h1 h; linarith
      · exact .inr (.inr ⟨hN, h2 h⟩)
    · refine .inr (.inl ⟨rfl, ?_⟩)
      push_cast at h1 h2
      rcases le_total 0 r with h | h
      · have := h1 h; constructor <;> linarith
      · have := h2 h; constructor <;> linarith
    · have hq : (1 : ℚ) ≤ N := by exact_mod_cast hN
      rcases le_total 0 r with h | h
      · exact .inl ⟨hN, h1 h⟩
      · have := h2 h; linarith

theorem floor_twice {c : ℚ} {k M N : ℤ} (hk : 0 < k) (h1 : Picks .floor c M) (h2 : Picks .floor ((M : ℚ) / k) N) :
    Picks .floor (c / k) N := by
  have hkq : (0 : ℚ) < k := by exact_mod_cast hk
  obtain ⟨a1, a2⟩ := h1
  obtain ⟨b1, b2⟩ := h2
  rw [le_div_iff₀ hkq] at b1
  rw [div_lt_iff₀ hkq] at b2
  refine ⟨(le_div_iff₀ hkq).2 (b1.trans a1), (div_lt_iff₀ hkq).2 (a2.trans_le ?_)⟩
  have : M < (N + 1) * k := by exact_mod_cast b2
  exact_mod_cast this

theorem ceil_twice {c : ℚ} {k M N : ℤ} (hk : 0 < k) (h1 : Picks .ceil c M) (h2 : Picks .ceil ((M : ℚ) / k) N) :
    Picks .ceil (c / k) N := by
  have hkq : (0 : ℚ) < k := by exact_mod_cast hk
  obtain ⟨a1, a2⟩ := h1
  obtain ⟨b1, b2⟩ := h2
  rw [lt_div_iff₀ hkq] at b1
  rw [div_le_iff₀ hkq] at b2
  refine ⟨(lt_div_iff₀ hkq).2 (lt_of_le_of_lt ?_ a1), (div_le_iff₀ hkq).2 (a2.trans b2)⟩
  have : (N - 1) * k < M := by exact_mod_cast b1
  have : (N - 1) * k ≤ M - 1 := by omega
  exact_mod_cast this

theorem picks_twice {f : Builtin} {c : ℚ} {k M N : ℤ} (hf : f = .floor ∨ f = .ceil ∨ f = .trunc) (hk : 0 < k)
    (h1 : Picks f c M) (h2 : Picks f ((M : ℚ) / k) N) : Picks f (c / k) N := by
  have hkq : (0 : ℚ) < k := by exact_mod_cast hk
  rcases hf with rfl | rfl | rfl
  · exact floor_twice hk h1 h2
  · exact ceil_twice hk h1 h2
  · rw [trunc_split] at h1 h2 ⊢
    constructor
    · intro h
      have hc : 0 ≤ c := by
        have := mul_nonneg h hkq.le
        rwa [div_mul_cancel₀ _ hkq.ne'] at this
      have k1 := h1.1 hc
      have hM : (0 : ℚ) ≤ M := by
        have : (-1 : ℚ) < M := by linarith [k1.2]
        have : -1 < M := by exact_mod_cast this
        exact_mod_cast (by omega : 0 ≤ M)
      exact floor_twice hk k1 (h2.1 (div_nonneg hM hkq.le))
    · intro h
      have hc : c ≤ 0 := by
        have := mul_nonneg (neg_nonneg.2 h) hkq.le
        rw [neg_mul, div_mul_cancel₀ _ hkq.ne'] at this
        linarith
      have k1 := h1.2 hc
      have hM : (M : ℚ) ≤ 0 := by
        have : (M : ℚ) < 1 := by linarith [k1.1]
        have : M < 1 := by exact_mod_cast this
        exact_mod_cast (by omega : M ≤ 0)
      exact ceil_twice hk k1 (h2.2 (div_nonpos_of_nonpos_of_nonneg hM hkq.le))

/-- C120: dividing by two whole numbers one after the other, and dropping the fractions each time, is
dividing by their product. -/
theorem C120_twice (w : World) (m : HMap F64) (f : Builtin) (a b c : Elem) (x y z : F64) (p : ℚ) (j k : ℤ)
    (hf : f = .floor ∨ f = .ceil ∨ f = .trunc)
    (ha : eval w m a = .ok x) (hb : eval w m b = .ok y) (hc : eval w m c = .ok z)
    (hx : value x = some p) (hy : value y = some (j : ℚ)) (hz : value z = some (k : ℚ)) (hj : j ≠ 0) (hk : 0 < k)
    (hs : Splits f p (j * k)) :
    ∃ u v, eval w m (shareTree f (shareTree f a b) c) = .ok u ∧ eval w m (shareTree f a (.bin .times b c)) = .ok v ∧
      ∃ N : ℤ, Picks f (p / (j * k)) N ∧ value u = some (N : ℚ) ∧ value v = some (N : ℚ) := by
  have hjq : (j : ℚ) ≠ 0 := by exact_mod_cast hj
  have hkq : (0 : ℚ) < k := by exact_mod_cast hk
  have hk1 : (1 : ℚ) ≤ k := by exact_mod_cast hk
  have hj1 : (1 : ℚ) ≤ |(j : ℚ)| := by exact_mod_cast Int.one_le_abs hj
  have e : p / ((j * k : ℤ) : ℚ) = p / j / k := by push_cast; field_simp
  have e' : p / (j * k) = p / j / k := by field_simp
  obtain ⟨hw, hsz⟩ := fair_whole hs
  rw [Int.cast_mul, abs_mul, abs_of_pos hkq] at hsz
  have hsz1 : |p| + |(j : ℚ)| ≤ 2 ^ 53 := by nlinarith
  have hexists : ∀ c : ℚ, ∃ M : ℤ, Picks f c M := by
    intro c
    rcases hf with rfl | rfl | rfl
    · exact ⟨⌊c⌋, Int.floor_le c, Int.lt_floor_add_one c⟩
    · exact ⟨⌈c⌉, by linarith [Int.ceil_lt_add_one c], Int.le_ceil c⟩
    · rcases le_total 0 c with h | h
      · refine ⟨⌊c⌋, trunc_split.2 ⟨fun _ => ⟨Int.floor_le c, Int.lt_floor_add_one c⟩, fun h' => ?_⟩⟩
        have : c = 0 := le_antisymm h' h
        subst this
        simp [Picks]
      · refine ⟨⌈c⌉, trunc_split.2 ⟨fun h' => ?_, fun _ => ⟨by linarith [Int.ceil_lt_add_one c], Int.le_ceil c⟩⟩⟩
        have : c = 0 := le_antisymm h h'
        subst this
        simp [Picks]
  have hle : |p / j / k| ≤ |p / j| := by
    rw [abs_div (p / j), abs_of_pos hkq]
    exact div_le_self (abs_nonneg _) hk1
  have sgn : (0 ≤ p / j / k → 0 ≤ p / j) ∧ (p / j / k ≤ 0 → p / j ≤ 0) := by
    constructor <;> intro h
    · by_contra hc
      exact absurd h (not_le.2 (div_neg_of_neg_of_pos (not_le.1 hc) hkq))
    · by_contra hc
      exact absurd h (not_le.2 (div_pos (not_le.1 hc) hkq))
  have s1 : Splits f p j := by
    unfold Splits at hs ⊢
    rw [e] at hs
    rcases hs with ⟨rfl, -, h⟩ | ⟨rfl, -, h⟩ | ⟨rfl, -⟩ | ⟨rfl, -⟩
    · exact .inl ⟨rfl, hsz1, h.imp sgn.1 fun h => h.trans hle⟩
    · exact .inr (.inl ⟨rfl, hsz1, h.imp sgn.2 fun h => h.trans hle⟩)
    · exact .inr (.inr (.inl ⟨rfl, hsz1⟩))
    · rcases hf with h | h | h <;> cases h
  obtain ⟨M, hM⟩ := hexists (p / j)
  obtain ⟨N, hN⟩ := hexists ((M : ℚ) / k)
  have hMs : |(M : ℚ)| + |(k : ℚ)| ≤ 2 ^ 53 := by
    obtain ⟨T, hT⟩ : ∃ T : ℤ, T = 2 ^ 53 - k := ⟨_, rfl⟩
    have hTq : (T : ℚ) = 2 ^ 53 - k := by rw [hT]; push_cast; rfl
    have h1 : |p / j| ≤ T := by
      rw [abs_div, hTq]
      refine (div_le_self (abs_nonneg p) hj1).trans ?_
      nlinarith
    rw [abs_le] at h1
    have h2 : -T ≤ M ∧ M ≤ T := by
      have lo : (-T : ℚ) - 1 < M ∧ (M : ℚ) < T + 1 := by
        rcases hf with rfl | rfl | rfl
        · exact ⟨by linarith [hM.2], by linarith [hM.1]⟩
        · exact ⟨by linarith [hM.2], by linarith [hM.1]⟩
        · have := abs_lt.1 hM.2
          exact ⟨by linarith, by linarith⟩
      have l1 : -T - 1 < M := by exact_mod_cast lo.1
      have l2 : M < T + 1 := by exact_mod_cast lo.2
      omega
    have h3 : |M| ≤ T := abs_le.2 h2
    have h4 : |(M : ℚ)| ≤ T := by exact_mod_cast h3
    rw [abs_of_pos hkq]
    linarith
  have big : (0 : ℚ) ≤ M / k ∧ (M : ℚ) / k ≤ 0 ∨ 1 / 2 ^ 1074 ≤ |(M : ℚ) / k| := by
    by_cases h0 : M = 0
    · left; simp [h0]
    · right
      have h1 : (1 : ℚ) ≤ |(M : ℚ)| := by exact_mod_cast Int.one_le_abs h0
      rw [abs_div, abs_of_pos hkq, div_le_div_iff₀ (by positivity) hkq, one_mul]
      rw [abs_of_pos hkq] at hMs
      have : (2 : ℚ) ^ 53 ≤ 2 ^ 1074 := pow_le_pow_right₀ (by norm_num) (by norm_num)
      nlinarith [abs_nonneg (M : ℚ)]
  have s2 : Splits f M k := by
    rcases hf with rfl | rfl | rfl
    · exact .inl ⟨rfl, hMs, big.imp_left And.left⟩
    · exact .inr (.inl ⟨rfl, hMs, big.imp_left And.right⟩)
    · exact .inr (.inr (.inl ⟨rfl, hMs⟩))
  obtain ⟨v1, r1, -, r2⟩ := C120_whole w m f a b x y p j M ha hb hx hy hj s1 hM
  obtain ⟨u, r3, -, r4⟩ := C120_whole w m f _ c v1 z M k N r1 hc r2 hz hk.ne' s2 hN
  have hprod : value (F64.mul y z) = some ((j * k : ℤ) : ℚ) := by
    have h1 : |((j * k : ℤ) : ℚ)| ≤ 2 ^ 53 := by
      rw [Int.cast_mul, abs_mul, abs_of_pos hkq]
      linarith [abs_nonneg p]
    have h2 : |j * k| ≤ 2 ^ 53 := by exact_mod_cast h1
    have := small_inF64 (z := j * k) h2
    rw [Int.cast_mul] at this ⊢
    exact mul_exact hy hz this
  have hN' : Picks f (p / ((j * k : ℤ) : ℚ)) N := by rw [e]; exact picks_twice hf hk hM hN
  obtain ⟨v, r5, -, r6⟩ := C120_whole w m f a (.bin .times b c) x (F64.mul y z) p (j * k) N ha
    (by rw [eval, hb, hc]; rfl) hx hprod (mul_ne_zero hj hk.ne') hs hN'
  exact ⟨u, v, r3, r5, N, by rw [e', ← e]; exact hN', r4, r6⟩

/-- A case of `C120_whole`: `floor(x / 3)` at the number next below six is one, not two. -/
example : Splits .floor (6 - 1 / 2 ^ 50) 3 ∧ Picks .floor ((6 - 1 / 2 ^ 50) / (3 : ℤ)) 1 ∧
    (match parse0 cfgOpt b!"floor(x / 3)" with
    | .ok x => decide (x.eval w0 (mx belowSix) = .ok F64.f1)
    | _ => false) = true := by
  refine ⟨.inl ⟨rfl, ?_, .inl ?_⟩, ⟨?_, ?_⟩, by decide +kernel⟩ <;> norm_num [abs_of_pos]

/-- A case of `C120_twice`: 100000 seconds in hours. -/
example : Splits .floor 100000 (60 * 60) ∧ (match parse0 cfgOpt b!"floor(floor(x / 60) / 60)" with
    | .ok x => decide (x.eval w0 (mx (F64.ofNat 100000)) = .ok (F64.ofNat 27))
    | _ => false) = true := by
  refine ⟨.inl ⟨rfl, ?_, .inl ?_⟩, by decide +kernel⟩ <;> norm_num [abs_of_pos]

/-- What is excluded: a negative quotient lost to zero (its floor is `-1`), and a divisor that is not whole:
the number that `0.1` stands for is more than a tenth, yet one divided by it computes to ten. -/
example : F64.floor (F64.div (F64.neg tiny) (F64.ofNat 3)) = F64.zero true ∧
    (∃ t, parse0 cfgPlain b!"0.1" = .ok ⟨.num t, []⟩ ∧ F64.floor (F64.div F64.f1 t) = F64.ofNat 10 ∧
      ∃ q, value t = some q ∧ 1 < 10 * q) := by
  refine ⟨by decide +kernel, .fin false (0x1999999999999a * 2 ^ 1018) (by decide +kernel), by decide +kernel,
    by decide +kernel, _, value_fin _ _, ?_⟩
  simp only [F64.sv, unit64_cast]
  norm_num

end Props
end Xprs
