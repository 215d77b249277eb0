import Verif.Spec.Ledger
import Verif.Props.Whole
import Verif.Props.Steady
/-
Property C116: sums of amounts with decimal places, rounded to these places.
-/
namespace Xprs
namespace Props
open _root_.Xprs.Spec
set_option exponentiation.threshold 4096

theorem ten_pos (k : ℕ) : (0 : ℝ) < 10 ^ k := by positivity

/-- So many units of a decimal place are neither very many nor very few. -/
theorem middling_units {B k : ℕ} (hk : k ≤ 22) (hB : B ≤ 2 ^ 60) : Middling ((B : ℝ) / 10 ^ k) := by
  rcases Nat.eq_zero_or_pos B with rfl | h0
  · left; simp
  have h1 : (1 : ℝ) ≤ B := by exact_mod_cast h0
  have h2 : (B : ℝ) ≤ 2 ^ 60 := by exact_mod_cast hB
  have h3 : (10 : ℝ) ^ k ≤ 2 ^ 1000 := calc
    (10 : ℝ) ^ k ≤ 10 ^ 22 := pow_le_pow_right₀ (by norm_num) hk
    _ ≤ 2 ^ 100 := by norm_num
    _ ≤ 2 ^ 1000 := pow_le_pow_right₀ (by norm_num) (by norm_num)
  right
  rw [_root_.abs_of_nonneg (by positivity)]
  refine ⟨div_le_div₀ (by linarith) h1 (ten_pos k) h3, ?_⟩
  exact (div_le_self (by linarith) (one_le_pow₀ (by norm_num))).trans
    (h2.trans (pow_le_pow_right₀ (by norm_num) (by norm_num)))

theorem natAbs_real (N : ℤ) : ((N.natAbs : ℕ) : ℝ) = |(N : ℝ)| := by
  rw [Nat.cast_natAbs, Int.cast_abs]

/-- A literal is its decimal number up to a rounding. -/
theorem literal_off {N : ℤ} {k : ℕ} {x : F64} (hk : k ≤ 22) (hN : N.natAbs ≤ 2 ^ 60) (h : LiteralAt N k x) :
    OffTo 1 ((N.natAbs : ℕ) / 10 ^ k) (N / 10 ^ k) x := by
  have hr := literal_abs h
  obtain ⟨-, p, hp, hs⟩ := h
  have h0 : OffBy 0 ((N.natAbs : ℕ) / 10 ^ k : ℝ) (|(N : ℝ)| / 10 ^ k) ((|(N : ℚ)| / 10 ^ k : ℚ) : ℝ) := by
    constructor
    · rw [_root_.abs_of_nonneg (div_nonneg (abs_nonneg _) (ten_pos k).le), natAbs_real]
    · push_cast
      simp [growth]
  obtain ⟨r, h1, h2⟩ := h0.round hr (by norm_num) (middling_units hk hN)
  rw [(abs_value hp).1] at h1
  cases h1
  refine ⟨p, hp, ?_⟩
  push_cast at h2
  rcases le_or_gt 0 (N : ℝ) with hn | hn
  · rw [_root_.abs_of_nonneg hn] at h2
    rcases eq_or_lt_of_le hn with he | hn
    · have : N = 0 := by exact_mod_cast he.symm
      subst this
      simp only [Int.natAbs_zero, Nat.cast_zero, Int.cast_zero, _root_.zero_div] at h2 ⊢
      have h3 := h2.le
      rw [zero_mul, abs_abs] at h3
      have h4 : (p : ℝ) = 0 := abs_eq_zero.1 (le_antisymm h3 (abs_nonneg _))
      rw [h4] at h2 ⊢
      simpa using h2
    · have hn' : (0 : ℚ) < N := by exact_mod_cast hn
      have : 0 ≤ p := by
        by_contra hc
        exact absurd hs (not_le.2 (mul_neg_of_neg_of_pos (not_le.1 hc) hn'))
      have : (0 : ℝ) ≤ p := by exact_mod_cast this
      rwa [_root_.abs_of_nonneg this] at h2
  · have hn' : (N : ℚ) < 0 := by exact_mod_cast hn
    have : p ≤ 0 := by
      by_contra hc
      exact absurd hs (not_le.2 (mul_neg_of_pos_of_neg (not_le.1 hc) hn'))
    have : (p : ℝ) ≤ 0 := by exact_mod_cast this
    rw [abs_of_neg hn, abs_of_nonpos this] at h2
    have := h2.neg
    rwa [_root_.neg_neg, neg_div, _root_.neg_neg] at this

theorem max_one_pos (z : ℤ) : 1 ≤ max 1 z.natAbs := le_max_left _ _

/-- A multiple of an amount. -/
theorem multiple_off {B n k : ℕ} {N z : ℤ} {x y : F64} (hk : k ≤ 22) (hB : B * max 1 z.natAbs ≤ 2 ^ 60) (hn : n ≤ 2 ^ 50)
    (hx : OffTo n ((B : ℝ) / 10 ^ k) (N / 10 ^ k) x) (hy : value y = some (z : ℚ)) :
    OffTo (n + 1) (((B * max 1 z.natAbs : ℕ) : ℝ) / 10 ^ k) (((N * z : ℤ) : ℝ) / 10 ^ k) (F64.mul x y) := by
  obtain ⟨r, h1, h2⟩ := hx
  have h3 : OffBy 0 (max 1 z.natAbs : ℕ) z ((z : ℚ) : ℝ) := by
    constructor
    · rw [← natAbs_real]; exact_mod_cast le_max_right _ _
    · push_cast
      simp [growth]
  have h4 := h2.mul h3
  rw [add_zero] at h4
  have e1 : (B : ℝ) / 10 ^ k * (max 1 z.natAbs : ℕ) = ((B * max 1 z.natAbs : ℕ) : ℝ) / 10 ^ k := by
    rw [Nat.cast_mul]; ring
  have e2 : (N : ℝ) / 10 ^ k * z = ((N * z : ℤ) : ℝ) / 10 ^ k := by push_cast; ring
  rw [e1, e2] at h4
  exact (by push_cast at h4 ⊢; exact h4 : OffBy n (((B * max 1 z.natAbs : ℕ) : ℝ) / 10 ^ k)
    (((N * z : ℤ) : ℝ) / 10 ^ k) ((r * z : ℚ) : ℝ)).round (mul_rounds h1 hy) hn (middling_units hk hB)

mutual
theorem books_runs {w : World} {m : HMap F64} {k : ℕ} (hk : k ≤ 22) : ∀ {e : Elem} {N : ℤ} {B n : ℕ},
    Books m k e N B n → B ≤ 2 ^ 60 → n ≤ 2 ^ 50 → ∃ v, Runs w m e v ∧ OffTo n ((B : ℝ) / 10 ^ k) (N / 10 ^ k) v
  | _, _, _, _, .num h, hB, _ => ⟨_, .num, literal_off hk hB h⟩
  | _, _, _, _, .var h1 h, hB, _ => ⟨_, .var h1, literal_off hk hB h⟩
  | _, _, _, _, .pos h, hB, hn => by
    obtain ⟨v, h1, h2⟩ := books_runs (w := w) hk h hB hn
    exact ⟨v, .un h1 .plus, h2⟩
  | _, _, _, _, .neg h, hB, hn => by
    obtain ⟨v, h1, r, h2, h3⟩ := books_runs (w := w) hk h hB hn
    refine ⟨_, .un h1 .minus, -r, neg_value h2, ?_⟩
    have := h3.neg
    rw [← neg_div] at this
    push_cast
    exact this
  | _, _, _, _, .plus (B := B) (i := i) (C := C) (j := j) h h', hB, hn => by
    obtain ⟨v, h1, h2⟩ := books_runs (w := w) hk h (by omega) (by omega)
    obtain ⟨u, k1, k2⟩ := books_runs (w := w) hk h' (by omega) (by omega)
    have hm := middling_units hk hB
    have hx := offTo_add (h2.mono (le_max_left i j)) (k2.mono (le_max_right i j)) (by omega)
      (by rw [← add_div]; exact_mod_cast hm)
    refine ⟨_, .bin h1 k1 (.plus hx.ne_nan), ?_⟩
    rw [← add_div, ← add_div] at hx
    push_cast
    exact hx
  | _, _, _, _, .minus (N := N) (B := B) (i := i) (M := M) (C := C) (j := j) h h', hB, hn => by
    obtain ⟨v, h1, r, h2, h3⟩ := books_runs (w := w) hk h (by omega) (by omega)
    obtain ⟨u, k1, t, k2, k3⟩ := books_runs (w := w) hk h' (by omega) (by omega)
    have hw := (h3.mono (le_max_left i j)).add (k3.mono (le_max_right i j)).neg
    rw [← sub_eq_add_neg, ← sub_eq_add_neg, ← add_div, ← sub_div] at hw
    have hx := (by push_cast; exact hw : OffBy (max i j) (((B + C : ℕ) : ℝ) / 10 ^ k) (((N - M : ℤ) : ℝ) / 10 ^ k)
      ((r - t : ℚ) : ℝ)).round (sub_rounds h2 k2) (by omega) (middling_units hk hB)
    exact ⟨_, .bin h1 k1 (.minus hx.ne_nan), hx⟩
  | _, _, _, _, .times (z := z) h h', hB, hn => by
    obtain ⟨v, h1, h2⟩ := books_runs (w := w) hk h
      ((Nat.le_mul_of_pos_right _ (max_one_pos z)).trans hB) (by omega)
    obtain ⟨u, k1, k2⟩ := tallies_runs (w := w) h'
    have hx := multiple_off hk hB (by omega) h2 k2
    exact ⟨_, .bin h1 k1 (.times hx.ne_nan), hx⟩
  | _, _, _, _, .multiple (N := N) (z := z) h' h, hB, hn => by
    obtain ⟨v, h1, h2⟩ := books_runs (w := w) hk h
      ((Nat.le_mul_of_pos_right _ (max_one_pos z)).trans hB) (by omega)
    obtain ⟨u, k1, k2⟩ := tallies_runs (w := w) h'
    have hx := multiple_off hk hB (by omega) h2 k2
    rw [fmul_comm, mul_comm N] at hx
    exact ⟨_, .bin k1 h1 (.times hx.ne_nan), hx⟩
  | _, _, _, _, .sum (n := n) _ h, hB, hn => by
    obtain ⟨vs, ps, h1, h2, h3, h4, h5, h6⟩ := booksL_runs (w := w) hk h hB (by omega)
    have := sum_steady w h3 (by
      rw [h4]
      refine (div_le_self (by positivity) (one_le_pow₀ (by norm_num))).trans ?_
      exact (show _ ≤ (2 : ℝ) ^ 60 by exact_mod_cast hB).trans (pow_le_pow_right₀ (by norm_num) (by norm_num)))
      (by rw [h6]; exact hn) h2
    rw [h4, h5, h6] at this
    exact ⟨sumF w vs, .call h1 ⟨rfl, fun _ hu => ⟨_, rfl, foldl_add_same hu (.refl _)⟩⟩, this⟩
theorem booksL_runs {w : World} {m : HMap F64} {k : ℕ} (hk : k ≤ 22) : ∀ {es : List Elem} {Ns : List ℤ} {B n : ℕ},
    BooksL m k es Ns B n → B ≤ 2 ^ 60 → n ≤ 2 ^ 50 → ∃ (vs : List F64) (ps : List Estimate), RunsL w m es vs ∧
      List.Forall₂ (fun p v => OffTo p.steps p.size p.val v) ps vs ∧ (∀ p ∈ ps, p.steps ≤ n ∧ Middling p.size) ∧
      (ps.map Estimate.size).sum = (B : ℝ) / 10 ^ k ∧ (ps.map Estimate.val).sum = ((Ns.sum : ℤ) : ℝ) / 10 ^ k ∧
      ps.length = es.length
  | _, _, _, _, .nil, _, _ => ⟨[], [], .nil, .nil, by simp, by simp, by simp, rfl⟩
  | _, _, _, _, .cons (N := N) (B := B) (C := C) (i := i) (j := j) h h', hB, hn => by
    obtain ⟨v, h1, h2⟩ := books_runs (w := w) hk h (by omega) (by omega)
    obtain ⟨vs, ps, k1, k2, k3, k4, k5, k6⟩ := booksL_runs (w := w) hk h' (by omega) (by omega)
    refine ⟨v :: vs, ⟨N / 10 ^ k, B / 10 ^ k, i⟩ :: ps, .cons h1 k1, .cons h2 k2, ?_, ?_, ?_, ?_⟩
    · intro p hp
      rcases List.mem_cons.1 hp with rfl | hp
      · exact ⟨le_max_left _ _, middling_units hk (by omega)⟩
      · exact ⟨(k3 p hp).1.trans (le_max_right _ _), (k3 p hp).2⟩
    · rw [List.map_cons, List.sum_cons, k4]; push_cast; ring
    · rw [List.map_cons, List.sum_cons, k5, List.sum_cons]; push_cast; ring
    · rw [List.length_cons, List.length_cons, k6]
end

mutual
theorem books_tree {m : HMap F64} {k : ℕ} : ∀ {e : Elem} {N : ℤ} {B n : ℕ}, Books m k e N B n →
    Proper (fun f => ∃ b : Builtin, f = b.toFunc) e ∧ NoPower e
  | _, _, _, _, .num _ => ⟨.num _, by intro l r h; cases h⟩
  | _, _, _, _, .var _ _ => ⟨.var _, by intro l r h; cases h⟩
  | _, _, _, _, .pos h => ⟨.un (.inl rfl) (books_tree h).1, noPower_un.2 (books_tree h).2⟩
  | _, _, _, _, .neg h => ⟨.un (.inr (.inl rfl)) (books_tree h).1, noPower_un.2 (books_tree h).2⟩
  | _, _, _, _, .plus h k => ⟨.bin (by decide) (books_tree h).1 (books_tree k).1,
      noPower_bin.2 ⟨by decide, (books_tree h).2, (books_tree k).2⟩⟩
  | _, _, _, _, .minus h k => ⟨.bin (by decide) (books_tree h).1 (books_tree k).1,
      noPower_bin.2 ⟨by decide, (books_tree h).2, (books_tree k).2⟩⟩
  | _, _, _, _, .times h k => ⟨.bin (by decide) (books_tree h).1 (tallies_tree k).1,
      noPower_bin.2 ⟨by decide, (books_tree h).2, (tallies_tree k).2⟩⟩
  | _, _, _, _, .multiple h k => ⟨.bin (by decide) (tallies_tree h).1 (books_tree k).1,
      noPower_bin.2 ⟨by decide, (tallies_tree h).2, (books_tree k).2⟩⟩
  | _, _, _, _, .sum hne h => tree_call (b := .sum) rfl hne (booksL_tree h)
theorem booksL_tree {m : HMap F64} {k : ℕ} : ∀ {es : List Elem} {Ns : List ℤ} {B n : ℕ}, BooksL m k es Ns B n →
    ∀ e ∈ es, Proper (fun f => ∃ b : Builtin, f = b.toFunc) e ∧ NoPower e
  | _, _, _, _, .nil => fun _ h => by cases h
  | _, _, _, _, .cons h k => fun e he => by
    cases he with
    | head => exact books_tree h
    | tail _ he => exact booksL_tree k e he
end

/-! ### C116 -/

/-- What is close enough to `N` units of the last place is rounded to this. -/
theorem round_to (w : World) {k : ℕ} {N : ℤ} {x t : F64} {p : ℚ} (hx : value x = some p)
    (ht : value t = some (10 ^ k)) (hc : |p * 10 ^ k - N| + |p * 10 ^ k| / 2 ^ 52 + 1 / 2 ^ 1073 < 1 / 2) :
    ∃ (u : F64) (r s : ℚ), value (F64.mul x t) = some r ∧ CallStep w Builtin.round.toFunc [F64.mul x t] u ∧
      value (F64.div u t) = some s ∧ LiteralAt N k (F64.div u t) := by
  have h0 : (0 : ℚ) < 1 / 2 ^ 1073 := by positivity
  have hP : |p * 10 ^ k| ≤ 2 ^ 52 := by
    have := abs_nonneg (p * 10 ^ k - N)
    linarith
  obtain ⟨u, r, s, h1, h2, h3, r', N', h4, -, ⟨h5, -⟩, h6⟩ := places_steps w (f := .round) (by decide) hx ht
    (hP.trans (pow_le_pow_right₀ (by norm_num) (by norm_num)))
  have : N' = N := by
    have h7 : |(N' : ℚ) - N| < 1 := by
      have h7 : (N' : ℚ) - N = -(r' - N') + (r' - p * 10 ^ k) + (p * 10 ^ k - N) := by ring
      rw [h7]
      refine lt_of_le_of_lt (abs_add_three _ _ _) ?_
      rw [abs_neg]
      linarith
    have h7 : |N' - N| < 1 := by exact_mod_cast h7
    have := Int.abs_lt_one_iff.1 h7
    omega
  subst this
  exact ⟨u, r, s, h1, h2, h3, h6⟩

theorem round_runs {w : World} {m : HMap F64} {e t : Elem} {k : ℕ} {N : ℤ} {x : F64} {p : ℚ} (he : Runs w m e x)
    (ht : Tallies m t (10 ^ k)) (hx : value x = some p)
    (hc : |p * 10 ^ k - N| + |p * 10 ^ k| / 2 ^ 52 + 1 / 2 ^ 1073 < 1 / 2) :
    ∃ v, Runs w m (placesTree .round e t) v ∧ LiteralAt N k v := by
  obtain ⟨y, hy, hv⟩ := tallies_runs (w := w) ht
  rw [Int.cast_pow, Int.cast_ofNat] at hv
  obtain ⟨u, r, s, h1, h2, h3, h4⟩ := round_to w hx hv hc
  exact ⟨_, .bin (.call (.cons (.bin he hy (.times (ne_nan_of_value h1))) .nil) h2) hy
    (.divide (ne_nan_of_value h3) (not_zero_of_value hv (by positivity))), h4⟩

/-- The error of a sum, in units of the last place. -/
theorem books_error {w : World} {m : HMap F64} {k : ℕ} {e : Elem} {N : ℤ} {B n : ℕ} (hk : k ≤ 22)
    (h : Books m k e N B n) (hB : B ≤ 2 ^ 60) (hn : n ≤ 2 ^ 50) :
    ∃ v p, Runs w m e v ∧ value v = some p ∧ |p * 10 ^ k - N| ≤ (B * n : ℕ) / 2 ^ 52 ∧ |(N : ℚ)| ≤ B := by
  obtain ⟨v, h1, p, h2, h3⟩ := books_runs (w := w) hk h hB hn
  have ht := ten_pos k
  refine ⟨v, p, h1, h2, ?_, ?_⟩
  · have h4 := off_by_error h3 hn
    have e1 : (p : ℝ) - N / 10 ^ k = (p * 10 ^ k - N) / 10 ^ k := by field_simp
    rw [e1, abs_div, abs_of_pos ht, div_le_iff₀ ht] at h4
    have e2 : (B : ℝ) / 10 ^ k * (n / 2 ^ 52) * 10 ^ k = (B * n : ℕ) / 2 ^ 52 := by push_cast; field_simp
    rw [e2] at h4
    refine (Rat.cast_le (K := ℝ)).1 ?_
    push_cast at h4 ⊢
    exact h4
  · have h4 := h3.1
    rw [abs_div, abs_of_pos ht, div_le_div_iff_of_pos_right ht] at h4
    exact_mod_cast h4

theorem books_round {w : World} {m : HMap F64} {k : ℕ} {e t : Elem} {N : ℤ} {B n : ℕ} (hk : k ≤ 15)
    (h : Books m k e N B n) (ht : Tallies m t (10 ^ k)) (hn : n ≤ 2 ^ 50) (hB : B * (n + 2) < 2 ^ 51) :
    ∃ v, Runs w m (placesTree .round e t) v ∧ LiteralAt N k v := by
  obtain ⟨v, p, h1, h2, h3, h4⟩ := books_error (w := w) (by omega) h (by nlinarith) hn
  refine round_runs h1 ht h2 ?_
  have h5 : (B : ℚ) * (n + 2) + 1 ≤ 2 ^ 51 := by exact_mod_cast hB
  have h6 : |p * 10 ^ k| ≤ |(N : ℚ)| + |p * 10 ^ k - N| := by
    have := abs_sub_abs_le_abs_sub (p * 10 ^ k) N
    linarith
  have h7 : ((B * n : ℕ) : ℚ) / 2 ^ 52 ≤ B := by
    have h8 : (n : ℚ) ≤ 2 ^ 50 := by exact_mod_cast hn
    have h9 : (0 : ℚ) ≤ B := by positivity
    rw [div_le_iff₀ (by positivity)]
    push_cast
    nlinarith
  have h8 : (1 : ℚ) / 2 ^ 1073 ≤ 1 / 2 ^ 60 :=
    one_div_le_one_div_of_le (by positivity) (pow_le_pow_right₀ (by norm_num) (by norm_num))
  push_cast at h3 h7
  generalize (1 : ℚ) / 2 ^ 1073 = η at h8 ⊢
  generalize |p * 10 ^ k - N| = δ at h3 h6 ⊢
  generalize |p * 10 ^ k| = P at h6 ⊢
  generalize |(N : ℚ)| = M at h4 h6
  have : P ≤ 2 * B := by linarith
  linarith

theorem round_tree {m : HMap F64} {k : ℕ} {e t : Elem} {N : ℤ} {B n : ℕ} (h : Books m k e N B n)
    (ht : Tallies m t (10 ^ k)) : Proper (fun f => ∃ b : Builtin, f = b.toFunc) (placesTree .round e t) ∧
      NoPower (placesTree .round e t) := by
  have h1 := books_tree h
  have h2 := tallies_tree ht
  have h3 := tree_app (b := .round) rfl (e := .bin .times e t)
    ⟨.bin (by decide) h1.1 h2.1, noPower_bin.2 ⟨by decide, h1.2, h2.2⟩⟩
  exact ⟨.bin (by decide) h3.1 h2.1, noPower_bin.2 ⟨by decide, h3.2, h2.2⟩⟩

/-- C116: amounts with `k` decimal places, added, subtracted and multiplied by whole numbers, and the result
rounded as `round(… * 10^k) / 10^k`: the value is that of decimal arithmetic, namely the literal of the
exact amount.  This holds before simplification, in both evaluators, and after it in every build. -/
theorem C116_amounts (cfg : Cfg) (w : World) (m : HMap F64) (e t : Elem) (N : ℤ) (B n k : ℕ) (hk : k ≤ 15)
    (h : Books m k e N B n) (ht : Tallies m t (10 ^ k)) (hn : n ≤ 2 ^ 50) (hB : B * (n + 2) < 2 ^ 51) :
    (∃ v, eval w m (placesTree .round e t) = .ok v ∧ evalU w m (placesTree .round e t) = .ok v ∧ LiteralAt N k v ∧
      AtMostPlaces k (fmtF64 v)) ∧
    ∃ e', simplify cfg w (placesTree .round e t) = .ok e' ∧ ∃ v, eval w m e' = .ok v ∧ LiteralAt N k v ∧
      AtMostPlaces k (fmtF64 v) := by
  obtain ⟨v, h1, h2⟩ := books_round (w := w) hk h ht hn hB
  have h3 := runs_eval _ h1
  refine ⟨⟨v, h3, by rw [evalU_eq, h3]; rfl, h2, literal_prints h2⟩, ?_⟩
  obtain ⟨e', h4, -⟩ := simplify_proper cfg w (by rintro _ ⟨b, rfl⟩; exact builtin_total w b) _ (round_tree h ht).1
  obtain ⟨u, h5, h6⟩ := simplify_runs' (.inl (round_tree h ht).2) h1 h4
  exact ⟨e', h4, u, runs_eval _ h5, literal_same h2 h6, literal_prints (literal_same h2 h6)⟩

/-- C116: the same for `simplify_for`. -/
theorem C116_fixed (cfg : Cfg) (w : World) (m : HMap F64) (e : Xpr) (a t : Elem) (x : Bytes) (c : F64) (N : ℤ)
    (B n k : ℕ) (hk : k ≤ 15) (he : e.root = placesTree .round a t) (h : Books (m.insert x c) k a N B n)
    (ht : Tallies (m.insert x c) t (10 ^ k)) (hn : n ≤ 2 ^ 50) (hB : B * (n + 2) < 2 ^ 51) :
    ∃ e', e.simplifyFor cfg w x c = .ok e' ∧ ∃ v, e'.eval w m = .ok v ∧ LiteralAt N k v := by
  obtain ⟨v, h1, h2⟩ := books_round (w := w) hk h ht hn hB
  rw [← he] at h1
  have hr := round_tree h ht
  rw [← he] at hr
  obtain ⟨e', h4, -⟩ := simplifyFor_proper cfg w (by rintro _ ⟨b, rfl⟩; exact builtin_total w b) x c e.root hr.1
  have h5 : e.simplifyFor cfg w x c = .ok ⟨e', Xpr.removeVar e.vars x⟩ := by
    unfold Xpr.simplifyFor
    rw [h4]
  obtain ⟨-, v', h6, h7⟩ := C29_partial cfg w m e _ x c v (.inl hr.2) h1 h5
  exact ⟨_, h5, v', h6, literal_same h2 h7⟩

/-- C116: the same for texts, in every build. -/
theorem C116_text (cfg cfg' : Cfg) (w : World) (o o' : Oracle) (ctx : Context) (input : Bytes)
    (x y : Xpr) (m : HMap F64) (a t : Elem) (N : ℤ) (B n k : ℕ) (hp : cfg.pejmdas = cfg'.pejmdas) (ho : cfg.opt = false)
    (hs : ∀ ts, Lex input ts → ParensApart ts)
    (h : parse cfg w o ctx input = .ok x) (h' : parse cfg' w o' ctx input = .ok y)
    (hx : x.root = placesTree .round a t) (hk : k ≤ 15) (ha : Books m k a N B n)
    (ht : Tallies m t (10 ^ k)) (hn : n ≤ 2 ^ 50) (hB : B * (n + 2) < 2 ^ 51) :
    (∃ v, x.eval w m = .ok v ∧ LiteralAt N k v) ∧ ∃ v, y.eval w m = .ok v ∧ LiteralAt N k v := by
  obtain ⟨v, h1, h2⟩ := books_round (w := w) hk ha ht hn hB
  have hr := round_tree ha ht
  rw [← hx] at h1 hr
  obtain ⟨h3, u, h4, h5⟩ := C16_value_partial cfg cfg' w o o' ctx input x y m v hp ho (.inl hr.2) hs h h' h1
  exact ⟨⟨v, h3, h2⟩, u, h4, literal_same h2 h5⟩

/-- C116: rounded amounts compare as the exact amounts do: they are equal if these are, and ordered
as these are. -/
theorem C116_compare (w : World) (m : HMap F64) (e f t : Elem) (N M : ℤ) (B C n i k : ℕ) (hk : k ≤ 15)
    (h : Books m k e N B n) (h' : Books m k f M C i) (ht : Tallies m t (10 ^ k)) (hn : n ≤ 2 ^ 50) (hi : i ≤ 2 ^ 50)
    (hB : B * (n + 2) < 2 ^ 51) (hC : C * (i + 2) < 2 ^ 51) :
    ∃ u v p q, eval w m (placesTree .round e t) = .ok u ∧ eval w m (placesTree .round f t) = .ok v ∧
      value u = some p ∧ value v = some q ∧ (p = q ↔ N = M) ∧ (p < q ↔ N < M) := by
  obtain ⟨u, h1, h2⟩ := books_round (w := w) hk h ht hn hB
  obtain ⟨v, k1, k2⟩ := books_round (w := w) hk h' ht hi hC
  obtain ⟨-, -, -, -, -, hN⟩ := books_error (w := w) (by omega) h (by nlinarith) hn
  obtain ⟨-, -, -, -, -, hM⟩ := books_error (w := w) (by omega) h' (by nlinarith) hi
  have hN : |(N : ℚ)| ≤ 2 ^ 50 := hN.trans (by
    have : B ≤ 2 ^ 50 := by nlinarith
    exact_mod_cast this)
  have hM : |(M : ℚ)| ≤ 2 ^ 50 := hM.trans (by
    have : C ≤ 2 ^ 50 := by nlinarith
    exact_mod_cast this)
  obtain ⟨p, hp⟩ : ∃ p, value u = some p := by obtain ⟨-, p, hp, -⟩ := h2; exact ⟨p, hp⟩
  obtain ⟨q, hq⟩ : ∃ q, value v = some q := by obtain ⟨-, q, hq, -⟩ := k2; exact ⟨q, hq⟩
  have hN' : |N| ≤ 2 ^ 60 := by
    have : |N| ≤ 2 ^ 50 := by exact_mod_cast hN
    omega
  have hM' : |M| ≤ 2 ^ 60 := by
    have : |M| ≤ 2 ^ 50 := by exact_mod_cast hM
    omega
  have a1 := literal_near (by omega) hN' h2 hp
  have a2 := literal_near (by omega) hM' k2 hq
  have ht : (0 : ℚ) < 10 ^ k := by positivity
  have less : ∀ {N M : ℤ} {p q : ℚ}, |(N : ℚ)| ≤ 2 ^ 50 → |(M : ℚ)| ≤ 2 ^ 50 → |p * 10 ^ k - N| ≤ |(N : ℚ)| / 2 ^ 52 →
      |q * 10 ^ k - M| ≤ |(M : ℚ)| / 2 ^ 52 → N < M → p < q := by
    intro N M p q hN hM a1 a2 hlt
    have h3 : (N : ℚ) + 1 ≤ M := by exact_mod_cast hlt
    have h4 := (abs_le.1 a1).2
    have h5 := (abs_le.1 a2).1
    by_contra hc
    have := mul_le_mul_of_nonneg_right (not_lt.1 hc) ht.le
    linarith
  have same : N = M → p = q := by
    rintro rfl
    have := value_same hp (literal_unique h2 k2)
    rw [hq] at this
    exact (Option.some.inj this).symm
  refine ⟨u, v, p, q, runs_eval _ h1, runs_eval _ k1, hp, hq, ⟨fun he => ?_, same⟩, ⟨fun hl => ?_, less hN hM a1 a2⟩⟩
  · rcases lt_trichotomy N M with hl | hl | hl
    · exact absurd (less hN hM a1 a2 hl) (by rw [he]; exact lt_irrefl _)
    · exact hl
    · exact absurd (less hM hN a2 a1 hl) (by rw [he]; exact lt_irrefl _)
  · rcases lt_trichotomy N M with hl' | hl' | hl'
    · exact hl'
    · exact absurd (same hl') hl.ne
    · exact absurd (less hM hN a2 a1 hl') (not_lt.2 hl.le)

/-- C116: without the rounding the result is off by at most `B * n` parts of `2⁵²` of a unit. -/
theorem C116_error (w : World) (m : HMap F64) (e : Elem) (N : ℤ) (B n k : ℕ) (hk : k ≤ 22)
    (h : Books m k e N B n) (hn : n ≤ 2 ^ 50) (hB : B ≤ 2 ^ 60) :
    ∃ v p, eval w m e = .ok v ∧ evalU w m e = .ok v ∧ value v = some p ∧
      |p - N / 10 ^ k| * 10 ^ k ≤ (B * n : ℕ) / 2 ^ 52 := by
  obtain ⟨v, p, h1, h2, h3, -⟩ := books_error (w := w) hk h hB hn
  have h4 := runs_eval _ h1
  refine ⟨v, p, h4, by rw [evalU_eq, h4]; rfl, h2, ?_⟩
  have ht : (0 : ℚ) < 10 ^ k := by positivity
  rw [show (p : ℚ) - N / 10 ^ k = (p * 10 ^ k - N) / 10 ^ k by field_simp, abs_div, abs_of_pos ht, div_mul_cancel₀ _ ht.ne']
  exact h3

/-- C116: the same with rates, quotients and functions: if over the real numbers the tree has the value `q`,
`s` roundings of terms that come to `Q` are made, and `q * 10^k` is nearer to `N` than half a unit by more than
these can add up to, then the value rounded to `k` places is the literal of `N`. -/
theorem C116_near (cfg : Cfg) (w : World) (m : HMap F64) (e t : Elem) (q Q : ℝ) (s k : ℕ) (N : ℤ)
    (h : Cancels w m e q Q s) (hs : s ≤ 2 ^ 50) (ht : Tallies m t (10 ^ k))
    (hc : |q * 10 ^ k - N| + Q * 10 ^ k * ((s + 2) / 2 ^ 52) + 1 / 2 ^ 1073 < 1 / 2) :
    (∃ v, eval w m (placesTree .round e t) = .ok v ∧ evalU w m (placesTree .round e t) = .ok v ∧ LiteralAt N k v ∧
      AtMostPlaces k (fmtF64 v)) ∧
    ∀ e', simplify cfg w (placesTree .round e t) = .ok e' → ∃ v, eval w m e' = .ok v ∧ LiteralAt N k v ∧
      AtMostPlaces k (fmtF64 v) := by
  obtain ⟨x, h1, p, h2, h3⟩ := cancels_runs h hs
  have hk := ten_pos k
  have h4 := off_by_error h3 hs
  have h5 := h3.1
  have h0 := h3.nonneg
  have hc' : |p * 10 ^ k - N| + |p * 10 ^ k| / 2 ^ 52 + 1 / 2 ^ 1073 < 1 / 2 := by
    have a1 : |(p : ℝ) * 10 ^ k - N| ≤ Q * (s / 2 ^ 52) * 10 ^ k + |q * 10 ^ k - N| := by
      rw [show (p : ℝ) * 10 ^ k - N = (p - q) * 10 ^ k + (q * 10 ^ k - N) by ring]
      refine (abs_add_le _ _).trans ?_
      rw [abs_mul, abs_of_pos hk]
      have := mul_le_mul_of_nonneg_right h4 hk.le
      linarith
    have a2 : |(p : ℝ) * 10 ^ k| ≤ 2 * Q * 10 ^ k := by
      rw [abs_mul, abs_of_pos hk]
      refine mul_le_mul_of_nonneg_right ?_ hk.le
      have b1 : (s : ℝ) ≤ 2 ^ 50 := by exact_mod_cast hs
      have b2 : Q * (s / 2 ^ 52) ≤ Q := mul_le_of_le_one_right h0 (by
        rw [div_le_one (by positivity)]; linarith)
      have b3 := abs_sub_abs_le_abs_sub (p : ℝ) q
      linarith
    have a3 : |(p : ℝ) * 10 ^ k - N| + |(p : ℝ) * 10 ^ k| / 2 ^ 52 + 1 / 2 ^ 1073 < 1 / 2 := by
      refine lt_of_le_of_lt ?_ hc
      have e : Q * 10 ^ k * ((s + 2) / 2 ^ 52) = Q * (s / 2 ^ 52) * 10 ^ k + 2 * Q * 10 ^ k / 2 ^ 52 := by ring
      rw [e]
      have := div_le_div_of_nonneg_right a2 (show (0 : ℝ) ≤ 2 ^ 52 by positivity)
      linarith
    refine (Rat.cast_lt (K := ℝ)).1 ?_
    simp only [Rat.cast_add, Rat.cast_div, Rat.cast_abs, Rat.cast_sub, Rat.cast_mul, Rat.cast_pow, Rat.cast_ofNat,
      Rat.cast_one, Rat.cast_intCast]
    exact a3
  obtain ⟨v, g1, g2⟩ := round_runs h1 ht h2 hc'
  have g3 := runs_eval _ g1
  have hp : NoPower (placesTree .round e t) := by
    have b1 := noPower_of_cancels h
    have b2 := (tallies_tree ht).2
    refine noPower_bin.2 ⟨by decide, noPower_call.2 fun a ha => ?_, b2⟩
    rw [List.mem_singleton.1 ha]
    exact noPower_bin.2 ⟨by decide, b1, b2⟩
  refine ⟨⟨v, g3, by rw [evalU_eq, g3]; rfl, g2, literal_prints g2⟩, fun e' he => ?_⟩
  obtain ⟨u, h5, h6⟩ := simplify_runs' (.inl hp) g1 he
  exact ⟨u, runs_eval _ h5, literal_same g2 h6, literal_prints (literal_same g2 h6)⟩

/-! ### Cases -/

theorem literal_ofDecimal {M k : ℕ} (h : (value (F64.ofDecimal M (-k))).isSome) : LiteralAt M k (F64.ofDecimal M (-k)) := by
  obtain ⟨s, hs⟩ := Option.isSome_iff_exists.1 h
  have h := rounds_decimal M (-k)
  refine literal_of_rounds (s := s) ?_ hs
  convert h using 1
  simp only [decNum, decDen, neg_neg, Int.toNat_natCast, Int.toNat_neg_natCast, pow_zero, mul_one]
  push_cast
  rfl

/-- The literal with the digits `M`, the last `k` behind the point. -/
def dec (M k : ℕ) : Elem := .num (F64.ofDecimal M (-k))

/-- `round((0.1 + 0.2 + 3*x - 5.95)*100)/100` -/
def ledgerText : Bytes := b!"round((0.1 + 0.2 + 3*x - 5.95)*100)/100"

def ledgerTree : Elem :=
  .bin .minus (.bin .plus (.bin .plus (.num (F64.ofDecimal 1 (-1))) (.num (F64.ofDecimal 2 (-1))))
    (.bin .times (.num (F64.ofNat 3)) vx)) (.num (F64.ofDecimal 595 (-2)))

example : parse0 cfgPlain ledgerText = .ok ⟨placesTree .round ledgerTree (.num (F64.ofNat 100)), [b!"x"]⟩ := by
  decide +kernel

theorem hundred (m : HMap F64) : Tallies m (.num (F64.ofNat 100)) (10 ^ 2) :=
  .num (by show value _ = some ((100 : ℤ) : ℚ); decide +kernel) (by show |(100 : ℤ)| ≤ _; decide)

/-- With `x = 19.99` the exact amount is `54.32`. -/
theorem books_ledger : Books (mx (F64.ofDecimal 1999 (-2))) 2 ledgerTree 5432 6622 4 := by
  have h1 : LiteralAt 10 2 (F64.ofDecimal 1 (-1)) := by
    rw [show F64.ofDecimal 1 (-1) = F64.ofDecimal 10 (-2) by decide +kernel]
    exact literal_ofDecimal (M := 10) (k := 2) (by decide +kernel)
  have h2 : LiteralAt 20 2 (F64.ofDecimal 2 (-1)) := by
    rw [show F64.ofDecimal 2 (-1) = F64.ofDecimal 20 (-2) by decide +kernel]
    exact literal_ofDecimal (M := 20) (k := 2) (by decide +kernel)
  have h3 : LiteralAt 1999 2 (F64.ofDecimal 1999 (-2)) := literal_ofDecimal (M := 1999) (k := 2) (by decide +kernel)
  have h4 : LiteralAt 595 2 (F64.ofDecimal 595 (-2)) := literal_ofDecimal (M := 595) (k := 2) (by decide +kernel)
  have h5 : Tallies (mx (F64.ofDecimal 1999 (-2))) (.num (F64.ofNat 3)) 3 :=
    .num (by show value _ = some ((3 : ℤ) : ℚ); decide +kernel) (by show |(3 : ℤ)| ≤ _; decide)
  exact .minus (.plus (.plus (.num h1) (.num h2)) (.multiple h5 (.var (s := b!"x") rfl h3))) (.num h4)

example (cfg : Cfg) : ∃ e', simplify cfg w0 (placesTree .round ledgerTree (.num (F64.ofNat 100))) = .ok e' ∧
    ∃ v, eval w0 (mx (F64.ofDecimal 1999 (-2))) e' = .ok v ∧ LiteralAt 5432 2 v ∧ AtMostPlaces 2 (fmtF64 v) :=
  (C116_amounts cfg w0 _ _ _ _ _ _ _ (by norm_num) books_ledger (hundred _) (by norm_num) (by norm_num)).2

/-- The arguments of `sum` may be such amounts too: `sum(0.1, x)`. -/
example : Books (mx (F64.ofDecimal 2 (-1))) 1 (.call Builtin.sum.toFunc [.num (F64.ofDecimal 1 (-1)), vx]) 3 3 3 :=
  .sum (by simp) (.cons (.num (literal_ofDecimal (M := 1) (k := 1) (by decide +kernel)))
    (.cons (.var (s := b!"x") rfl (literal_ofDecimal (M := 2) (k := 1) (by decide +kernel))) .nil))

/-- A rate: 19 per cent of `49.99` are `9.4981`, with two places `9.50`. -/
example (cfg : Cfg) : ∃ v, eval w0 (mx (F64.ofDecimal 4999 (-2)))
    (placesTree .round (.bin .times vx (.num (F64.ofDecimal 19 (-2)))) (.num (F64.ofNat 100))) = .ok v ∧
    LiteralAt 950 2 v ∧ AtMostPlaces 2 (fmtF64 v) := by
  have h1 := literal_off (k := 2) (by norm_num) (by norm_num) (literal_ofDecimal (M := 4999) (k := 2) (by decide +kernel))
  have h2 := literal_off (k := 2) (by norm_num) (by norm_num) (literal_ofDecimal (M := 19) (k := 2) (by decide +kernel))
  norm_num at h1 h2
  have hc : Cancels w0 (mx (F64.ofDecimal 4999 (-2))) (.bin .times vx (.num (F64.ofDecimal 19 (-2)))) _ _ _ :=
    .times (.var (n := b!"x") rfl h1) (.num h2) (.inr (by
      rw [_root_.abs_of_nonneg (by norm_num)]
      refine ⟨le_trans (b := 1) ?_ (by norm_num), le_trans (b := 2 ^ 10) (by norm_num)
        (pow_le_pow_right₀ (by norm_num) (by norm_num))⟩
      rw [div_le_one (by positivity)]
      exact one_le_pow₀ (by norm_num)))
  obtain ⟨v, g1, -, g2⟩ := (C116_near cfg w0 _ _ _ _ _ _ 2 950 hc (by norm_num) (hundred _) (by
    have h8 : (1 : ℝ) / 2 ^ 1073 ≤ 1 / 2 ^ 10 :=
      one_div_le_one_div_of_le (by positivity) (pow_le_pow_right₀ (by norm_num) (by norm_num))
    refine lt_of_le_of_lt (add_le_add_right h8 _) ?_
    rw [abs_of_neg (by norm_num)]
    norm_num)).1
  exact ⟨v, g1, g2⟩

/-- C116: the rounding is needed: `0.1 + 0.2` is not the number `0.3`; and it must be `round`, as
`floor((0.1 + 0.7)*10)/10` is `0.7`. -/
theorem C116_needed (w : World) (m : HMap F64) :
    (∃ v, eval w m (.bin .plus (dec 1 1) (dec 2 1)) = .ok v ∧ ¬ LiteralAt 3 1 v) ∧
    ∃ v, eval w m (placesTree .floor (.bin .plus (dec 1 1) (dec 7 1)) (.num (F64.ofNat 10))) = .ok v ∧
      LiteralAt 7 1 v ∧ ¬ LiteralAt 8 1 v := by
  have h7 : LiteralAt 7 1 (F64.ofDecimal 7 (-1)) := literal_ofDecimal (M := 7) (k := 1) (by decide +kernel)
  have h8 : LiteralAt 8 1 (F64.ofDecimal 8 (-1)) := literal_ofDecimal (M := 8) (k := 1) (by decide +kernel)
  have h3 : LiteralAt 3 1 (F64.ofDecimal 3 (-1)) := literal_ofDecimal (M := 3) (k := 1) (by decide +kernel)
  refine ⟨⟨F64.add (F64.ofDecimal 1 (-1)) (F64.ofDecimal 2 (-1)), rfl, fun h => ?_⟩,
    F64.div (F64.floor (F64.mul (F64.add (F64.ofDecimal 1 (-1)) (F64.ofDecimal 7 (-1))) (F64.ofNat 10))) (F64.ofNat 10), rfl, ?_⟩
  · obtain ⟨-, s, hs, -⟩ := id h
    have := value_same hs (literal_unique h h3)
    rw [← this] at hs
    exact absurd hs (by decide +kernel)
  · have e : F64.div (F64.floor (F64.mul (F64.add (F64.ofDecimal 1 (-1)) (F64.ofDecimal 7 (-1))) (F64.ofNat 10)))
        (F64.ofNat 10) = F64.ofDecimal 7 (-1) := by decide +kernel
    rw [e]
    refine ⟨h7, fun h => ?_⟩
    obtain ⟨-, s, hs, -⟩ := id h
    have := value_same hs (literal_unique h h8)
    rw [← this] at hs
    exact absurd hs (by decide +kernel)

end Props
end Xprs
