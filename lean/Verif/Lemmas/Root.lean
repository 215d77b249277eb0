import Verif.Spec.Root
import Verif.Lemmas.Ieee
/-
The square root of the model is that of IEEE 754.
-/
namespace Xprs
open Spec
set_option exponentiation.threshold 4096

theorem isqrtLoop_spec (N : Nat) : ∀ (k acc : Nat), acc * acc ≤ N → N < (acc + 2 ^ k) * (acc + 2 ^ k) →
    F64.isqrtLoop N k acc * F64.isqrtLoop N k acc ≤ N ∧
    N < (F64.isqrtLoop N k acc + 1) * (F64.isqrtLoop N k acc + 1)
  | 0, acc, h1, h2 => ⟨h1, h2⟩
  | k + 1, acc, h1, h2 => by
    rw [F64.isqrtLoop]
    split
    · rename_i h
      exact isqrtLoop_spec N k _ h (by rw [Nat.add_assoc, ← Nat.two_mul, ← Nat.pow_succ']; exact h2)
    · rename_i h
      exact isqrtLoop_spec N k acc h1 (Nat.lt_of_not_le h)

theorem isqrt_spec {N : Nat} (h : N < 2 ^ 3172) :
    F64.isqrt N * F64.isqrt N ≤ N ∧ N < (F64.isqrt N + 1) * (F64.isqrt N + 1) := by
  have hi : F64.isqrt N = F64.isqrtLoop N 1586 0 := by rw [F64.isqrt]
  rw [hi]
  refine isqrtLoop_spec N 1586 0 (Nat.zero_le _) ?_
  rw [Nat.zero_add, ← Nat.pow_add]
  exact h

theorem grid_pow (k : Nat) : Grid (2 ^ k) := ⟨1, k, by decide, by simp⟩

/-- Points of the grid from `2⁵³` on are even. -/
theorem grid_even {n : Nat} (h : Grid n) (hn : 2 ^ 53 ≤ n) : n % 2 = 0 := by
  obtain ⟨m, k, hm, rfl⟩ := h
  cases k with
  | zero => simp at hn; omega
  | succ k => rw [Nat.pow_succ, ← Nat.mul_assoc]; omega

/-- A point nearest to `r + 1/2` is nearest to every number strictly between `r` and
`r + 1`, when these are large. -/
theorem nearest_between {r g : Nat} {t : ℝ} (hr : 2 ^ 60 ≤ r) (hg : Nearest (2 * r + 1) 2 g)
    (h1 : (r : ℝ) < t) (h2 : t < r + 1) : NearestReal t g := by
  have hg60 : 2 ^ 60 ≤ g := by
    have := hg.closest _ (grid_pow 60)
    unfold Spec.dist at this
    omega
  have ge := grid_even hg.grid (by omega)
  have key : ∀ m, Grid m → m ≠ g → |(g : ℝ) - t| < |(m : ℝ) - t| := by
    intro m hm hne
    have hc := hg.closest m hm
    have h60 := hg.closest _ (grid_pow 60)
    unfold Spec.dist at hc h60
    rcases Nat.lt_or_gt_of_ne hne with hlt | hlt
    · have hs : m + g ≤ 2 * r := by
        by_cases hm53 : 2 ^ 53 ≤ m
        · have := grid_even hm hm53
          omega
        · omega
      have hs' : (m : ℝ) + g ≤ 2 * r := by exact_mod_cast hs
      have hl' : (m : ℝ) < g := by exact_mod_cast hlt
      rw [abs_of_neg (show (m : ℝ) - t < 0 by linarith)]
      rcases abs_cases ((g : ℝ) - t) with ⟨h, _⟩ | ⟨h, _⟩ <;> rw [h] <;> linarith
    · have hs : 2 * r + 2 ≤ m + g := by
        have := grid_even hm (by omega)
        omega
      have hs' : 2 * (r : ℝ) + 2 ≤ m + g := by exact_mod_cast hs
      have hl' : (g : ℝ) < m := by exact_mod_cast hlt
      rw [abs_of_pos (show 0 < (m : ℝ) - t by linarith)]
      rcases abs_cases ((g : ℝ) - t) with ⟨h, _⟩ | ⟨h, _⟩ <;> rw [h] <;> linarith
  refine ⟨hg.grid, fun m hm => ?_, fun m hm hne he => ?_⟩
  · by_cases hne : m = g
    · rw [hne]
    · exact (key m hm hne).le
  · have := key m hm hne
    rw [he] at this
    exact absurd this (lt_irrefl _)

theorem dist_cast (a b : Nat) : ((Spec.dist a b : Nat) : ℝ) = |(a : ℝ) - b| := by
  unfold Spec.dist
  rcases Nat.le_total a b with h | h
  · rw [Nat.sub_eq_zero_of_le h, Nat.zero_add, Nat.cast_sub h, abs_sub_comm, abs_of_nonneg]
    have : (a : ℝ) ≤ b := by exact_mod_cast h
    linarith
  · rw [Nat.sub_eq_zero_of_le h, Nat.add_zero, Nat.cast_sub h, abs_of_nonneg]
    have : (b : ℝ) ≤ a := by exact_mod_cast h
    linarith

theorem nearest_exact {r g : Nat} (hg : Nearest (2 * r) 2 g) : NearestReal (r : ℝ) g := by
  have hd : ∀ m : Nat, Spec.dist (m * 2) (2 * r) = 2 * Spec.dist m r := by
    intro m; unfold Spec.dist; omega
  refine ⟨hg.grid, fun m hm => ?_, fun m hm hne he => ?_⟩
  · have := hg.closest m hm
    rw [hd, hd] at this
    rw [← dist_cast, ← dist_cast]
    have : Spec.dist g r ≤ Spec.dist m r := by omega
    exact_mod_cast this
  · refine hg.even m hm hne ?_
    rw [← dist_cast, ← dist_cast] at he
    have : Spec.dist m r = Spec.dist g r := by exact_mod_cast he
    rw [hd, hd, this]

theorem scaled_root (n U : Nat) (hU : 0 < U) : √((n : ℝ) / U) * U = √((n * U : ℕ) : ℝ) := by
  have h : (0 : ℝ) < U := by exact_mod_cast hU
  have : ((n * U : ℕ) : ℝ) = (n : ℝ) / U * (U : ℝ) ^ 2 := by
    push_cast
    field_simp
  rw [this, Real.sqrt_mul' _ (by positivity), Real.sqrt_sq h.le]

theorem real_root (n : Nat) :
    √(((F64.sv false n : ℚ) / (unit64 : ℕ) : ℚ) : ℝ) * 2 ^ 1074 = √((n * unit64 : ℕ) : ℝ) := by
  have h1 : (((F64.sv false n : ℚ) / (unit64 : ℕ) : ℚ) : ℝ) = (n : ℝ) / (unit64 : ℕ) := by
    have : F64.sv false n = (n : ℤ) := rfl
    rw [this]
    push_cast
    rfl
  have h2 : (2 : ℝ) ^ 1074 = (unit64 : ℕ) := by
    rw [unit64_eq, Nat.cast_pow]
    rfl
  rw [h1, h2]
  exact scaled_root n unit64 unit64_pos

theorem radicand_lt {n : Nat} (h : Rep n) : n * unit64 < 2 ^ 3172 := by
  have h1 : n < 2 ^ 2098 := maxMag_eq ▸ h.1
  rw [unit64_eq, show (3172 : Nat) = 2098 + 1074 from rfl, Nat.pow_add]
  exact Nat.mul_lt_mul_of_pos_right h1 (Nat.two_pow_pos _)

theorem radicand_ge {n : Nat} (h : 0 < n) : 2 ^ 1074 ≤ n * unit64 := by
  rw [unit64_eq]
  exact Nat.le_mul_of_pos_left _ h

theorem root_large {N r : Nat} (h : 2 ^ 1074 ≤ N) (hr : N < (r + 1) * (r + 1)) : 2 ^ 60 ≤ r := by
  have h0 : (2 : Nat) ^ 120 ≤ 2 ^ 1074 := Nat.pow_le_pow_right (by decide) (by decide)
  have h1 : 2 ^ 120 ≤ N := Nat.le_trans h0 h
  clear h h0
  by_contra hc
  have h3 : (r + 1) * (r + 1) ≤ 2 ^ 60 * 2 ^ 60 := Nat.mul_le_mul (by omega) (by omega)
  omega

theorem root_small {N r : Nat} (h : r * r ≤ N) (hN : N < 2 ^ 3172) : r < 2 ^ 1586 := by
  rw [show (3172 : Nat) = 1586 + 1586 from rfl, Nat.pow_add] at hN
  generalize (2 : Nat) ^ 1586 = a at *
  by_contra hc
  have h3 : a * a ≤ r * r := Nat.mul_le_mul (by omega) (by omega)
  exact absurd (Nat.lt_of_le_of_lt (Nat.le_trans h3 h) hN) (Nat.lt_irrefl _)

theorem root_rep {r σ : Nat} (hr : r < 2 ^ 1586) (hσ : σ ≤ 1) : Rep (roundMag (2 * r + σ) 2) := by
  rw [rep_roundMag _ _ (by decide), maxMag_eq]
  have hN := (roundMag_nearest (N := 2 * r + σ) (D := 2) (by decide)).closest _ (grid_pow 1587)
  have h5 : (2 : Nat) ^ 1587 = 2 * 2 ^ 1586 := Nat.pow_succ' (n := 1586)
  have h6 : (2 : Nat) ^ 1588 = 2 * 2 ^ 1587 := Nat.pow_succ' (n := 1587)
  have h7 : (2 : Nat) ^ 1588 < 2 ^ 2098 := Nat.pow_lt_pow_right (by decide) (by decide)
  have h8 : 0 < 2 ^ 1586 := Nat.two_pow_pos _
  unfold Spec.dist at hN
  generalize (2 : Nat) ^ 2098 = a at *
  generalize (2 : Nat) ^ 1588 = b at *
  generalize (2 : Nat) ^ 1587 = c at *
  generalize (2 : Nat) ^ 1586 = d at *
  omega

theorem root_nearest {N r : Nat} (r1 : r * r ≤ N) (r2 : N < (r + 1) * (r + 1)) (hr : 2 ^ 60 ≤ r) :
    NearestReal √(N : ℝ) (roundMag (2 * r + if r * r = N then 0 else 1) 2) := by
  split
  · rename_i he
    have : √(N : ℝ) = r := by
      rw [← he]; push_cast; exact Real.sqrt_mul_self (Nat.cast_nonneg r)
    rw [this, Nat.add_zero]
    exact nearest_exact (roundMag_nearest (by decide))
  · rename_i he
    have h1 : (r : ℝ) * r < N := by exact_mod_cast Nat.lt_of_le_of_ne r1 he
    have h2 : (N : ℝ) < (r + 1) * (r + 1) := by exact_mod_cast r2
    refine nearest_between hr (roundMag_nearest (by decide)) ?_ ?_
    · exact Real.lt_sqrt_of_sq_lt (by rw [pow_two]; exact h1)
    · rw [Real.sqrt_lt' (by positivity), pow_two]; exact h2

theorem roots (x : F64) : Roots x (F64.sqrt x) := by
  cases x with
  | nan => exact .nan
  | inf s => cases s; exact .inf; exact .negInf
  | fin s n h =>
    simp only [F64.sqrt]
    split
    · rename_i h0; exact .zero (value_zero_iff.2 h0)
    · rename_i h0
      have hU := unit64_pos_rat
      have hn : (0 : ℚ) < n := by exact_mod_cast Nat.pos_of_ne_zero h0
      cases s with
      | true =>
        rw [if_pos rfl]
        refine .negative (value_fin true h) ?_
        simp only [F64.sv, if_true]
        push_cast
        rw [neg_div]
        have := div_pos hn hU
        linarith
      | false =>
        rw [if_neg (by simp)]
        have hlt := radicand_lt h
        obtain ⟨r1, r2⟩ := isqrt_spec hlt
        have hq := real_root n
        generalize hr : F64.isqrt (n * unit64) = r at r1 r2 ⊢
        have hr60 : 2 ^ 60 ≤ r := root_large (radicand_ge (Nat.pos_of_ne_zero h0)) r2
        have hmag : ∀ σ, σ ≤ 1 → Rep (roundMag (2 * r + σ) 2) := fun σ hσ => root_rep (root_small r1 hlt) hσ
        clear hlt
        have hσ : (if r * r = n * unit64 then 0 else 1) ≤ 1 := by split <;> decide
        have hN := root_nearest r1 r2 hr60
        generalize (if r * r = n * unit64 then 0 else 1) = σ at hσ hN ⊢
        unfold F64.ofMag
        rw [dif_pos (hmag σ hσ)]
        refine .positive (value_fin false h) ?_ rfl ?_
        · exact div_pos hn hU
        · rw [hq]; exact hN

/-- There is one nearest point. -/
theorem nearestReal_unique {t : ℝ} {n m : Nat} (hn : NearestReal t n) (hm : NearestReal t m) : n = m := by
  by_contra hne
  have he : |(m : ℝ) - t| = |(n : ℝ) - t| := le_antisymm (hm.closest n hn.grid) (hn.closest m hm.grid)
  have h1 := hn.even m hm.grid (Ne.symm hne) he
  have h2 := hm.even n hn.grid hne he.symm
  rw [dist_comm] at h2
  have h3 : 0 < Spec.dist n m := by unfold Spec.dist; omega
  have h4 : Spec.dist m n = Spec.dist n m := dist_comm _ _
  rw [h4] at h1
  rw [dist_comm] at h2
  have h5 : 2 * Spec.dist n m ∣ Spec.dist n m := by
    rcases Nat.le_total n m with h | h
    · have : Spec.dist n m = m - n := by unfold Spec.dist; omega
      rw [this] at h1 h2 ⊢; exact Nat.dvd_sub h2 h1
    · have : Spec.dist n m = n - m := by unfold Spec.dist; omega
      rw [this] at h1 h2 ⊢; exact Nat.dvd_sub h1 h2
  have := Nat.le_of_dvd h3 h5
  omega

theorem Spec.Roots.eq {x r : F64} (h : Roots x r) : r = F64.sqrt x := by
  have hs := roots x
  generalize F64.sqrt x = y at hs
  have one : ∀ {x : F64} {q p : ℚ}, value x = some q → value x = some p → q = p := by
    intro x q p h k; rw [h] at k; exact Option.some.inj k
  cases h with
  | nan =>
    cases hs with
    | nan => rfl
    | zero h => cases h
    | negative h => cases h
    | positive h => cases h
  | inf =>
    cases hs with
    | inf => rfl
    | zero h => rfl
    | negative h => cases h
    | positive h => cases h
  | negInf =>
    cases hs with
    | negInf => rfl
    | zero h => cases h
    | negative h => rfl
    | positive h => cases h
  | zero hz =>
    cases hs with
    | nan => rfl
    | inf => rfl
    | negInf => cases hz
    | zero => rfl
    | negative h hq => rw [one h hz] at hq; exact absurd hq (lt_irrefl _)
    | positive h hq => rw [one h hz] at hq; exact absurd hq (lt_irrefl _)
  | negative hv hq =>
    cases hs with
    | nan => rfl
    | inf => cases hv
    | negInf => rfl
    | zero h => rw [one hv h] at hq; exact absurd hq (lt_irrefl _)
    | negative => rfl
    | positive h hp => rw [one h hv] at hp; exact absurd hp (not_lt.2 hq.le)
  | positive hv hq hr hN =>
    cases hs with
    | nan => cases hv
    | inf => cases hv
    | negInf => cases hv
    | zero h => rw [one hv h] at hq; exact absurd hq (lt_irrefl _)
    | negative h hp => rw [one h hv] at hp; exact absurd hp (not_lt.2 hq.le)
    | positive h hp hr' hN' =>
      subst hr
      subst hr'
      rw [one h hv] at hN'
      cases nearestReal_unique hN hN'
      rfl

end Xprs
