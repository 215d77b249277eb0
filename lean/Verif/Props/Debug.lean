import Verif.Lemmas.Accuracy
import Verif.Props.Print
/-
Property C72, continued: how `Debug` prints numbers.
-/
namespace Xprs
namespace Props
open Spec
set_option exponentiation.threshold 4096

theorem small_iff {n : Nat} (h : Rep n) :
    F64.blt (.fin false n h) (F64.ofDecimal 1 (-4)) = true ↔ n * 10 ^ 4 < 2 ^ 1074 := by
  have e : F64.key (F64.ofDecimal 1 (-4)) = some ((7378697629483821 * 2 ^ 1008 : Nat) : Int) := by decide +kernel
  unfold F64.blt
  rw [e]
  simp only [F64.key, decide_eq_true_eq]
  rw [show F64.sv false n = (n : Int) from rfl]
  rw [Int.ofNat_lt]
  have hg : Grid n := (grid_iff n).2 h.2
  have hp : (2 : Nat) ^ 1074 = 2 ^ 66 * 2 ^ 1008 := by rw [← pow_add]
  rw [hp]
  have hP : 0 < 2 ^ 1008 := by positivity
  constructor
  · intro hlt
    rcases grid_gap (M := 7378697629483821) (k := 1008) (by norm_num) hg (by omega) with h1 | h1
    · generalize 2 ^ 1008 = P at *
      omega
    · generalize 2 ^ 1008 = P at *
      omega
  · intro hlt
    generalize 2 ^ 1008 = P at *
    omega

theorem large_iff {n : Nat} (h : Rep n) :
    F64.blt (.fin false n h) (F64.ofDecimal 1 16) = false ↔ 10 ^ 16 * 2 ^ 1074 ≤ n := by
  have e : F64.key (F64.ofDecimal 1 16) = some ((10 ^ 16 * 2 ^ 1074 : Nat) : Int) := by decide +kernel
  unfold F64.blt
  rw [e]
  simp only [F64.key, decide_eq_false_iff_not]
  rw [show F64.sv false n = (n : Int) from rfl]
  rw [Int.ofNat_lt, not_lt]

theorem expText_scientific {M : Nat} (hM : M ≠ 0) (E : Int) : Scientific (expText M E) M E := by
  obtain ⟨d, ds, e⟩ := List.exists_cons_of_ne_nil (decimal_ne_nil M)
  have hd : ∀ c ∈ d :: ds, digit c := e ▸ decimal_digit M
  have hv : decVal (d :: ds) = M := e ▸ decimal_val M
  refine ⟨d, ds, decimal (E + ds.length).natAbs, hd d (by simp), ?_, fun c hc => hd c (by simp [hc]), hv,
    decimal_digit _, decimal_ne_nil _, ?_, decimal_val _, ?_⟩
  · rintro rfl
    exact hM (decimal_head M (by rw [e]; rfl))
  · intro h0
    have := decimal_head _ h0
    rw [this]
    unfold decimal
    rfl
  · unfold expText
    rw [e]
    simp only [List.take_succ_cons, List.take_zero, List.length_cons, List.drop_succ_cons, List.drop_zero]
    have e1 : E + ((ds.length + 1 : Nat) : Int) - 1 = E + ds.length := by push_cast; ring
    rw [e1]
    have e2 : (E + ((ds.length + 1 : Nat) : Int) < 1) ↔ E + ds.length < 0 := by push_cast; omega
    have e3 : (ds.length + 1 = 1) ↔ ds = [] := by rw [← List.length_eq_zero_iff]; omega
    simp only [e2, e3]
    split <;> split <;> simp

/-- C72, `Debug`: a positive number is printed with the same digits as by `Display`: below
`10⁻⁴` and from `10¹⁶` on with one digit in front of the point and an exponent, in between
in plain notation with at least one digit behind the point. -/
theorem C72_debug (n : Nat) (h : Rep n) (hn : 0 < n) (q : ℚ) (hq : value (.fin false n h) = some q) :
    ∃ M E, Shortest (.fin false n h) M E ∧
      ((1 / 10 ^ 4 ≤ q ∧ q < 10 ^ 16 ∧ ∃ t, Written t M E ∧
          debugF64 (.fin false n h) = if c!"." ∈ t then t else t ++ b!".0") ∨
       ((q < 1 / 10 ^ 4 ∨ 10 ^ 16 ≤ q) ∧ Scientific (debugF64 (.fin false n h)) M E)) := by
  have hw := decText_written (shortest n).1 (shortest n).2 (.inl (shortest_pos h hn))
  refine ⟨(shortest n).1, (shortest n).2, shortest_correct h hn, ?_⟩
  have hq' : q = (n : ℚ) / 2 ^ 1074 := by
    simp only [value, Option.some.injEq] at hq; exact hq.symm
  have hpos : (0 : ℚ) < 2 ^ 1074 := by positivity
  have hz : F64.beq (.fin false n h) F64.f0 = false := by
    have : F64.key F64.f0 = some 0 := by decide +kernel
    unfold F64.beq
    rw [this]
    simp only [F64.key, decide_eq_false_iff_not]
    rw [show F64.sv false n = (n : Int) from rfl]
    omega
  have hs : F64.blt (.fin false n h) (F64.ofDecimal 1 (-4)) = true ↔ q < 1 / 10 ^ 4 := by
    rw [small_iff, hq', div_lt_div_iff₀ hpos (by norm_num), one_mul]
    rw [← Nat.cast_lt (α := ℚ)]
    simp only [Nat.cast_mul, Nat.cast_pow, Nat.cast_ofNat]
  have hl : F64.blt (.fin false n h) (F64.ofDecimal 1 16) = false ↔ 10 ^ 16 ≤ q := by
    rw [large_iff, hq', le_div_iff₀ hpos]
    rw [← Nat.cast_le (α := ℚ)]
    simp only [Nat.cast_mul, Nat.cast_pow, Nat.cast_ofNat]
  have hu : usesExp (.fin false n h) = true ↔ (q < 1 / 10 ^ 4 ∨ 10 ^ 16 ≤ q) := by
    unfold usesExp
    rw [hz]
    simp only [Bool.not_false, Bool.true_and, Bool.or_eq_true, Bool.not_eq_true', hs, hl]
  have hd : debugF64 (.fin false n h) = if usesExp (.fin false n h) then expText (shortest n).1 (shortest n).2
    else decText (shortest n).1 (shortest n).2 ++ (if 0 ≤ (shortest n).2 then b!".0" else []) := rfl
  rw [hd]
  by_cases hc : usesExp (.fin false n h) = true
  · right
    rw [if_pos hc]
    exact ⟨hu.1 hc, expText_scientific (shortest_pos h hn) _⟩
  · left
    rw [if_neg hc]
    have hc' := mt hu.2 hc
    rw [not_or, not_lt, not_le] at hc'
    refine ⟨hc'.1, hc'.2, _, hw, ?_⟩
    obtain ⟨ip, fp, h1, h2, -, -, ⟨h3, -, h4, -⟩ | ⟨h3, -, h4, -⟩⟩ := hw
    · rw [if_pos h3, if_neg]
      intro hm
      rw [h4] at hm
      have := h1 _ hm
      revert this; decide
    · rw [if_neg (by omega), if_pos (by rw [h4]; simp), List.append_nil]

/-- The zeros and the negative numbers. -/
theorem C72_debug_sign (n : Nat) (h : Rep n) :
    debugF64 (.fin true n h) = c!"-" :: debugF64 (.fin false n h) ∧
    (n = 0 → debugF64 (.fin false n h) = b!"0.0") := by
  refine ⟨rfl, ?_⟩
  rintro rfl
  have : (F64.fin false 0 h) = F64.zero false := rfl
  rw [this]
  decide +kernel

example : debugF64 (F64.ofDecimal 9999999999999998 0) = b!"9999999999999998.0" := by decide +kernel
example : debugF64 (F64.ofDecimal 1 16) = b!"1e16" := by decide +kernel
example : debugF64 (F64.ofDecimal 99999 (-9)) = b!"9.9999e-5" := by decide +kernel

end Props
end Xprs
