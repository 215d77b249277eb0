import Verif.Lemmas.FactorialRows
/-
The factorial table against whole-number arithmetic, from the checks on the
certificate.
-/
namespace Xprs
set_option exponentiation.threshold 4096

open Spec (fact)

theorem checkNear_get : ∀ (l : List ((Nat × Int) × Nat)) (k : Nat),
    checkNear l k (fact k) = true → ∀ i (h : i < l.length), nearFact l[i].2 (fact (k + i)) = true
  | [], _, _, i, h => by simp at h
  | r :: rs, k, hc, i, h => by
    simp only [checkNear, Bool.and_eq_true] at hc
    cases i with
    | zero => exact hc.1
    | succ i =>
      have := checkNear_get rs (k + 1) hc.2 i (by simpa using h)
      rw [show k + (i + 1) = k + 1 + i by omega]
      exact this

theorem checkNearest_get : ∀ (l : List ((Nat × Int) × Nat)) (k : Nat),
    checkNearest l k (fact k) = true → ∀ i (h : i < l.length),
      (roundMag (fact (k + i) * 2 ^ 1074) 1 = l[i].2 * 2 ^ 1074 ↔ k + i ∈ nearestIdx)
  | [], _, _, i, h => by simp at h
  | r :: rs, k, hc, i, h => by
    simp only [checkNearest, Bool.and_eq_true] at hc
    cases i with
    | zero =>
      have := hc.1
      rw [beq_iff_eq] at this
      simp only [Nat.add_zero, List.getElem_cons_zero]
      rw [← Nat.beq_eq, this, List.contains_iff_mem]
    | succ i =>
      have := checkNearest_get rs (k + 1) hc.2 i (by simpa using h)
      rw [show k + (i + 1) = k + 1 + i by omega]
      exact this

theorem checkRec_get : ∀ (l : List ((Nat × Int) × Nat)) (k v : Nat),
    checkRec l k v = true → ∀ i (h : i < l.length),
      roundMag ((k + i) * 2 ^ 1074 * (((if i = 0 then v else l[i - 1].2)) * 2 ^ 1074)) (2 ^ 1074) =
        l[i].2 * 2 ^ 1074
  | [], _, _, _, i, h => by simp at h
  | r :: rs, k, v, hc, i, h => by
    simp only [checkRec, Bool.and_eq_true] at hc
    cases i with
    | zero => exact Nat.eq_of_beq_eq_true hc.1
    | succ i =>
      have := checkRec_get rs (k + 1) r.2 hc.2 i (by simpa using h)
      rw [show k + (i + 1) = k + 1 + i by omega]
      rw [if_neg (by omega)]
      cases i with
      | zero => simpa using this
      | succ i =>
        rw [if_neg (by omega)] at this
        simpa using this

/-- Row `k` of the certificate. -/
def row (k : Nat) (h : k < 171) : Nat := (factorialRows[k]'(by rw [rows_length]; exact h)).2

theorem row_lit (k : Nat) (h : k < 171) :
    ∃ hr, factorialTable[k]'(by rw [factorialTable_length]; exact h) =
      .fin false (row k h * unit64) hr := by
  have hk : k < factorialRows.length := by rw [rows_length]; exact h
  have h1 : rowOk (factorialRows[k]) = true := List.all_eq_true.mp rows_ok _ (List.getElem_mem hk)
  have h2 : factorialTable[k]'(by rw [factorialTable_length]; exact h) =
      F64.ofDecimal (factorialRows[k]).1.1 (factorialRows[k]).1.2 := by
    have h3 : factorialTable[k]? = (factorialRows[k]?).map
        fun r => F64.ofDecimal r.1.1 r.1.2 := by
      unfold factorialTable
      rw [← rows_lits, List.getElem?_map, List.getElem?_map, Option.map_map]
      rfl
    rw [List.getElem?_eq_getElem (by rw [factorialTable_length]; exact h),
      List.getElem?_eq_getElem hk] at h3
    exact Option.some.inj h3
  rw [h2]
  unfold rowOk at h1
  split at h1
  · rename_i m hm heq
    have := Nat.eq_of_beq_eq_true h1
    rw [← unit64_eq] at this
    exact ⟨this ▸ hm, by rw [heq]; exact F64.fin_congr hm this⟩
  · cases h1

theorem row_near (k : Nat) (h : k < 171) : nearFact (row k h) (fact k) = true := by
  have := checkNear_get factorialRows 0 checkNear_ok k (by rw [rows_length]; exact h)
  rw [Nat.zero_add] at this; exact this

theorem row_nearest (k : Nat) (h : k < 171) :
    roundMag (fact k * unit64) 1 = row k h * unit64 ↔ k ∈ nearestIdx := by
  have := checkNearest_get factorialRows 0 checkNearest_ok k (by rw [rows_length]; exact h)
  rw [Nat.zero_add, ← unit64_eq] at this; exact this

theorem row_zero : row 0 (by decide) = 1 := by decide +kernel

theorem row_rec (k : Nat) (h : k < 170) :
    roundMag ((k + 1) * unit64 * (row k (by omega) * unit64)) (unit64) =
      row (k + 1) (by omega) * unit64 := by
  have hl : k < factorialRows.tail.length := by rw [List.length_tail, rows_length]; omega
  have := checkRec_get factorialRows.tail 1 1 checkRec_ok k hl
  rw [Nat.add_comm 1 k, ← unit64_eq] at this
  simp only [List.getElem_tail] at this
  cases k with
  | zero =>
    rw [row_zero]
    rw [if_pos rfl] at this
    exact this
  | succ k =>
    rw [if_neg (by omega)] at this
    exact this

/-- The model's factorial on the whole numbers up to 170. -/
theorem factorial_row (k : Nat) (h : k < 171) :
    ∃ hr, factorial (F64.ofNat k) = .ok (.fin false (row k h * unit64) hr) := by
  obtain ⟨hr, hh⟩ := row_lit k h
  refine ⟨hr, ?_⟩
  rw [F64.ofNat_eq (rep_nat (by omega)), factorial_table _ (by omega) (Or.inl rfl), hh]

end Xprs
