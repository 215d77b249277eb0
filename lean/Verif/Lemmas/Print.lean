import Verif.Print
import Verif.Spec.Print
import Verif.Lemmas.Error
import Verif.Lemmas.Written
/-
The decimal numbers printed for floats (for C72).
-/
namespace Xprs
open Spec
set_option exponentiation.threshold 4096

/-! ### Decimal digits -/

theorem decimal_val (n : Nat) : decVal (decimal n) = n := by
  induction n using Nat.strongRecOn with
  | _ n ih =>
    unfold decimal
    have hc : ∀ k, k < 10 → (UInt8.ofNat (48 + k)).toNat - 48 = k := by decide
    split
    · rename_i h
      simp only [decVal, hc n h]
      simp
    · rename_i h
      rw [decVal_append, ih (n / 10) (by omega)]
      simp only [decVal, hc (n % 10) (by omega), List.length_singleton, List.length_nil]
      omega

theorem decimal_digit (n : Nat) : ∀ c ∈ decimal n, digit c := by
  induction n using Nat.strongRecOn with
  | _ n ih =>
    unfold decimal
    have hc : ∀ k, k < 10 → digit (UInt8.ofNat (48 + k)) := by decide
    split
    · rename_i h
      intro c hm
      rw [List.mem_singleton.1 hm]
      exact hc n h
    · rename_i h
      intro c hm
      rcases List.mem_append.1 hm with hm | hm
      · exact ih (n / 10) (by omega) c hm
      · rw [List.mem_singleton.1 hm]
        exact hc _ (by omega)

theorem decimal_inj {a b : Nat} (h : decimal a = decimal b) : a = b := by
  rw [← decimal_val a, h, decimal_val]

theorem decimal_ne_nil (n : Nat) : decimal n ≠ [] := by
  unfold decimal
  split <;> simp

theorem decVal_lt : ∀ {l : Bytes}, (∀ c ∈ l, digit c) → decVal l < 10 ^ l.length
  | [], _ => by simp [decVal]
  | c :: l, h => by
    have h1 := decVal_lt (l := l) fun d hd => h d (List.mem_cons_of_mem _ hd)
    have hd : ∀ c, digit c → c.toNat - 48 ≤ 9 := by
      intro c hc
      unfold digit at hc
      revert c
      decide
    have h2 := hd c (h c (List.mem_cons_self ..))
    rw [decVal, List.length_cons, Nat.pow_succ]
    have := Nat.mul_le_mul_right (10 ^ l.length) h2
    omega

theorem decimal_head (n : Nat) (h : (decimal n).head? = some c!"0") : n = 0 := by
  induction n using Nat.strongRecOn with
  | _ n ih =>
    unfold decimal at h
    split at h
    · rename_i hn
      simp only [List.head?_cons, Option.some.injEq] at h
      have hc : ∀ k, k < 10 → UInt8.ofNat (48 + k) = c!"0" → k = 0 := by decide
      exact hc n hn h
    · rename_i hn
      rw [List.head?_append_of_ne_nil _ (decimal_ne_nil _)] at h
      have := ih (n / 10) (by omega) h
      omega

theorem decimal_zero : decimal 0 = [c!"0"] := by
  unfold decimal
  rfl

theorem decVal_zeros (k : Nat) : decVal (List.replicate k c!"0") = 0 := by
  induction k with
  | zero => rfl
  | succ k ih =>
    rw [List.replicate_succ, decVal, ih]
    simp

theorem zero_digit : digit c!"0" := by decide

/-- The text printed for `M · 10^E`. -/
theorem decText_written (M : Nat) (E : Int) (hM : M ≠ 0 ∨ E = 0) : Written (decText M E) M E := by
  unfold decText
  split
  · rename_i h
    refine ⟨decimal M ++ List.replicate E.toNat c!"0", [], ?_, by simp, ?_, ?_,
      .inl ⟨h, rfl, rfl, ?_⟩⟩
    · intro c hc
      rcases List.mem_append.1 hc with hc | hc
      · exact decimal_digit _ c hc
      · rw [(List.mem_replicate.1 hc).2]; exact zero_digit
    · simp [decimal_ne_nil]
    · rw [List.head?_append_of_ne_nil _ (decimal_ne_nil _)]
      intro h0
      have := decimal_head _ h0
      subst this
      rcases hM with hM | rfl
      · exact absurd rfl hM
      · rw [decimal_zero]; rfl
    · rw [decVal_append, decimal_val, decVal_zeros, List.length_replicate, Nat.add_zero]
  · rename_i h
    simp only
    generalize hds : List.replicate ((-E).toNat + 1 - (decimal M).length) c!"0" ++ decimal M = ds
    have hl : (-E).toNat + 1 ≤ ds.length := by
      rw [← hds, List.length_append, List.length_replicate]
      omega
    have hd : ∀ c ∈ ds, digit c := by
      intro c hc
      rw [← hds] at hc
      rcases List.mem_append.1 hc with hc | hc
      · rw [(List.mem_replicate.1 hc).2]; exact zero_digit
      · exact decimal_digit _ c hc
    have hv : decVal ds = M := by
      rw [← hds, decVal_append, decVal_zeros, decimal_val]
      omega
    refine ⟨ds.take (ds.length - (-E).toNat), ds.drop (ds.length - (-E).toNat),
      fun c hc => hd c (List.mem_of_mem_take hc), fun c hc => hd c (List.mem_of_mem_drop hc), ?_, ?_,
      .inr ⟨by omega, ?_, rfl, ?_⟩⟩
    · intro h0
      have := congrArg List.length h0
      rw [List.length_take, List.length_nil] at this
      omega
    · intro h0
      rw [List.length_take]
      rcases Nat.lt_or_ge ((-E).toNat + 1) (decimal M).length with hlt | hge
      · exfalso
        have e : (-E).toNat + 1 - (decimal M).length = 0 := by omega
        rw [e, List.replicate_zero, List.nil_append] at hds
        subst hds
        rw [List.head?_take, if_neg (by omega)] at h0
        have := decimal_head _ h0
        subst this
        rw [decimal_zero] at hlt
        simp at hlt
      · have : ds.length = (-E).toNat + 1 := by
          rw [← hds, List.length_append, List.length_replicate]
          omega
        omega
    · rw [List.length_drop]
      omega
    · rw [List.take_append_drop, hv]

theorem digits_filter' {l : Bytes} (h : ∀ c ∈ l, digit c) :
    l.filter (fun c => decide (c ≠ c!"_")) = l := digits_filter h

/-- Such a text is a literal. -/
theorem written_literal {txt : Bytes} {M : Nat} {E : Int} (h : Written txt M E) :
    Literal txt [] (F64.ofDecimal M E) := by
  obtain ⟨ip, fp, h1, h2, h3, -, h4⟩ := h
  have hh : ∀ t : Bytes, ∃ c, (ip ++ t).head? = some c ∧ (digit c ∨ c = c!".") := by
    intro t
    cases ip with
    | nil => exact absurd rfl h3
    | cons c ip => exact ⟨c, rfl, .inl (h1 c (by simp))⟩
  have hne : ¬ expStart ([] : Bytes) := by
    rintro ⟨e, sg, d, t, -, -, -, h⟩
    simp at h
  rcases h4 with ⟨h4, rfl, rfl, h5⟩ | ⟨h4, h5, rfl, h6⟩
  · refine ⟨txt, txt, [], by simpa using hh [], fun c hc => .inl (h1 c hc),
      ⟨h1, by simp, by simpa using h3, .inr ⟨rfl, digits_filter h1⟩⟩,
      .inl ⟨rfl, nofun, hne, ?_⟩⟩
    rw [List.append_nil, h5]
    unfold F64.ofDecimal
    rw [if_pos h4, if_pos (by simp)]
    simp
  · refine ⟨ip ++ c!"." :: fp, ip, fp, hh _, ?_, ⟨h1, h2, by simp [h3], .inl ?_⟩,
      .inl ⟨rfl, nofun, hne, ?_⟩⟩
    · intro c hc
      rcases List.mem_append.1 hc with hc | hc
      · exact .inl (h1 c hc)
      · rcases List.mem_cons.1 hc with rfl | hc
        · exact .inr (.inl rfl)
        · exact .inl (h2 c hc)
    · rw [List.filter_append, digits_filter h1, List.filter_cons_of_pos (by decide), digits_filter h2]
      simp
    · rw [h6, h5]
      congr 1
      omega

/-! ### Reading back -/

/-- The scale of `10^E`. -/
def scaleA (E : Int) : Nat := unit64 * 10 ^ E.toNat
def scaleB (E : Int) : Nat := 10 ^ (-E).toNat

theorem scaleA_pos (E : Int) : 0 < scaleA E := Nat.mul_pos (by decide +kernel) (Nat.pow_pos (by decide))
theorem scaleB_pos (E : Int) : 0 < scaleB E := Nat.pow_pos (by decide)

theorem scale_num (M : Nat) (E : Int) : decNum M E * 2 ^ 1074 = M * scaleA E := by
  unfold decNum scaleA
  rw [← unit64_eq]
  ring

theorem scale_den (E : Int) : decDen E = scaleB E := rfl

theorem readsTo_iff {n : Nat} (h : Rep n) (M : Nat) (E : Int) :
    ReadsTo M E (.fin false n h) ↔ Nearest (M * scaleA E) (scaleB E) n := by
  unfold ReadsTo
  rw [scale_num, scale_den]
  constructor
  · rintro ⟨k, hk, ⟨-, _, e⟩ | ⟨-, e⟩⟩
    · injection e with _ e
      subst e
      exact hk
    · cases e
  · intro hn
    exact ⟨n, hn, .inl ⟨maxMag_eq ▸ h.1, h, rfl⟩⟩

theorem readsAs_iff {n : Nat} (h : Rep n) (M : Nat) (E : Int) :
    readsAs n M E = true ↔ Nearest (M * scaleA E) (scaleB E) n := by
  rw [← readsTo_iff h]
  have hn := ofDecimal_nearest M E
  unfold readsAs
  constructor
  · intro hr
    split at hr
    · rename_i k hk e
      rw [e] at hn
      have := of_decide_eq_true hr
      subst this
      exact hn
    · cases hr
  · intro hr
    have := nearestF64_unique hn hr
    rw [this]
    simp

/-- What lies between a point and a number read as it is read as it too. -/
theorem nearest_below {D n N N' : Nat} (hD : 0 < D) (h : Nearest N D n) (h1 : N ≤ N')
    (h2 : N' ≤ n * D) : Nearest N' D n := by
  have key : ∀ m, Grid m → m * D < n * D → m * D < N ∧ n * D - N ≤ N - m * D := by
    intro m hm hlt
    have := h.closest m hm
    unfold Spec.dist at this
    omega
  refine ⟨h.grid, fun m hm => ?_, fun m hm hne he => ?_⟩
  · rcases Nat.lt_or_ge (m * D) (n * D) with hlt | hge
    · obtain ⟨k1, k2⟩ := key m hm hlt
      unfold Spec.dist
      omega
    · unfold Spec.dist
      omega
  · rcases Nat.lt_or_ge (m * D) (n * D) with hlt | hge
    · obtain ⟨k1, k2⟩ := key m hm hlt
      refine h.even m hm hne ?_
      unfold Spec.dist at he ⊢
      omega
    · exfalso
      have : m * D = n * D := by
        unfold Spec.dist at he
        omega
      exact hne (Nat.eq_of_mul_eq_mul_right hD this)

theorem nearest_above {D n N N' : Nat} (hD : 0 < D) (h : Nearest N D n) (h1 : N' ≤ N)
    (h2 : n * D ≤ N') : Nearest N' D n := by
  have key : ∀ m, Grid m → n * D < m * D → N < m * D ∧ N - n * D ≤ m * D - N := by
    intro m hm hlt
    have := h.closest m hm
    unfold Spec.dist at this
    omega
  refine ⟨h.grid, fun m hm => ?_, fun m hm hne he => ?_⟩
  · rcases Nat.lt_or_ge (n * D) (m * D) with hlt | hge
    · obtain ⟨k1, k2⟩ := key m hm hlt
      unfold Spec.dist
      omega
    · unfold Spec.dist
      omega
  · rcases Nat.lt_or_ge (n * D) (m * D) with hlt | hge
    · obtain ⟨k1, k2⟩ := key m hm hlt
      refine h.even m hm hne ?_
      unfold Spec.dist at he ⊢
      omega
    · exfalso
      have : m * D = n * D := by
        unfold Spec.dist at he
        omega
      exact hne (Nat.eq_of_mul_eq_mul_right hD this)

/-- Different points of the grid are far apart. -/
theorem grid_apart {m n : Nat} (hm : Grid m) (hn : Grid n) (h : m ≠ n) :
    n ≤ Spec.dist m n * 2 ^ 53 := by
  have step : ∀ {a b : Nat}, Grid a → Grid b → a < b → ∃ d, 0 < d ∧ b = a + d * 2 ^ ulpExp a := by
    intro a b ha hb hlt
    have h1 := Nat.dvd_of_mod_eq_zero ((grid_iff a).1 ha)
    have h2 := Nat.dvd_of_mod_eq_zero ((grid_iff b).1 hb)
    have h3 : 2 ^ ulpExp a ∣ b :=
      Nat.dvd_trans (Nat.pow_dvd_pow 2 (ulpExp_mono (Nat.le_of_lt hlt))) h2
    obtain ⟨d, hd⟩ := Nat.dvd_sub h3 h1
    refine ⟨d, ?_, by rw [Nat.mul_comm, ← hd]; omega⟩
    rcases Nat.eq_zero_or_pos d with rfl | hp
    · omega
    · exact hp
  rcases Nat.lt_or_gt_of_ne h with hlt | hgt
  · obtain ⟨d, hd, e⟩ := step hm hn hlt
    have h1 := lt_two_pow_ulpExp m
    obtain ⟨c, hc⟩ := Nat.dvd_of_mod_eq_zero ((grid_iff m).1 hm)
    have hdist : Spec.dist m n = d * 2 ^ ulpExp m := by unfold Spec.dist; omega
    rw [hdist]
    have h2 : 2 ^ ulpExp m * c < 2 ^ ulpExp m * 2 ^ 53 := by
      rw [← hc, Nat.mul_comm, ← Nat.pow_add]
      exact h1
    have h3 := Nat.lt_of_mul_lt_mul_left h2
    have h4 : c + d ≤ d * 2 ^ 53 := by omega
    calc n = (c + d) * 2 ^ ulpExp m := by rw [e, Nat.add_mul, Nat.mul_comm c, ← hc]
      _ ≤ d * 2 ^ 53 * 2 ^ ulpExp m := Nat.mul_le_mul_right _ h4
      _ = d * 2 ^ ulpExp m * 2 ^ 53 := by ring
  · obtain ⟨d, hd, e⟩ := step hn hm hgt
    have h1 := lt_two_pow_ulpExp n
    have hdist : Spec.dist m n = d * 2 ^ ulpExp n := by unfold Spec.dist; omega
    rw [hdist]
    calc n ≤ 2 ^ (53 + ulpExp n) := Nat.le_of_lt h1
      _ = 1 * 2 ^ ulpExp n * 2 ^ 53 := by rw [Nat.pow_add]; ring
      _ ≤ d * 2 ^ ulpExp n * 2 ^ 53 := by gcongr; exact hd

/-- What is close enough to a point is read as it. -/
theorem nearest_close {D n N : Nat} (hn : Grid n)
    (h : Spec.dist N (n * D) * 2 ^ 54 < n * D) : Nearest N D n := by
  have key : ∀ m, Grid m → m ≠ n → Spec.dist (n * D) N < Spec.dist (m * D) N := by
    intro m hm hne
    have h1 := Nat.mul_le_mul_right D (grid_apart hm hn hne)
    have h2 : Spec.dist m n * 2 ^ 53 * D = Spec.dist (m * D) (n * D) * 2 ^ 53 := by
      unfold Spec.dist
      rw [← Nat.sub_mul, ← Nat.sub_mul, ← Nat.add_mul]
      ring
    rw [h2] at h1
    generalize m * D = x at *
    generalize n * D = y at *
    unfold Spec.dist at *
    omega
  refine ⟨hn, fun m hm => ?_, fun m hm hne he => ?_⟩
  · by_cases e : m = n
    · rw [e]
    · exact Nat.le_of_lt (key m hm e)
  · have := key m hm hne
    omega

/-- What is at least twice as large is not read as the number. -/
theorem not_nearest_double {D n N : Nat} (hn : 0 < n) (hD : 0 < D) (h : 2 * (n * D) ≤ N) :
    ¬ Nearest N D n := by
  intro hN
  obtain ⟨m, k, hm, e⟩ := hN.grid
  have h1 := hN.closest (2 * n) ⟨m, k + 1, hm, by rw [e, Nat.pow_succ]; ring⟩
  have h2 : 0 < n * D := Nat.mul_pos hn hD
  rw [Nat.mul_assoc] at h1
  unfold Spec.dist at h1
  omega

/-! ### The candidates -/

theorem candidate_eq (n : Nat) (E : Int) : candidate n E =
    (let q := n * scaleB E / scaleA E
    let near := if 2 * (n * scaleB E % scaleA E) < scaleA E then q else q + 1
    let far := if 2 * (n * scaleB E % scaleA E) < scaleA E then q + 1 else q
    if readsAs n near E then some near else if readsAs n far E then some far else none) := rfl

theorem candidate_some {n M : Nat} {E : Int} (h : Rep n) (hc : candidate n E = some M) :
    Nearest (M * scaleA E) (scaleB E) n ∧ Spec.dist (M * scaleA E) (n * scaleB E) ≤ scaleA E ∧
    ∀ M', Nearest (M' * scaleA E) (scaleB E) n →
      Spec.dist (M * scaleA E) (n * scaleB E) ≤ Spec.dist (M' * scaleA E) (n * scaleB E) := by
  rw [candidate_eq] at hc
  have hA := scaleA_pos E
  have hB := scaleB_pos E
  have hr := readsAs_iff h (E := E)
  generalize scaleA E = A at *
  generalize scaleB E = B at *
  have e := Nat.div_add_mod (n * B) A
  have hlt := Nat.mod_lt (n * B) hA
  generalize n * B / A = q at *
  generalize n * B % A = r at *
  have e1 : (q + 1) * A = q * A + A := Nat.succ_mul q A
  have e0 : A * q = q * A := Nat.mul_comm _ _
  have lo : ∀ M', M' ≤ q → M' * A ≤ q * A := fun M' h => Nat.mul_le_mul_right A h
  have hi : ∀ M', q + 1 ≤ M' → (q + 1) * A ≤ M' * A := fun M' h => Nat.mul_le_mul_right A h
  have dn : ∀ M', M' ≤ q → Nearest (M' * A) B n → Nearest (q * A) B n := fun M' hM hN =>
    nearest_below hB hN (lo M' hM) (by omega)
  have up : ∀ M', q + 1 ≤ M' → Nearest (M' * A) B n → Nearest ((q + 1) * A) B n := fun M' hM hN =>
    nearest_above hB hN (hi M' hM) (by omega)
  simp only at hc
  split at hc
  · rename_i h2
    split at hc
    · rename_i h3
      replace hc := Option.some.inj hc; subst hc
      refine ⟨(hr _).1 h3, by unfold Spec.dist; omega, fun M' _ => ?_⟩
      rcases Nat.lt_or_ge q M' with hM | hM
      · have := hi M' hM; unfold Spec.dist; omega
      · have := lo M' hM; unfold Spec.dist; omega
    · rename_i h3
      split at hc
      · rename_i h4
        replace hc := Option.some.inj hc; subst hc
        refine ⟨(hr _).1 h4, by unfold Spec.dist; omega, fun M' hM' => ?_⟩
        rcases Nat.lt_or_ge q M' with hM | hM
        · have := hi M' hM; unfold Spec.dist; omega
        · exact absurd ((hr _).2 (dn M' hM hM')) h3
      · cases hc
  · rename_i h2
    split at hc
    · rename_i h3
      replace hc := Option.some.inj hc; subst hc
      refine ⟨(hr _).1 h3, by unfold Spec.dist; omega, fun M' _ => ?_⟩
      rcases Nat.lt_or_ge q M' with hM | hM
      · have := hi M' hM; unfold Spec.dist; omega
      · have := lo M' hM; unfold Spec.dist; omega
    · rename_i h3
      split at hc
      · rename_i h4
        replace hc := Option.some.inj hc; subst hc
        refine ⟨(hr _).1 h4, by unfold Spec.dist; omega, fun M' hM' => ?_⟩
        rcases Nat.lt_or_ge q M' with hM | hM
        · exact absurd ((hr _).2 (up M' hM hM')) h3
        · have := lo M' hM; unfold Spec.dist; omega
      · cases hc

theorem candidate_none {n : Nat} {E : Int} (h : Rep n) (hc : candidate n E = none) (M : Nat) :
    ¬ Nearest (M * scaleA E) (scaleB E) n := by
  rw [candidate_eq] at hc
  have hA := scaleA_pos E
  have hB := scaleB_pos E
  have hr := readsAs_iff h (E := E)
  generalize scaleA E = A at *
  generalize scaleB E = B at *
  have e := Nat.div_add_mod (n * B) A
  have hlt := Nat.mod_lt (n * B) hA
  generalize n * B / A = q at *
  generalize n * B % A = r at *
  have e1 : (q + 1) * A = q * A + A := Nat.succ_mul q A
  have e0 : A * q = q * A := Nat.mul_comm _ _
  have both : readsAs n q E = false ∧ readsAs n (q + 1) E = false := by
    simp only at hc
    split at hc
    · split at hc
      · cases hc
      · rename_i h1
        split at hc
        · cases hc
        · rename_i h2
          exact ⟨Bool.eq_false_iff.2 h1, Bool.eq_false_iff.2 h2⟩
    · split at hc
      · cases hc
      · rename_i h1
        split at hc
        · cases hc
        · rename_i h2
          exact ⟨Bool.eq_false_iff.2 h2, Bool.eq_false_iff.2 h1⟩
  intro hN
  rcases Nat.lt_or_ge q M with hM | hM
  · have := nearest_above hB hN (Nat.mul_le_mul_right A hM) (by omega : n * B ≤ (q + 1) * A)
    rw [← hr, both.2] at this
    cases this
  · have := nearest_below hB hN (Nat.mul_le_mul_right A hM) (by omega : q * A ≤ n * B)
    rw [← hr, both.1] at this
    cases this

/-- At the exponent `-1074` all numbers are whole. -/
theorem candidate_last {n : Nat} (h : Rep n) : ∃ M, candidate n (-1074) = some M := by
  cases hc : candidate n (-1074) with
  | some M => exact ⟨M, rfl⟩
  | none =>
    exfalso
    refine candidate_none h hc (n * 5 ^ 1074) ?_
    have e : n * 5 ^ 1074 * scaleA (-1074) = n * scaleB (-1074) := by
      unfold scaleA scaleB
      rw [unit64_eq, Nat.mul_assoc]
      congr 1
    have h0 := nearest_self h
    obtain ⟨k, hk, ⟨-, _, e1⟩ | ⟨-, e1⟩⟩ := h0
    · injection e1 with _ e1
      subst e1
      rw [e]
      refine ⟨hk.grid, fun m hm => ?_, fun m hm hne he => ?_⟩
      · have : Spec.dist (n * scaleB (-1074)) (n * scaleB (-1074)) = 0 := by unfold Spec.dist; omega
        rw [this]
        exact Nat.zero_le _
      · exfalso
        have : m * scaleB (-1074) = n * scaleB (-1074) := by
          unfold Spec.dist at he
          omega
        exact hne (Nat.eq_of_mul_eq_mul_right (scaleB_pos _) this)
    · cases e1

theorem searchFrom_spec {n : Nat} (h : Rep n) : ∀ (k : Nat) (E : Int), E = (k : Int) - 1075 → 0 < k →
    candidate n (searchFrom n k E).2 = some (searchFrom n k E).1 ∧ (searchFrom n k E).2 ≤ E ∧
    ∀ E', (searchFrom n k E).2 < E' → E' ≤ E → candidate n E' = none
  | 0, _, _, h0 => absurd h0 (by decide)
  | k + 1, E, hE, _ => by
    rw [searchFrom]
    split
    · rename_i M hM
      exact ⟨hM, Int.le_refl _, fun E' h1 h2 => by simp only at h1; omega⟩
    · rename_i hM
      rcases Nat.eq_zero_or_pos k with rfl | hk
      · obtain ⟨M, h1⟩ := candidate_last h
        have : E = -1074 := by omega
        rw [this, h1] at hM
        cases hM
      · obtain ⟨h1, h2, h3⟩ := searchFrom_spec h k (E - 1) (by omega) hk
        refine ⟨h1, by omega, fun E' h4 h5 => ?_⟩
        rcases Int.lt_or_eq_of_le h5 with h6 | h6
        · exact h3 E' h4 (by omega)
        · rw [h6]; exact hM

end Xprs
