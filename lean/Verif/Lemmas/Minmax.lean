import Verif.Lemmas.Arith
/-
Left folds of `f64::min`, `f64::max` and addition.
-/
namespace Xprs
open Spec
set_option exponentiation.threshold 4096

theorem leF_refl {a : F64} (h : a ≠ .nan) : LeF a a := by
  cases hk : F64.key a with
  | none => exact absurd (key_none.1 hk) h
  | some x => exact leF_iff.2 ⟨x, x, hk, hk, le_refl x⟩

theorem leF_trans {a b c : F64} (h : LeF a b) (k : LeF b c) : LeF a c := by
  obtain ⟨x, y, h1, h2, h3⟩ := leF_iff.1 h
  obtain ⟨y', z, k1, k2, k3⟩ := leF_iff.1 k
  rw [h2] at k1; cases k1
  exact leF_iff.2 ⟨x, z, h1, k2, le_trans h3 k3⟩

theorem leF_antisymm {a b : F64} (h : LeF a b) (k : LeF b a) : Same a b := by
  obtain ⟨x, y, h1, h2, h3⟩ := leF_iff.1 h
  obtain ⟨y', z, k1, k2, k3⟩ := leF_iff.1 k
  rw [h2] at k1; cases k1
  rw [h1] at k2; cases k2
  refine (key_same ?_).1 ?_
  · rintro rfl; cases h1
  · rw [h1, h2]; congr 1; omega

/-- `fmin` chooses one of its operands, not NaN if there is a choice, and the smaller. -/
theorem fmin_cases (a b : F64) :
    (b = .nan ∧ F64.fmin a b = a) ∨ (a = .nan ∧ F64.fmin a b = b) ∨
    (F64.fmin a b = a ∧ LeF a b) ∨ (F64.fmin a b = b ∧ LeF b a) := by
  by_cases hb : b = .nan
  · subst hb
    left
    cases a <;> exact ⟨rfl, rfl⟩
  by_cases ha : a = .nan
  · subst ha
    right; left
    cases b <;> exact ⟨rfl, rfl⟩
  right; right
  have h : F64.fmin a b = if F64.blt b a then b else a := by
    cases a <;> cases b <;> first | rfl | exact absurd rfl ha
  cases hk : F64.key a with
  | none => exact absurd (key_none.1 hk) ha
  | some x =>
    cases hk' : F64.key b with
    | none => exact absurd (key_none.1 hk') hb
    | some y =>
      have e : F64.blt b a = decide (y < x) := by unfold F64.blt; rw [hk, hk']
      rw [h, e]
      by_cases hxy : y < x
      · right
        rw [if_pos (by simpa using hxy)]
        exact ⟨rfl, leF_iff.2 ⟨y, x, hk', hk, by omega⟩⟩
      · left
        rw [if_neg (by simpa using hxy)]
        exact ⟨rfl, leF_iff.2 ⟨x, y, hk, hk', by omega⟩⟩

theorem fmax_cases (a b : F64) :
    (b = .nan ∧ F64.fmax a b = a) ∨ (a = .nan ∧ F64.fmax a b = b) ∨
    (F64.fmax a b = a ∧ LeF b a) ∨ (F64.fmax a b = b ∧ LeF a b) := by
  by_cases hb : b = .nan
  · subst hb
    left
    cases a <;> exact ⟨rfl, rfl⟩
  by_cases ha : a = .nan
  · subst ha
    right; left
    cases b <;> exact ⟨rfl, rfl⟩
  right; right
  have h : F64.fmax a b = if F64.blt a b then b else a := by
    cases a <;> cases b <;> first | rfl | exact absurd rfl ha
  cases hk : F64.key a with
  | none => exact absurd (key_none.1 hk) ha
  | some x =>
    cases hk' : F64.key b with
    | none => exact absurd (key_none.1 hk') hb
    | some y =>
      have e : F64.blt a b = decide (x < y) := by unfold F64.blt; rw [hk, hk']
      rw [h, e]
      by_cases hxy : x < y
      · right
        rw [if_pos (by simpa using hxy)]
        exact ⟨rfl, leF_iff.2 ⟨x, y, hk, hk', by omega⟩⟩
      · left
        rw [if_neg (by simpa using hxy)]
        exact ⟨rfl, leF_iff.2 ⟨y, x, hk', hk, by omega⟩⟩

/-- What a fold that chooses the best element computes. -/
theorem choose_fold (R : F64 → F64 → Prop) (f : F64 → F64 → F64)
    (hrefl : ∀ a, a ≠ .nan → R a a) (htrans : ∀ a b c, R a b → R b c → R a c)
    (hnan : ∀ a b, R a b → a ≠ .nan)
    (hf : ∀ a b, (b = .nan ∧ f a b = a) ∨ (a = .nan ∧ f a b = b) ∨ (f a b = a ∧ R a b) ∨
      (f a b = b ∧ R b a)) (xs : List F64) : ∀ (acc : F64), acc ≠ .nan →
    let m := xs.foldl f acc
    m ≠ .nan ∧ R m acc ∧ (∀ x ∈ xs, x ≠ .nan → R m x) ∧ (m = acc ∨ m ∈ xs) := by
  induction xs with
  | nil => exact fun acc h => ⟨h, hrefl _ h, by simp, Or.inl rfl⟩
  | cons x xs ih =>
    intro acc h
    simp only [List.foldl_cons]
    have key : f acc x ≠ .nan ∧ R (f acc x) acc ∧ (x ≠ .nan → R (f acc x) x) ∧
        (f acc x = acc ∨ f acc x = x) := by
      rcases hf acc x with ⟨h1, h2⟩ | ⟨h1, h2⟩ | ⟨h1, h2⟩ | ⟨h1, h2⟩
      · rw [h2]; exact ⟨h, hrefl _ h, fun k => absurd h1 k, Or.inl rfl⟩
      · exact absurd h1 h
      · rw [h1]; exact ⟨h, hrefl _ h, fun _ => h2, Or.inl rfl⟩
      · rw [h1]; exact ⟨hnan _ _ h2, h2, fun k => hrefl _ k, Or.inr rfl⟩
    obtain ⟨k1, k2, k3, k4⟩ := key
    obtain ⟨i1, i2, i3, i4⟩ := ih _ k1
    refine ⟨i1, htrans _ _ _ i2 k2, ?_, ?_⟩
    · intro y hy hn
      rcases List.mem_cons.1 hy with rfl | hy
      · exact htrans _ _ _ i2 (k3 hn)
      · exact i3 y hy hn
    · rcases i4 with i4 | i4
      · rcases k4 with k4 | k4
        · exact Or.inl (i4.trans k4)
        · exact Or.inr (by rw [i4, k4]; exact List.mem_cons_self)
      · exact Or.inr (List.mem_cons_of_mem _ i4)

theorem leF_left {a b : F64} (h : LeF a b) : a ≠ .nan := by
  obtain ⟨x, y, h1, h2, h3⟩ := leF_iff.1 h
  rintro rfl; cases h1

theorem leF_right {a b : F64} (h : LeF a b) : b ≠ .nan := by
  obtain ⟨x, y, h1, h2, h3⟩ := leF_iff.1 h
  rintro rfl; cases h2

theorem min_fold (xs : List F64) : Minimum xs (xs.foldl F64.fmin (.inf false)) := by
  obtain ⟨h1, h2, h3, h4⟩ := choose_fold LeF F64.fmin (fun _ => leF_refl) (fun _ _ _ => leF_trans)
    (fun _ _ => leF_left) fmin_cases xs (.inf false) (by simp)
  generalize xs.foldl F64.fmin (.inf false) = m at *
  constructor
  · intro hn
    rcases h4 with h4 | h4
    · exact h4
    · exact absurd (hn m h4) h1
  · rintro ⟨x, hx, hx'⟩
    refine ⟨?_, h1, h3⟩
    rcases h4 with h4 | h4
    · subst h4
      have hle := h3 x hx hx'
      have := leF_antisymm hle (.top hx')
      rcases this with rfl | ⟨⟨s, hs⟩, _⟩
      · exact hx
      · cases hs
    · exact h4

theorem max_fold (xs : List F64) : Maximum xs (xs.foldl F64.fmax (.inf true)) := by
  obtain ⟨h1, h2, h3, h4⟩ := choose_fold (fun a b => LeF b a) F64.fmax (fun _ => leF_refl)
    (fun _ _ _ h k => leF_trans k h) (fun _ _ => leF_right) fmax_cases xs (.inf true) (by simp)
  generalize xs.foldl F64.fmax (.inf true) = m at *
  constructor
  · intro hn
    rcases h4 with h4 | h4
    · exact h4
    · exact absurd (hn m h4) h1
  · rintro ⟨x, hx, hx'⟩
    refine ⟨?_, h1, h3⟩
    rcases h4 with h4 | h4
    · subst h4
      have hle := h3 x hx hx'
      have := leF_antisymm hle (.bot hx')
      rcases this with rfl | ⟨_, ⟨s, hs⟩⟩
      · exact hx
      · cases hs
    · exact h4

theorem minimum_unique {xs ys : List F64} {m m' : F64} (hp : ∀ x, x ∈ xs ↔ x ∈ ys)
    (h : Minimum xs m) (k : Minimum ys m') : Same m m' := by
  by_cases he : ∃ x ∈ xs, x ≠ .nan
  · obtain ⟨a1, a2, a3⟩ := h.2 he
    obtain ⟨x, hx, hn⟩ := he
    obtain ⟨b1, b2, b3⟩ := k.2 ⟨x, (hp x).1 hx, hn⟩
    exact leF_antisymm (a3 _ ((hp _).2 b1) b2) (b3 _ ((hp _).1 a1) a2)
  · have hx : ∀ x ∈ xs, x = .nan := fun x hx => Classical.byContradiction fun h => he ⟨x, hx, h⟩
    rw [h.1 hx, k.1 (fun x h => hx x ((hp x).2 h))]
    exact Or.inl rfl

theorem maximum_unique {xs ys : List F64} {m m' : F64} (hp : ∀ x, x ∈ xs ↔ x ∈ ys)
    (h : Maximum xs m) (k : Maximum ys m') : Same m m' := by
  by_cases he : ∃ x ∈ xs, x ≠ .nan
  · obtain ⟨a1, a2, a3⟩ := h.2 he
    obtain ⟨x, hx, hn⟩ := he
    obtain ⟨b1, b2, b3⟩ := k.2 ⟨x, (hp x).1 hx, hn⟩
    exact leF_antisymm (b3 _ ((hp _).1 a1) a2) (a3 _ ((hp _).2 b1) b2)
  · have hx : ∀ x ∈ xs, x = .nan := fun x hx => Classical.byContradiction fun h => he ⟨x, hx, h⟩
    rw [h.1 hx, k.1 (fun x h => hx x ((hp x).2 h))]
    exact Or.inl rfl

/-! ### Sums -/

theorem value_int (z : ℤ) (h : z.natAbs ≤ 2 ^ 53) : ∃ u, value u = some (z : ℚ) := by
  refine ⟨.fin (decide (z < 0)) (z.natAbs * unit64) (rep_nat h), ?_⟩
  rw [value_whole]
  congr 2
  unfold F64.sv
  by_cases hz : z < 0
  · rw [if_pos (by simpa using hz)]; omega
  · rw [if_neg (by simpa using hz)]; omega

theorem sum_exact (xs : List F64) : ∀ (acc : F64) (a : ℤ) (zs : List ℤ), value acc = some (a : ℚ) →
    xs.map value = zs.map (fun z : ℤ => some (z : ℚ)) → a.natAbs + (zs.map Int.natAbs).sum ≤ 2 ^ 53 →
    value (xs.foldl F64.add acc) = some ((a + zs.sum : ℤ) : ℚ) := by
  induction xs with
  | nil =>
    intro acc a zs ha hz hs
    cases zs with
    | nil => simpa using ha
    | cons z zs => cases hz
  | cons x xs ih =>
    intro acc a zs ha hz hs
    cases zs with
    | nil => cases hz
    | cons z zs =>
      simp only [List.map_cons, List.cons.injEq] at hz
      simp only [List.map_cons, List.sum_cons] at hs
      have hb : (a + z).natAbs ≤ a.natAbs + z.natAbs := Int.natAbs_add_le a z
      obtain ⟨u, hu⟩ := value_int (a + z) (by omega)
      have hr := add_rounds ha hz.1
      have := roundsTo_exact hr (u := u) (by rw [hu]; push_cast; rfl)
      rw [List.foldl_cons, ih (F64.add acc x) (a + z) zs (by rw [this]; push_cast; rfl) hz.2 (by omega)]
      rw [List.sum_cons]
      congr 2; ring

theorem foldl_add_congr (xs : List F64) : ∀ {a b : F64}, Same a b →
    Same (xs.foldl F64.add a) (xs.foldl F64.add b) := by
  induction xs with
  | nil => exact fun h => h
  | cons x xs ih => exact fun h => ih (add_congr h (Or.inl rfl))

end Xprs
