import Verif.Spec.Lattice
import Verif.Lemmas.Minmax
import Verif.Lemmas.RoundOrder
import Verif.Lemmas.Range
import Verif.Lemmas.Same
/-
The laws of `min` and `max` (for C108).
-/
namespace Xprs
open Spec
set_option exponentiation.threshold 4096

theorem gives_min {w : World} {xs : List F64} {v : F64} (h : Gives w b!"min" xs v) :
    v = xs.foldl F64.fmin (.inf false) := by
  obtain ⟨f, hf, h⟩ := h
  cases hf
  cases h
  rfl

theorem gives_max {w : World} {xs : List F64} {v : F64} (h : Gives w b!"max" xs v) :
    v = xs.foldl F64.fmax (.inf true) := by
  obtain ⟨f, hf, h⟩ := h
  cases hf
  cases h
  rfl

theorem min_gives (w : World) (xs : List F64) : Gives w b!"min" xs (xs.foldl F64.fmin (.inf false)) :=
  ⟨_, rfl, rfl⟩

theorem max_gives (w : World) (xs : List F64) : Gives w b!"max" xs (xs.foldl F64.fmax (.inf true)) :=
  ⟨_, rfl, rfl⟩

/-- Of the least of some numbers it matters only how it lies to others. -/
theorem min_of {xs : List F64} {m : F64} (h : Minimum xs m) (z : F64) (hz : z ≠ .nan) :
    LeF z m ↔ ∀ x ∈ xs, x ≠ .nan → LeF z x := by
  by_cases he : ∃ x ∈ xs, x ≠ .nan
  · obtain ⟨h1, h2, h3⟩ := h.2 he
    exact ⟨fun k x hx hn => leF_trans k (h3 x hx hn), fun k => k m h1 h2⟩
  · rw [h.1 fun x hx => by by_contra hn; exact he ⟨x, hx, hn⟩]
    exact ⟨fun _ x hx hn => absurd ⟨x, hx, hn⟩ he, fun _ => .top hz⟩

theorem max_of {xs : List F64} {m : F64} (h : Maximum xs m) (z : F64) (hz : z ≠ .nan) :
    LeF m z ↔ ∀ x ∈ xs, x ≠ .nan → LeF x z := by
  by_cases he : ∃ x ∈ xs, x ≠ .nan
  · obtain ⟨h1, h2, h3⟩ := h.2 he
    exact ⟨fun k x hx hn => leF_trans (h3 x hx hn) k, fun k => k m h1 h2⟩
  · rw [h.1 fun x hx => by by_contra hn; exact he ⟨x, hx, hn⟩]
    exact ⟨fun _ x hx hn => absurd ⟨x, hx, hn⟩ he, fun _ => .bot hz⟩

theorem min_ne {xs : List F64} {m : F64} (h : Minimum xs m) : m ≠ .nan := by
  by_cases he : ∃ x ∈ xs, x ≠ .nan
  · exact (h.2 he).2.1
  · rw [h.1 fun x hx => by by_contra hn; exact he ⟨x, hx, hn⟩]; nofun

theorem max_ne {xs : List F64} {m : F64} (h : Maximum xs m) : m ≠ .nan := by
  by_cases he : ∃ x ∈ xs, x ≠ .nan
  · exact (h.2 he).2.1
  · rw [h.1 fun x hx => by by_contra hn; exact he ⟨x, hx, hn⟩]; nofun

/-- Two numbers above the same numbers are the same. -/
theorem same_above {a b : F64} (ha : a ≠ .nan) (hb : b ≠ .nan) (h : ∀ z, z ≠ .nan → (LeF z a ↔ LeF z b)) :
    Same a b :=
  leF_antisymm ((h a ha).1 (leF_refl ha)) ((h b hb).2 (leF_refl hb))

theorem same_below {a b : F64} (ha : a ≠ .nan) (hb : b ≠ .nan) (h : ∀ z, z ≠ .nan → (LeF a z ↔ LeF b z)) :
    Same a b :=
  leF_antisymm ((h b hb).2 (leF_refl hb)) ((h a ha).1 (leF_refl ha))

theorem leF_total {a b : F64} (ha : a ≠ .nan) (hb : b ≠ .nan) : LeF a b ∨ LeF b a := by
  cases hx : F64.key a with
  | none => exact absurd (key_none.1 hx) ha
  | some x =>
    cases hy : F64.key b with
    | none => exact absurd (key_none.1 hy) hb
    | some y =>
      rcases le_total x y with h | h
      · exact .inl (leF_iff.2 ⟨x, y, hx, hy, h⟩)
      · exact .inr (leF_iff.2 ⟨y, x, hy, hx, h⟩)

/-- The least of two numbers. -/
theorem min_two {a b m : F64} (h : Minimum [a, b] m) (ha : a ≠ .nan) (hb : b ≠ .nan) :
    (LeF a b → Same m a) ∧ (LeF b a → Same m b) := by
  obtain ⟨h1, h2, h3⟩ := h.2 ⟨a, by simp, ha⟩
  have k1 := h3 a (by simp) ha
  have k2 := h3 b (by simp) hb
  constructor
  · intro h
    rcases List.mem_cons.1 h1 with rfl | h1
    · exact .refl _
    · have : m = b := by simpa using h1
      subst this
      exact leF_antisymm k1 h
  · intro h
    rcases List.mem_cons.1 h1 with rfl | h1
    · exact leF_antisymm k2 h
    · have : m = b := by simpa using h1
      subst this
      exact .refl _

theorem max_two {a b m : F64} (h : Maximum [a, b] m) (ha : a ≠ .nan) (hb : b ≠ .nan) :
    (LeF a b → Same m b) ∧ (LeF b a → Same m a) := by
  obtain ⟨h1, h2, h3⟩ := h.2 ⟨a, by simp, ha⟩
  have k1 := h3 a (by simp) ha
  have k2 := h3 b (by simp) hb
  constructor
  · intro h
    rcases List.mem_cons.1 h1 with rfl | h1
    · exact leF_antisymm h k2
    · have : m = b := by simpa using h1
      subst this
      exact .refl _
  · intro h
    rcases List.mem_cons.1 h1 with rfl | h1
    · exact .refl _
    · have : m = b := by simpa using h1
      subst this
      exact leF_antisymm h k1

theorem neg_nan_iff {a : F64} : F64.neg a = .nan ↔ a = .nan := by
  cases a <;> simp [F64.neg]

theorem neg_leF {a b : F64} : LeF (F64.neg b) (F64.neg a) ↔ LeF a b := by
  refine ⟨fun h => ?_, neg_mono⟩
  have := neg_mono h
  rwa [fneg_neg, fneg_neg] at this

end Xprs
