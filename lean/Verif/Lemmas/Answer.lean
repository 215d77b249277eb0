import Verif.Spec.Session
import Verif.Lemmas.Tokens
/-
What `str::parse::<f64>` accepts.
-/
namespace Xprs
open Spec

theorem parseF64_decimal {u : Bytes} {M : Nat} {E : Int} (hu : c!"_" ∉ u) (h : Decimal u [] M E) :
    parseF64 u = some (F64.ofDecimal M E) := by
  have hl : Literal u [] (F64.ofDecimal M E) := literal_iff_decimal.2 ⟨M, E, h, ofDecimal_nearest M E⟩
  have h1 := parseNumber_literal 0 hl
  rw [List.append_nil] at h1
  obtain ⟨h2, x, h3, h4⟩ := parseNumber_ok h1
  cases h3
  rw [← h2] at h4
  simp only [Nat.zero_add, Nat.sub_zero, List.take_length] at h4
  rwa [filter_all (p := fun c => decide (c ≠ c!"_"))] at h4
  intro c hc
  simp only [ne_eq, decide_eq_true_eq]
  rintro rfl; exact hu hc

theorem expVal_some {r : Bytes} {ev : Int} (h : expVal r = some ev) :
    (r = [] ∧ ev = 0) ∨ ∃ e sg ds, (e = c!"e" ∨ e = c!"E") ∧ ds ≠ [] ∧ (∀ c ∈ ds, digit c) ∧
      r = e :: (sg ++ ds) ∧
      (((sg = [] ∨ sg = [c!"+"]) ∧ ev = decVal ds) ∨ (sg = [c!"-"] ∧ ev = -(decVal ds : Int))) := by
  cases r with
  | nil => simp [expVal] at h; exact .inl ⟨rfl, h.symm⟩
  | cons e t =>
    right
    rw [expVal] at h
    split at h
    · rename_i he
      have key : ∀ (sg ds : Bytes), t = sg ++ ds →
          (if ds ≠ [] ∧ ds.all isDigit = true then
            some (if t.head? = some c!"-" then -(digitsVal ds : Int) else digitsVal ds)
           else none) = some ev →
          ((sg = [] ∧ t.head? ≠ some c!"-") ∨ sg = [c!"+"] ∨ sg = [c!"-"]) →
          ∃ e' sg ds, (e' = c!"e" ∨ e' = c!"E") ∧ ds ≠ [] ∧ (∀ c ∈ ds, digit c) ∧
            e :: t = e' :: (sg ++ ds) ∧
            (((sg = [] ∨ sg = [c!"+"]) ∧ ev = decVal ds) ∨ (sg = [c!"-"] ∧ ev = -(decVal ds : Int))) := by
        intro sg ds ht hv hs
        split at hv
        · rename_i hd
          refine ⟨e, sg, ds, he, hd.1, ?_, by rw [ht], ?_⟩
          · intro c hc
            exact (isDigit_iff c).1 (List.all_eq_true.1 hd.2 c hc)
          · rw [digitsVal_eq] at hv
            rcases hs with ⟨hs, hn⟩ | hs | hs
            · rw [if_neg hn] at hv; cases hv; exact .inl ⟨.inl hs, rfl⟩
            · rw [ht, hs] at hv; simp at hv; exact .inl ⟨.inr hs, hv.symm⟩
            · rw [ht, hs] at hv; simp at hv; exact .inr ⟨hs, hv.symm⟩
        · cases hv
      cases t with
      | nil => simp at h
      | cons a t =>
        by_cases h1 : a = c!"+"
        · subst h1; exact key [c!"+"] t rfl (by simpa using h) (by simp)
        · by_cases h2 : a = c!"-"
          · subst h2; exact key [c!"-"] t rfl (by simpa using h) (by simp)
          · exact key [] (a :: t) rfl (by simpa [h1, h2] using h) (by simp [h2])
    · cases h

/-- Whatever is accepted is a decimal number without underscores. -/
theorem decimal_of_parseF64 {u : Bytes} {v : F64} (h : parseF64 u = some v) :
    c!"_" ∉ u ∧ ∃ M E, Decimal u [] M E ∧ v = F64.ofDecimal M E := by
  have hus : ∀ c, digit c → c ≠ c!"_" := by
    intro c hc he; subst he; revert hc; decide
  have hdot : isDigit c!"." = false := by decide
  -- the pieces
  obtain ⟨ip, dotfp, fp, r3, rfl, hip, hfp, hd, h3⟩ : ∃ ip dotfp fp r3, u = ip ++ dotfp ++ r3 ∧
      (∀ c ∈ ip, isDigit c = true) ∧ (∀ c ∈ fp, isDigit c = true) ∧
      (dotfp = c!"." :: fp ∨ (dotfp = [] ∧ fp = [] ∧ r3.head? ≠ some c!".")) ∧
      (∀ c, r3.head? = some c → isDigit c = false) := by
    have e1 := takeWhile_append_drop isDigit u
    have hip : ∀ c ∈ u.takeWhile isDigit, isDigit c = true := mem_takeWhile
    have hh : ∀ c, (u.drop (u.takeWhile isDigit).length).head? = some c → isDigit c = false := by
      intro c hc; rw [drop_takeWhile] at hc; exact head_dropWhile hc
    generalize u.takeWhile isDigit = ip at *
    generalize u.drop ip.length = r1 at *
    cases r1 with
    | nil => exact ⟨ip, [], [], [], by simp [← e1], hip, by simp, by simp, by simp⟩
    | cons d r2 =>
      by_cases hc : d = c!"."
      · subst hc
        have e2 := takeWhile_append_drop isDigit r2
        have hfp : ∀ c ∈ r2.takeWhile isDigit, isDigit c = true := mem_takeWhile
        have hh2 : ∀ c, (r2.drop (r2.takeWhile isDigit).length).head? = some c →
            isDigit c = false := by
          intro c hc; rw [drop_takeWhile] at hc; exact head_dropWhile hc
        refine ⟨ip, c!"." :: r2.takeWhile isDigit, r2.takeWhile isDigit,
          r2.drop (r2.takeWhile isDigit).length, ?_, hip, hfp, .inl rfl, hh2⟩
        rw [List.append_assoc, List.cons_append, e2, e1]
      · exact ⟨ip, [], [], d :: r2, by simp [← e1], hip, by simp, by simp [hc], hh⟩
  rw [parseF64_eq hip hfp hd h3] at h
  split at h
  · cases h
  · rename_i hne
    have hne' : ip ++ fp ≠ [] := by
      intro he; apply hne
      have := congrArg List.length he
      rwa [List.length_append] at this
    cases hev : expVal r3 with
    | none => simp [hev] at h
    | some ev =>
      simp only [hev, Option.map_some, Option.some.injEq] at h
      have hip' : ∀ c ∈ ip, digit c := fun c hc => (isDigit_iff c).1 (hip c hc)
      have hfp' : ∀ c ∈ fp, digit c := fun c hc => (isDigit_iff c).1 (hfp c hc)
      have hmant : ∀ c ∈ ip ++ dotfp, digit c ∨ c = c!"." := by
        intro c hc
        rcases List.mem_append.1 hc with h | h
        · exact .inl (hip' c h)
        · rcases hd with rfl | ⟨rfl, _⟩
          · rcases List.mem_cons.1 h with h | h
            · exact .inr h
            · exact .inl (hfp' c h)
          · cases h
      have hnu : c!"_" ∉ ip ++ dotfp := by
        intro hc
        rcases hmant _ hc with h | h
        · exact hus _ h rfl
        · revert h; decide
      have hfil : (ip ++ dotfp).filter (fun c => decide (c ≠ c!"_")) = ip ++ dotfp := by
        apply filter_all
        intro c hc
        simp only [ne_eq, decide_eq_true_eq]
        rintro rfl; exact hnu hc
      have hhead : ∃ c, (ip ++ dotfp).head? = some c ∧ (digit c ∨ c = c!".") := by
        cases hx : ip ++ dotfp with
        | nil =>
          exfalso
          rw [List.append_eq_nil_iff] at hx
          rcases hd with rfl | ⟨_, rfl, _⟩
          · cases hx.2
          · exact hne' (by simp [hx.1])
        | cons a t =>
          refine ⟨a, rfl, hmant a ?_⟩
          rw [hx]; exact List.mem_cons_self
      have hshape : MantShape (ip ++ dotfp) ip fp := by
        refine ⟨hip', hfp', hne', ?_⟩
        rw [hfil]
        rcases hd with rfl | ⟨rfl, rfl, _⟩
        · left; simp
        · right; simp
      rcases expVal_some hev with ⟨rfl, rfl⟩ | ⟨e, sg, ds, he, hds0, hds, rfl, hv⟩
      · refine ⟨by simpa using hnu, decVal (ip ++ fp), -(fp.length : Int),
          ⟨ip ++ dotfp, ip, fp, hhead, ?_, hshape, rfl, .inl ⟨by simp, by simp [notHead], ?_, rfl⟩⟩, ?_⟩
        · intro c hc
          rcases hmant c hc with h | h
          · exact .inl h
          · exact .inr (.inl h)
        · rintro ⟨e, sg, d, t, _, _, _, h⟩; cases h
        · rw [← h, digitsVal_eq]; simp
      · refine ⟨?_, decVal (ip ++ fp), ev - fp.length,
          ⟨ip ++ dotfp, ip, fp, hhead, ?_, hshape, rfl, .inr ⟨e, sg, ds, he, hds0, hds, rfl, by simp [notHead], ?_⟩⟩, ?_⟩
        · intro hc
          rcases List.mem_append.1 hc with hc | hc
          · exact hnu hc
          · rcases List.mem_cons.1 hc with hc | hc
            · subst hc; revert he; decide
            · rcases List.mem_append.1 hc with hc | hc
              · rcases hv with ⟨rfl | rfl, _⟩ | ⟨rfl, _⟩ <;> revert hc <;> decide
              · exact hus _ (hds _ hc) rfl
        · intro c hc
          rcases hmant c hc with h | h
          · exact .inl h
          · exact .inr (.inl h)
        · rcases hv with ⟨hs, rfl⟩ | ⟨hs, rfl⟩
          · exact .inl ⟨hs, rfl⟩
          · exact .inr ⟨hs, rfl⟩
        · rw [← h, digitsVal_eq]

theorem parseF64_iff {u : Bytes} {v : F64} :
    parseF64 u = some v ↔ c!"_" ∉ u ∧
      ∃ M E, Decimal u [] M E ∧ NearestF64 (decNum M E * 2 ^ 1074) (decDen E) v := by
  constructor
  · intro h
    obtain ⟨h1, M, E, h2, rfl⟩ := decimal_of_parseF64 h
    exact ⟨h1, M, E, h2, ofDecimal_nearest M E⟩
  · rintro ⟨h1, M, E, h2, h3⟩
    rw [parseF64_decimal h1 h2, nearestF64_unique h3 (ofDecimal_nearest M E)]

theorem lowered_eq : (fun c : UInt8 => if isUpper c then c + 32 else c) = lowered := by
  funext c; simp [lowered, isUpper]

/-- A text with a letter in front is no decimal number. -/
theorem parseF64_letter {u : Bytes} {c : UInt8} (hc : u.head? = some c) (h1 : isDigit c = false)
    (h2 : c ≠ c!".") : parseF64 u = none := by
  cases h : parseF64 u with
  | none => rfl
  | some v =>
    exfalso
    obtain ⟨_, M, E, ⟨mant, ip, fp, ⟨d, hd, hd'⟩, _, _, _, hx⟩, _⟩ := decimal_of_parseF64 h
    have : u.head? = some d := by
      rcases hx with ⟨rfl, _⟩ | ⟨e, sg, ds, _, _, _, rfl, _⟩
      · exact hd
      · cases mant with
        | nil => cases hd
        | cons a t => exact hd
    rw [this] at hc; cases hc
    rcases hd' with h | h
    · rw [(isDigit_iff _).2 h] at h1; cases h1
    · exact h2 h

theorem head_lowered {u : Bytes} {a : UInt8} {t : Bytes} (h : u.map lowered = a :: t)
    (ha : 97 ≤ a) : ∃ c, u.head? = some c ∧ isDigit c = false ∧ c ≠ c!"." ∧ c ≠ c!"+" ∧ c ≠ c!"-" := by
  cases u with
  | nil => cases h
  | cons c u =>
    simp only [List.map_cons, List.cons.injEq] at h
    refine ⟨c, rfl, ?_⟩
    have : ∀ c : UInt8, 97 ≤ lowered c →
        isDigit c = false ∧ c ≠ c!"." ∧ c ≠ c!"+" ∧ c ≠ c!"-" := forall_byte (by decide +kernel)
    exact this c (by rw [h.1]; exact ha)

theorem unsigned_iff {u : Bytes} {y : F64} : unsignedF64 u = some y ↔ Unsigned u y := by
  unfold unsignedF64 Unsigned eqIgnoreCase
  rw [lowered_eq]
  have e1 : b!"inf" = c!"i" :: b!"nf" := rfl
  have e2 : b!"infinity" = c!"i" :: b!"nfinity" := rfl
  have e3 : b!"nan" = c!"n" :: b!"an" := rfl
  have no : ∀ a t, u.map lowered = a :: t → 97 ≤ a → parseF64 u = none := by
    intro a t h ha
    obtain ⟨c, h1, h2, h3, _⟩ := head_lowered h ha
    exact parseF64_letter h1 h2 h3
  by_cases hi : u.map lowered = b!"inf" ∨ u.map lowered = b!"infinity"
  · have hp : parseF64 u = none := by
      rcases hi with h | h
      · exact no _ _ (h.trans e1) (by decide)
      · exact no _ _ (h.trans e2) (by decide)
    have hn : u.map lowered ≠ b!"nan" := by
      rcases hi with h | h <;> (rw [h]; decide)
    rw [if_pos (by simpa using hi), ← parseF64_iff, hp]
    simp only [hi, hn, true_and, false_and, reduceCtorEq, or_false, Option.some.injEq]
    exact eq_comm
  · by_cases hn : u.map lowered = b!"nan"
    · have hp : parseF64 u = none := no _ _ (hn.trans e3) (by decide)
      rw [if_neg (by simpa using hi), if_pos (by simpa using hn), ← parseF64_iff, hp]
      rw [eq_false hi]
      simp only [hn, true_and, false_and, false_or, reduceCtorEq, or_false, Option.some.injEq]
      exact eq_comm
    · rw [if_neg (by simpa using hi), if_neg (by simpa using hn), parseF64_iff]
      simp only [hi, hn, false_and, false_or]

theorem neg_eq_opposite (x : F64) : F64.neg x = opposite x := by cases x <;> rfl

/-- A number without sign has none. -/
theorem unsigned_head {c : UInt8} {t : Bytes} {y : F64} (h : Unsigned (c :: t) y) :
    c ≠ c!"-" ∧ c ≠ c!"+" := by
  have of_letter : ∀ a s, (c :: t).map lowered = a :: s → 97 ≤ a → c ≠ c!"-" ∧ c ≠ c!"+" := by
    intro a s h ha
    obtain ⟨d, h1, _, _, h4, h5⟩ := head_lowered h ha
    cases h1; exact ⟨h5, h4⟩
  rcases h with ⟨h | h, _⟩ | ⟨h, _⟩ | h
  · exact of_letter c!"i" b!"nf" h (by decide)
  · exact of_letter c!"i" b!"nfinity" h (by decide)
  · exact of_letter c!"n" b!"an" h (by decide)
  · rw [← parseF64_iff] at h
    constructor
    · rintro rfl; rw [parseF64_letter rfl (by decide) (by decide)] at h; cases h
    · rintro rfl; rw [parseF64_letter rfl (by decide) (by decide)] at h; cases h

theorem unsigned_nil {y : F64} : ¬ Unsigned [] y := by
  rw [← unsigned_iff]; intro h; revert h
  rw [show unsignedF64 [] = none by decide +kernel]; simp

theorem f64FromStr_iff (t : Bytes) (x : F64) : f64FromStr t = some x ↔ Numeral t x := by
  unfold Numeral
  cases t with
  | nil =>
    simp only [f64FromStr, reduceCtorEq, false_iff]
    rintro ⟨u, y, h1, ⟨rfl | h, _⟩ | ⟨h, _⟩⟩
    · exact unsigned_nil h1
    · cases h
    · cases h
  | cons c t =>
    rw [f64FromStr]
    by_cases h1 : c = c!"-"
    · subst h1
      rw [if_pos rfl, Option.map_eq_some_iff]
      constructor
      · rintro ⟨y, h, rfl⟩
        exact ⟨t, y, unsigned_iff.1 h, .inr ⟨rfl, neg_eq_opposite y⟩⟩
      · rintro ⟨u, y, h, ⟨rfl | h2, rfl⟩ | ⟨h2, rfl⟩⟩
        · exact absurd rfl (unsigned_head h).1
        · simp at h2
        · cases h2; exact ⟨y, unsigned_iff.2 h, neg_eq_opposite y⟩
    · rw [if_neg h1]
      by_cases h2 : c = c!"+"
      · subst h2
        rw [if_pos rfl, unsigned_iff]
        constructor
        · intro h; exact ⟨t, x, h, .inl ⟨.inr rfl, rfl⟩⟩
        · rintro ⟨u, y, h, ⟨rfl | h2, rfl⟩ | ⟨h2, rfl⟩⟩
          · exact absurd rfl (unsigned_head h).2
          · cases h2; exact h
          · simp at h2
      · rw [if_neg h2, unsigned_iff]
        constructor
        · intro h; exact ⟨c :: t, x, h, .inl ⟨.inl rfl, rfl⟩⟩
        · rintro ⟨u, y, h, ⟨rfl | h3, rfl⟩ | ⟨h3, rfl⟩⟩
          · exact h
          · cases h3; exact absurd rfl h2
          · cases h3; exact absurd rfl h1

end Xprs
