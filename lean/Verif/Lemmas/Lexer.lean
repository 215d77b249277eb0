import Verif.Lemmas.ParserBasics
import Verif.Spec.Grammar
/-
The lexical level: the parser's character classes and token boundaries agree with the
specification.
-/
namespace Xprs
open Spec
set_option linter.unusedSimpArgs false

theorem forall_byte {P : UInt8 → Prop} (h : ∀ n : Fin 256, P (UInt8.ofFin n)) : ∀ c, P c := by
  intro c
  have := h c.toFin
  simpa using this

theorem isDigit_iff : ∀ c, isDigit c = true ↔ digit c := forall_byte (by decide +kernel)
theorem isLower_iff : ∀ c, isLower c = true ↔ lower c := forall_byte (by decide +kernel)
theorem isUpper_iff : ∀ c, isUpper c = true ↔ upper c := forall_byte (by decide +kernel)
theorem isWs_iff : ∀ c, isWs c = true ↔ space c := forall_byte (by decide +kernel)
theorem isIdStart_iff : ∀ c, isIdStart c = true ↔ letter c := forall_byte (by decide +kernel)
theorem isIdChar_iff : ∀ c, isIdChar c = true ↔ nameChar c := forall_byte (by decide +kernel)
theorem isNumChar_iff : ∀ c, isNumChar c = true ↔ mantChar c := forall_byte (by decide +kernel)

theorem opOfByte_iff : ∀ op c, opOfByte c = some op ↔ opChar op = c := by
  intro op
  cases op <;> exact forall_byte (by decide +kernel)

theorem opOfByte_opChar (op : Op) : opOfByte (opChar op) = some op := (opOfByte_iff _ _).2 rfl

theorem level_eq (op : Op) : level op = precOf op := by cases op <;> rfl
theorem implLevel_eq (cfg : Cfg) : implLevel cfg = implPrec cfg := by
  unfold implLevel implPrec; rfl

/-! ### takeWhile -/

theorem takeWhile_append_stop {p : UInt8 → Bool} {a b : Bytes} (ha : ∀ c ∈ a, p c = true)
    (hb : ∀ c, b.head? = some c → p c = false) : (a ++ b).takeWhile p = a := by
  induction a with
  | nil =>
    cases b with
    | nil => rfl
    | cons c t => simp [hb c rfl]
  | cons c t ih =>
    simp only [List.cons_append, List.takeWhile_cons, ha c (by simp), if_true]
    rw [ih (fun c hc => ha c (by simp [hc]))]

theorem skipWhile_append {p : UInt8 → Bool} {a b : Bytes} (pos : Nat)
    (ha : ∀ c ∈ a, p c = true) (hb : ∀ c, b.head? = some c → p c = false) :
    skipWhile p ⟨pos, a ++ b⟩ = ⟨pos + a.length, b⟩ := by
  simp [skipWhile, takeWhile_append_stop ha hb, adv]

theorem mem_takeWhile {p : UInt8 → Bool} {l : Bytes} : ∀ c ∈ l.takeWhile p, p c = true := by
  induction l with
  | nil => simp
  | cons a t ih =>
    intro c hc
    rw [List.takeWhile_cons] at hc
    split at hc
    · rename_i h
      rcases List.mem_cons.1 hc with rfl | hc
      · exact h
      · exact ih c hc
    · simp at hc

/-! ### Whitespace -/

theorem trim_spaces {ws t : Bytes} (pos : Nat) (h : spaces ws)
    (ht : ∀ c, t.head? = some c → ¬ space c) : trim ⟨pos, ws ++ t⟩ = ⟨pos + ws.length, t⟩ := by
  apply skipWhile_append
  · intro c hc; exact (isWs_iff c).2 (h c hc)
  · intro c hc
    have := ht c hc
    rw [← isWs_iff] at this
    simpa using this

theorem trim_spaces_cons {ws t : Bytes} {c : UInt8} (pos : Nat) (h : spaces ws)
    (hc : ¬ space c) : trim ⟨pos, ws ++ c :: t⟩ = ⟨pos + ws.length, c :: t⟩ :=
  trim_spaces pos h (by intro d hd; simp at hd; subst hd; exact hc)

theorem trim_append_spaces {ws t : Bytes} (pos : Nat) (h : spaces ws) :
    trim ⟨pos, ws ++ t⟩ = trim ⟨pos + ws.length, t⟩ := by
  have h' : ∀ c ∈ ws, isWs c = true := fun c hc => (isWs_iff c).2 (h c hc)
  have : (ws ++ t).takeWhile isWs = ws ++ t.takeWhile isWs := by
    clear h
    induction ws with
    | nil => rfl
    | cons a l ih =>
      simp only [List.cons_append, List.takeWhile_cons, h' a (by simp), if_true]
      rw [ih (fun c hc => h' c (by simp [hc]))]
  simp only [trim, skipWhile, adv, this, List.length_append, St.mk.injEq]
  constructor
  · omega
  · rw [← List.drop_drop]; simp

theorem firstTok_eq (l : Bytes) : firstTok l = (l.dropWhile isWs).head? := by
  induction l with
  | nil => rfl
  | cons c t ih =>
    rw [firstTok]
    by_cases h : space c
    · rw [if_pos h, ih]; simp [(isWs_iff c).2 h]
    · rw [if_neg h]
      have : isWs c = false := by
        have := mt (isWs_iff c).1 h
        simpa using this
      simp [this]

theorem firstTok_trim (s : St) : (trim s).rest.head? = firstTok s.rest := by
  rw [trim_rest, firstTok_eq]

theorem firstTok_spaces {ws t : Bytes} (h : spaces ws) : firstTok (ws ++ t) = firstTok t := by
  induction ws with
  | nil => rfl
  | cons a l ih =>
    simp only [List.cons_append, firstTok]
    rw [if_pos (h a (by simp)), ih (fun c hc => h c (by simp [hc]))]

theorem firstTok_cons {c : UInt8} {t : Bytes} (h : ¬ space c) : firstTok (c :: t) = some c := by
  simp [firstTok, h]

theorem not_space_opChar (op : Op) : ¬ space (opChar op) := by cases op <;> decide

theorem firstTok_not_space {l : Bytes} {c : UInt8} (h : firstTok l = some c) : ¬ space c := by
  rw [firstTok_eq] at h
  have := head_dropWhile h
  rw [← isWs_iff]; simp [this]

/-! ### Digits -/

theorem digitsVal_acc (l : Bytes) (a : Nat) :
    l.foldl (fun n c => 10 * n + (c.toNat - 48)) a = a * 10 ^ l.length + decVal l := by
  induction l generalizing a with
  | nil => simp [decVal]
  | cons c t ih =>
    rw [List.foldl_cons, ih, decVal, List.length_cons, Nat.pow_succ]
    grind

theorem digitsVal_eq (l : Bytes) : digitsVal l = decVal l := by
  unfold digitsVal; rw [digitsVal_acc]; simp

/-! ### Exponents -/

theorem not_digit_plus : isDigit c!"+" = false := by decide
theorem not_digit_minus : isDigit c!"-" = false := by decide

/-- What `expLen` recognises. -/
theorem expLen_cases (l : Bytes) :
    (expLen l = 0 ∧ ¬ expStart l) ∨
    (expLen l = 1 ∧ ∃ e d t, (e = c!"e" ∨ e = c!"E") ∧ digit d ∧ l = e :: d :: t) ∨
    (expLen l = 2 ∧ ∃ e sg d t, (e = c!"e" ∨ e = c!"E") ∧ (sg = c!"+" ∨ sg = c!"-") ∧
      digit d ∧ l = e :: sg :: d :: t) := by
  unfold expLen
  split
  · rename_i c c1 t
    by_cases he : c = c!"e" ∨ c = c!"E"
    · rw [if_pos he]
      by_cases hd : isDigit c1 = true
      · have hp : c1 ≠ c!"+" := by rintro rfl; simp [not_digit_plus] at hd
        have hm : c1 ≠ c!"-" := by rintro rfl; simp [not_digit_minus] at hd
        right; left
        refine ⟨by simp [hd, hp, hm], c, c1, t, he, (isDigit_iff c1).1 hd, rfl⟩
      · by_cases hs : c1 = c!"+" ∨ c1 = c!"-"
        · cases t with
          | nil =>
            left
            refine ⟨by simp [hd], ?_⟩
            rintro ⟨e, sg, d, t', h1, h2, h3, h4⟩
            rcases h2 with rfl | rfl | rfl
            · simp at h4; rw [← isDigit_iff, ← h4.2.1] at h3; exact hd h3
            · simp at h4
            · simp at h4
          | cons c2 t =>
            by_cases hd2 : isDigit c2 = true
            · right; right
              refine ⟨?_, c, c1, c2, t, he, hs, (isDigit_iff c2).1 hd2, rfl⟩
              rcases hs with rfl | rfl <;> simp [hd, hd2]
            · left
              refine ⟨by simp [hd, hd2], ?_⟩
              rintro ⟨e, sg, d, t', h1, h2, h3, h4⟩
              rcases h2 with rfl | rfl | rfl
              · simp at h4; rw [← isDigit_iff, ← h4.2.1] at h3; exact hd h3
              · simp at h4; rw [← isDigit_iff, ← h4.2.2.1] at h3; exact hd2 h3
              · simp at h4; rw [← isDigit_iff, ← h4.2.2.1] at h3; exact hd2 h3
        · left
          have hp : c1 ≠ c!"+" := fun h => hs (Or.inl h)
          have hm : c1 ≠ c!"-" := fun h => hs (Or.inr h)
          refine ⟨by simp [hd, hp, hm], ?_⟩
          rintro ⟨e, sg, d, t', h1, h2, h3, h4⟩
          rcases h2 with rfl | rfl | rfl
          · simp at h4; rw [← isDigit_iff, ← h4.2.1] at h3; exact hd h3
          · simp at h4; exact hp h4.2.1
          · simp at h4; exact hm h4.2.1
    · rw [if_neg he]
      left
      refine ⟨rfl, ?_⟩
      rintro ⟨e, sg, d, t', h1, h2, h3, h4⟩
      simp at h4
      rw [← h4.1] at h1; exact he h1
  · rename_i h
    left
    refine ⟨rfl, ?_⟩
    rintro ⟨e, sg, d, t', h1, h2, h3, h4⟩
    rcases h2 with rfl | rfl | rfl <;> exact h _ _ _ h4

/-! ### Number tokens -/

/-- The text of a literal: mantissa and exponent. -/
inductive NumShape (mant : Bytes) : Bytes → Bytes → Prop
  | plain (rest : Bytes) (h : notHead mantChar rest) (he : ¬ expStart rest) :
      NumShape mant [] rest
  | exp (e : UInt8) (sg ds rest : Bytes) (he : e = c!"e" ∨ e = c!"E")
      (hs : sg = [] ∨ sg = [c!"+"] ∨ sg = [c!"-"]) (hd : ds ≠ []) (hds : ∀ c ∈ ds, digit c)
      (h : notHead digit rest) : NumShape mant (e :: (sg ++ ds)) rest

theorem not_mant_e {e : UInt8} (h : e = c!"e" ∨ e = c!"E") : isNumChar e = false := by
  rcases h with rfl | rfl <;> decide

/-- Forward: on a text of the specified shape the parser's scan stops right after it. -/
theorem numEnd_shape {mant ex rest : Bytes} (pos : Nat) (hm : ∀ c ∈ mant, mantChar c)
    (h : NumShape mant ex rest) :
    numEnd ⟨pos, mant ++ (ex ++ rest)⟩ = ⟨pos + (mant ++ ex).length, rest⟩ := by
  have hm' : ∀ c ∈ mant, isNumChar c = true := fun c hc => (isNumChar_iff c).2 (hm c hc)
  unfold numEnd
  cases h with
  | plain _ h he =>
    rw [List.nil_append, skipWhile_append pos hm' (by
      intro c hc; have := h c hc; rw [← isNumChar_iff] at this; simpa using this)]
    have h0 : expLen rest = 0 := by
      rcases expLen_cases rest with h | ⟨_, e, d, t, h1, h2, h3⟩ | ⟨_, e, sg, d, t, h1, h2, h3, h4⟩
      · exact h.1
      · exact absurd ⟨e, [], d, t, h1, Or.inl rfl, h2, h3⟩ he
      · exact absurd ⟨e, [sg], d, t, h1, by rcases h2 with rfl | rfl <;> simp, h3, h4⟩ he
    simp only [h0, adv, List.drop_zero, Nat.add_zero, List.append_nil]
    have : rest.takeWhile isDigit = [] := by
      cases rest with
      | nil => rfl
      | cons c t =>
        have := h c rfl
        have : isDigit c = false := by
          rw [← isNumChar_iff] at this
          cases hd : isDigit c with
          | false => rfl
          | true => exact absurd (isDigit_isNumChar hd) this
        simp [this]
    simp [skipWhile, this, adv]
  | exp e sg ds _ he hs hd hds h =>
    rw [List.cons_append, skipWhile_append pos hm' (by
      intro c hc; simp at hc; subst hc; exact not_mant_e he)]
    have hds' : ∀ c ∈ ds, isDigit c = true := fun c hc => (isDigit_iff c).2 (hds c hc)
    have hr : ∀ c, rest.head? = some c → isDigit c = false := by
      intro c hc; have := h c hc; rw [← isDigit_iff] at this; simpa using this
    obtain ⟨d, t, rfl⟩ : ∃ d t, ds = d :: t := by
      cases ds with
      | nil => exact absurd rfl hd
      | cons d t => exact ⟨d, t, rfl⟩
    have hdd : isDigit d = true := hds' d (by simp)
    have hp : d ≠ c!"+" := by rintro rfl; simp [not_digit_plus] at hdd
    have hmn : d ≠ c!"-" := by rintro rfl; simp [not_digit_minus] at hdd
    rcases hs with rfl | rfl | rfl
    · have : expLen (e :: ([] ++ (d :: t) ++ rest)) = 1 := by
        simp [expLen, he, hdd, hp, hmn]
      simp only [this]
      simp only [adv, List.drop_succ_cons, List.drop_zero, List.nil_append]
      rw [skipWhile_append _ hds' hr]
      simp; omega
    · have : expLen (e :: ([c!"+"] ++ (d :: t) ++ rest)) = 2 := by
        simp [expLen, he, hdd, not_digit_plus]
      simp only [this]
      simp only [adv, List.drop_succ_cons, List.drop_zero, List.nil_append, List.cons_append]
      rw [← List.cons_append, skipWhile_append _ hds' hr]
      simp; omega
    · have : expLen (e :: ([c!"-"] ++ (d :: t) ++ rest)) = 2 := by
        simp [expLen, he, hdd, not_digit_minus]
      simp only [this]
      simp only [adv, List.drop_succ_cons, List.drop_zero, List.nil_append, List.cons_append]
      rw [← List.cons_append, skipWhile_append _ hds' hr]
      simp; omega

/-- Converse: the scanned text always has that shape. -/
theorem numEnd_spec (s : St) :
    ∃ mant ex, (∀ c ∈ mant, mantChar c) ∧ mant = s.rest.takeWhile isNumChar ∧
      NumShape mant ex (numEnd s).rest ∧ Eats s (mant ++ ex) (numEnd s) := by
  have e1 := eats_skipWhile isNumChar s
  have hh : notHead mantChar (skipWhile isNumChar s).rest := by
    intro c hc; have := head_skipWhile hc; rw [← isNumChar_iff]; simp [this]
  have hm : ∀ c ∈ s.rest.takeWhile isNumChar, mantChar c :=
    fun c hc => (isNumChar_iff c).1 (mem_takeWhile c hc)
  unfold numEnd
  generalize hs1 : skipWhile isNumChar s = s1 at *
  have tail : ∀ (s2 : St), (∃ d t, s2.rest = d :: t ∧ digit d) →
      (s2.rest.takeWhile isDigit) ≠ [] ∧
      (∀ c ∈ s2.rest.takeWhile isDigit, digit c) ∧
      notHead digit (skipWhile isDigit s2).rest := by
    rintro s2 ⟨d, t, hs, hd⟩
    refine ⟨?_, fun c hc => (isDigit_iff c).1 (mem_takeWhile c hc), ?_⟩
    · rw [hs]; simp [(isDigit_iff d).2 hd]
    · intro c hc; have := head_skipWhile hc; rw [← isDigit_iff]; simp [this]
  rcases expLen_cases s1.rest with ⟨h0, hn⟩ | ⟨h1, e, d, t, he, hd, hl⟩ |
      ⟨h2, e, sg, d, t, he, hsg, hd, hl⟩
  · have h0' : adv s1 (expLen s1.rest) = s1 := by rw [h0]; simp [adv]
    have hsk : skipWhile isDigit s1 = s1 := by
      have : s1.rest.takeWhile isDigit = [] := by
        cases hr : s1.rest with
        | nil => rfl
        | cons c t =>
          have := hh c (by rw [hr]; rfl)
          have : isDigit c = false := by
            rw [← isNumChar_iff] at this
            cases hd : isDigit c with
            | false => rfl
            | true => exact absurd (isDigit_isNumChar hd) this
          simp [this]
      simp [skipWhile, this, adv]
    refine ⟨_, [], hm, rfl, ?_, ?_⟩
    · simp only [h0', hsk]; exact .plain _ hh hn
    · simp only [h0', hsk, List.append_nil]; exact e1
  · have ha : adv s1 (expLen s1.rest) = ⟨s1.pos + 1, d :: t⟩ := by rw [h1]; simp [adv, hl]
    have ht := tail ⟨s1.pos + 1, d :: t⟩ ⟨d, t, rfl, hd⟩
    refine ⟨_, e :: ([] ++ (d :: t).takeWhile isDigit), hm, rfl, ?_, ?_⟩
    · simp only [ha]; exact .exp e [] _ _ he (Or.inl rfl) ht.1 ht.2.1 ht.2.2
    · simp only [ha]
      apply e1.trans
      have e2 : Eats s1 [e] ⟨s1.pos + 1, d :: t⟩ := by simp [Eats, hl]
      exact e2.trans (eats_skipWhile isDigit _)
  · have ha : adv s1 (expLen s1.rest) = ⟨s1.pos + 2, d :: t⟩ := by rw [h2]; simp [adv, hl]
    have ht := tail ⟨s1.pos + 2, d :: t⟩ ⟨d, t, rfl, hd⟩
    refine ⟨_, e :: ([sg] ++ (d :: t).takeWhile isDigit), hm, rfl, ?_, ?_⟩
    · simp only [ha]
      exact .exp e [sg] _ _ he (by rcases hsg with rfl | rfl <;> simp) ht.1 ht.2.1 ht.2.2
    · simp only [ha]
      apply e1.trans
      have e2 : Eats s1 [e, sg] ⟨s1.pos + 2, d :: t⟩ := by simp [Eats, hl]
      exact e2.trans (eats_skipWhile isDigit _)

/-! ### `str::parse::<f64>` -/

/-- The value of the exponent part, `none` if it is malformed. -/
def expVal : Bytes → Option Int
  | [] => some 0
  | c :: r4 =>
    if c = c!"e" ∨ c = c!"E" then
      let sgn := r4.head?
      let ds := if sgn = some c!"+" ∨ sgn = some c!"-" then r4.drop 1 else r4
      if ds ≠ [] ∧ ds.all isDigit then
        some (if sgn = some c!"-" then -(digitsVal ds : Int) else digitsVal ds)
      else none
    else none

/-- `parseF64` in terms of the pieces. -/
theorem parseF64_eq {ip dotfp fp r3 : Bytes} (hip : ∀ c ∈ ip, isDigit c = true)
    (hfp : ∀ c ∈ fp, isDigit c = true)
    (hd : dotfp = c!"." :: fp ∨ (dotfp = [] ∧ fp = [] ∧ r3.head? ≠ some c!"."))
    (h3 : ∀ c, r3.head? = some c → isDigit c = false) :
    parseF64 (ip ++ dotfp ++ r3) =
      if ip.length + fp.length = 0 then none
      else (expVal r3).map fun ev => F64.ofDecimal (digitsVal (ip ++ fp)) (ev - fp.length) := by
  have hdot : isDigit c!"." = false := by decide
  have hi : (ip ++ dotfp ++ r3).takeWhile isDigit = ip := by
    rw [List.append_assoc]
    apply takeWhile_append_stop hip
    intro c hc
    rcases hd with rfl | ⟨rfl, _, _⟩
    · simp at hc; subst hc; exact hdot
    · exact h3 c hc
  have key : ∀ (hasDot : Bool), (hasDot = decide ((dotfp ++ r3).head? = some c!".")) →
      (if hasDot then (if hasDot then (dotfp ++ r3).drop 1 else dotfp ++ r3).takeWhile isDigit
        else []) = fp ∧
      ((if hasDot then (dotfp ++ r3).drop 1 else dotfp ++ r3).drop fp.length) = r3 := by
    intro hasDot hh
    rcases hd with rfl | ⟨rfl, rfl, hne⟩
    · have : hasDot = true := by simp [hh]
      subst this
      simp [takeWhile_append_stop hfp h3]
    · have : hasDot = false := by simp [hh, hne]
      subst this
      simp
  obtain ⟨k1, k2⟩ := key _ rfl
  unfold parseF64
  simp only [hi]
  have hdr : (ip ++ dotfp ++ r3).drop ip.length = dotfp ++ r3 := by
    rw [List.append_assoc]; simp
  rw [hdr, k1, k2]
  split
  · rfl
  · cases r3 with
    | nil => simp [expVal]
    | cons c r4 =>
      simp only [expVal]
      by_cases hce : c = c!"e" ∨ c = c!"E"
      · rw [if_pos hce, if_pos hce]
        generalize (if r4.head? = some c!"+" ∨ r4.head? = some c!"-" then r4.drop 1 else r4) = ds
        by_cases hds : ds ≠ [] ∧ ds.all isDigit = true
        · rw [if_pos hds, if_pos hds]; rfl
        · rw [if_neg hds, if_neg hds]; rfl
      · rw [if_neg hce, if_neg hce]; rfl

theorem expVal_exp {e : UInt8} {sg ds : Bytes} (he : e = c!"e" ∨ e = c!"E")
    (hs : sg = [] ∨ sg = [c!"+"] ∨ sg = [c!"-"]) (hd : ds ≠ []) (hds : ∀ c ∈ ds, digit c) :
    expVal (e :: (sg ++ ds)) =
      some (if sg = [c!"-"] then -(decVal ds : Int) else decVal ds) := by
  have hds' : ∀ c ∈ ds, isDigit c = true := fun c hc => (isDigit_iff c).2 (hds c hc)
  have hall : ds.all isDigit = true := by rw [List.all_eq_true]; exact hds'
  simp only [expVal]
  rw [if_pos he]
  rcases hs with rfl | rfl | rfl
  · obtain ⟨d, t, rfl⟩ : ∃ d t, ds = d :: t := by
      cases ds with
      | nil => exact absurd rfl hd
      | cons d t => exact ⟨d, t, rfl⟩
    have hdd := hds' d (by simp)
    have hp : d ≠ c!"+" := by rintro rfl; simp [not_digit_plus] at hdd
    have hmn : d ≠ c!"-" := by rintro rfl; simp [not_digit_minus] at hdd
    simp only [List.nil_append, List.head?_cons, Option.some.injEq, hp, hmn, or_self, if_false,
      hall, ne_eq, hd, not_false_eq_true, and_self, if_true, digitsVal_eq]
    simp
  · simp [hd, hall, digitsVal_eq]
  · simp [hd, hall, digitsVal_eq]

theorem filter_all {p : UInt8 → Bool} {l : Bytes} (h : ∀ c ∈ l, p c = true) :
    l.filter p = l := List.filter_eq_self.2 h

theorem exp_no_underscore {e : UInt8} {sg ds : Bytes} (he : e = c!"e" ∨ e = c!"E")
    (hs : sg = [] ∨ sg = [c!"+"] ∨ sg = [c!"-"]) (hds : ∀ c ∈ ds, digit c) :
    ∀ c ∈ e :: (sg ++ ds), decide (c ≠ c!"_") = true := by
  intro c hc
  simp at hc
  rcases hc with rfl | hc | hc
  · rcases he with rfl | rfl <;> decide
  · rcases hs with rfl | rfl | rfl <;> simp at hc <;> subst hc <;> decide
  · have := hds c hc
    have hu : ¬ digit c!"_" := by decide
    simp; rintro rfl; exact hu this

theorem exp_head {e : UInt8} {r : Bytes} (he : e = c!"e" ∨ e = c!"E") :
    (∀ c, (e :: r).head? = some c → isDigit c = false) ∧ (e :: r).head? ≠ some c!"." := by
  constructor
  · intro c hc; simp at hc; subst hc; rcases he with rfl | rfl <;> decide
  · rcases he with rfl | rfl <;> simp

/-- Forward: the parser reads a literal of the specification and gives it its value. -/
theorem parseNumber_literal {txt rest : Bytes} {v : F64} (pos : Nat) (h : Literal txt rest v) :
    parseNumber ⟨pos, txt ++ rest⟩ = .ok (.num v) ⟨pos + txt.length, rest⟩ := by
  obtain ⟨mant, ip, fp, _, hm, ⟨hip, hfp, hne, hshape⟩, hcase⟩ := h
  have hip' : ∀ c ∈ ip, isDigit c = true := fun c hc => (isDigit_iff c).2 (hip c hc)
  have hfp' : ∀ c ∈ fp, isDigit c = true := fun c hc => (isDigit_iff c).2 (hfp c hc)
  have hlen : ¬ (ip.length + fp.length = 0) := by
    intro h; apply hne
    have : ip.length = 0 ∧ fp.length = 0 := by omega
    simp [List.length_eq_zero_iff.1 this.1, List.length_eq_zero_iff.1 this.2]
  -- the mantissa as `ip ++ dotfp`
  obtain ⟨dotfp, hdot, hdd⟩ : ∃ dotfp, mant.filter (fun c => decide (c ≠ c!"_")) = ip ++ dotfp ∧
      (dotfp = c!"." :: fp ∨ (dotfp = [] ∧ fp = [])) := by
    rcases hshape with h | ⟨h1, h2⟩
    · exact ⟨c!"." :: fp, by rw [h]; simp, Or.inl rfl⟩
    · exact ⟨[], by rw [h2]; simp, Or.inr ⟨rfl, h1⟩⟩
  rcases hcase with ⟨rfl, h1, h2, rfl⟩ | ⟨e, sg, ds, he, hds0, hds, rfl, hr, hv⟩
  · have hend := numEnd_shape (ex := []) pos hm (.plain rest h1 h2)
    rw [List.nil_append, List.append_nil] at hend
    unfold parseNumber
    simp only [hend, Nat.add_sub_cancel_left, List.take_left]
    rw [hdot]
    have := parseF64_eq (dotfp := dotfp) (r3 := []) hip' hfp'
      (by rcases hdd with h | ⟨h, h'⟩ <;> simp [h, *]) (by simp)
    rw [List.append_nil] at this
    rw [this, if_neg hlen]
    simp [expVal, digitsVal_eq]
  · have hs : sg = [] ∨ sg = [c!"+"] ∨ sg = [c!"-"] := by
      rcases hv with ⟨h | h, _⟩ | ⟨h, _⟩ <;> simp [h]
    have hend := numEnd_shape pos hm (.exp (mant := mant) e sg ds rest he hs hds0 hds hr)
    unfold parseNumber
    simp only [List.append_assoc] at hend ⊢
    have hassoc : mant ++ (e :: (sg ++ ds) ++ rest) = mant ++ (e :: (sg ++ ds)) ++ rest := by
      simp
    simp only [hend, Nat.add_sub_cancel_left]
    rw [hassoc, List.take_left, List.filter_append, hdot,
      filter_all (exp_no_underscore he hs hds)]
    rw [parseF64_eq hip' hfp'
      (by
        rcases hdd with h | ⟨h, h'⟩
        · simp [h]
        · right; exact ⟨h, h', (exp_head he).2⟩) (exp_head he).1]
    rw [if_neg hlen, expVal_exp he hs hds0 hds]
    simp only [Option.map_some, digitsVal_eq]
    rcases hv with ⟨h | h, rfl⟩ | ⟨h, rfl⟩ <;> simp [h]

/-- What `parseF64` accepts of a mantissa followed by a well formed exponent. -/
theorem parseF64_some {m ex : Bytes} {v : F64} (hm : ∀ c ∈ m, isDigit c = true ∨ c = c!".")
    (hex : ∀ c, ex.head? = some c → isDigit c = false ∧ c ≠ c!".")
    (h : parseF64 (m ++ ex) = some v) :
    ∃ ip fp, (∀ c ∈ ip, isDigit c = true) ∧ (∀ c ∈ fp, isDigit c = true) ∧ ip ++ fp ≠ [] ∧
      (m = ip ++ [c!"."] ++ fp ∨ (fp = [] ∧ m = ip)) ∧
      ∃ ev, expVal ex = some ev ∧ v = F64.ofDecimal (digitsVal (ip ++ fp)) (ev - fp.length) := by
  have hdot : isDigit c!"." = false := by decide
  have e1 := takeWhile_append_drop isDigit m
  have hip : ∀ c ∈ m.takeWhile isDigit, isDigit c = true := mem_takeWhile
  have hh : ∀ c, (m.drop (m.takeWhile isDigit).length).head? = some c → isDigit c = false := by
    intro c hc; rw [drop_takeWhile] at hc; exact head_dropWhile hc
  generalize m.takeWhile isDigit = ip at *
  generalize m.drop ip.length = r1 at *
  subst e1
  have nonempty : ∀ fp : Bytes, ¬ (ip.length + fp.length = 0) → ip ++ fp ≠ [] := by
    intro fp hne h
    apply hne
    have := congrArg List.length h
    rw [List.length_append] at this
    exact this
  cases r1 with
  | nil =>
    have := parseF64_eq (ip := ip) (dotfp := []) (fp := []) (r3 := ex) hip (by simp)
      (Or.inr ⟨rfl, rfl, fun hc => (hex _ hc).2 rfl⟩) (fun c hc => (hex c hc).1)
    rw [this] at h
    split at h
    · simp at h
    · rename_i hne
      cases hev : expVal ex with
      | none => simp [hev] at h
      | some ev =>
        simp [hev] at h
        refine ⟨ip, [], hip, by simp, nonempty [] hne, Or.inr ⟨rfl, by simp⟩, ev, rfl, ?_⟩
        simp [h]
  | cons d r2 =>
    have hd : d = c!"." := by
      have h1 := hh d rfl
      rcases hm d (by simp) with h2 | h2
      · rw [h1] at h2; cases h2
      · exact h2
    subst hd
    have e2 := takeWhile_append_drop isDigit r2
    have hfp : ∀ c ∈ r2.takeWhile isDigit, isDigit c = true := mem_takeWhile
    have hh2 : ∀ c, (r2.drop (r2.takeWhile isDigit).length).head? = some c →
        isDigit c = false := by
      intro c hc; rw [drop_takeWhile] at hc; exact head_dropWhile hc
    generalize r2.takeWhile isDigit = fp at *
    generalize r2.drop fp.length = r3 at *
    subst e2
    have h3 : ∀ c, (r3 ++ ex).head? = some c → isDigit c = false := by
      intro c hc
      cases r3 with
      | nil => exact (hex c hc).1
      | cons a t => simp at hc; subst hc; exact hh2 a rfl
    have := parseF64_eq (ip := ip) (dotfp := c!"." :: fp) (fp := fp) (r3 := r3 ++ ex) hip hfp
      (Or.inl rfl) h3
    have e3 : ip ++ c!"." :: (fp ++ r3) ++ ex = ip ++ c!"." :: fp ++ (r3 ++ ex) := by simp
    rw [e3, this] at h
    split at h
    · simp at h
    · rename_i hne
      cases r3 with
      | nil =>
        rw [List.nil_append] at h
        cases hev : expVal ex with
        | none => simp [hev] at h
        | some ev =>
          simp [hev] at h
          refine ⟨ip, fp, hip, hfp, nonempty fp hne, Or.inl (by simp), ev, rfl, ?_⟩
          simp [h]
      | cons a t =>
        exfalso
        have ha : a = c!"." := by
          have h1 := hh2 a rfl
          rcases hm a (by simp) with h2 | h2
          · rw [h1] at h2; cases h2
          · exact h2
        subst ha
        simp [expVal] at h

/-- Converse: whatever number the parser accepts is a literal of the specification. -/
theorem literal_of_parseNumber {s : St} {e : Elem} {s' : St} {c : UInt8}
    (hc : s.rest.head? = some c) (hd : isDigit c = true ∨ c = c!".")
    (h : parseNumber s = .ok e s') :
    ∃ txt v, e = .num v ∧ Eats s txt s' ∧ Literal txt s'.rest v := by
  obtain ⟨rfl, v, rfl, hv⟩ := parseNumber_ok h
  obtain ⟨mant, ex, hm, hmant, hshape, heats⟩ := numEnd_spec s
  refine ⟨mant ++ ex, v, rfl, heats, ?_⟩
  have hpos : (numEnd s).pos - s.pos = (mant ++ ex).length := by rw [heats.2]; omega
  have htake : s.rest.take ((numEnd s).pos - s.pos) = mant ++ ex := by
    rw [hpos, heats.1, List.take_left]
  rw [htake, List.filter_append] at hv
  have hhead : ∃ c, mant.head? = some c ∧ (digit c ∨ c = c!".") := by
    refine ⟨c, ?_, by rcases hd with h | h <;> simp [h, ← isDigit_iff]⟩
    rw [hmant]
    rcases s with ⟨pos, rest⟩
    cases rest with
    | nil => simp at hc
    | cons a t =>
      simp at hc; subst hc
      have : isNumChar a = true := by
        simp [isNumChar]; rcases hd with h | h <;> simp [h]
      simp [this]
  have hmf : ∀ c ∈ mant.filter (fun c => decide (c ≠ c!"_")), isDigit c = true ∨ c = c!"." := by
    intro c hc
    rw [List.mem_filter] at hc
    have h1 := hm c hc.1
    have h2 := hc.2
    simp at h2
    rcases h1 with h | h | h
    · exact Or.inl ((isDigit_iff c).2 h)
    · exact Or.inr h
    · exact absurd h h2
  cases hshape with
  | plain _ h1 h2 =>
    simp only [List.filter_nil] at hv
    obtain ⟨ip, fp, hip, hfp, hne, hsh, ev, hev, rfl⟩ := parseF64_some hmf (by simp) hv
    simp [expVal] at hev
    subst hev
    refine ⟨mant, ip, fp, hhead, hm, ⟨fun c hc => (isDigit_iff c).1 (hip c hc),
      fun c hc => (isDigit_iff c).1 (hfp c hc), hne, hsh⟩, Or.inl ⟨by simp, h1, h2, ?_⟩⟩
    simp [digitsVal_eq]
  | exp e sg ds _ he hs hds0 hds hr =>
    rw [filter_all (p := fun c => decide (c ≠ c!"_")) (exp_no_underscore he hs hds)] at hv
    obtain ⟨ip, fp, hip, hfp, hne, hsh, ev, hev, rfl⟩ := parseF64_some hmf (by
      intro c hc; exact ⟨(exp_head he).1 c hc, by rintro rfl; exact (exp_head he).2 hc⟩) hv
    rw [expVal_exp he hs hds0 hds] at hev
    simp at hev
    refine ⟨mant, ip, fp, hhead, hm, ⟨fun c hc => (isDigit_iff c).1 (hip c hc),
      fun c hc => (isDigit_iff c).1 (hfp c hc), hne, hsh⟩,
      Or.inr ⟨e, sg, ds, he, hds0, hds, rfl, hr, ?_⟩⟩
    rw [← hev, digitsVal_eq]
    rcases hs with rfl | rfl | rfl
    · left; simp
    · left; simp
    · right; simp

/-! ### Names -/

theorem name_takeWhile {nm rest : Bytes} (h : Name nm rest) :
    (nm ++ rest).takeWhile isIdChar = nm := by
  apply takeWhile_append_stop
  · intro c hc; exact (isIdChar_iff c).2 (h.2.1 c hc)
  · intro c hc; have := h.2.2 c hc; rw [← isIdChar_iff] at this; simpa using this

theorem name_skip {nm rest : Bytes} (pos : Nat) (h : Name nm rest) :
    skipWhile isIdChar ⟨pos, nm ++ rest⟩ = ⟨pos + nm.length, rest⟩ := by
  simp [skipWhile, name_takeWhile h, adv]

theorem name_of_takeWhile {s : St} {c : UInt8} (hc : s.rest.head? = some c)
    (hi : isIdStart c = true) :
    Name (s.rest.takeWhile isIdChar) (skipWhile isIdChar s).rest := by
  refine ⟨⟨c, ?_, (isIdStart_iff c).1 hi⟩, fun d hd => (isIdChar_iff d).1 (mem_takeWhile d hd), ?_⟩
  · rcases s with ⟨pos, rest⟩
    cases rest with
    | nil => simp at hc
    | cons a t => simp at hc; subst hc; simp [isIdStart_isIdChar hi]
  · intro d hd; have := head_skipWhile hd; rw [← isIdChar_iff]; simp [this]

end Xprs
