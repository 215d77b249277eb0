import Verif.ErrorDebug
import Verif.Spec.Debug
import Verif.Lemmas.Trim
import Verif.Lemmas.Shown
import Verif.Props.Report
/-
What `Debug` writes can be read back: strings, characters, numbers and lists.
-/
namespace Xprs
namespace Props
open Spec

/-! ### Characters of a text -/

theorem utf8_cons (c : Char) (cs : List Char) : utf8 (c :: cs) = String.utf8EncodeChar c ++ utf8 cs := rfl

theorem charsF_utf8 : ∀ (n : Nat) (cs : List Char), (utf8 cs).length ≤ n → charsF n (utf8 cs) = cs
  | 0, [], _ => rfl
  | 0, c :: cs, h => by have := utf8_length_pos c cs; omega
  | n + 1, [], _ => by
    rw [charsF]
    have : ByteArray.utf8DecodeChar? (utf8 []).toByteArray 0 = none := by decide +kernel
    rw [this]
  | n + 1, c :: cs, h => by
    have hd : ByteArray.utf8DecodeChar? (utf8 (c :: cs)).toByteArray 0 = some c := by
      rw [utf8_cons, List.toByteArray_append]
      exact ByteArray.utf8DecodeChar?_utf8EncodeChar_append
    have hl := List.length_pos_iff.2 (utf8_ne_nil c)
    rw [charsF, hd]
    simp only
    rw [utf8_cons, List.drop_left, charsF_utf8 n cs]
    rw [utf8_cons, List.length_append] at h
    omega

theorem strChars_utf8 (cs : List Char) : strChars (utf8 cs) = cs := charsF_utf8 _ _ (Nat.le_refl _)

theorem isText_ascii {t : Bytes} (h : ∀ c ∈ t, c < 128) : IsText t := by
  refine ⟨t.map shown, ?_⟩
  induction t with
  | nil => rfl
  | cons c t ih =>
    have hc : ∀ c : UInt8, c < 128 → String.utf8EncodeChar (shown c) = [c] := forall_byte (by decide +kernel)
    rw [List.map_cons, utf8_cons, ← ih fun d hd => h d (List.mem_cons_of_mem _ hd), hc c (h c (List.mem_cons_self ..))]
    rfl

/-! ### Escapes -/

/-- The letter behind the backslash, of the characters that have one. -/
def shortEsc (quote c : Char) (q : UInt8) : Option UInt8 :=
  if c = '\x00' then some c!"0"
  else if c = '\t' then some c!"t"
  else if c = '\r' then some c!"r"
  else if c = '\n' then some c!"n"
  else if c = '\\' then some c!"\\"
  else if c = quote then some q
  else none

theorem shortEsc_inj {quote c d : Char} {q k : UInt8} (hq : q ∉ b!"0trn\\u") (hc : shortEsc quote c q = some k)
    (hd : shortEsc quote d q = some k) : c = d := by
  simp only [List.mem_cons, List.not_mem_nil, or_false, not_or] at hq
  obtain ⟨h1, h2, h3, h4, h5, -⟩ := hq
  unfold shortEsc at hc hd
  repeat' split at hc
  all_goals cases hc
  all_goals repeat' split at hd
  all_goals cases hd
  all_goals first
    | (subst_vars; rfl)
    | exact absurd rfl h1
    | exact absurd rfl h2
    | exact absurd rfl h3
    | exact absurd rfl h4
    | exact absurd rfl h5

theorem shortEsc_u {quote c : Char} {q : UInt8} (hq : q ∉ b!"0trn\\u") : shortEsc quote c q ≠ some c!"u" := by
  intro hc
  unfold shortEsc at hc
  repeat' split at hc
  all_goals cases hc
  exact hq (by decide)

theorem escChar_eq (plain : Char → Bool) (quote c : Char) (q : UInt8) (hq : String.utf8EncodeChar quote = [q]) :
    escChar plain quote c = match shortEsc quote c q with
      | some k => [c!"\\", k]
      | none => if plain c then String.utf8EncodeChar c else b!"\\u{" ++ hexText c.toNat ++ b!"}" := by
  unfold escChar shortEsc
  repeat' split
  all_goals first
    | rfl
    | (rename_i h; cases h)
    | skip
  all_goals simp_all

theorem shortEsc_none {quote c : Char} {q : UInt8} (h : shortEsc quote c q = none) : c ≠ '\\' ∧ c ≠ quote := by
  unfold shortEsc at h
  repeat' split at h
  all_goals cases h
  exact ⟨‹_›, ‹_›⟩

/-- the value of a hexadecimal digit -/
def hexVal (c : UInt8) : Nat := if c < 58 then c.toNat - 48 else c.toNat - 87

theorem hexVal_digit : ∀ k, k < 16 → hexVal (hexDigit k) = k ∧ hexDigit k ≠ c!"}" := by decide

theorem hexText_inj {n m : Nat} (h : hexText n = hexText m) : n = m := by
  have key : ∀ n, (hexText n).map hexVal = (Nat.digits 16 n).reverse := by
    intro n
    unfold hexText
    rw [List.map_map]
    conv_rhs => rw [← List.map_id (Nat.digits 16 n).reverse]
    refine List.map_congr_left fun d hd => ?_
    exact (hexVal_digit d (Nat.digits_lt_base (by decide) (List.mem_reverse.1 hd))).1
  have h1 := key n
  rw [h, key m] at h1
  exact Nat.digits_inj_iff.1 (List.reverse_inj.1 h1.symm)

theorem hexText_brace (n : Nat) : ∀ c ∈ hexText n, c ≠ c!"}" := by
  intro c hc
  unfold hexText at hc
  obtain ⟨d, hd, rfl⟩ := List.mem_map.1 hc
  exact (hexVal_digit d (Nat.digits_lt_base (by decide) (List.mem_reverse.1 hd))).2

theorem escChar_inj {plain : Char → Bool} {quote : Char} {q : UInt8} (hq : String.utf8EncodeChar quote = [q])
    (hq' : q ∉ b!"0trn\\u") {c d : Char} {r r' : Bytes}
    (h : escChar plain quote c ++ r = escChar plain quote d ++ r') : c = d ∧ r = r' := by
  have hback : String.utf8EncodeChar '\\' = [c!"\\"] := by decide +kernel
  rw [escChar_eq plain quote c q hq, escChar_eq plain quote d q hq] at h
  have huni : ∀ {x : Char} {t t' : Bytes}, x ≠ '\\' → String.utf8EncodeChar x ++ t = c!"\\" :: t' → False := by
    intro x t t' hx h
    exact hx (utf8_prefix (l := t) (l' := t') (by rw [h, hback]; rfl))
  cases hc : shortEsc quote c q with
  | some k =>
    rw [hc] at h
    cases hd : shortEsc quote d q with
    | some k' =>
      rw [hd] at h
      simp only [List.cons_append, List.nil_append, List.cons.injEq, true_and] at h
      obtain ⟨rfl, h⟩ := h
      exact ⟨shortEsc_inj hq' hc hd, h⟩
    | none =>
      rw [hd] at h
      simp only at h
      split at h
      · exact absurd h.symm (huni (shortEsc_none hd).1)
      · simp only [List.cons_append, List.nil_append, List.cons.injEq, true_and, List.append_assoc] at h
        rw [h.1] at hc
        exact absurd hc (shortEsc_u hq')
  | none =>
    rw [hc] at h
    cases hd : shortEsc quote d q with
    | some k' =>
      rw [hd] at h
      simp only at h
      split at h
      · exact absurd h (huni (shortEsc_none hc).1)
      · simp only [List.cons_append, List.nil_append, List.cons.injEq, true_and, List.append_assoc] at h
        rw [← h.1] at hd
        exact absurd hd (shortEsc_u hq')
    | none =>
      rw [hd] at h
      simp only at h
      split at h
      · split at h
        · have := utf8_prefix h
          subst this
          exact ⟨rfl, List.append_cancel_left h⟩
        · exact absurd h (huni (shortEsc_none hc).1)
      · split at h
        · exact absurd h.symm (huni (shortEsc_none hd).1)
        · simp only [List.append_assoc] at h
          obtain ⟨h1, h2⟩ := split_inj (p := (· ≠ c!"}")) (by simp) (hexText_brace _) (hexText_brace _)
            (List.append_cancel_left h)
          exact ⟨Char.toNat_inj.1 (hexText_inj h1), h2⟩

/-- A quotation mark does not begin the escape of a character. -/
theorem escChar_quote {plain : Char → Bool} {quote : Char} {q : UInt8} (hq : String.utf8EncodeChar quote = [q])
    (hq' : q ∉ b!"0trn\\u") {c : Char} {r r' : Bytes} (h : escChar plain quote c ++ r = q :: r') : False := by
  have hb : q ≠ c!"\\" := fun e => hq' (by rw [e]; decide)
  rw [escChar_eq plain quote c q hq] at h
  cases hc : shortEsc quote c q with
  | some k => rw [hc] at h; exact hb (List.cons.inj h).1.symm
  | none =>
    rw [hc] at h
    simp only at h
    split at h
    · exact (shortEsc_none hc).2 (utf8_prefix (l := r) (l' := r') (by rw [h, hq]; rfl))
    · exact hb (List.cons.inj h).1.symm

theorem escapes_inj {plain : Char → Bool} {quote : Char} {q : UInt8} (hq : String.utf8EncodeChar quote = [q])
    (hq' : q ∉ b!"0trn\\u") : ∀ {cs ds : List Char} {r r' : Bytes},
    cs.flatMap (escChar plain quote) ++ q :: r = ds.flatMap (escChar plain quote) ++ q :: r' → cs = ds ∧ r = r'
  | [], [], _, _, h => ⟨rfl, (List.cons.inj h).2⟩
  | [], d :: ds, _, _, h => by
    rw [List.flatMap_nil, List.nil_append, List.flatMap_cons, List.append_assoc] at h
    exact (escChar_quote hq hq' h.symm).elim
  | c :: cs, [], _, _, h => by
    rw [List.flatMap_nil, List.nil_append, List.flatMap_cons, List.append_assoc] at h
    exact (escChar_quote hq hq' h).elim
  | c :: cs, d :: ds, _, _, h => by
    rw [List.flatMap_cons, List.flatMap_cons, List.append_assoc, List.append_assoc] at h
    obtain ⟨rfl, h2⟩ := escChar_inj hq hq' h
    obtain ⟨rfl, h3⟩ := escapes_inj hq hq' h2
    exact ⟨rfl, h3⟩

theorem strDebug_inj {plain : Char → Bool} {s t r r' : Bytes} (hs : IsText s) (ht : IsText t)
    (h : strDebug plain s ++ r = strDebug plain t ++ r') : s = t ∧ r = r' := by
  obtain ⟨cs, rfl⟩ := hs
  obtain ⟨ds, rfl⟩ := ht
  simp only [strDebug, strChars_utf8, List.append_assoc] at h
  obtain ⟨rfl, h2⟩ := escapes_inj (quote := '"') (q := c!"\"") (by decide +kernel) (by decide)
    (List.append_cancel_left h)
  exact ⟨rfl, h2⟩

theorem charDebug_inj {plain : Char → Bool} {c d : UInt8} {r r' : Bytes}
    (h : charDebug plain c ++ r = charDebug plain d ++ r') : c = d ∧ r = r' := by
  simp only [charDebug, List.append_assoc] at h
  obtain ⟨h1, h2⟩ := escChar_inj (quote := '\'') (q := c!"'") (by decide +kernel) (by decide)
    (List.append_cancel_left h)
  refine ⟨?_, List.append_cancel_left h2⟩
  apply charText_inj
  rw [charText_utf8, charText_utf8]
  unfold shown
  rw [h1]

/-! ### Lists -/

theorem joined_inj {α : Type} {sh : α → Bytes} {P : α → Prop} {close : UInt8} (hc : close ≠ c!",")
    (hsh : ∀ a a' r r', P a → P a' → sh a ++ r = sh a' ++ r' → a = a' ∧ r = r')
    (hne : ∀ a r r', P a → sh a ++ r ≠ close :: r') (as as' : List α) (h1 : ∀ a ∈ as, P a) (h2 : ∀ a ∈ as', P a)
    (r r' : Bytes) (h : joinWith b!", " (as.map sh) ++ close :: r = joinWith b!", " (as'.map sh) ++ close :: r') :
    as = as' ∧ r = r' := by
  have hj : ∀ (a : α) (as : List α) (r r' : Bytes), P a → joinWith b!", " ((a :: as).map sh) ++ r ≠ close :: r' := by
    intro a as r r' ha h
    cases as with
    | nil => exact hne a _ _ ha h
    | cons b as =>
      simp only [List.map_cons, joinWith, List.append_assoc] at h
      exact hne a _ _ ha h
  cases as with
  | nil =>
    cases as' with
    | nil => exact ⟨rfl, (List.cons.inj h).2⟩
    | cons a as => exact absurd h.symm (hj _ _ _ _ (h2 a (List.mem_cons_self ..)))
  | cons a as =>
    cases as' with
    | nil => exact absurd h (hj _ _ _ _ (h1 a (List.mem_cons_self ..)))
    | cons b bs =>
      exact join_eq (Ok := fun _ => True) hc (fun _ => trivial) (fun _ => trivial) (a :: as) (b :: bs) (by simp) (by simp)
        (fun x hx y hy r r' _ _ h => hsh x y r r' (h1 x hx) (h2 y hy) h) _ _ h

theorem strDebug_head (plain : Char → Bool) (s : Bytes) : ∃ t, strDebug plain s = c!"\"" :: t := ⟨_, rfl⟩

theorem strs_inj {plain : Char → Bool} {close : UInt8} (hc : close ≠ c!",") (hc' : close ≠ c!"\"") {as as' : List Bytes}
    (h1 : ∀ a ∈ as, IsText a) (h2 : ∀ a ∈ as', IsText a) {r r' : Bytes}
    (h : joinWith b!", " (as.map (strDebug plain)) ++ close :: r =
      joinWith b!", " (as'.map (strDebug plain)) ++ close :: r') : as = as' ∧ r = r' := by
  refine joined_inj (P := IsText) hc (fun a a' r r' h h' he => strDebug_inj h h' he) ?_ as as' h1 h2 r r' h
  intro a r r' _ h
  exact hc' (List.cons.inj h).1.symm

theorem decimals_inj {c : UInt8} (hc : ¬ (isDigit c = true)) {n m : Nat} {r r' : Bytes}
    (h : decimal n ++ c :: r = decimal m ++ c :: r') : n = m ∧ r = r' := by
  obtain ⟨h1, h2⟩ := split_inj hc (decimal_digit n) (decimal_digit m) h
  exact ⟨decimal_inj h1, h2⟩

end Props
end Xprs
