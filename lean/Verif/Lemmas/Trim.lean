import Verif.Spec.Trim
import Verif.Repl
import Verif.Lemmas.Ascii
/-
`str::trim` removes the white space characters at both ends.
-/
namespace Xprs
open Spec

/-- No encoding of a character begins another. -/
theorem utf8_prefix {c d : Char} {l l' : Bytes}
    (h : String.utf8EncodeChar c ++ l = String.utf8EncodeChar d ++ l') : c = d := by
  have key : ∀ (c : Char) (l : Bytes),
      ByteArray.utf8DecodeChar? (String.utf8EncodeChar c ++ l).toByteArray 0 = some c := by
    intro c l
    rw [List.toByteArray_append]
    exact ByteArray.utf8DecodeChar?_utf8EncodeChar_append
  have h1 := key c l
  rw [h, key d l'] at h1
  exact (Option.some.inj h1).symm

theorem utf8_ne_nil (c : Char) : String.utf8EncodeChar c ≠ [] := by
  obtain ⟨b, t, h, _⟩ := utf8_head c
  rw [h]; simp

/-- No encoding of a character ends another. -/
theorem utf8_suffix {c d : Char} {l l' : Bytes}
    (h : l ++ String.utf8EncodeChar c = l' ++ String.utf8EncodeChar d) : c = d := by
  have key : ∀ (c d : Char) (l l' : Bytes),
      l ++ String.utf8EncodeChar c = l' ++ String.utf8EncodeChar d → l'.length ≤ l.length := by
    intro c d l l' h
    rcases Nat.lt_or_ge l.length l'.length with hlt | hge
    · exfalso
      have hd := List.length_pos_iff.2 (utf8_ne_nil d)
      have hlen := congrArg List.length h
      simp only [List.length_append] at hlen
      have hi : l'.length - l.length < (String.utf8EncodeChar c).length := by omega
      have e1 : (l ++ String.utf8EncodeChar c)[l'.length]? =
          some ((String.utf8EncodeChar c)[l'.length - l.length]) := by
        rw [List.getElem?_append_right (by omega), List.getElem?_eq_getElem hi]
      have e2 : (l' ++ String.utf8EncodeChar d)[l'.length]? = some ((String.utf8EncodeChar d)[0]) := by
        rw [List.getElem?_append_right (Nat.le_refl _)]
        simp only [Nat.sub_self]
        rw [List.getElem?_eq_getElem hd]
      rw [h, e2] at e1
      have e3 := Option.some.inj e1
      have e4 : ((String.utf8EncodeChar d)[0]).IsUTF8FirstByte :=
        UInt8.isUTF8FirstByte_getElem_zero_utf8EncodeChar
      rw [e3] at e4
      have := UInt8.isUTF8FirstByte_getElem_utf8EncodeChar.1 e4
      omega
    · exact hge
  have hl : l.length = l'.length := Nat.le_antisymm (key _ _ _ _ h.symm) (key _ _ _ _ h)
  have h2 := (List.append_inj h hl).2
  exact utf8_prefix (l := []) (l' := []) (by rw [h2])

theorem utf8_inj : ∀ {a b : List Char}, utf8 a = utf8 b → a = b
  | [], [], _ => rfl
  | [], d :: b, h => by
    have := utf8_ne_nil d
    simp only [utf8, List.flatMap_nil, List.flatMap_cons] at h
    exact absurd (List.append_eq_nil_iff.1 h.symm).1 this
  | c :: a, [], h => by
    have := utf8_ne_nil c
    simp only [utf8, List.flatMap_nil, List.flatMap_cons] at h
    exact absurd (List.append_eq_nil_iff.1 h).1 this
  | c :: a, d :: b, h => by
    simp only [utf8, List.flatMap_cons] at h
    have := utf8_prefix h
    subst this
    rw [utf8_inj (List.append_cancel_left h)]

/-- The white space characters. -/
def whites : List Char :=
  [0x9, 0xA, 0xB, 0xC, 0xD, 0x20, 0x85, 0xA0, 0x1680, 0x2000, 0x2001, 0x2002, 0x2003, 0x2004,
   0x2005, 0x2006, 0x2007, 0x2008, 0x2009, 0x200A, 0x2028, 0x2029, 0x202F, 0x205F, 0x3000].map
    Char.ofNat

theorem whiteSpace_eq : whiteSpace = whites.map String.utf8EncodeChar := by decide +kernel

theorem whites_mem (c : Char) : c ∈ whites ↔ White c := by
  have hc : Char.ofNat c.toNat = c := Char.ofNat_toNat c
  constructor
  · intro h
    have : ∀ d ∈ whites, White d := by
      unfold White; decide +kernel
    exact this c h
  · intro h
    unfold White at h
    have : ∀ n : Nat, c.toNat = n → Char.ofNat n ∈ whites → c ∈ whites := by
      intro n hn hm; rw [← hc, hn]; exact hm
    have hcase : c.toNat ∈ [0x9, 0xA, 0xB, 0xC, 0xD, 0x20, 0x85, 0xA0, 0x1680, 0x2000, 0x2001, 0x2002,
        0x2003, 0x2004, 0x2005, 0x2006, 0x2007, 0x2008, 0x2009, 0x200A, 0x2028, 0x2029, 0x202F,
        0x205F, 0x3000] := by
      simp only [List.mem_cons, List.not_mem_nil, or_false]
      omega
    rw [← hc]
    exact List.mem_map_of_mem hcase

/-- Removing encoded characters from the front, for any encoding in which no character
begins another. -/
theorem trimFront_chars {E : Char → Bytes} (hE : ∀ c d l l', E c ++ l = E d ++ l' → c = d)
    (hn : ∀ c, E c ≠ []) (ws : List Char) : ∀ (a t : List Char) (k : Nat),
    (∀ c ∈ a, c ∈ ws) → (∀ c ∈ t.head?, c ∉ ws) → a.length ≤ k →
    trimFront (ws.map E) k ((a ++ t).flatMap E) = t.flatMap E := by
  intro a
  induction a with
  | nil =>
    intro t k _ ht _
    cases k with
    | zero => rfl
    | succ k =>
      rw [trimFront]
      have : (ws.map E).find? (fun p => p.isPrefixOf (([] ++ t).flatMap E)) = none := by
        rw [List.find?_eq_none]
        intro p hp hpre
        obtain ⟨d, hd, rfl⟩ := List.mem_map.1 hp
        have hpre' := List.isPrefixOf_iff_prefix.1 hpre
        obtain ⟨r, hr⟩ := hpre'
        cases t with
        | nil => simp at hr; exact hn d hr.1
        | cons c t =>
          simp only [List.nil_append, List.flatMap_cons] at hr
          have := hE _ _ _ _ hr
          subst this
          exact ht d (by simp) hd
      rw [this]
      rfl
  | cons c a ih =>
    intro t k ha ht hk
    cases k with
    | zero => simp at hk
    | succ k =>
      rw [trimFront]
      have hc : c ∈ ws := ha c (by simp)
      have hs : ∃ p, (ws.map E).find? (fun p => p.isPrefixOf ((c :: a ++ t).flatMap E)) = some p := by
        rw [← Option.isSome_iff_exists, List.find?_isSome]
        refine ⟨E c, List.mem_map_of_mem hc, ?_⟩
        rw [List.isPrefixOf_iff_prefix]
        simp
      obtain ⟨p, hp⟩ := hs
      rw [hp]
      have hm := List.mem_of_find?_eq_some hp
      obtain ⟨d, hd, rfl⟩ := List.mem_map.1 hm
      have hpre0 := List.find?_some hp
      have hpre := List.isPrefixOf_iff_prefix.1 hpre0
      obtain ⟨r, hr⟩ := hpre
      simp only [List.cons_append, List.flatMap_cons] at hr
      have := hE _ _ _ _ hr
      subst this
      simp only [List.cons_append, List.flatMap_cons, List.drop_left]
      exact ih t k (fun x hx => ha x (by simp [hx])) ht (by simpa using hk)

theorem length_flatMap_le {E : Char → Bytes} (hn : ∀ c, E c ≠ []) : ∀ l : List Char,
    l.length ≤ (l.flatMap E).length
  | [] => by simp
  | c :: l => by
    have := length_flatMap_le hn l
    have h1 := List.length_pos_iff.2 (hn c)
    simp only [List.flatMap_cons, List.length_append, List.length_cons]
    omega

theorem flatMap_reverse (E : Char → Bytes) : ∀ l : List Char,
    (l.flatMap E).reverse = l.reverse.flatMap fun c => (E c).reverse
  | [] => rfl
  | c :: l => by simp [flatMap_reverse E l]

theorem strTrim_chars {cs t : List Char} (h : Stripped cs t) : strTrim (utf8 cs) = utf8 t := by
  obtain ⟨a, b, rfl, ha, hb, h1, h2⟩ := h
  unfold strTrim utf8
  simp only
  rw [whiteSpace_eq]
  -- a text of white space only
  rcases List.eq_nil_or_concat t with rfl | ⟨t0, z, rfl⟩
  · have e := trimFront_chars (E := String.utf8EncodeChar) (fun c d l l' h => utf8_prefix h)
      utf8_ne_nil whites (a ++ b) [] ((a ++ b).flatMap String.utf8EncodeChar).length
      (fun c hc => by
        rcases List.mem_append.1 hc with hc | hc
        · exact (whites_mem c).2 (ha c hc)
        · exact (whites_mem c).2 (hb c hc)) (by simp) (length_flatMap_le utf8_ne_nil _)
    simp only [List.append_nil] at e ⊢
    rw [e]
    rfl
  · have hh : ∀ c ∈ ((t0.concat z) ++ b).head?, c ∉ whites := by
      intro c hc hw
      apply h1 c _ ((whites_mem c).1 hw)
      cases t0 with
      | nil => simpa using hc
      | cons y t0 => simpa using hc
    have e := trimFront_chars (E := String.utf8EncodeChar) (fun c d l l' h => utf8_prefix h)
      utf8_ne_nil whites a (t0.concat z ++ b)
      ((a ++ (t0.concat z ++ b)).flatMap String.utf8EncodeChar).length
      (fun c hc => (whites_mem c).2 (ha c hc)) hh
      (by
        have := length_flatMap_le utf8_ne_nil (a ++ (t0.concat z ++ b))
        simp only [List.length_append] at this ⊢
        omega)
    rw [List.append_assoc, e]
    have e2 := trimFront_chars (E := fun c => (String.utf8EncodeChar c).reverse)
      (fun c d l l' h => by
        have := congrArg List.reverse h
        simp only [List.reverse_append, List.reverse_reverse] at this
        exact utf8_suffix this)
      (fun c => by simp) whites b.reverse (t0.concat z).reverse
      ((t0.concat z ++ b).flatMap String.utf8EncodeChar).length
      (fun c hc => (whites_mem c).2 (hb c (by simpa using hc)))
      (by
        intro c hc hw
        apply h2 c _ ((whites_mem c).1 hw)
        simpa using hc)
      (by
        have := length_flatMap_le utf8_ne_nil (t0.concat z ++ b)
        simp only [List.length_append, List.length_reverse] at this ⊢
        omega)
    rw [List.map_map, flatMap_reverse, List.reverse_append]
    have hf : (List.reverse ∘ String.utf8EncodeChar) = fun c => (String.utf8EncodeChar c).reverse := rfl
    rw [hf, e2, flatMap_reverse]
    simp

/-- Every text has a trimmed form. -/
theorem stripped_exists (cs : List Char) : ∃ t, Stripped cs t := by
  classical
  have front : ∀ cs : List Char, ∃ a t, cs = a ++ t ∧ (∀ c ∈ a, White c) ∧ ∀ c ∈ t.head?, ¬ White c := by
    intro cs
    induction cs with
    | nil => exact ⟨[], [], rfl, by simp, by simp⟩
    | cons c cs ih =>
      by_cases hc : White c
      · obtain ⟨a, t, h1, h2, h3⟩ := ih
        refine ⟨c :: a, t, by simp [h1], ?_, h3⟩
        intro d hd
        rcases List.mem_cons.1 hd with rfl | hd
        · exact hc
        · exact h2 d hd
      · exact ⟨[], c :: cs, rfl, by simp, by simpa using hc⟩
  obtain ⟨a, t, h1, h2, h3⟩ := front cs
  obtain ⟨b, u, h4, h5, h6⟩ := front t.reverse
  have ht : t = u.reverse ++ b.reverse := by
    have := congrArg List.reverse h4
    simpa using this
  refine ⟨u.reverse, a, b.reverse, by rw [h1, ht, List.append_assoc], h2, by simpa using h5, ?_, by simpa using h6⟩
  intro c hc
  cases hu : u.reverse with
  | nil => rw [hu] at hc; simp at hc
  | cons y l =>
    rw [hu] at hc
    apply h3 c
    rw [ht, hu]
    simpa using hc

end Xprs
