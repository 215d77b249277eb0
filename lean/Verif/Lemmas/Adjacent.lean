import Verif.Lemmas.Rows
/-
A number put behind a number (for C15), in the language without precedences.
-/
namespace Xprs
open Spec

section
variable {ctx : Context}

/-- The tokens before leave an expression begun. -/
def Begun (p : List Bytes) : Prop := ∃ p' t, p = p' ++ [t] ∧ t ≠ b!"(" ∧ t ≠ b!","

theorem begun_ne {p : List Bytes} (h : Begun p) : p ≠ [] := by
  obtain ⟨p', t, rfl, _⟩ := h; simp

/-- Of the tokens before, those from some place on. -/
theorem begun_tail {p r : List Bytes} (h : Begun (p ++ r)) (hr : r ≠ []) : Begun r := by
  obtain ⟨p', t, h1, h2⟩ := h
  rcases List.eq_nil_or_concat r with rfl | ⟨r', u, rfl⟩
  · exact absurd rfl hr
  · rw [List.concat_eq_append] at h1 ⊢
    rw [← List.append_assoc] at h1
    have := List.append_inj' h1 rfl
    cases this.2
    exact ⟨r', _, rfl, h2⟩

theorem begun_cons {t : Bytes} {r : List Bytes} (h : Begun (t :: r)) (ht : t = b!"(" ∨ t = b!",") : Begun r := by
  refine begun_tail (p := [t]) h ?_
  rintro rfl
  obtain ⟨p', u, h1, h2, h3⟩ := h
  rcases p' with _ | ⟨_, _ | _⟩ <;> simp at h1
  subst h1
  rcases ht with h | h
  · exact h2 h
  · exact h3 h

theorem number_sym {c : UInt8} (hc : symb c) : ¬ Number [c] := by
  rintro ⟨v, h⟩
  obtain ⟨d, hd, hh⟩ := literal_head h
  cases hd
  revert hc hh
  exact forall_byte (P := fun c => symb c → (digit c ∨ c = c!".") → False) (by decide +kernel) c

theorem number_name {t : Bytes} (h : IsName t) : ¬ Number t := by
  rintro ⟨v, h'⟩
  obtain ⟨d, hd, hh⟩ := literal_head h'
  obtain ⟨⟨e, he, hl⟩, _⟩ := h
  rw [hd] at he; cases he
  revert hh hl
  exact forall_byte (P := fun c => numStart c → letter c → False) (by decide +kernel) d

/-- Where a token stands in two lists with a token between them. -/
theorem split_mid {ts us p q : List Bytes} {m a : Bytes} (h : ts ++ m :: us = p ++ a :: q) :
    (∃ q', ts = p ++ a :: q' ∧ q = q' ++ m :: us) ∨ (ts = p ∧ m = a ∧ us = q) ∨
      ∃ p', p = ts ++ m :: p' ∧ us = p' ++ a :: q := by
  rcases List.append_eq_append_iff.1 h with ⟨r, h1, h2⟩ | ⟨r, h1, h2⟩
  · rcases r with _ | ⟨b, r⟩
    · simp at h1 h2; exact .inr (.inl ⟨h1.symm, h2.1, h2.2⟩)
    · simp at h2; obtain ⟨rfl, rfl⟩ := h2
      exact .inr (.inr ⟨r, h1, rfl⟩)
  · rcases r with _ | ⟨b, r⟩
    · simp at h1 h2; exact .inr (.inl ⟨h1, h2.1.symm, h2.2.symm⟩)
    · simp at h2; obtain ⟨rfl, rfl⟩ := h2
      exact .inl ⟨r, h1, rfl⟩

theorem split_app {ts us p q : List Bytes} {a : Bytes} (h : ts ++ us = p ++ a :: q) :
    (∃ q', ts = p ++ a :: q' ∧ q = q' ++ us) ∨ ∃ p', p = ts ++ p' ∧ us = p' ++ a :: q := by
  rcases List.append_eq_append_iff.1 h with ⟨r, h1, h2⟩ | ⟨r, h1, h2⟩
  · exact .inr ⟨r, h1, h2⟩
  · rcases r with _ | ⟨b, r⟩
    · simp at h1 h2; exact .inr ⟨[], by simp [h1], h2.symm⟩
    · simp at h2; obtain ⟨rfl, rfl⟩ := h2
      exact .inl ⟨r, h1, rfl⟩

/-- An operand that begins with a number is that number. -/
theorem signed_number {sh : Shape} {us : List Bytes} (h : Flat ctx sh us) : ∀ {a : Bytes} {q : List Bytes},
    us = a :: q → Number a → (∀ n, sh = .operand n → q = []) ∧ ∀ n, sh = .signed n → q = [] ∨ q = [b!"!"] := by
  induction h with
  | num h => intro a q e _; cases e; simp
  | const h => intro a q e _; cases e; simp
  | var h => intro a q e _; cases e; simp
  | call h => intro a q e ha; cases e; exact absurd ha (number_name h)
  | paren h => intro a q e ha; cases e; exact absurd ha (number_sym (by decide))
  | plain h ih =>
    intro a q e ha
    exact ⟨nofun, fun n _ => .inl ((ih e ha).1 _ rfl)⟩
  | @bang n ts h ih =>
    intro a q e ha
    refine ⟨nofun, fun _ _ => ?_⟩
    rcases ts with _ | ⟨b, ts⟩
    · exact absurd rfl (flat_ne h)
    · simp at e; obtain ⟨rfl, rfl⟩ := e
      right
      rw [(ih rfl ha).1 _ rfl]; rfl
  | @sign n neg ts h ih =>
    intro a q e ha; cases e
    refine absurd ha (number_sym ?_)
    cases neg <;> decide
  | _ => intro a q e ha; exact ⟨nofun, nofun⟩

/-- A number behind a number, in a row that is not just a number. -/
theorem row_number {ts q : List Bytes} {b : Bytes} (h : Flat ctx (.row false) ts) (hb : Number b) (hd : digitTok b)
    (hq : q = [] ∨ q = [b!"!"]) : Flat ctx (.row false) (ts ++ b :: q) := by
  obtain ⟨c, hc, hd⟩ := hd
  rcases hq with rfl | rfl
  · exact .juxt h (.plain (.num hb)) rfl hc (.inr (.inr ⟨hd, rfl⟩))
  · exact .juxt h (.bang (.num hb) (ts := [b])) rfl hc (.inr (.inr ⟨hd, rfl⟩))

/-- What putting a number behind a number does to a piece of text. -/
def Second (ctx : Context) (b : Bytes) : Shape → List Bytes → Prop
  | .operand _, ts => ∀ p a q, ts = p ++ a :: q → Number a → Begun p → Flat ctx (.operand false) (p ++ a :: b :: q)
  | .signed _, ts => ∀ p a q, ts = p ++ a :: q → Number a → Begun p →
      Flat ctx (.signed false) (p ++ a :: b :: q) ∨
      (Flat ctx (.signed false) (p ++ [a]) ∧ (q = [] ∨ q = [b!"!"]))
  | .row _, ts => ∀ p a q, ts = p ++ a :: q → Number a → Begun p → Flat ctx (.row false) (p ++ a :: b :: q)
  | .args k, ts => ∀ p a q, ts = p ++ a :: q → Number a → Begun p → Flat ctx (.args k) (p ++ a :: b :: q)

/-- In the right part of a row. -/
theorem second_right {b : Bytes} (hb : Number b) (hd : digitTok b) {pre p' q us : List Bytes} {a : Bytes} {k : Bool}
    (hk : Flat ctx (.signed k) us) (h2 : Second ctx b (.signed k) us) (he : us = p' ++ a :: q) (ha : Number a)
    (hp : p' ≠ [] → Begun p')
    (mk : ∀ {k vs}, Flat ctx (.signed k) vs → vs.head? = us.head? → Flat ctx (.row false) (pre ++ vs)) :
    Flat ctx (.row false) (pre ++ (p' ++ a :: b :: q)) := by
  rcases p' with _ | ⟨t, p'⟩
  · have := row_number (mk (.plain (.num ha)) (by rw [he]; rfl)) hb hd ((signed_number hk he ha).2 _ rfl)
    simpa using this
  · rcases h2 (t :: p') a q he ha (hp (by simp)) with h | ⟨h, hq⟩
    · exact mk h (by rw [he]; rfl)
    · have := row_number (mk h (by rw [he]; rfl)) hb hd hq
      simpa using this

theorem second {b : Bytes} (hb : Number b) (hd : digitTok b) {sh : Shape} {ts : List Bytes} (h : Flat ctx sh ts) :
    Second ctx b sh ts := by
  have single : ∀ {t : Bytes} {p : List Bytes} {a : Bytes} {q : List Bytes}, [t] = p ++ a :: q → ¬ Begun p := by
    intro t p a q e hp
    rcases p with _ | ⟨_, p⟩
    · exact begun_ne hp rfl
    · simp at e
  induction h with
  | num h => intro p a q e _ hp; exact absurd hp (single e)
  | const h => intro p a q e _ hp; exact absurd hp (single e)
  | var h => intro p a q e _ hp; exact absurd hp (single e)
  | @call t f k ts h1 h2 h3 h4 ih =>
    intro p a q e ha hp
    rcases p with _ | ⟨u, _ | ⟨v, p⟩⟩
    · exact absurd rfl (begun_ne hp)
    · simp at e; exact absurd (e.2.1 ▸ ha) (number_sym (by decide))
    · simp at e; obtain ⟨rfl, rfl, e⟩ := e
      rcases split_mid (us := []) e with ⟨q', rfl, rfl⟩ | ⟨rfl, rfl, rfl⟩ | ⟨p', _, h⟩
      · have hb' : Begun p := begun_cons (begun_tail (p := [_]) hp (by simp)) (.inl rfl)
        have := Flat.call h1 h2 (ih p a q' rfl ha hb') h4
        simpa using this
      · exact absurd ha (number_sym (by decide))
      · simp at h
  | @paren n ts h1 ih =>
    intro p a q e ha hp
    rcases p with _ | ⟨v, p⟩
    · exact absurd rfl (begun_ne hp)
    · simp at e; obtain ⟨rfl, e⟩ := e
      rcases split_mid (us := []) e with ⟨q', rfl, rfl⟩ | ⟨rfl, rfl, rfl⟩ | ⟨p', _, h⟩
      · have hn := ih p a q' rfl ha (begun_cons hp (.inl rfl))
        have := Flat.paren hn
        simpa using this
      · exact absurd ha (number_sym (by decide))
      · simp at h
  | plain h ih =>
    intro p a q e ha hp
    have hn := ih p a q e ha hp
    exact .inl (.plain hn)
  | @bang n ts h ih =>
    intro p a q e ha hp
    rcases split_mid (us := []) e with ⟨q', rfl, rfl⟩ | ⟨rfl, rfl, rfl⟩ | ⟨p', _, h⟩
    · have hn := ih p a q' rfl ha hp
      have := Flat.bang hn
      exact .inl (by simpa using this)
    · exact absurd ha (number_sym (by decide))
    · simp at h
  | @sign n neg ts h ih =>
    intro p a q e ha hp
    rcases p with _ | ⟨v, p⟩
    · exact absurd rfl (begun_ne hp)
    · simp at e; obtain ⟨rfl, rfl⟩ := e
      rcases p with _ | ⟨u, p⟩
      · exact .inr ⟨.sign (.plain (.num ha)), (signed_number h rfl ha).2 _ rfl⟩
      · rcases ih (u :: p) a q rfl ha (begun_tail (p := [_]) hp (by simp)) with hn | ⟨hn, hq⟩
        · exact .inl (.sign hn)
        · exact .inr ⟨.sign hn, hq⟩
  | one h ih =>
    intro p a q e ha hp
    rcases ih p a q e ha hp with hn | ⟨hn, hq⟩
    · exact .one hn
    · have := row_number (.one hn) hb hd hq
      exact (by simpa using this)
  | @oper n k o ts us h1 ho h2 ih1 ih2 =>
    intro p a q e ha hp
    rcases split_mid e with ⟨q', rfl, rfl⟩ | ⟨rfl, rfl, rfl⟩ | ⟨p', rfl, rfl⟩
    · have hn := ih1 p a q' rfl ha hp
      have := Flat.oper hn ho h2
      exact (by simpa using this)
    · refine absurd ha (number_sym ?_)
      revert ho
      exact forall_byte (P := fun o => o ∈ b!"+-*/^%" → symb o) (by decide +kernel) o
    · have := second_right (pre := ts ++ [[o]]) hb hd h2 ih2 rfl ha
        (fun hne => begun_tail (p := ts ++ [[o]]) (by simpa using hp) hne)
        (fun hv _ => by simpa using Flat.oper h1 ho hv)
      simpa using this
  | @bangs n k ts us h1 hl h2 ih1 ih2 =>
    intro p a q e ha hp
    rcases split_mid e with ⟨q', rfl, rfl⟩ | ⟨rfl, rfl, rfl⟩ | ⟨p', rfl, rfl⟩
    · have hn := ih1 p a q' rfl ha hp
      have := Flat.bangs hn ?_ h2
      · simpa using this
      · rcases q' with _ | ⟨c, q'⟩
        · rw [List.getLast?_append] at hl
          simp at hl
          exact absurd (hl ▸ ha) (number_sym (by decide))
        · rw [List.getLast?_append] at hl ⊢
          simpa using hl
    · exact absurd ha (number_sym (by decide))
    · have := second_right (pre := ts ++ [b!"!"]) hb hd h2 ih2 rfl ha
        (fun hne => begun_tail (p := ts ++ [b!"!"]) (by simpa using hp) hne)
        (fun hv _ => by simpa using Flat.bangs h1 hl hv)
      simpa using this
  | @juxt n k t c ts us h1 h2 h3 h4 h5 ih1 ih2 =>
    intro p a q e ha hp
    rcases split_app e with ⟨q', rfl, rfl⟩ | ⟨p', rfl, rfl⟩
    · have hn := ih1 p a q' rfl ha hp
      have := Flat.juxt hn h2 h3 h4 (by rcases h5 with h | h | h; exacts [.inl h, .inr (.inl h), .inr (.inr ⟨h.1, rfl⟩)])
      exact (by simpa using this)
    · have := second_right (pre := ts) hb hd h2 ih2 rfl ha (fun hne => begun_tail hp hne)
        (fun hv he => Flat.juxt h1 hv (he.trans h3) h4 h5)
      simpa using this
  | last h ih =>
    intro p a q e ha hp
    have hn := ih p a q e ha hp
    exact .last hn
  | @more n k ts us h1 h2 ih1 ih2 =>
    intro p a q e ha hp
    rcases split_mid e with ⟨q', rfl, rfl⟩ | ⟨rfl, rfl, rfl⟩ | ⟨p', rfl, rfl⟩
    · have hn := ih1 p a q' rfl ha hp
      have := Flat.more hn h2
      simpa using this
    · exact absurd ha (number_sym (by decide))
    · have := Flat.more h1 (ih2 p' a q rfl ha (begun_cons (begun_tail hp (by simp)) (.inr rfl)))
      simpa using this

/-! ### The second number begins with a digit -/

/-- A number behind a number begins with a digit. -/
def DigitsSecond (ts : List Bytes) : Prop :=
  ∀ p a b q, ts = p ++ a :: b :: q → Number a → Number b → digitTok b

theorem digits_append {ts us : List Bytes} (h1 : DigitsSecond ts) (h2 : DigitsSecond us)
    (h : ∀ b, us.head? = some b → Number b → digitTok b) : DigitsSecond (ts ++ us) := by
  intro p a b q e ha hb
  rcases split_app e with ⟨q', rfl, e2⟩ | ⟨p', rfl, rfl⟩
  · rcases q' with _ | ⟨c, q'⟩
    · exact h b (by simp at e2; rw [← e2]; rfl) hb
    · simp at e2; obtain ⟨rfl, rfl⟩ := e2
      exact h1 p a b q' rfl ha hb
  · exact h2 p' a b q rfl ha hb

theorem digits_sym {c : UInt8} (hc : symb c) {us : List Bytes} (h : DigitsSecond us) : DigitsSecond ([c] :: us) := by
  intro p a b q e ha hb
  rcases p with _ | ⟨d, p⟩
  · simp at e; exact absurd (e.1 ▸ ha) (number_sym hc)
  · simp at e; exact h p a b q e.2 ha hb

theorem digits_one (t : Bytes) : DigitsSecond [t] := by
  intro p a b q e ha hb
  rcases p with _ | ⟨d, p⟩ <;> simp at e

theorem digits_nil : DigitsSecond [] := by
  intro p a b q e ha hb
  simp at e

theorem digits_mid {ts us : List Bytes} {c : UInt8} (hc : symb c) (h1 : DigitsSecond ts) (h2 : DigitsSecond us) :
    DigitsSecond (ts ++ [c] :: us) :=
  digits_append h1 (digits_sym hc h2) fun b hb hn => by
    simp at hb; exact absurd (hb ▸ hn) (number_sym hc)

theorem flat_digits {sh : Shape} {ts : List Bytes} (h : Flat ctx sh ts) : DigitsSecond ts := by
  induction h with
  | num h => exact digits_one _
  | const h => exact digits_one _
  | var h => exact digits_one _
  | @call t f k ts h1 h2 h3 h4 ih =>
    have := digits_mid (ts := [t]) (c := c!"(") (by decide) (digits_one t)
      (digits_mid (c := c!")") (us := []) (by decide) ih digits_nil)
    simpa using this
  | paren h ih => exact digits_sym (by decide) (digits_mid (c := c!")") (us := []) (by decide) ih digits_nil)
  | plain h ih => exact ih
  | bang h ih => exact digits_mid (c := c!"!") (us := []) (by decide) ih digits_nil
  | @sign n neg ts h ih => exact digits_sym (by cases neg <;> decide) ih
  | one h ih => exact ih
  | @oper n k o ts us h1 ho h2 ih1 ih2 =>
    refine digits_mid ?_ ih1 ih2
    revert ho
    exact forall_byte (P := fun o => o ∈ b!"+-*/^%" → symb o) (by decide +kernel) o
  | bangs h1 hl h2 ih1 ih2 => exact digits_mid (c := c!"!") (by decide) ih1 ih2
  | @juxt n k t c ts us h1 h2 h3 h4 h5 ih1 ih2 =>
    refine digits_append ih1 ih2 fun b hb hn => ?_
    rw [h3] at hb; cases hb
    obtain ⟨v, hv⟩ := hn
    obtain ⟨d, hd, hh⟩ := literal_head hv
    rw [h4] at hd; cases hd
    refine ⟨c, h4, ?_⟩
    rcases h5 with h | rfl | h
    · revert hh h
      exact forall_byte (P := fun c => numStart c → lower c → digit c) (by decide +kernel) c
    · exact absurd hh (by decide)
    · exact h.1
  | last h ih => exact ih
  | more h1 h2 ih1 ih2 => exact digits_mid (c := c!",") (by decide) ih1 ih2

end
end Xprs
