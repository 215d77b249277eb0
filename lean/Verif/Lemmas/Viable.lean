import Mathlib.Data.List.Forall2
import Verif.Lemmas.Local
import Verif.Spec.Prefix
/-
The text in front of an error can be completed.
-/
namespace Xprs
open Spec

/-- The bytes a completion may begin with. -/
def Tl (l : Bytes) : Prop := l.head? = none ∨ l.head? = some c!"(" ∨ l.head? = some c!")"
/-- What may follow a completed expression. -/
def Cl (l : Bytes) : Prop := l.head? = none ∨ l.head? = some c!")"

/-- The two states see the same bytes up to place `K`, where the second goes on with
`tail`. -/
structure AgV (K : Nat) (tail : Bytes) (s t : St) : Prop where
  pos : s.pos = t.pos
  tl : Tl tail
  see : ∃ pre r, s.rest = pre ++ r ∧ t.rest = pre ++ tail ∧ s.pos + pre.length = K

/-- Where a part that is read completely may end. -/
def EndsAt (K : Nat) (tail : Bytes) (s : St) : Prop := s.pos < K ∨ (s.pos = K ∧ Cl tail)

theorem EndsAt.le {K : Nat} {tail : Bytes} {s : St} (h : EndsAt K tail s) : s.pos ≤ K := by
  rcases h with h | h <;> omega

theorem EndsAt.back {K : Nat} {tail : Bytes} {s s1 : St} (h : EndsAt K tail s) (l : s1.pos ≤ s.pos) :
    EndsAt K tail s1 := by
  rcases h with h | ⟨h, hc⟩
  · exact .inl (by omega)
  · by_cases h1 : s1.pos = K
    · exact .inr ⟨h1, hc⟩
    · exact .inl (by omega)

theorem Cl.tl {l : Bytes} (h : Cl l) : Tl l := by
  rcases h with h | h
  · exact .inl h
  · exact .inr (.inr h)

variable {K : Nat} {tail : Bytes} {s t : St}

theorem AgV.head (h : AgV K tail s t) (hk : s.pos < K) : s.rest.head? = t.rest.head? := by
  obtain ⟨pre, r, h1, h2, h3⟩ := h.see
  cases pre with
  | nil => simp at h3; omega
  | cons a l => rw [h1, h2]; rfl

theorem AgV.tail_eq (h : AgV K tail s t) (hk : s.pos = K) : t.rest = tail := by
  obtain ⟨pre, r, h1, h2, h3⟩ := h.see
  have : pre = [] := List.length_eq_zero_iff.1 (by omega)
  rw [h2, this]; rfl

theorem AgV.adv (h : AgV K tail s t) {n : Nat} (hk : s.pos + n ≤ K) :
    AgV K tail (adv s n) (adv t n) := by
  obtain ⟨pre, r, h1, h2, h3⟩ := h.see
  refine ⟨by simp [Xprs.adv, h.pos], h.tl, pre.drop n, r, ?_, ?_, ?_⟩
  · simp only [Xprs.adv]; rw [h1, List.drop_append_of_le_length (by omega)]
  · simp only [Xprs.adv]; rw [h2, List.drop_append_of_le_length (by omega)]
  · simp only [Xprs.adv, List.length_drop]; omega

theorem takeWhile_pre (p : UInt8 → Bool) : ∀ (pre r : Bytes),
    ((pre ++ r).takeWhile p).length ≤ pre.length → (pre ++ r).takeWhile p = pre.takeWhile p
  | [], r, h => by
    have : (r.takeWhile p).length = 0 := by simpa using h
    simpa using List.length_eq_zero_iff.1 this
  | a :: pre, r, h => by
    by_cases ha : p a = true
    · simp only [List.cons_append, List.takeWhile_cons, ha, if_true, List.length_cons] at h ⊢
      rw [takeWhile_pre p pre r (by omega)]
    · simp [ha]

theorem takeWhile_stop (p : UInt8 → Bool) (tail : Bytes) (hp : ∀ c, tail.head? = some c → p c = false) :
    ∀ pre : Bytes, (pre ++ tail).takeWhile p = pre.takeWhile p
  | [] => by
    cases tail with
    | nil => rfl
    | cons c l => simp [hp c rfl]
  | a :: pre => by
    by_cases ha : p a = true
    · simp only [List.cons_append, List.takeWhile_cons, ha, if_true]
      rw [takeWhile_stop p tail hp pre]
    · simp [ha]

/-- The classes of bytes the parser skips: none of them contains a parenthesis. -/
def Skips (p : UInt8 → Bool) : Prop := p c!"(" = false ∧ p c!")" = false

theorem Tl.not {l : Bytes} (h : Tl l) {p : UInt8 → Bool} (hp : Skips p) :
    ∀ c, l.head? = some c → p c = false := by
  intro c hc
  rcases h with h | h | h
  · rw [h] at hc; cases hc
  · rw [h] at hc; cases hc; exact hp.1
  · rw [h] at hc; cases hc; exact hp.2

theorem AgV.takeWhile (h : AgV K tail s t) {p : UInt8 → Bool} (hp : Skips p)
    (hk : (skipWhile p s).pos ≤ K) : s.rest.takeWhile p = t.rest.takeWhile p := by
  obtain ⟨pre, r, h1, h2, h3⟩ := h.see
  simp only [skipWhile, Xprs.adv] at hk
  rw [h1] at hk
  rw [h1, h2, takeWhile_pre p pre r (by omega), takeWhile_stop p tail (h.tl.not hp) pre]

theorem AgV.skip (h : AgV K tail s t) {p : UInt8 → Bool} (hp : Skips p)
    (hk : (skipWhile p s).pos ≤ K) : AgV K tail (skipWhile p s) (skipWhile p t) := by
  have := h.takeWhile hp hk
  unfold skipWhile at hk ⊢
  rw [← this]
  exact h.adv hk

theorem skips_ws : Skips isWs := ⟨by decide, by decide⟩
theorem skips_id : Skips isIdChar := ⟨by decide, by decide⟩
theorem skips_num : Skips isNumChar := ⟨by decide, by decide⟩
theorem skips_digit : Skips isDigit := ⟨by decide, by decide⟩

theorem AgV.trim (h : AgV K tail s t) (hk : (trim s).pos ≤ K) : AgV K tail (trim s) (trim t) :=
  h.skip skips_ws hk

theorem AgV.expLen (h : AgV K tail s t) (hk : s.pos ≤ K)
    (hd : (skipWhile isDigit (Xprs.adv s (expLen s.rest))).pos ≤ K) :
    expLen s.rest = expLen t.rest := by
  obtain ⟨pre, r, h1, h2, h3⟩ := h.see
  have hda := h.tl.not skips_digit
  simp only [skipWhile, Xprs.adv] at hd
  rw [h1] at hd ⊢
  rw [h2]
  have hpl : pre.length = K - s.pos := by omega
  match pre with
  | [] =>
    have e1 : Xprs.expLen ([] ++ tail) = 0 := by
      apply expLen_zero
      intro c hc
      rcases h.tl with h | h | h
      · rw [List.nil_append, h] at hc; cases hc
      · rw [List.nil_append, h] at hc; cases hc; decide
      · rw [List.nil_append, h] at hc; cases hc; decide
    rw [e1]
    simp only [List.length_nil] at h3
    omega
  | [c] =>
    have e1 : Xprs.expLen ([c] ++ tail) = 0 := by
      cases tail with
      | nil => rfl
      | cons d l =>
        have hs : (decide (d = c!"+") || decide (d = c!"-")) = false := by
          rcases h.tl with h | h | h
          · simp at h
          · simp at h; subst h; decide
          · simp at h; subst h; decide
        simp [Xprs.expLen, hda d rfl, hs]
    rw [e1]
    simp only [List.length_cons, List.length_nil] at h3
    cases r with
    | nil => rfl
    | cons d l =>
      by_cases he : c = c!"e" ∨ c = c!"E"
      · simp only [List.cons_append, List.nil_append, Xprs.expLen, if_pos he] at hd ⊢
        have key : ∀ b : Bool, s.pos + (b.toNat * 2 + (isDigit d).toNat) +
            (List.takeWhile isDigit
              (List.drop (b.toNat * 2 + (isDigit d).toNat) (c :: d :: l))).length ≤ K →
            b.toNat * 2 + (isDigit d).toNat = 0 := by
          intro b hb
          cases b <;> cases hdd : isDigit d
          · rfl
          · simp [hdd] at hb; omega
          · simp [hdd] at hb; omega
          · simp [hdd] at hb; omega
        exact key _ hd
      · simp [Xprs.expLen, he]
  | [c, c1] =>
    simp only [List.length_cons, List.length_nil] at h3
    by_cases he : c = c!"e" ∨ c = c!"E"
    · have e1 : Xprs.expLen ([c, c1] ++ tail) = (isDigit c1).toNat := by
        cases tail with
        | nil => simp [Xprs.expLen, he]
        | cons d l => simp [Xprs.expLen, he, hda d rfl]
      rw [e1]
      cases r with
      | nil => simp [Xprs.expLen, he]
      | cons d l =>
        simp only [List.cons_append, List.nil_append, Xprs.expLen, if_pos he] at hd ⊢
        by_cases hdd : isDigit d = true
        · by_cases hs : (decide (c1 = c!"+") || decide (c1 = c!"-")) = true
          · simp only [hs, hdd, Bool.and_self, Bool.toNat_true] at hd
            cases hc1 : isDigit c1
            · simp [hc1, hdd] at hd; omega
            · simp [hc1] at hd; omega
          · simp [hs]
        · simp [hdd]
    · simp [Xprs.expLen, he]
  | c :: c1 :: c2 :: l => rfl

theorem AgV.numEnd (h : AgV K tail s t) (hk : (numEnd s).pos ≤ K) :
    AgV K tail (numEnd s) (numEnd t) := by
  have l1 := (le_skipWhile isDigit
    (Xprs.adv (skipWhile isNumChar s) (Xprs.expLen (skipWhile isNumChar s).rest))).pos
  have hp : (Xprs.adv (skipWhile isNumChar s) (Xprs.expLen (skipWhile isNumChar s).rest)).pos
      = (skipWhile isNumChar s).pos + Xprs.expLen (skipWhile isNumChar s).rest := rfl
  unfold Xprs.numEnd at hk ⊢
  simp only at hk ⊢
  have h1 := h.skip skips_num (by omega)
  have h2 := h1.expLen (by omega) hk
  rw [← h2]
  exact (h1.adv (by omega)).skip skips_digit hk

theorem AgV.take (h : AgV K tail s t) {n : Nat} (hk : s.pos + n ≤ K) :
    s.rest.take n = t.rest.take n := by
  obtain ⟨pre, r, h1, h2, h3⟩ := h.see
  rw [h1, h2, List.take_append_of_le_length (by omega), List.take_append_of_le_length (by omega)]

theorem pass_number {e : Elem} {s' : St} (hx : parseNumber s = .ok e s') (h : AgV K tail s t)
    (hs : s'.pos ≤ K) : ∃ t', parseNumber t = .ok e t' ∧ AgV K tail s' t' := by
  obtain ⟨h1, x, h2, h3⟩ := parseNumber_ok hx
  subst h1 h2
  have h4 := h.numEnd hs
  have l := (le_numEnd s).pos
  refine ⟨Xprs.numEnd t, ?_, h4⟩
  unfold parseNumber
  simp only
  rw [← h4.pos, ← h.pos, ← h.take (by omega), h3]

theorem AgV.consumeIf (h : AgV K tail s t) {c : UInt8} (hc : c ≠ c!"(") (hc' : c ≠ c!")")
    (hk : (consumeIf c s).2.pos ≤ K) :
    (consumeIf c t).1 = (consumeIf c s).1 ∧ AgV K tail (consumeIf c s).2 (consumeIf c t).2 := by
  by_cases h1 : (Xprs.trim s).rest.head? = some c
  · have e1 : Xprs.consumeIf c s = (true, Xprs.adv (Xprs.trim s) 1) := by
      simp [Xprs.consumeIf, h1]
    rw [e1] at hk
    have hk' : (Xprs.trim s).pos + 1 ≤ K := hk
    have h2 := h.trim (by omega)
    have h3 := h2.head (by omega)
    have e2 : Xprs.consumeIf c t = (true, Xprs.adv (Xprs.trim t) 1) := by
      simp [Xprs.consumeIf, ← h3, h1]
    rw [e1, e2]
    exact ⟨rfl, h2.adv hk'⟩
  · have e1 : Xprs.consumeIf c s = (false, Xprs.trim s) := by simp [Xprs.consumeIf, h1]
    rw [e1] at hk
    have h2 := h.trim hk
    have h3 : (Xprs.trim t).rest.head? ≠ some c := by
      by_cases hk' : (Xprs.trim s).pos < K
      · rw [← h2.head hk']; exact h1
      · rw [h2.tail_eq (by simp only at hk; omega)]
        intro h4
        rcases h.tl with h | h | h
        · rw [h] at h4; cases h4
        · rw [h] at h4; cases h4; exact hc rfl
        · rw [h] at h4; cases h4; exact hc' rfl
    have e2 : Xprs.consumeIf c t = (false, Xprs.trim t) := by simp [Xprs.consumeIf, h3]
    rw [e1, e2]
    exact ⟨rfl, h2⟩

/-- Consuming a byte that is there. -/
theorem AgV.eat (h : AgV K tail s t) {c : UInt8} (hc : (Xprs.trim s).rest.head? = some c)
    (hk : (Xprs.trim s).pos + 1 ≤ K) :
    Xprs.consumeIf c t = (true, Xprs.adv (Xprs.trim t) 1) ∧
      AgV K tail (Xprs.adv (Xprs.trim s) 1) (Xprs.adv (Xprs.trim t) 1) := by
  have h2 := h.trim (by omega)
  have h3 := h2.head (by omega)
  exact ⟨by simp [Xprs.consumeIf, ← h3, hc], h2.adv hk⟩

/-- What the trees read from the two texts must have in common, so that reading goes on
alike: `S` says of both whether they are numbers, does not mind what they are put together
to, and the folding of the one goes well whenever that of the other does. -/
structure Parallel (cfg : Cfg) (w : World) (ctx : Context) (S : Elem → Elem → Prop) : Prop where
  isNum : ∀ {e e'}, S e e' → e'.isNum = e.isNum
  num : ∀ x, S (.num x) (.num x)
  var : ∀ v, S (.var v) (.var v)
  un : ∀ op {e e'}, S e e' → S (.un op e) (.un op e')
  bin : ∀ op {e e' f f'}, S e e' → S f f' → S (.bin op e f) (.bin op e' f')
  call : ∀ {nm f as bs}, lookup ctx nm = .func f → List.Forall₂ S as bs →
    S (.call f as) (.call { f with nbArgs := none } bs)
  fin : ∀ {e e' a s s'}, S e e' → finish cfg w e s = .ok a s' →
    ∀ t, ∃ a', finish cfg w e' t = .ok a' t ∧ S a a'

/-- Without folding it is enough to know which trees are numbers. -/
theorem parallel_plain {cfg : Cfg} (ho : cfg.opt = false) (w : World) (ctx : Context) :
    Parallel cfg w ctx fun e e' => e'.isNum = e.isNum where
  isNum h := h
  num _ := rfl
  var _ := rfl
  un _ _ _ _ := rfl
  bin _ _ _ _ _ _ _ := rfl
  call _ _ := rfl
  fin {e e' a s s'} h hx := by
    simp only [finish, ho, Bool.false_eq_true, if_false, R.ok.injEq] at hx ⊢
    obtain ⟨h1, h2⟩ := hx
    subst h1 h2
    exact fun t => ⟨_, ⟨rfl, trivial⟩, h⟩

/-- With functions of any number of arguments the trees are the same, folded or not. -/
theorem parallel_same (cfg : Cfg) (w : World) {ctx : Context}
    (hf : ∀ nm f, lookup ctx nm = .func f → f.nbArgs = none) : Parallel cfg w ctx fun e e' => e' = e where
  isNum h := by rw [h]
  num _ := rfl
  var _ := rfl
  un _ _ _ h := by rw [h]
  bin _ _ _ _ _ h h' := by rw [h, h']
  call {nm f as bs} h hs := by
    have h1 := hf nm f h
    have h2 : bs = as := by
      clear h
      induction hs with
      | nil => rfl
      | cons h _ ih => rw [h, ih]
    cases f
    simp only at h1
    subst h1 h2
    rfl
  fin {e e' a s s'} h hx := by
    subst h
    unfold finish at hx ⊢
    split at hx
    · rename_i ho
      split at hx
      · simp only [R.ok.injEq] at hx
        obtain ⟨h1, h2⟩ := hx
        subst h1 h2
        rename_i hs
        exact fun t => ⟨_, by simp only [if_pos ho], rfl⟩
      · simp at hx
    · rename_i ho
      simp only [R.ok.injEq] at hx
      obtain ⟨h1, h2⟩ := hx
      subst h1 h2
      exact fun t => ⟨_, by rw [if_neg ho], rfl⟩

/-- What is read completely in the first text is read in the second too. -/
def Pass (S : Elem → Elem → Prop) (rec rec' : Nat → St → R Elem) : Prop :=
  ∀ p s e s', rec p s = .ok e s' → ∀ K tail t, AgV K tail s t → EndsAt K tail s' →
    ∃ e' t', rec' p t = .ok e' t' ∧ S e e' ∧ AgV K tail s' t'

variable {cfg : Cfg} {w : World} {ctx ctx' : Context} {rec rec' : Nat → St → R Elem}
  {S : Elem → Elem → Prop}

theorem pass_assert {c : UInt8} {u : Unit} {s' : St} (hx : assertConsume c s = .ok u s')
    (h : AgV K tail s t) (hs : s'.pos ≤ K) :
    ∃ t', assertConsume c t = .ok () t' ∧ AgV K tail s' t' := by
  obtain ⟨h1, h2⟩ := assertConsume_ok hx
  subst h2
  obtain ⟨h3, h4⟩ := h.eat h1 hs
  exact ⟨_, by simp [assertConsume, h3], h4⟩

theorem pass_argument (hr : Pass S rec rec') {e : Elem} {s' : St}
    (hx : argument cfg rec s = .ok e s') (h : AgV K tail s t) (hs : EndsAt K tail s') :
    ∃ e' t', argument cfg rec' t = .ok e' t' ∧ S e e' ∧ AgV K tail s' t' := by
  obtain ⟨e', t', h1, h3, h2⟩ := hr _ _ _ _ (argument_ok hx) _ _ _ h hs
  exact ⟨e', t', by simp [argument, h1], h3, h2⟩

theorem forall₂_snoc {as bs : List Elem} {a b : Elem} (h : List.Forall₂ S as bs) (h' : S a b) :
    List.Forall₂ S (as ++ [a]) (bs ++ [b]) := by
  induction h with
  | nil => exact .cons h' .nil
  | cons h _ ih => exact .cons h ih

theorem pass_args (hc : Consumes rec) (hc' : Consumes rec') (hr : Pass S rec rec') : ∀ (n : Nat)
    (as : List Elem) (s : St) (bs : List Elem) (s' : St), parseArgs cfg rec n as s = .ok bs s' →
      ∀ (K : Nat) (tail : Bytes) (t : St) (as' : List Elem), List.Forall₂ S as as' →
        AgV K tail s t → s'.pos < K →
        ∃ bs' t', args cfg rec' as' t = .ok bs' t' ∧ List.Forall₂ S bs bs' ∧ AgV K tail s' t'
  | 0, _, _, _, _, hx => by simp [parseArgs] at hx
  | n + 1, as, s, bs, s', hx => by
    intro K tail t as' hb h hs
    rw [parseArgs] at hx
    obtain ⟨arg, s1, h1, h2⟩ := R.bind_eq_ok hx
    have l2 := (le_trim s1).pos
    rw [args_unfold hc']
    simp only at h2
    split at h2
    · rename_i c hcc
      split at h2
      · have l3 := (parseArgs_lt hc n _ _ _ _ h2).pos
        have l4 : (adv (trim s1) 1).pos = (trim s1).pos + 1 := rfl
        obtain ⟨e', t1, h3, h3', h4⟩ := pass_argument hr h1 h (.inl (by omega))
        have h5 := h4.trim (by omega)
        have h6 := h5.head (by omega)
        rw [h3]
        simp only [R.bind_ok]
        rw [← h6, hcc]
        simp only
        rw [if_pos ‹_›]
        exact pass_args hc hc' hr n _ _ _ _ h2 _ _ _ _ (forall₂_snoc hb h3') (h5.adv (by omega)) hs
      · split at h2
        · simp only [R.ok.injEq] at h2
          have l4 := congrArg St.pos h2.2
          obtain ⟨e', t1, h3, h3', h4⟩ := pass_argument hr h1 h (.inl (by omega))
          have h5 := h4.trim (by omega)
          have h6 := h5.head (by omega)
          rw [h3]
          simp only [R.bind_ok]
          rw [← h6, hcc]
          simp only
          rw [if_neg ‹_›, if_pos ‹_›]
          exact ⟨_, _, rfl, h2.1 ▸ forall₂_snoc hb h3', h2.2 ▸ h5⟩
        · simp [errTok] at h2
    · exact absurd h2 errEnd_ne_ok

/-- The call of a function that takes any number of arguments. -/
theorem checkArity_free {f : Func} (hf : f.nbArgs = none) (as : List Elem) (start : Nat) (s : St) :
    checkArity f as start s = .ok (.call f as) s := by
  simp [checkArity, hf]

theorem pass_ident (hs' : Parallel cfg w ctx S) (hl : Loosened ctx ctx') (hc : Consumes rec) (hc' : Consumes rec')
    (hr : Pass S rec rec') {e : Elem} {s' : St} (hx : parseIdent cfg ctx rec s = .ok e s')
    (h : AgV K tail s t) (hs : s'.pos ≤ K) :
    ∃ e' t', parseIdent cfg ctx' rec' t = .ok e' t' ∧ S e e' ∧ AgV K tail s' t' := by
  have hl := hl.2 (s.rest.takeWhile isIdChar)
  unfold parseIdent at hx ⊢
  simp only at hx ⊢
  split at hx
  · rename_i x hx'
    rw [hx'] at hl
    simp only [R.ok.injEq] at hx
    obtain ⟨h1, h2⟩ := hx
    subst h1 h2
    rw [← h.takeWhile skips_id hs, hl]
    exact ⟨_, _, rfl, hs'.num _, h.skip skips_id hs⟩
  · rename_i x hx'
    rw [hx'] at hl
    simp only [R.ok.injEq] at hx
    obtain ⟨h1, h2⟩ := hx
    subst h1 h2
    rw [← h.takeWhile skips_id hs, hl]
    exact ⟨_, _, rfl, hs'.var _, h.skip skips_id hs⟩
  · rename_i f hx'
    rw [hx'] at hl
    split at hx
    · rename_i hp
      obtain ⟨hp1, hp2⟩ := consumeIf_true hp
      rw [hp2] at hx
      obtain ⟨as, s3, h1, h2⟩ := R.bind_eq_ok hx
      obtain ⟨u, s4, h3, h4⟩ := R.bind_eq_ok h2
      have e4 : s4 = s' ∧ e = .call f as := by
        unfold checkArity at h4
        split at h4
        · split at h4
          · simp only [R.ok.injEq] at h4; exact ⟨h4.2, h4.1.symm⟩
          · split at h4 <;> simp [errTooFew, errTooMany] at h4
        · simp only [R.ok.injEq] at h4; exact ⟨h4.2, h4.1.symm⟩
      obtain ⟨e4, e5⟩ := e4
      subst e4 e5
      have l4 := (assertConsume_lt h3).pos
      have l3 := (parseArgs_lt hc _ _ _ _ _ h1).pos
      have l2 := (le_trim (skipWhile isIdChar s)).pos
      have l1 : (adv (trim (skipWhile isIdChar s)) 1).pos
        = (trim (skipWhile isIdChar s)).pos + 1 := rfl
      rw [← h.takeWhile skips_id (by omega), hl]
      have h5 := h.skip skips_id (by omega)
      obtain ⟨h6, h7⟩ := h5.eat hp1 (by omega)
      simp only [h6, if_true]
      obtain ⟨bs, t3, h8, h8', h9⟩ := pass_args hc hc' hr _ _ _ _ _ h1 _ _ _ [] .nil h7 (by omega)
      obtain ⟨t4, h10, h11⟩ := pass_assert h3 h9 hs
      rw [args] at h8
      rw [h8]
      simp only [R.bind_ok]
      rw [h10]
      simp only [R.bind_ok]
      exact ⟨_, _, checkArity_free rfl _ _ _, hs'.call hx' h8', h11⟩
    · simp [errExpected] at hx

theorem number_same (hs' : Parallel cfg w ctx S) {e : Elem} {s' : St} (hx : parseNumber s = .ok e s') :
    S e e := by
  unfold parseNumber at hx
  simp only at hx
  split at hx
  · simp only [R.ok.injEq] at hx
    rw [← hx.1]
    exact hs'.num _
  · simp [errNum] at hx

theorem pass_atom (hs' : Parallel cfg w ctx S) (hl : Loosened ctx ctx') (hc : Consumes rec) (hc' : Consumes rec')
    (hr : Pass S rec rec') {e : Elem} {s' : St} (hx : atom cfg ctx rec s = .ok e s')
    (h : AgV K tail s t) (hs : EndsAt K tail s') :
    ∃ e' t', atom cfg ctx' rec' t = .ok e' t' ∧ S e e' ∧ AgV K tail s' t' := by
  have l := (atom_lt hc (s := trim s) (by unfold atom at hx ⊢; rw [trim_trim]; exact hx)).pos
  unfold atom at hx ⊢
  simp only at hx ⊢
  have hk : (trim s).pos < K := by have := hs.le; omega
  have h1 := h.trim (by omega)
  rw [← h1.head hk]
  split at hx
  · exact absurd hx errEnd_ne_ok
  · rename_i c hcc
    have e1 : (adv (trim s) 1).pos = (trim s).pos + 1 := rfl
    have h2 := h1.adv (n := 1) (by omega)
    split at hx
    · rename_i hd
      rw [if_pos hd]
      obtain ⟨t', h3, h4⟩ := pass_number hx h1 hs.le
      exact ⟨e, t', h3, number_same hs' hx, h4⟩
    rename_i hd
    rw [if_neg hd]
    split at hx
    · rename_i hi
      rw [if_pos hi]
      exact pass_ident hs' hl hc hc' hr hx h1 hs.le
    rename_i hi
    rw [if_neg hi]
    split at hx
    · rename_i hp
      rw [if_pos hp]
      obtain ⟨a, s1, h3, h4⟩ := R.bind_eq_ok hx
      simp only [R.ok.injEq] at h4
      obtain ⟨h4, h5⟩ := h4
      subst h4 h5
      obtain ⟨a', t1, h6, h6', h7⟩ := hr _ _ _ _ h3 _ _ _ h2 hs
      rw [h6]
      exact ⟨_, _, rfl, hs'.un _ h6', h7⟩
    rename_i hp
    rw [if_neg hp]
    split at hx
    · rename_i hp
      rw [if_pos hp]
      obtain ⟨a, s1, h3, h4⟩ := R.bind_eq_ok hx
      simp only [R.ok.injEq] at h4
      obtain ⟨h4, h5⟩ := h4
      subst h4 h5
      obtain ⟨a', t1, h6, h6', h7⟩ := hr _ _ _ _ h3 _ _ _ h2 hs
      rw [h6]
      exact ⟨_, _, rfl, hs'.un _ h6', h7⟩
    rename_i hp
    rw [if_neg hp]
    split at hx
    · rename_i hp
      rw [if_pos hp]
      obtain ⟨a, s1, h3, h4⟩ := R.bind_eq_ok hx
      obtain ⟨u, s2, h5, h6⟩ := R.bind_eq_ok h4
      simp only [R.ok.injEq] at h6
      obtain ⟨h6, h7⟩ := h6
      subst h6 h7
      have l5 := (assertConsume_lt h5).pos
      obtain ⟨a', t1, h8, h9, h10⟩ := hr _ _ _ _ h3 _ _ _ h2 (.inl (by have := hs.le; omega))
      obtain ⟨t2, h11, h12⟩ := pass_assert h5 h10 hs.le
      rw [h8]
      simp only [R.bind_ok]
      rw [h11]
      exact ⟨_, _, rfl, h9, h12⟩
    rename_i hp
    split at hx
    · simp [errTok] at hx
    · simp [errIllegal] at hx

theorem opInfo_isNum {a b : Elem} (h : a.isNum = b.isNum) (p : Nat) (s : St) :
    opInfo cfg a p s = opInfo cfg b p s := by
  unfold opInfo
  rw [h]

theorem opInfo_head {s t : St} (h : s.rest.head? = t.rest.head?) (a : Elem) (p : Nat) :
    opInfo cfg a p s = opInfo cfg a p t := by
  unfold opInfo
  rw [h]

/-- Nothing is read on in front of what may follow a completed expression. -/
theorem opInfo_cl {s : St} (h : Cl s.rest) (a : Elem) (p : Nat) : opInfo cfg a p s = none := by
  unfold opInfo
  rcases h with h | h
  · rw [h]
  · rw [h]
    simp only [opOfByte, isLower, isDigit]
    simp

theorem pass_loop (hs' : Parallel cfg w ctx S) (hc : Consumes rec) (hc' : Consumes rec') (hr : Pass S rec rec') (p : Nat) :
    ∀ (n : Nat) (a : Elem) (s : St) (e : Elem) (s' : St), opLoop cfg rec p n a s = .ok e s' →
      ∀ (K : Nat) (tail : Bytes) (t : St) (a' : Elem), S a a' → AgV K tail s t →
        EndsAt K tail s' → ∃ e' t', loop cfg rec' p a' t = .ok e' t' ∧ S e e' ∧
          AgV K tail s' t'
  | 0, _, _, _, _, hx => by simp [opLoop] at hx
  | n + 1, a, s, e, s', hx => by
    intro K tail t a' ha h hs
    rw [opLoop] at hx
    rw [loop_unfold hc']
    split at hx
    · rename_i hi
      simp only [R.ok.injEq] at hx
      obtain ⟨h1, h2⟩ := hx
      subst h1 h2
      have h3 := h.trim hs.le
      have h4 : opInfo cfg a' p (trim t) = none := by
        rcases hs with hs | ⟨hs, hcl⟩
        · rw [opInfo_isNum (hs'.isNum ha), ← opInfo_head (h3.head hs), hi]
        · exact opInfo_cl (by rw [h3.tail_eq hs]; exact hcl) _ _
      rw [h4]
      exact ⟨_, _, rfl, ha, h3⟩
    · rename_i op q k hi
      obtain ⟨rhs, s2, h1, h2⟩ := R.bind_eq_ok hx
      have l2 := (opLoop_le hc p _ _ _ _ _ h2).pos
      have l1 := (hc _ _ _ _ h1).pos
      have l3 := hs.le
      have e1 : (adv (trim s) k).pos = (trim s).pos + k := rfl
      have h3 := h.trim (by omega)
      have h4 : opInfo cfg a' p (trim t) = some (op, q, k) := by
        rw [opInfo_isNum (hs'.isNum ha), ← opInfo_head (h3.head (by omega)), hi]
      obtain ⟨rhs', t2, h5, h5', h6⟩ := hr _ _ _ _ h1 _ _ _ (h3.adv (by omega)) (hs.back l2)
      rw [h4]
      simp only [h5]
      exact pass_loop hs' hc hc' hr p n _ _ _ _ h2 _ _ _ _ (hs'.bin _ ha h5') h6 hs

theorem finish_st {e a : Elem} {s s' : St} (h : finish cfg w e s = .ok a s') : s' = s := by
  unfold finish at h
  split at h
  · split at h
    · simp only [R.ok.injEq] at h
      exact h.2.symm
    · simp at h
  · simp only [R.ok.injEq] at h
    exact h.2.symm

theorem pass_elementF (hs' : Parallel cfg w ctx S) (hl : Loosened ctx ctx') (hc : Consumes rec)
    (hc' : Consumes rec') (hr : Pass S rec rec') :
    Pass S (elementF cfg w ctx rec) (elementF cfg w ctx' rec') := by
  intro p s e s' hx K tail t h hs
  unfold elementF at hx ⊢
  obtain ⟨a, s1, h1, h2⟩ := R.bind_eq_ok hx
  obtain ⟨b, s3, h3, h4⟩ := R.bind_eq_ok h2
  have h5 : s' = s3 := finish_st h4
  subst h5
  have l2 := (opLoop_le hc p _ _ _ _ _ h3).pos
  have l1 := (le_consumeIf c!"!" s1).pos
  have l3 := hs.le
  obtain ⟨a', t1, h6, h7, h8⟩ := pass_atom hs' hl hc hc' hr h1 h (hs.back (by omega))
  obtain ⟨h9, h10⟩ := h8.consumeIf (c := c!"!") (by decide) (by decide) (by omega)
  obtain ⟨b', t3, h11, h12, h13⟩ := pass_loop hs' hc hc' hr p _ _ _ _ _ h3 K tail _
    (if (consumeIf c!"!" s1).1 then .un .factorial a' else a')
    (by split; · exact hs'.un _ h7
        · exact h7) h10 hs
  rw [h6]
  simp only [R.bind_ok]
  rw [h9]
  rw [loop] at h11
  rw [h11]
  simp only [R.bind_ok]
  obtain ⟨e', h14, h15⟩ := hs'.fin h12 h4 t3
  exact ⟨_, _, h14, h15, h13⟩

theorem pass_element (hs' : Parallel cfg w ctx S) (hl : Loosened ctx ctx') :
    ∀ n, Pass S (element cfg w ctx n) (elem cfg w ctx')
  | 0 => fun _ _ _ _ hx => by simp [element] at hx
  | n + 1 => by
    intro p s e s' hx K tail t h hs
    rw [elem_unfold]
    rw [element] at hx
    exact pass_elementF hs' hl (element_consumes cfg w ctx n) (elem_consumes cfg w ctx')
      (pass_element hs' hl n) p s e s' hx K tail t h hs

/-! ### Failures -/

/-- Where a failure is found. -/
def pt (e : PErr) (s : St) : Nat :=
  match e.kind with
  | .malformedNumber _ => e.off
  | _ => s.pos

/-- Everything is read up to `rest`, if not the folding of what was put in panics. -/
def Reads (cfg : Cfg) {α : Type} (r : R α) (rest : Bytes) : Prop :=
  (∃ a t', r = .ok a t' ∧ t'.rest = rest) ∨ (cfg.opt = true ∧ ∃ p, r = .panic p)

/-- With `tail` at place `K`, `f` reads everything up to what follows. -/
def Fixes (cfg : Cfg) {α : Type} (f : St → R α) (s : St) (K : Nat) (q : Bytes → Prop)
    (tail : Bytes) : Prop :=
  s.pos ≤ K ∧ K ≤ s.pos + s.rest.length ∧ Filler tail ∧
  ∀ rest, q rest → ∀ t, AgV K (tail ++ rest) s t → Reads cfg (f t) rest

/-- A failure can be repaired. -/
def Fail (cfg : Cfg) (rec rec' : Nat → St → R Elem) : Prop :=
  ∀ p s e s', rec p s = .err e s' → ∃ tail, (s.pos < pt e s' ∨ tail ≠ []) ∧
    Fixes cfg (rec' p) s (pt e s') Cl tail

theorem Reads.ok {α : Type} {a : α} {t : St} : Reads cfg (.ok a t) t.rest := .inl ⟨a, t, rfl, rfl⟩

theorem Reads.bind {α β : Type} {r : R α} {g : α → St → R β} {rest rest' : Bytes}
    (h : Reads cfg r rest) (hg : ∀ a t, t.rest = rest → Reads cfg (g a t) rest') :
    Reads cfg (r.bind g) rest' := by
  rcases h with ⟨a, t, rfl, h⟩ | ⟨ho, p, rfl⟩
  · exact hg a t h
  · exact .inr ⟨ho, p, rfl⟩

/-- The operand that is put in. -/
def operand : Bytes := [c!"(", c!"0", c!")"]

theorem fill_nil : Filler [] := ⟨0, .inl rfl⟩
theorem fill_operand : Filler operand := ⟨0, .inr rfl⟩
theorem fill_close : Filler [c!")"] := ⟨1, .inl rfl⟩

theorem fill_append {tail : Bytes} (h : Filler tail) : Filler (tail ++ [c!")"]) := by
  obtain ⟨k, h | h⟩ := h
  · exact ⟨k + 1, .inl (by rw [h, List.replicate_succ'])⟩
  · exact ⟨k + 1, .inr (by rw [h, List.replicate_succ', List.append_assoc])⟩

theorem filler_tl {tail : Bytes} (h : Filler tail) : Tl tail := by
  obtain ⟨k, h | h⟩ := h
  · cases k with
    | zero => exact .inl (by rw [h]; rfl)
    | succ k => exact .inr (.inr (by rw [h]; rfl))
  · exact .inr (.inl (by rw [h]; rfl))

/-- The operand can be read. -/
def Zero (rec' : Nat → St → R Elem) : Prop :=
  ∀ t rest, t.rest = c!"0" :: c!")" :: rest →
    ∃ e t', rec' noPrec t = .ok e t' ∧ t'.rest = c!")" :: rest

theorem trim_cl {t : St} (h : Cl t.rest) : trim t = t := by
  apply trim_of_trimmed
  intro c hc
  exact h.tl.not skips_ws c hc

theorem consumeIf_cl {t : St} (h : Cl t.rest) {c : UInt8} (hc : c ≠ c!")") :
    consumeIf c t = (false, t) := by
  unfold consumeIf
  rw [trim_cl h]
  rw [if_neg]
  intro h1
  rcases h with h | h
  · rw [h] at h1; cases h1
  · rw [h] at h1; cases h1; exact hc rfl

theorem loop_cl (hc' : Consumes rec') {t : St} (h : Cl t.rest) (p : Nat) (a : Elem) :
    loop cfg rec' p a t = .ok a t := by
  rw [loop_unfold hc', trim_cl h, opInfo_cl h]

theorem assert_close {t : St} {rest : Bytes} (h : t.rest = c!")" :: rest) :
    assertConsume c!")" t = .ok () ⟨t.pos + 1, rest⟩ := by
  have h1 : Cl t.rest := .inr (by rw [h]; rfl)
  have h2 : consumeIf c!")" t = (true, ⟨t.pos + 1, rest⟩) := by
    unfold consumeIf
    rw [trim_cl h1, if_pos (by rw [h]; rfl)]
    simp [adv, h]
  simp [assertConsume, h2]

theorem finish_reads (e : Elem) (t : St) : Reads cfg (finish cfg w e t) t.rest := by
  unfold finish
  split
  · split
    · exact .ok
    · exact .inr ⟨‹_›, _, rfl⟩
  · exact .ok

theorem elementF_after (hc' : Consumes rec') {t : St} {rest : Bytes}
    (h : Reads cfg (atom cfg ctx' rec' t) rest) (hcl : Cl rest) (p : Nat) :
    Reads cfg (elementF cfg w ctx' rec' p t) rest := by
  unfold elementF
  refine h.bind fun a t1 h1 => ?_
  subst h1
  have h5 := loop_cl (cfg := cfg) hc' hcl p a
  rw [loop] at h5
  rw [consumeIf_cl hcl (by decide)]
  simp only [Bool.false_eq_true, if_false]
  rw [h5]
  exact finish_reads _ _

theorem zero_elem : Zero (elem cfg w ctx') := by
  intro t rest h
  rw [elem_unfold]
  have h1 : trim t = t := trim_of_trimmed (by intro c hc; rw [h] at hc; cases hc; decide)
  have h2 : numEnd t = ⟨t.pos + 1, c!")" :: rest⟩ := by
    have e1 : skipWhile isNumChar t = ⟨t.pos + 1, c!")" :: rest⟩ := by
      unfold skipWhile
      have : t.rest.takeWhile isNumChar = [c!"0"] := by
        rw [h, List.takeWhile_cons, if_pos (by decide), List.takeWhile_cons, if_neg (by decide)]
      rw [this]
      simp [adv, h]
    have e2 : expLen (c!")" :: rest) = 0 := by
      apply expLen_zero
      intro c hc
      cases hc
      decide
    unfold numEnd
    rw [e1]
    simp only [e2]
    unfold skipWhile
    have : (adv ⟨t.pos + 1, c!")" :: rest⟩ 0).rest.takeWhile isDigit = [] := by
      simp only [adv, List.drop_zero]
      rw [List.takeWhile_cons, if_neg (by decide)]
    rw [this]
    simp [adv]
  have h3 : ∃ x, parseNumber t = .ok (.num x) ⟨t.pos + 1, c!")" :: rest⟩ := by
    unfold parseNumber
    rw [h2]
    have : t.rest.take ((⟨t.pos + 1, c!")" :: rest⟩ : St).pos - t.pos) = [c!"0"] := by
      rw [h]; simp
    simp only [this]
    have hp : parseF64 ([c!"0"].filter (· ≠ c!"_")) = some (F64.ofDecimal 0 0) := rfl
    rw [hp]
    exact ⟨_, rfl⟩
  obtain ⟨x, h3⟩ := h3
  have h4 : atom cfg ctx' (elem cfg w ctx') t = .ok (.num x) ⟨t.pos + 1, c!")" :: rest⟩ := by
    unfold atom
    rw [h1]
    simp only [h, List.head?_cons]
    rw [if_pos (by decide), h3]
  have h5 := loop_cl (cfg := cfg) (elem_consumes cfg w ctx')
    (t := ⟨t.pos + 1, c!")" :: rest⟩) (.inr rfl) noPrec (.num x)
  rw [loop] at h5
  refine ⟨.num x, ⟨t.pos + 1, c!")" :: rest⟩, ?_, rfl⟩
  unfold elementF
  rw [h4]
  simp only [R.bind_ok]
  rw [consumeIf_cl (.inr rfl) (by decide)]
  simp only [Bool.false_eq_true, if_false]
  rw [h5]
  simp [finish, simplify]

theorem atom_operand (hz : Zero rec') {t : St} {rest : Bytes} (h : (trim t).rest = operand ++ rest) :
    ∃ e t', atom cfg ctx' rec' t = .ok e t' ∧ t'.rest = rest := by
  obtain ⟨e, t1, h1, h2⟩ := hz (adv (trim t) 1) rest (by simp [adv, h, operand])
  refine ⟨e, ⟨t1.pos + 1, rest⟩, ?_, rfl⟩
  unfold atom
  simp only [h, operand, List.cons_append, List.head?_cons]
  rw [if_neg (by decide), if_neg (by decide), if_neg (by decide), if_neg (by decide),
    if_pos (by decide), h1]
  simp only [R.bind_ok]
  rw [assert_close h2]
  rfl

theorem args_operand (hc' : Consumes rec') (hz : Zero rec') {t : St} {rest : Bytes}
    (h : t.rest = c!"0" :: c!")" :: rest) (as : List Elem) :
    ∃ bs t', args cfg rec' as t = .ok bs t' ∧ t'.rest = c!")" :: rest := by
  obtain ⟨e, t1, h1, h2⟩ := hz t rest h
  have hcl : Cl t1.rest := .inr (by rw [h2]; rfl)
  refine ⟨as ++ [e], t1, ?_, h2⟩
  rw [args_unfold hc']
  simp only [argument, h1, R.bind_ok]
  rw [trim_cl hcl, h2]
  rfl

/-- Everything is read when a failure at the beginning is repaired by an operand. -/
theorem fixes_operand (hz : Zero rec') {K : Nat} {s : St} (hK : K = (trim s).pos) :
    Fixes cfg (atom cfg ctx' rec') s K Cl operand := by
  have l := le_trim s
  have lt := l.total
  have lp := l.pos
  refine ⟨by omega, by omega, fill_operand, ?_⟩
  intro rest _ t h
  have h1 := h.trim (by omega)
  obtain ⟨a, t', h2, h3⟩ := atom_operand (cfg := cfg) (ctx' := ctx') hz (h1.tail_eq hK.symm)
  exact .inl ⟨a, t', h2, h3⟩

theorem fail_number {e : PErr} {s' : St} (hx : parseNumber s = .err e s') : pt e s' = s.pos := by
  have l := (le_numEnd s)
  have lt := l.total
  have lp := l.pos
  unfold parseNumber at hx
  simp only at hx
  split at hx
  · simp at hx
  · simp only [errNum, R.err.injEq] at hx
    obtain ⟨h1, h2⟩ := hx
    subst h1 h2
    simp only [pt, List.length_take]
    omega

theorem fail_end {α : Type} {e : PErr} {s s' : St} (hx : (errEnd cfg s : R α) = .err e s') :
    pt e s' = s.pos := by
  unfold errEnd at hx
  split at hx
  · simp at hx
  · simp only [R.err.injEq] at hx
    obtain ⟨h1, h2⟩ := hx
    subst h1 h2
    rfl

theorem fail_argument (hf : Fail cfg rec rec') {e : PErr} {s' : St}
    (hx : argument cfg rec s = .err e s') :
    ∃ tail, (s.pos < pt e s' ∨ tail ≠ []) ∧ Fixes cfg (argument cfg rec') s (pt e s') Cl tail := by
  unfold argument at hx
  split at hx
  · rename_i e0 s0 h0
    have : pt e s' = pt e0 s0 := by
      split at hx
      · rename_i c hk
        unfold errMissing at hx
        split at hx
        · simp at hx
        · simp only [R.err.injEq] at hx
          obtain ⟨h1, h2⟩ := hx
          subst h1 h2
          simp [pt, hk]
      · simp only [R.err.injEq] at hx
        obtain ⟨h1, h2⟩ := hx
        subst h1 h2
        rfl
    rw [this]
    obtain ⟨tail, h0, h1, h2, h3, h4⟩ := hf _ _ _ _ h0
    refine ⟨tail, h0, h1, h2, h3, fun rest hq t ht => ?_⟩
    rcases h4 rest hq t ht with ⟨a, t', h5, h6⟩ | ⟨ho, p, h5⟩
    · exact .inl ⟨a, t', by simp [argument, h5], h6⟩
    · exact .inr ⟨ho, p, by simp [argument, h5]⟩
  · rename_i h
    exact absurd hx (h e s')

/-- Begins with a closing parenthesis. -/
def Close (l : Bytes) : Prop := l.head? = some c!")"

theorem fail_args (hc : Consumes rec) (hc' : Consumes rec') (hr : Pass S rec rec')
    (hf : Fail cfg rec rec') : ∀ (n : Nat) (as : List Elem) (s : St) (e : PErr) (s' : St),
      parseArgs cfg rec n as s = .err e s' → ∃ tail, ∀ as',
        Fixes cfg (args cfg rec' as') s (pt e s') Close tail
  | 0, _, _, _, _, hx => by simp [parseArgs] at hx
  | n + 1, as, s, e, s', hx => by
    rw [parseArgs] at hx
    cases h1 : argument cfg rec s with
    | err e0 s0 =>
      rw [h1] at hx
      simp only [R.bind_err, R.err.injEq] at hx
      obtain ⟨h2, h3⟩ := hx
      subst h2 h3
      obtain ⟨tail, -, h1, h2, h3, h4⟩ := fail_argument hf h1
      refine ⟨tail, fun as' => ⟨h1, h2, h3, fun rest hq t ht => ?_⟩⟩
      have hcl : Cl rest := .inr hq
      rw [args_unfold hc']
      refine (h4 rest hcl t ht).bind fun a t' h6 => .inl ⟨as' ++ [a], t', ?_, h6⟩
      rw [trim_cl (by rw [h6]; exact hcl), h6, hq]
      rfl
    | ok a s1 =>
      rw [h1] at hx
      simp only [R.bind_ok] at hx
      have l0 := (hc _ _ _ _ (argument_ok h1)).le
      have l := le_trim s1
      have lt := l.total
      have lp := l.pos
      have l0t := l0.total
      have l0p := l0.pos
      -- a failure right behind the argument
      have behind : pt e s' = (trim s1).pos → ∃ tail, ∀ as',
          Fixes cfg (args cfg rec' as') s (pt e s') Close tail := by
        intro hp
        rw [hp]
        refine ⟨[], fun as' => ⟨by omega, by omega, fill_nil, fun rest hq t ht => ?_⟩⟩
        have hcl : Cl rest := .inr hq
        obtain ⟨a', t1, h3, -, h4⟩ := pass_argument hr h1 ht
          (by by_cases h5 : s1.pos = (trim s1).pos
              · exact .inr ⟨h5, hcl⟩
              · exact .inl (by omega))
        have h5 := h4.trim (Nat.le_refl _)
        have h6 : (trim t1).rest = rest := h5.tail_eq rfl
        refine .inl ⟨as' ++ [a'], trim t1, ?_, h6⟩
        rw [args_unfold hc', h3]
        simp only [R.bind_ok]
        rw [h6, hq]
        rfl
      split at hx
      · rename_i c hcc
        split at hx
        · obtain ⟨tail, hfx⟩ := fail_args hc hc' hr hf n _ _ _ _ hx
          obtain ⟨h3, h4, h5, -⟩ := hfx []
          have e1 : (adv (trim s1) 1).pos = (trim s1).pos + 1 := rfl
          have l1 := (lt_one hcc).le.total
          refine ⟨tail, fun as' => ⟨by omega, by omega, h5, fun rest hq t ht => ?_⟩⟩
          obtain ⟨a', t1, h6, -, h7⟩ := pass_argument hr h1 ht (.inl (by omega))
          have h8 := h7.trim (by omega)
          have h9 := h8.head (by omega)
          have h10 := (hfx (as' ++ [a'])).2.2.2 rest hq _ (h8.adv (n := 1) (by omega))
          rw [args_unfold hc', h6]
          simp only [R.bind_ok]
          rw [← h9, hcc]
          simp only
          rw [if_pos ‹_›]
          exact h10
        · split at hx
          · simp at hx
          · simp only [errTok, R.err.injEq] at hx
            obtain ⟨h2, h3⟩ := hx
            subst h2 h3
            exact behind rfl
      · exact behind (fail_end hx)
    | panic p => rw [h1] at hx; simp at hx
    | fuel => rw [h1] at hx; simp at hx

theorem args_head (hc : Consumes rec) : ∀ (n : Nat) (as : List Elem) (s : St) (bs : List Elem)
    (s' : St), parseArgs cfg rec n as s = .ok bs s' → (trim s').rest.head? = some c!")"
  | 0, _, _, _, _, h => by simp [parseArgs] at h
  | n + 1, as, s, bs, s', h => by
    rw [parseArgs] at h
    obtain ⟨arg, s1, h1, h2⟩ := R.bind_eq_ok h
    simp only at h2
    split at h2
    · rename_i c hcc
      split at h2
      · exact args_head hc n _ _ _ _ h2
      · split at h2
        · rename_i h3
          simp only [R.ok.injEq] at h2
          rw [← h2.2, trim_trim, hcc, h3]
        · simp [errTok] at h2
    · exact absurd h2 errEnd_ne_ok

theorem fail_ident (hl : Loosened ctx ctx') (hc : Consumes rec) (hc' : Consumes rec')
    (hz : Zero rec') (hr : Pass S rec rec') (hf : Fail cfg rec rec') {e : PErr} {s' : St}
    (hx : parseIdent cfg ctx rec s = .err e s') (hn : s.pos < (skipWhile isIdChar s).pos) :
    ∃ tail, s.pos < pt e s' ∧ Fixes cfg (parseIdent cfg ctx' rec') s (pt e s') Cl tail := by
  have hl := hl.2 (s.rest.takeWhile isIdChar)
  have l0 := le_skipWhile isIdChar s
  have l1 := le_trim (skipWhile isIdChar s)
  have l0t := l0.total
  have l0p := l0.pos
  have l1t := l1.total
  have l1p := l1.pos
  unfold parseIdent at hx
  simp only at hx
  split at hx
  · simp at hx
  · simp at hx
  · rename_i f hx'
    rw [hx'] at hl
    split at hx
    · rename_i hp
      obtain ⟨hp1, hp2⟩ := consumeIf_true hp
      have e1 : (adv (trim (skipWhile isIdChar s)) 1).pos
        = (trim (skipWhile isIdChar s)).pos + 1 := rfl
      have l2t := (lt_one hp1).le.total
      rw [hp2] at hx
      -- what happens up to the parenthesis
      have up : ∀ {K : Nat} {tail : Bytes} {t : St}, AgV K tail s t →
          (trim (skipWhile isIdChar s)).pos + 1 ≤ K →
          AgV K tail (adv (trim (skipWhile isIdChar s)) 1) (adv (trim (skipWhile isIdChar t)) 1) ∧
          parseIdent cfg ctx' rec' t =
            (args cfg rec' [] (adv (trim (skipWhile isIdChar t)) 1)).bind fun as s3 =>
              (assertConsume c!")" s3).bind fun _ s4 =>
                .ok (.call { f with nbArgs := none } as) s4 := by
        intro K tail t ht hk
        obtain ⟨h6, h7⟩ := (ht.skip skips_id (by omega)).eat hp1 hk
        refine ⟨h7, ?_⟩
        unfold parseIdent
        simp only
        rw [← ht.takeWhile skips_id (by omega), hl]
        simp only [h6, if_true]
        rw [args]
        rfl
      cases h1 : parseArgs cfg rec ((adv (trim (skipWhile isIdChar s)) 1).rest.length + 1) []
          (adv (trim (skipWhile isIdChar s)) 1) with
      | err e0 s0 =>
        rw [h1] at hx
        simp only [R.bind_err, R.err.injEq] at hx
        obtain ⟨h2, h3⟩ := hx
        subst h2 h3
        obtain ⟨tail, hfx⟩ := fail_args hc hc' hr hf _ _ _ _ _ h1
        obtain ⟨h2, h3, h4, h5⟩ := hfx []
        refine ⟨tail ++ [c!")"], by omega, by omega, by omega, fill_append h4, fun rest hq t ht => ?_⟩
        · rw [List.append_assoc] at ht
          obtain ⟨h6, h7⟩ := up ht (by omega)
          rw [h7]
          refine (h5 ([c!")"] ++ rest) rfl _ h6).bind fun as t3 h9 => ?_
          rw [assert_close h9]
          exact .inl ⟨_, _, rfl, rfl⟩
      | ok as s3 =>
        rw [h1] at hx
        simp only [R.bind_ok] at hx
        have hh := args_head hc _ _ _ _ _ h1
        have e2 : assertConsume c!")" s3 = .ok () (adv (trim s3) 1) := by
          simp [assertConsume, consumeIf, hh]
        rw [e2] at hx
        simp only [R.bind_ok] at hx
        have hp' : pt e s' = (adv (trim s3) 1).pos := by
          unfold checkArity at hx
          split at hx
          · split at hx
            · simp at hx
            · split at hx
              · simp only [errTooFew, R.err.injEq] at hx
                obtain ⟨h2, h3⟩ := hx
                subst h2 h3
                rfl
              · simp only [errTooMany, R.err.injEq] at hx
                obtain ⟨h2, h3⟩ := hx
                subst h2 h3
                rfl
          · simp at hx
        have l3 := parseArgs_lt hc _ _ _ _ _ h1
        have l3p := l3.pos
        have l3t := l3.le.total
        have l4 := le_trim s3
        have l4p := l4.pos
        have l4t := l4.total
        have l5t := (lt_one hh).le.total
        have e3 : (adv (trim s3) 1).pos = (trim s3).pos + 1 := rfl
        refine ⟨[], by omega, by omega, by omega, fill_nil, fun rest hq t ht => ?_⟩
        obtain ⟨h6, h7⟩ := up ht (by omega)
        obtain ⟨bs, t3, h8, -, h9⟩ := pass_args hc hc' hr _ _ _ _ _ h1 _ _ _ [] .nil h6 (by omega)
        obtain ⟨t4, h10, h11⟩ := pass_assert e2 h9 (by omega)
        rw [h7, h8]
        simp only [R.bind_ok]
        rw [h10]
        exact .inl ⟨_, _, rfl, h11.tail_eq hp'.symm⟩
      | panic p => rw [h1] at hx; simp at hx
      | fuel => rw [h1] at hx; simp at hx
    · rename_i hp
      simp only [Bool.not_eq_true] at hp
      rw [(consumeIf_false hp).2] at hx
      simp only [errExpected, R.err.injEq] at hx
      obtain ⟨h2, h3⟩ := hx
      subst h2 h3
      have hp' : pt ⟨.expectedToken c!"(", (trim (skipWhile isIdChar s)).pos, 0⟩
        (trim (skipWhile isIdChar s)) = (trim (skipWhile isIdChar s)).pos := rfl
      rw [hp']
      refine ⟨operand, by omega, by omega, by omega, fill_operand, fun rest hq t ht => ?_⟩
      have h6 := (ht.skip skips_id (by omega)).trim (Nat.le_refl _)
      have h7 := h6.tail_eq rfl
      unfold parseIdent
      simp only
      rw [← ht.takeWhile skips_id (by omega), hl]
      have h8 : consumeIf c!"(" (skipWhile isIdChar t)
          = (true, adv (trim (skipWhile isIdChar t)) 1) := by
        unfold consumeIf
        rw [if_pos (by rw [h7]; rfl)]
      simp only [h8, if_true]
      obtain ⟨bs, t3, h9, h10⟩ := args_operand (cfg := cfg) hc' hz
        (t := adv (trim (skipWhile isIdChar t)) 1) (rest := rest)
        (by simp [adv, h7, operand]) []
      rw [args] at h9
      rw [h9]
      simp only [R.bind_ok]
      rw [assert_close h10]
      simp only [R.bind_ok]
      exact .inl ⟨_, _, checkArity_free rfl _ _ _, rfl⟩

theorem fail_unary (hf : Fail cfg rec rec') {p : Nat} {op : Op} {e : PErr} {s' : St}
    (hx : ((rec p s).bind fun e s' => R.ok (Elem.un op e) s') = .err e s') :
    ∃ tail, (s.pos < pt e s' ∨ tail ≠ []) ∧ Fixes cfg (rec' p) s (pt e s') Cl tail := by
  cases h1 : rec p s with
  | err e0 s0 =>
    rw [h1] at hx
    simp only [R.bind_err, R.err.injEq] at hx
    obtain ⟨h2, h3⟩ := hx
    subst h2 h3
    exact hf _ _ _ _ h1
  | ok a s1 => rw [h1] at hx; simp at hx
  | panic p => rw [h1] at hx; simp at hx
  | fuel => rw [h1] at hx; simp at hx

theorem fail_atom (hl : Loosened ctx ctx') (hc : Consumes rec) (hc' : Consumes rec')
    (hz : Zero rec') (hr : Pass S rec rec') (hf : Fail cfg rec rec') {e : PErr} {s' : St}
    (hx : atom cfg ctx rec s = .err e s') :
    ∃ tail, (s.pos < pt e s' ∨ tail ≠ []) ∧
      Fixes cfg (atom cfg ctx' rec') s (pt e s') Cl tail := by
  have l := le_trim s
  have lt := l.total
  have lp := l.pos
  unfold atom at hx
  simp only at hx
  split at hx
  · exact ⟨operand, .inr (by simp [operand]), fixes_operand hz (fail_end hx)⟩
  rename_i c hcc
  have e1 : (adv (trim s) 1).pos = (trim s).pos + 1 := rfl
  have l1t := (lt_one hcc).le.total
  split at hx
  · exact ⟨operand, .inr (by simp [operand]), fixes_operand hz (fail_number hx)⟩
  rename_i hd
  split at hx
  · rename_i hi
    obtain ⟨tail, h0, h1, h2, h3, h4⟩ := fail_ident hl hc hc' hz hr hf hx
      (lt_skipWhile hcc (isIdStart_isIdChar hi)).pos
    refine ⟨tail, .inl (by omega), by omega, by omega, h3, fun rest hq t ht => ?_⟩
    have h5 := ht.trim (by omega)
    have h6 := h4 rest hq _ h5
    unfold atom
    simp only [← h5.head h0, hcc]
    rw [if_neg hd, if_pos hi]
    exact h6
  rename_i hi
  split at hx
  · rename_i hp
    obtain ⟨tail, -, h1, h2, h3, h4⟩ := fail_unary hf hx
    refine ⟨tail, .inl (by omega), by omega, by omega, h3, fun rest hq t ht => ?_⟩
    have h5 := ht.trim (by omega)
    unfold atom
    simp only [← h5.head (by omega), hcc]
    rw [if_neg hd, if_neg hi, if_pos hp]
    exact (h4 rest hq _ (h5.adv (n := 1) (by omega))).bind fun a t' h7 =>
      .inl ⟨_, t', rfl, h7⟩
  rename_i hp
  split at hx
  · rename_i hm
    obtain ⟨tail, -, h1, h2, h3, h4⟩ := fail_unary hf hx
    refine ⟨tail, .inl (by omega), by omega, by omega, h3, fun rest hq t ht => ?_⟩
    have h5 := ht.trim (by omega)
    unfold atom
    simp only [← h5.head (by omega), hcc]
    rw [if_neg hd, if_neg hi, if_neg hp, if_pos hm]
    exact (h4 rest hq _ (h5.adv (n := 1) (by omega))).bind fun a t' h7 =>
      .inl ⟨_, t', rfl, h7⟩
  rename_i hm
  split at hx
  · rename_i ho
    have up : ∀ {K : Nat} {tail : Bytes} {t : St}, AgV K tail s t → (trim s).pos + 1 ≤ K →
        AgV K tail (adv (trim s) 1) (adv (trim t) 1) ∧ atom cfg ctx' rec' t =
          (rec' noPrec (adv (trim t) 1)).bind fun e s' =>
            (assertConsume c!")" s').bind fun _ s'' => .ok e s'' := by
      intro K tail t ht hk
      have h5 := ht.trim (by omega)
      refine ⟨h5.adv hk, ?_⟩
      unfold atom
      simp only [← h5.head (by omega), hcc]
      rw [if_neg hd, if_neg hi, if_neg hp, if_neg hm, if_pos ho]
    cases h1 : rec noPrec (adv (trim s) 1) with
    | err e0 s0 =>
      rw [h1] at hx
      simp only [R.bind_err, R.err.injEq] at hx
      obtain ⟨h2, h3⟩ := hx
      subst h2 h3
      obtain ⟨tail, -, h2, h3, h4, h5⟩ := hf _ _ _ _ h1
      refine ⟨tail ++ [c!")"], .inl (by omega), by omega, by omega, fill_append h4, fun rest hq t ht => ?_⟩
      · rw [List.append_assoc] at ht
        obtain ⟨h6, h7⟩ := up ht (by omega)
        rw [h7]
        refine (h5 ([c!")"] ++ rest) (.inr rfl) _ h6).bind fun a t3 h9 => ?_
        rw [assert_close h9]
        exact .inl ⟨_, _, rfl, rfl⟩
    | ok a s1 =>
      rw [h1] at hx
      simp only [R.bind_ok] at hx
      have l1 := (hc _ _ _ _ h1).le
      have l1p := l1.pos
      have l1t := l1.total
      have l2 := le_trim s1
      have l2p := l2.pos
      have l2t := l2.total
      cases h2 : assertConsume c!")" s1 with
      | ok u s2 => rw [h2] at hx; simp at hx
      | err e0 s0 =>
        rw [h2] at hx
        simp only [R.bind_err, R.err.injEq] at hx
        obtain ⟨h3, h4⟩ := hx
        subst h3 h4
        have hp' : pt e0 s0 = (trim s1).pos := by
          unfold assertConsume at h2
          split at h2
          · simp at h2
          · rename_i h3
            simp only [Bool.not_eq_true] at h3
            rw [(consumeIf_false h3).2] at h2
            simp only [errExpected, R.err.injEq] at h2
            obtain ⟨h3, h4⟩ := h2
            subst h3 h4
            rfl
        rw [hp']
        refine ⟨[c!")"], .inl (by omega), by omega, by omega, fill_close, fun rest hq t ht => ?_⟩
        obtain ⟨h6, h7⟩ := up ht (by omega)
        obtain ⟨a', t1, h8, _, h9⟩ := hr _ _ _ _ h1 _ _ _ h6
          (by by_cases h5 : s1.pos = (trim s1).pos
              · exact .inr ⟨h5, .inr rfl⟩
              · exact .inl (by omega))
        have h10 := h9.trim (Nat.le_refl _)
        have h11 := h10.tail_eq rfl
        have h12 : assertConsume c!")" t1 = .ok () ⟨(trim t1).pos + 1, rest⟩ := by
          have := assert_close (t := trim t1) (rest := rest) h11
          unfold assertConsume consumeIf at this ⊢
          rw [trim_trim] at this
          exact this
        rw [h7, h8]
        simp only [R.bind_ok]
        rw [h12]
        exact .inl ⟨_, _, rfl, rfl⟩
      | panic p => rw [h2] at hx; simp at hx
      | fuel => rw [h2] at hx; simp at hx
    | panic p => rw [h1] at hx; simp at hx
    | fuel => rw [h1] at hx; simp at hx
  split at hx
  · simp only [errTok, R.err.injEq] at hx
    obtain ⟨h2, h3⟩ := hx
    subst h2 h3
    exact ⟨operand, .inr (by simp [operand]), fixes_operand hz rfl⟩
  · simp only [errIllegal, R.err.injEq] at hx
    obtain ⟨h2, h3⟩ := hx
    subst h2 h3
    exact ⟨operand, .inr (by simp [operand]), fixes_operand hz rfl⟩

theorem fail_loop (hs' : Parallel cfg w ctx S) (hc : Consumes rec) (hc' : Consumes rec') (hr : Pass S rec rec')
    (hf : Fail cfg rec rec') (p : Nat) : ∀ (n : Nat) (a : Elem) (s : St) (e : PErr) (s' : St),
      opLoop cfg rec p n a s = .err e s' → ∃ tail,
        (s.pos ≤ pt e s' ∧ pt e s' ≤ s.pos + s.rest.length ∧ Filler tail) ∧
        (s.pos < pt e s' ∨ tail = []) ∧
        ∀ a' : Elem, S a a' → Fixes cfg (loop cfg rec' p a') s (pt e s') Cl tail
  | 0, _, _, _, _, hx => by simp [opLoop] at hx
  | n + 1, a, s, e, s', hx => by
    have l := le_trim s
    have lt := l.total
    have lp := l.pos
    rw [opLoop] at hx
    split at hx
    · simp at hx
    rename_i op q k hi
    have l0 := opInfo_le hi
    have l0t := l0.total
    have e1 : (adv (trim s) k).pos = (trim s).pos + k := rfl
    have up : ∀ {K : Nat} {tail : Bytes} {t : St}, AgV K tail s t → (trim s).pos + k ≤ K →
        (trim s).pos < K → ∀ a' : Elem, S a a' →
        AgV K tail (adv (trim s) k) (adv (trim t) k) ∧ loop cfg rec' p a' t =
          (rec' q (adv (trim t) k)).bind fun rhs s2 => loop cfg rec' p (.bin op a' rhs) s2 := by
      intro K tail t ht hk hk' a' ha
      have h3 := ht.trim (by omega)
      refine ⟨h3.adv hk, ?_⟩
      rw [loop_unfold hc']
      have h4 : opInfo cfg a' p (trim t) = some (op, q, k) := by
        rw [opInfo_isNum (hs'.isNum ha), ← opInfo_head (h3.head hk'), hi]
      rw [h4]
    cases h1 : rec q (adv (trim s) k) with
    | err e0 s0 =>
      rw [h1] at hx
      simp only [R.bind_err, R.err.injEq] at hx
      obtain ⟨h2, h3⟩ := hx
      subst h2 h3
      obtain ⟨tail, -, h2, h3, h4, h5⟩ := hf _ _ _ _ h1
      by_cases hK : pt e0 s0 = (trim s).pos
      · -- the right operand is left out
        rw [hK]
        refine ⟨[], ⟨by omega, by omega, fill_nil⟩, .inr rfl, fun a' ha => ⟨by omega, by omega, fill_nil, fun rest hq t ht => ?_⟩⟩
        have h6 := ht.trim (Nat.le_refl _)
        have h7 : (trim t).rest = rest := h6.tail_eq rfl
        refine .inl ⟨a', trim t, ?_, h7⟩
        rw [loop_unfold hc', opInfo_cl (by rw [h7]; exact hq)]
      · refine ⟨tail, ⟨by omega, by omega, h4⟩, .inl (by omega), fun a' ha => ⟨by omega, by omega, h4,
          fun rest hq t ht => ?_⟩⟩
        obtain ⟨h6, h7⟩ := up ht (by omega) (by omega) a' ha
        rw [h7]
        exact (h5 rest hq _ h6).bind fun b t2 h9 =>
          .inl ⟨.bin op a' b, t2, loop_cl hc' (by rw [h9]; exact hq) _ _, h9⟩
    | ok b s2 =>
      rw [h1] at hx
      simp only [R.bind_ok] at hx
      have l1 := hc _ _ _ _ h1
      have l1p := l1.pos
      have l1t := l1.le.total
      obtain ⟨tail, h3', h2, h3⟩ := fail_loop hs' hc hc' hr hf p n _ _ _ _ hx
      obtain ⟨h4, h5, h6⟩ : s2.pos ≤ pt e s' ∧ pt e s' ≤ s2.pos + s2.rest.length ∧ Filler tail :=
        h3'
      refine ⟨tail, ⟨by omega, by omega, h6⟩, .inl (by omega), fun a' ha => ⟨by omega, by omega, h6,
        fun rest hq t ht => ?_⟩⟩
      obtain ⟨h7, h8⟩ := up ht (by omega) (by omega) a' ha
      obtain ⟨b', t2, h9, h9', h10⟩ := hr _ _ _ _ h1 _ _ _ h7
        (by rcases h2 with h2 | h2
            · exact .inl h2
            · by_cases h11 : s2.pos = pt e s'
              · exact .inr ⟨h11, by rw [h2]; exact hq⟩
              · exact .inl (by omega))
      rw [h8, h9]
      exact (h3 (.bin op a' b') (hs'.bin _ ha h9')).2.2.2 rest hq _ h10
    | panic p => rw [h1] at hx; simp at hx
    | fuel => rw [h1] at hx; simp at hx

theorem fail_elementF (hs' : Parallel cfg w ctx S) (hl : Loosened ctx ctx') (hc : Consumes rec)
    (hc' : Consumes rec') (hz : Zero rec') (hr : Pass S rec rec') (hf : Fail cfg rec rec') :
    Fail cfg (elementF cfg w ctx rec) (elementF cfg w ctx' rec') := by
  intro p s e s' hx
  unfold elementF at hx
  cases h1 : atom cfg ctx rec s with
  | err e0 s0 =>
    rw [h1] at hx
    simp only [R.bind_err, R.err.injEq] at hx
    obtain ⟨h2, h3⟩ := hx
    subst h2 h3
    obtain ⟨tail, h1, h2, h3, h4, h5⟩ := fail_atom hl hc hc' hz hr hf h1
    exact ⟨tail, h1, h2, h3, h4, fun rest hq t ht => elementF_after hc' (h5 rest hq t ht) hq p⟩
  | ok a s1 =>
    rw [h1] at hx
    simp only [R.bind_ok] at hx
    have l0 := atom_lt hc h1
    have l0p := l0.pos
    have l0t := l0.le.total
    have l1 := le_consumeIf c!"!" s1
    have l1p := l1.pos
    have l1t := l1.total
    cases h2 : opLoop cfg rec p ((consumeIf c!"!" s1).2.rest.length + 1)
        (if (consumeIf c!"!" s1).1 then .un .factorial a else a) (consumeIf c!"!" s1).2 with
    | err e0 s0 =>
      rw [h2] at hx
      simp only [R.bind_err, R.err.injEq] at hx
      obtain ⟨h3, h4⟩ := hx
      subst h3 h4
      obtain ⟨tail, ⟨h5, h6, h7⟩, h3, h4⟩ := fail_loop hs' hc hc' hr hf p _ _ _ _ _ h2
      refine ⟨tail, .inl (by omega), by omega, by omega, h7, fun rest hq t ht => ?_⟩
      obtain ⟨a', t1, h8, h9, h10⟩ := pass_atom hs' hl hc hc' hr h1 ht
        (by rcases h3 with h3 | h3
            · exact .inl (by omega)
            · by_cases h11 : s1.pos = pt e0 s0
              · exact .inr ⟨h11, by rw [h3]; exact hq⟩
              · exact .inl (by omega))
      obtain ⟨h11, h12⟩ := h10.consumeIf (c := c!"!") (by decide) (by decide) (by omega)
      have h13 := (h4 (if (consumeIf c!"!" s1).1 then .un .factorial a' else a')
        (by split
            · exact hs'.un _ h9
            · exact h9)).2.2.2 rest hq _ h12
      unfold elementF
      rw [h8]
      simp only [R.bind_ok]
      rw [h11]
      rw [loop] at h13
      refine h13.bind fun b t3 h14 => ?_
      subst h14
      exact finish_reads _ _
    | ok b s3 =>
      rw [h2] at hx
      simp only [R.bind_ok] at hx
      unfold finish at hx
      split at hx
      · split at hx <;> simp at hx
      · simp at hx
    | panic p => rw [h2] at hx; simp at hx
    | fuel => rw [h2] at hx; simp at hx
  | panic p => rw [h1] at hx; simp at hx
  | fuel => rw [h1] at hx; simp at hx

theorem fail_element (hs' : Parallel cfg w ctx S) (hl : Loosened ctx ctx') :
    ∀ n, Fail cfg (element cfg w ctx n) (elem cfg w ctx')
  | 0 => fun _ _ _ _ hx => by simp [element] at hx
  | n + 1 => by
    intro p s e s' hx
    rw [element] at hx
    obtain ⟨tail, h0, h1, h2, h3, h4⟩ := fail_elementF hs' hl (element_consumes cfg w ctx n)
      (elem_consumes cfg w ctx') zero_elem (pass_element hs' hl n) (fail_element hs' hl n)
      p s e s' hx
    refine ⟨tail, h0, h1, h2, h3, fun rest hq t ht => ?_⟩
    rw [elem_unfold]
    exact h4 rest hq t ht

end Xprs
