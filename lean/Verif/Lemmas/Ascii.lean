import Verif.Lemmas.Invariants
import Verif.Lemmas.Parse
import Verif.Spec.Utf8
/-
The parser only moves over ASCII bytes.
-/
namespace Xprs
open Spec
set_option linter.unusedSimpArgs false

/-- Only ASCII bytes are consumed. -/
def Over (s s' : St) : Prop := ∃ pre, Eats s pre s' ∧ ∀ c ∈ pre, c < 128

theorem Over.refl (s : St) : Over s s := ⟨[], .refl s, by simp⟩
theorem Over.trans {a b c : St} (h : Over a b) (h' : Over b c) : Over a c := by
  obtain ⟨p, hp, h1⟩ := h; obtain ⟨q, hq, h2⟩ := h'
  exact ⟨_, hp.trans hq, fun c hc => (List.mem_append.1 hc).elim (h1 c) (h2 c)⟩
theorem Over.le {a b : St} (h : Over a b) : Le a b := h.elim fun p hp => ⟨p, hp.1⟩

theorem over_skipWhile {p : UInt8 → Bool} (hp : ∀ c, p c = true → c < 128) (s : St) :
    Over s (skipWhile p s) :=
  ⟨_, eats_skipWhile p s, fun c hc => hp c (mem_takeWhile c hc)⟩

theorem ws_ascii : ∀ c, isWs c = true → c < 128 := forall_byte (by decide +kernel)
theorem idChar_ascii : ∀ c, isIdChar c = true → c < 128 := forall_byte (by decide +kernel)
theorem mant_ascii : ∀ c, mantChar c → c < 128 := forall_byte (by decide +kernel)
theorem dig_ascii : ∀ c, digit c → c < 128 := forall_byte (by decide +kernel)
theorem op_ascii : ∀ c op, opOfByte c = some op → c < 128 := by
  intro c op h; rw [opOfByte_iff] at h; subst h; cases op <;> decide

theorem over_trim (s : St) : Over s (trim s) := over_skipWhile ws_ascii s

theorem over_one {s : St} {c : UInt8} (h : s.rest.head? = some c) (hc : c < 128) : Over s (adv s 1) :=
  ⟨_, eats_one h, by simpa using hc⟩

theorem over_consumeIf {c : UInt8} (hc : c < 128) (s : St) : Over s (consumeIf c s).2 := by
  unfold consumeIf
  split
  · exact (over_trim s).trans (over_one (by assumption) hc)
  · exact over_trim s

theorem over_numEnd (s : St) : Over s (numEnd s) := by
  obtain ⟨mant, ex, hm, _, hsh, he⟩ := numEnd_spec s
  refine ⟨_, he, fun b hb => ?_⟩
  rcases List.mem_append.1 hb with hb | hb
  · exact mant_ascii b (hm b hb)
  · revert hsh
    generalize (numEnd s).rest = r
    intro hsh
    cases hsh with
    | plain => cases hb
    | exp e sg ds _ h1 h2 h3 h4 _ =>
      have hb' : b = e ∨ b ∈ sg ∨ b ∈ ds := by simpa [or_assoc] using hb
      rcases hb' with rfl | hb' | hb'
      · rcases h1 with rfl | rfl <;> decide
      · rcases h2 with rfl | rfl | rfl
        · cases hb'
        · simp at hb'; subst hb'; decide
        · simp at hb'; subst hb'; decide
      · exact dig_ascii b (h4 b hb')

/-- Where an error points, relative to the state in which it arises. -/
def Points (e : PErr) (s : St) : Prop :=
  (e.kind ≠ .missingArgument ∧ e.kind ≠ .unexpectedEnd ∧ e.off + e.len ≤ s.pos) ∨
  (e.kind = .unexpectedEnd ∧ s.rest = []) ∨
  (e.kind = .missingArgument ∧ e.off + 1 = s.pos ∧ e.len = 2)

/-- From `s` only ASCII bytes are consumed, and errors point to consumed bytes. -/
def Clean {α : Type} (s : St) (x : R α) : Prop :=
  match x with
  | .ok _ s' => Over s s'
  | .err e s' => Over s s' ∧ Points e s'
  | .panic _ => True
  | .fuel => True

theorem Clean.after {α : Type} {s s' : St} {x : R α} (h : Over s s') (h' : Clean s' x) : Clean s x := by
  cases x with
  | ok => exact h.trans h'
  | err => exact ⟨h.trans h'.1, h'.2⟩
  | panic => trivial
  | fuel => trivial

theorem Clean.bind {α β : Type} {s : St} {x : R α} {f : α → St → R β} (h : Clean s x)
    (hf : ∀ a s', Over s s' → Clean s' (f a s')) : Clean s (x.bind f) := by
  cases x with
  | ok a s' => exact (hf a s' h).after h
  | err => exact h
  | panic => trivial
  | fuel => trivial

theorem clean_errEnd {α : Type} {cfg : Cfg} {s : St} (h : s.rest.head? = none) : Clean s (errEnd cfg s : R α) := by
  unfold errEnd
  split
  · trivial
  · exact ⟨.refl s, .inr (.inl ⟨rfl, by simpa using h⟩)⟩

theorem clean_errTok {α : Type} (s : St) (c : UInt8) : Clean s (errTok s c : R α) :=
  ⟨.refl s, .inl ⟨by simp, by simp, by simp⟩⟩
theorem clean_errIllegal {α : Type} (s : St) (c : UInt8) : Clean s (errIllegal s c : R α) :=
  ⟨.refl s, .inl ⟨by simp, by simp, by simp⟩⟩
theorem clean_errExpected {α : Type} (s : St) (c : UInt8) : Clean s (errExpected s c : R α) :=
  ⟨.refl s, .inl ⟨by simp, by simp, by simp⟩⟩

theorem clean_assert {c : UInt8} (hc : c < 128) (s : St) : Clean s (assertConsume c s) := by
  unfold assertConsume
  split
  · exact over_consumeIf hc s
  · exact (clean_errExpected _ c).after (over_consumeIf hc s)

theorem clean_number (s : St) : Clean s (parseNumber s) := by
  unfold parseNumber
  dsimp only
  split
  · exact over_numEnd s
  · refine ⟨over_numEnd s, .inl ⟨by simp, by simp, ?_⟩⟩
    have h1 := (over_numEnd s).le.pos
    have h2 : (s.rest.take ((numEnd s).pos - s.pos)).length ≤ (numEnd s).pos - s.pos := List.length_take_le _ _
    show (numEnd s).pos - (s.rest.take ((numEnd s).pos - s.pos)).length +
      (s.rest.take ((numEnd s).pos - s.pos)).length ≤ (numEnd s).pos
    omega

theorem clean_arity (f : Func) (args : List Elem) (start : Nat) (s : St) (h : start ≤ s.pos) :
    Clean s (checkArity f args start s) := by
  unfold checkArity
  split
  · split
    · exact .refl s
    · split
      · exact ⟨.refl s, .inl ⟨by simp, by simp, by show start + (s.pos - start) ≤ s.pos; omega⟩⟩
      · exact ⟨.refl s, .inl ⟨by simp, by simp, by show start + (s.pos - start) ≤ s.pos; omega⟩⟩
  · exact .refl s

/-- A recursive call that is clean. -/
def CleanRec (rec : Nat → St → R Elem) : Prop := ∀ p s, Clean s (rec p s)

section
variable {cfg : Cfg} {rec : Nat → St → R Elem} (hr : CleanRec rec)
include hr

theorem clean_argument {s : St} (hs : 0 < s.pos) : Clean s (argument cfg rec s) := by
  have h := hr noPrec s
  unfold argument
  revert h
  cases rec noPrec s with
  | ok => exact id
  | err e s' =>
    intro h
    dsimp only
    split
    · unfold errMissing subOne
      have := h.1.le.pos
      rw [if_neg (by omega)]
      exact ⟨h.1, .inr (.inr ⟨rfl, by show s'.pos - 1 + 1 = s'.pos; omega, rfl⟩)⟩
    · exact h
  | panic => exact id
  | fuel => exact id

theorem clean_args : ∀ (fuel : Nat) (args : List Elem) (s : St), 0 < s.pos →
    Clean s (parseArgs cfg rec fuel args s)
  | 0, _, _, _ => trivial
  | fuel + 1, args, s, hs => by
    unfold parseArgs
    refine (clean_argument hr hs).bind fun arg s1 h1 => ?_
    have hp : 0 < (trim s1).pos := by
      have := h1.le.pos; have := (le_trim s1).pos; omega
    refine Clean.after (over_trim s1) ?_
    dsimp only
    split
    · rename_i c hc
      split
      · subst_vars
        have hc' := over_one hc (by decide)
        exact (clean_args fuel _ _ (by show 0 < (trim s1).pos + 1; omega)).after hc'
      · split
        · exact .refl _
        · exact clean_errTok _ c
    · rename_i hc
      exact clean_errEnd hc

theorem clean_ident (ctx : Context) (s : St) : Clean s (parseIdent cfg ctx rec s) := by
  have h0 := over_skipWhile idChar_ascii s
  unfold parseIdent
  dsimp only
  split
  · exact h0
  · exact h0
  · have h1 : Over s (consumeIf c!"(" (skipWhile isIdChar s)).2 := h0.trans (over_consumeIf (by decide) _)
    split
    · rename_i hc
      refine Clean.after h1 ?_
      have hp : 0 < (consumeIf c!"(" (skipWhile isIdChar s)).2.pos := by
        have := (lt_consumeIf hc).pos; omega
      refine (clean_args hr _ _ _ hp).bind fun args s3 h3 => ?_
      refine (clean_assert (by decide) s3).bind fun _ s4 h4 => ?_
      refine clean_arity _ _ _ _ ?_
      have := ((h1.trans h3).trans h4).le.pos
      exact this
    · exact (clean_errExpected _ _).after h1

theorem clean_atom (ctx : Context) (s : St) : Clean s (atom cfg ctx rec s) := by
  refine Clean.after (over_trim s) ?_
  unfold atom
  dsimp only
  split
  · rename_i hc; exact clean_errEnd hc
  · rename_i c hc
    split
    · exact clean_number _
    split
    · exact clean_ident hr ctx _
    split
    · subst_vars
      exact Clean.after (over_one hc (by decide)) ((hr _ _).bind fun e s' _ => .refl s')
    split
    · subst_vars
      exact Clean.after (over_one hc (by decide)) ((hr _ _).bind fun e s' _ => .refl s')
    split
    · subst_vars
      exact Clean.after (over_one hc (by decide)) ((hr _ _).bind fun e s' _ =>
        (clean_assert (by decide) s').bind fun _ s'' _ => .refl s'')
    split
    · exact clean_errTok _ _
    · exact clean_errIllegal _ _

omit hr in
theorem over_opInfo {cfg : Cfg} {el : Elem} {p : Nat} {s : St} {op : Op} {q k : Nat}
    (h : opInfo cfg el p s = some (op, q, k)) : Over s (adv s k) := by
  unfold opInfo at h
  revert h
  split
  · intro h; cases h
  · rename_i c hc
    split
    · rename_i op' ho
      split
      · intro h; cases h
      · intro h; cases h; exact over_one hc (op_ascii _ _ ho)
    · split
      · intro h; cases h
      · split
        · intro h; cases h; exact .refl _
        · split
          · intro h; cases h; exact .refl _
          · intro h; cases h

theorem clean_loop (p : Nat) : ∀ (fuel : Nat) (el : Elem) (s : St), Clean s (opLoop cfg rec p fuel el s)
  | 0, _, _ => trivial
  | fuel + 1, el, s => by
    unfold opLoop
    refine Clean.after (over_trim s) ?_
    dsimp only
    split
    · exact .refl _
    · rename_i op q k ho
      exact Clean.after (over_opInfo ho) ((hr _ _).bind fun rhs s2 _ => clean_loop p fuel _ s2)

end

theorem clean_element (cfg : Cfg) (w : World) (ctx : Context) : ∀ n, CleanRec (element cfg w ctx n)
  | 0, _, _ => trivial
  | n + 1, p, s => by
    have hr := clean_element cfg w ctx n
    rw [element]
    unfold elementF
    refine (clean_atom hr ctx s).bind fun a s1 _ => ?_
    refine Clean.after (over_consumeIf (c := c!"!") (by decide) s1) ?_
    refine (clean_loop hr p _ _ _).bind fun el s3 _ => ?_
    unfold finish
    split
    · split
      · exact .refl _
      · trivial
    · exact .refl _

theorem Over.start {input : Bytes} {s : St} (h : Over ⟨0, input⟩ s) :
    s.pos ≤ input.length ∧ s.rest = input.drop s.pos ∧ ∀ c ∈ input.take s.pos, c < 128 := by
  obtain ⟨pre, ⟨h1, h2⟩, h3⟩ := h
  have h1 : input = pre ++ s.rest := h1
  have h2 : s.pos = pre.length := by simpa using h2
  rw [h2, h1]
  simp only [List.take_left, List.drop_left, List.length_append]
  exact ⟨by omega, by trivial, h3⟩

theorem take_ascii {input : Bytes} {k n : Nat} (h : ∀ c ∈ input.take n, c < 128) (hk : k ≤ n) :
    ∀ c ∈ input.take k, c < 128 := fun c hc =>
  h c ((List.take_prefix_take_left hk).subset hc)

/-- An accepted text is ASCII. -/
theorem parseImpl_ok_ascii {cfg : Cfg} {w : World} {ctx : Context} {input : Bytes} {x : Xpr}
    (h : parseImpl cfg w ctx input = .ok x) : ∀ c ∈ input, c < 128 := by
  have hc := clean_element cfg w ctx (input.length + 1) noPrec ⟨0, input⟩
  unfold parseImpl at h
  revert hc h
  cases element cfg w ctx (input.length + 1) noPrec ⟨0, input⟩ with
  | ok a s =>
    intro h hc
    dsimp only at h
    have hs := ((show Over _ s from hc).trans (over_trim s)).start
    split at h
    · cases h
    · rename_i hn
      have h2 : (trim s).rest = [] := by simpa using hn
      have h4 := hs.2.1
      rw [h2] at h4
      have h5 := (List.drop_eq_nil_iff).1 h4.symm
      have h6 := hs.2.2
      rw [List.take_of_length_le h5] at h6
      exact h6
  | err e' s => intro h; cases h
  | panic => intro h; cases h
  | fuel => intro h; cases h

/-- The empty text. -/
theorem parse_empty {cfg : Cfg} {w : World} {o : Oracle} {ctx : Context} {e : PErr}
    (h : parse cfg w o ctx [] = .err e) : e.kind = .unexpectedEnd := by
  revert h
  unfold parse parseImpl element elementF atom
  simp only [trim, skipWhile, adv, List.takeWhile_nil, List.length_nil, List.drop_nil, List.head?_nil, errEnd]
  cases subOne cfg (0 + 0) with
  | error => intro h; cases h
  | ok a => intro h; cases h; rfl

/-- Everything before an error is ASCII. -/
theorem parse_err_ascii {cfg : Cfg} {w : World} {o : Oracle} {ctx : Context} {input : Bytes} {e : PErr}
    (h : parse cfg w o ctx input = .err e) :
    (e.kind = .unexpectedEnd ∧ ∀ c ∈ input, c < 128) ∨
    (e.kind = .missingArgument ∧ e.len = 2 ∧ e.off + 1 ≤ input.length ∧ ∀ c ∈ input.take (e.off + 1), c < 128) ∨
    (e.kind ≠ .missingArgument ∧ e.kind ≠ .unexpectedEnd ∧ e.off + e.len ≤ input.length ∧
      ∀ c ∈ input.take (e.off + e.len), c < 128) := by
  have hc := clean_element cfg w ctx (input.length + 1) noPrec ⟨0, input⟩
  rcases parse_err h with h | ⟨x, vs, v, h1, _, _, _, rfl⟩
  · unfold parseImpl at h
    revert hc h
    cases element cfg w ctx (input.length + 1) noPrec ⟨0, input⟩ with
    | ok a s =>
      intro hc h
      dsimp only at h
      have hs := ((show Over _ s from hc).trans (over_trim s)).start
      split at h
      · cases h
        exact .inr (.inr ⟨by simp, by simp, hs.1, hs.2.2⟩)
      · cases h
    | err e' s =>
      intro hc h
      cases h
      have hs := hc.1.start
      rcases hc.2 with ⟨h1, h2, h3⟩ | ⟨h1, h2⟩ | ⟨h1, h2, h3⟩
      · exact .inr (.inr ⟨h1, h2, by omega, take_ascii hs.2.2 h3⟩)
      · refine .inl ⟨h1, ?_⟩
        have : input.take s.pos = input := by
          have h4 := hs.2.1
          rw [h2] at h4
          have h5 := (List.drop_eq_nil_iff).1 h4.symm
          exact List.take_of_length_le h5
        rw [this] at hs
        exact hs.2.2
      · exact .inr (.inl ⟨h1, h3, by omega, by rw [h2]; exact hs.2.2⟩)
    | panic => intro _ h; cases h
    | fuel => intro _ h; cases h
  · exact .inr (.inr ⟨by simp, by simp, by simp, fun c hc => parseImpl_ok_ascii h1 c (List.mem_of_mem_take hc)⟩)

/-! ### UTF-8 -/

theorem utf8_append (a b : List Char) : utf8 (a ++ b) = utf8 a ++ utf8 b := List.flatMap_append

/-- The first byte of a character. -/
theorem utf8_head (c : Char) : ∃ b t, String.utf8EncodeChar c = b :: t ∧
    (c.toNat < 128 → t = [] ∧ b.toNat = c.toNat) ∧
    (128 ≤ c.toNat → t ≠ [] ∧ 128 ≤ b.toNat ∧ (b.toNat = c.toNat ↔ c.toNat = 0xC3)) := by
  have hv : c.toNat = c.val.toNat := rfl
  unfold String.utf8EncodeChar
  rw [← hv]
  dsimp only
  have hc : c.toNat < 0x110000 := by
    have := c.valid
    rcases this with h | h
    · have : c.toNat < 0xd800 := h
      omega
    · exact h.2
  generalize c.toNat = v at hc
  split
  · exact ⟨_, _, rfl, fun h => ⟨rfl, by simp; omega⟩, fun h => by omega⟩
  split
  · refine ⟨_, _, rfl, fun h => by omega, fun h => ⟨by simp, ?_⟩⟩
    have hq : v / 64 < 32 := by omega
    simp only [UInt8.toNat_ofNat']
    rw [Nat.mod_eq_of_lt hq, Nat.mod_eq_of_lt (show v / 64 + 0xc0 < 2 ^ 8 by omega)]
    omega
  split
  · refine ⟨_, _, rfl, fun h => by omega, fun h => ⟨by simp, ?_⟩⟩
    simp only [UInt8.toNat_ofNat']
    omega
  · refine ⟨_, _, rfl, fun h => by omega, fun h => ⟨by simp, ?_⟩⟩
    simp only [UInt8.toNat_ofNat']
    omega

/-- A text whose first `k` bytes are ASCII has `k` ASCII characters in front, which are
those bytes. -/
theorem utf8_ascii_prefix : ∀ (cs : List Char) (k : Nat), k ≤ (utf8 cs).length →
    (∀ c ∈ (utf8 cs).take k, c < 128) →
    (utf8 (cs.take k)) = (utf8 cs).take k ∧ k ≤ cs.length ∧ (∀ c ∈ cs.take k, ascii c)
  | _, 0, _, _ => by simp [utf8]
  | [], k + 1, h, _ => by simp [utf8] at h
  | c :: cs, k + 1, h, ha => by
    obtain ⟨b, t, h1, h2, h3⟩ := utf8_head c
    have hu : utf8 (c :: cs) = b :: t ++ utf8 cs := by
      show String.utf8EncodeChar c ++ utf8 cs = _
      rw [h1]
    rw [hu] at h ha
    have hb : b < 128 := ha b (by simp)
    have hb : b.toNat < 128 := hb
    have hc : c.toNat < 128 := by
      rcases Nat.lt_or_ge c.toNat 128 with h | h
      · exact h
      · have := (h3 h).2.1
        omega
    obtain ⟨rfl, h4⟩ := h2 hc
    have ih := utf8_ascii_prefix cs k (by simpa using h) (fun d hd => ha d (by simp [hd]))
    refine ⟨?_, by simpa using ih.2.1, ?_⟩
    · rw [hu]
      show String.utf8EncodeChar c ++ utf8 (cs.take k) = _
      rw [h1, ih.1]
      rfl
    · intro d hd
      rw [List.take_succ_cons, List.mem_cons] at hd
      rcases hd with rfl | hd
      · exact hc
      · exact ih.2.2 d hd

theorem utf8_length_pos (c : Char) (cs : List Char) : 0 < (utf8 (c :: cs)).length := by
  obtain ⟨b, t, h, _⟩ := utf8_head c
  show 0 < (String.utf8EncodeChar c ++ utf8 cs).length
  rw [h]; simp

theorem utf8_eq_nil {cs : List Char} : utf8 cs = [] ↔ cs = [] := by
  cases cs with
  | nil => simp [utf8]
  | cons c cs =>
    have := utf8_length_pos c cs
    constructor
    · intro h; rw [h] at this; cases this
    · intro h; cases h

/-- A text whose first `k` bytes are ASCII continues with a character whose first byte is
the next one. -/
theorem utf8_next {cs : List Char} {k : Nat} (hk : k < (utf8 cs).length)
    (ha : ∀ c ∈ (utf8 cs).take k, c < 128) :
    ∃ a ch b, cs = a ++ ch :: b ∧ a.length = k ∧ (utf8 a).length = k ∧ (∀ c ∈ a, ascii c) ∧
      (utf8 cs)[k]? = (String.utf8EncodeChar ch).head? := by
  obtain ⟨h1, h2, h3⟩ := utf8_ascii_prefix cs k (Nat.le_of_lt hk) ha
  have hl : (utf8 (cs.take k)).length = k := by
    rw [h1, List.length_take]; omega
  cases hd : cs.drop k with
  | nil =>
    have h5 := List.take_append_drop k cs
    rw [hd, List.append_nil] at h5
    rw [h5] at hl
    omega
  | cons ch b =>
    have h5 := (List.take_append_drop k cs).symm
    rw [hd] at h5
    refine ⟨_, ch, b, h5, by rw [List.length_take]; omega, hl, h3, ?_⟩
    have h6 : utf8 cs = utf8 (cs.take k) ++ (String.utf8EncodeChar ch ++ utf8 b) := by
      exact (congrArg utf8 h5).trans (utf8_append _ _)
    obtain ⟨x, t, hx, _⟩ := utf8_head ch
    rw [h6, hx]
    rw [List.getElem?_append_right (by omega), hl]
    simp

/-- A boundary one byte after a boundary, in front of which the text is known. -/
theorem boundary_succ {a b : List Char} {ch : Char} :
    Boundary (a ++ ch :: b) ((utf8 a).length + 1) ↔ ascii ch := by
  obtain ⟨x, t, hx, h1, h2⟩ := utf8_head ch
  have hl : (utf8 [ch]).length = t.length + 1 := by
    show (String.utf8EncodeChar ch ++ utf8 []).length = _
    rw [hx]; simp [utf8]
  constructor
  · rintro ⟨a', b', h, hk⟩
    rcases Nat.lt_or_ge ch.toNat 128 with hc | hc
    · exact hc
    · have ht := List.length_pos_iff.2 (h2 hc).1
      rcases List.append_eq_append_iff.1 h with ⟨m, h3, h4⟩ | ⟨m, h3, h4⟩
      · cases m with
        | nil => subst h3; simp at hk
        | cons d m =>
          rw [List.cons_append, List.cons.injEq] at h4
          obtain ⟨rfl, _⟩ := h4
          have h5 : utf8 a' = utf8 a ++ (utf8 [ch] ++ utf8 m) := by
            rw [h3, utf8_append, ← utf8_append [ch] m]; rfl
          rw [h5, List.length_append, List.length_append, hl] at hk
          omega
      · rw [h3, utf8_append, List.length_append] at hk
        omega
  · intro hc
    refine ⟨a ++ [ch], b, by simp, ?_⟩
    rw [utf8_append, List.length_append, hl, (h1 hc).1]
    rfl

theorem shown_iff (b : UInt8) (c : Char) : shown b = c ↔ b.toNat = c.toNat := by
  have h : (shown b).toNat = b.toNat := UInt8.toNat_toUInt32 b
  constructor
  · rintro rfl; exact h.symm
  · intro h'
    apply Char.ext
    apply UInt32.toNat_inj.1
    exact h.trans h'

end Xprs
