import Verif.Lemmas.ErrorDebug
import Verif.Lemmas.Related
import Verif.Lemmas.Order
import Verif.Props.Shown
import Verif.Props.Utf8
import Verif.Props.CtxEq
/-
Property C114: `{:?}` of an error or a parser.
-/
namespace Xprs
namespace Props
open Spec

/-! ### Errors -/

/-- The strings in an error kind. -/
def TextKind : ErrKind → Prop
  | .malformedNumber s => IsText s
  | .variableNotDeclared v vs => IsText v ∧ ∀ n ∈ vs, IsText n
  | _ => True

theorem kind_inj {plain : Char → Bool} {k k' : ErrKind} (hk : TextKind k) (hk' : TextKind k') {r r' : Bytes}
    (h : k.debug plain ++ c!"," :: r = k'.debug plain ++ c!"," :: r') : k = k' ∧ r = r' := by
  have hd : ¬ (isDigit c!"," = true) := by decide
  have hd' : ¬ (isDigit c!")" = true) := by decide
  cases k <;> cases k' <;> simp only [ErrKind.debug, List.append_assoc] at h <;>
    first
    | (exfalso; simp at h; done)
    | skip
  · exact ⟨rfl, (List.cons.inj (List.append_cancel_left h)).2⟩
  · obtain ⟨rfl, h2⟩ := charDebug_inj (List.append_cancel_left h)
    exact ⟨rfl, List.append_cancel_left (as := b!"),") h2⟩
  · obtain ⟨rfl, h2⟩ := strDebug_inj hk hk' (List.append_cancel_left h)
    exact ⟨rfl, List.append_cancel_left (as := b!"),") h2⟩
  · obtain ⟨rfl, h2⟩ := charDebug_inj (List.append_cancel_left h)
    exact ⟨rfl, List.append_cancel_left (as := b!"),") h2⟩
  · obtain ⟨rfl, h2⟩ := charDebug_inj (List.append_cancel_left h)
    exact ⟨rfl, List.append_cancel_left (as := b!"),") h2⟩
  · obtain ⟨rfl, h2⟩ := strDebug_inj hk.1 hk'.1 (List.append_cancel_left h)
    obtain ⟨rfl, h3⟩ := strs_inj (close := c!"]") (by decide) (by decide) hk.2 hk'.2
      (List.append_cancel_left (as := b!", [") h2)
    exact ⟨rfl, List.append_cancel_left (as := b!"),") h3⟩
  · obtain ⟨rfl, h2⟩ := decimals_inj hd (List.append_cancel_left h)
    obtain ⟨rfl, h3⟩ := decimals_inj hd' (List.append_cancel_left (as := b!" ") h2)
    exact ⟨rfl, (List.cons.inj h3).2⟩
  · obtain ⟨rfl, h2⟩ := decimals_inj hd (List.append_cancel_left h)
    obtain ⟨rfl, h3⟩ := decimals_inj hd' (List.append_cancel_left (as := b!" ") h2)
    exact ⟨rfl, (List.cons.inj h3).2⟩
  · exact ⟨rfl, (List.cons.inj (List.append_cancel_left h)).2⟩

theorem isText_utf8 (cs : List Char) : IsText (utf8 cs) := ⟨cs, rfl⟩

theorem err_text {cfg : Cfg} {w : World} {o : Oracle} {ctx : Context} {input : Bytes} {e : PErr} (ht : TextNames ctx)
    (h : parse cfg w o ctx input = .err e) : TextKind e.kind := by
  rcases parse_err h with h1 | ⟨x, vs, v, h1, h2, h3, h4, rfl⟩
  · have hne : input ≠ [] ∨ e.kind = .unexpectedEnd := by
      by_cases h0 : input = []
      · subst h0; exact .inr (parse_empty h)
      · exact .inl h0
    rcases hne with hne | hk
    · have hr := (parseImpl_good hne).1 e h1
      have ha := parse_err_ascii h
      revert hr ha
      unfold Report
      cases hk : e.kind <;> simp only [TextKind] <;> try (intros; trivial)
      · rename_i txt
        rintro ⟨h2, h3, -⟩ ha
        rcases ha with ⟨h0, _⟩ | ⟨h0, _⟩ | ⟨-, -, -, ha⟩
        · cases h0
        · cases h0
        · refine isText_ascii fun c hc => ha c ?_
          rw [← h3, List.take_drop] at hc
          exact List.mem_of_mem_drop hc
      · rintro ⟨_, h⟩; exact h.elim
    · rw [hk]; trivial
  · refine ⟨?_, fun n hn => ht vs h2 n ((o.perm vs).mem_iff.1 hn)⟩
    obtain ⟨c, tw, _, _, _, _, h5⟩ := parseImpl_ok h1
    rw [h5] at h3
    have ho : Occurs v x.root := by simpa using (mem_findVars _ _ _).1 h3
    exact isText_ascii fun c hc => nameChar_ascii c ((parseImpl_occurs h1 ho).2.1 c hc)

/-- C114, errors of the parser: what `{:?}` writes determines the error and the text it is about (and
follows from them), for all texts and expected variables, with what is written for control characters and
quotation marks, whatever characters std takes to be printable. -/
theorem C114_error (plain : Char → Bool) (cfg cfg' : Cfg) (w w' : World) (o o' : Oracle) (ctx ctx' : Context)
    (cs cs' : List Char) (e e' : PErr) (ht : TextNames ctx) (ht' : TextNames ctx')
    (h : parse cfg w o ctx (utf8 cs) = .err e) (h' : parse cfg' w' o' ctx' (utf8 cs') = .err e') :
    e.debug plain (utf8 cs) = e'.debug plain (utf8 cs') ↔ cs = cs' ∧ e = e' := by
  constructor
  · intro he
    simp only [PErr.debug, List.append_assoc] at he
    obtain ⟨h1, h2⟩ := kind_inj (err_text ht h) (err_text ht' h') (List.append_cancel_left he)
    obtain ⟨h3, h4⟩ := decimals_inj (c := c!")") (by decide)
      (List.append_cancel_left (as := b!" span: SourceSpan { offset: SourceOffset(") h2)
    obtain ⟨h5, h6⟩ := decimals_inj (c := c!" ") (by decide) (List.append_cancel_left (as := b!", length: ") h4)
    obtain ⟨h7, -⟩ := strDebug_inj (isText_utf8 _) (isText_utf8 _) (List.append_cancel_left (as := b!"}, src: ") h6)
    refine ⟨utf8_inj h7, ?_⟩
    cases e; cases e'
    simp only at h1 h3 h5
    rw [h1, h3, h5]
  · rintro ⟨rfl, rfl⟩; rfl

/-- A variable that no text can declare, a text with a quotation mark and a line break: C69 could not tell
these apart, `{:?}` does. -/
example : PErr.debug (fun c => decide (32 ≤ c.toNat ∧ c.toNat < 127)) b!"x\n" ⟨.variableNotDeclared b!"x" [b!"a`, `b"], 0, 2⟩ =
    b!"ParseError { kind: VariableNotDeclared(\"x\", [\"a`, `b\"]), span: SourceSpan { offset: SourceOffset(0), length: 2 }, src: \"x\\n\" }" ∧
    parse cfgPlain w0 Oracle.id (Context.default.setExpected [b!"a`, `b"]) b!"x\n" =
      .err ⟨.variableNotDeclared b!"x" [b!"a`, `b"], 0, 2⟩ := by decide +kernel
/-- `é` is no printable character to this platform, and the parser sees its first byte. -/
example : PErr.debug (fun c => decide (32 ≤ c.toNat ∧ c.toNat < 127)) b!"1+é" ⟨.illegalCharacter 0xC3, 2, 0⟩ =
    b!"ParseError { kind: IllegalCharacter('\\u{c3}'), span: SourceSpan { offset: SourceOffset(2), length: 0 }, src: \"1+\\u{e9}\" }" ∧
    parse0 cfgOpt b!"1+é" = .err ⟨.illegalCharacter 0xC3, 2, 0⟩ := by decide +kernel

/-! ### Other errors -/

theorem reach_text {cfg : Cfg} {w : World} {ctx : Context} {input : Bytes} {x : Xpr} (h : Reach cfg w ctx input x) :
    ∀ n ∈ x.vars, ∀ c ∈ n, c < 128 := fun n hn c hc => nameChar_ascii c (((reach_legible h).2 n hn).2 c hc)

/-- What `{:?}` writes for errors of evaluation and binding. -/
theorem others_inj (plain : Char → Bool) :
    (∀ v v', IsText v → IsText v' → (evalErrorDebug plain v = evalErrorDebug plain v' ↔ v = v')) ∧
    ∀ b b' : BindErr, (∀ s, b = .one s ∨ b = .multiple s → IsText s) → (∀ s, b' = .one s ∨ b' = .multiple s → IsText s) →
      (b.debug plain = b'.debug plain ↔ b = b') := by
  constructor
  · intro v v' hv hv'
    refine ⟨fun h => ?_, fun h => by rw [h]⟩
    exact (strDebug_inj (r := b!")") (r' := b!")") hv hv' (List.append_cancel_left (as := b!"EvalError(")
      (by simpa only [evalErrorDebug, List.append_assoc] using h))).1
  · intro b b' hb hb'
    refine ⟨fun h => ?_, fun h => by rw [h]⟩
    cases b with
    | one s =>
      cases b' with
      | one s' =>
        simp only [BindErr.debug, List.append_assoc] at h
        rw [(strDebug_inj (hb s (.inl rfl)) (hb' s' (.inl rfl)) (List.append_cancel_left h)).1]
      | multiple s' => cases h
    | multiple s =>
      cases b' with
      | one s' => cases h
      | multiple s' =>
        simp only [BindErr.debug, List.append_assoc] at h
        rw [(strDebug_inj (hb s (.inr rfl)) (hb' s' (.inr rfl)) (List.append_cancel_left h)).1]

theorem returned_text {cfg : Cfg} {w : World} {o : Oracle} {ctx : Context} {input : Bytes} {x : Xpr}
    (hx : Reach cfg w ctx input x) {names : List Bytes} {b : BindErr} (hb : BindCall cfg w o x names (.err b)) :
    ∀ s, b = .one s ∨ b = .multiple s → IsText s := by
  obtain ⟨c, g, hg, hr⟩ := bindCall_spec hb
  have hm := missing_diffVars (o := o) (reach_vars hx).1 names
  have hj : ∀ {k : List Bytes}, (∀ n ∈ k, ∀ c ∈ n, c < 128) → ∀ c ∈ joinWith b!", " k, c < 128 := by
    intro k
    induction k with
    | nil => intro _ c hc; cases hc
    | cons a as ih =>
      intro hk c hc
      cases as with
      | nil => exact hk a (List.mem_cons_self ..) c hc
      | cons b bs =>
        simp only [joinWith, List.mem_append] at hc
        rcases hc with (hc | hc) | hc
        · exact hk a (List.mem_cons_self ..) c hc
        · revert hc c; decide
        · exact ih (fun n hn => hk n (List.mem_cons_of_mem _ hn)) c hc
  have ht : IsText (joinWith b!", " (diffVars o x.vars names)) :=
    isText_ascii (hj fun n hn => reach_text hx n ((hm.2 n).1 hn).1)
  rw [bindWith_spec, intercalate_join] at hr
  intro s hs
  split at hr
  · cases hr
  · split at hr
    · cases hr
    · split at hr <;> cases hr <;> rcases hs with hs | hs <;> cases hs <;> exact ht

/-- C114, errors of evaluation: what `{:?}` writes determines the error, for all expressions, histories
and variables. -/
theorem C114_eval (plain : Char → Bool) (cfg cfg' : Cfg) (w w' : World) (ctx ctx' : Context) (input input' : Bytes)
    (x y : Xpr) (hx : Reach cfg w ctx input x) (hy : Reach cfg' w' ctx' input' y) (m m' : HMap F64) (n n' : Bytes)
    (h : x.eval w m = .error (.missing n)) (h' : y.eval w' m' = .error (.missing n')) :
    evalErrorDebug plain n = evalErrorDebug plain n' ↔ n = n' := by
  have key : ∀ {cfg : Cfg} {w : World} {ctx : Context} {input : Bytes} {x : Xpr} {m : HMap F64} {n : Bytes},
      Reach cfg w ctx input x → x.eval w m = .error (.missing n) → IsText n := by
    intro cfg w ctx input x m n hx h
    exact isText_ascii (reach_text hx n ((reach_vars hx).2 n (C20_missing w x m n h).1))
  exact (others_inj plain).1 n n' (key hx h) (key hy h')

/-- C114, errors of binding: what `{:?}` writes determines the error, for all expressions, histories,
variants of `bind` and names. -/
theorem C114_bind (plain : Char → Bool) (cfg cfg' : Cfg) (w w' : World) (o o' : Oracle) (ctx ctx' : Context)
    (input input' : Bytes) (x y : Xpr) (hx : Reach cfg w ctx input x) (hy : Reach cfg' w' ctx' input' y)
    (names names' : List Bytes) (b b' : BindErr) (h : BindCall cfg w o x names (.err b))
    (h' : BindCall cfg' w' o' y names' (.err b')) : b.debug plain = b'.debug plain ↔ b = b' :=
  (others_inj plain).2 b b' (returned_text hx h) (returned_text hy h')

/-- `x+y` bound without `x` and `y`, and evaluated without them. -/
example : BindErr.debug (fun c => decide (32 ≤ c.toNat ∧ c.toNat < 127)) (.multiple b!"x, y") =
      b!"MultipleVariables(\"x, y\")" ∧
    evalErrorDebug (fun c => decide (32 ≤ c.toNat ∧ c.toNat < 127)) b!"x" = b!"EvalError(\"x\")" ∧
    (match parse0 cfgOpt b!"x+y" with
    | .ok e => (match e.bind1 cfgOpt w0 Oracle.id b!"z" with
      | .err b => decide (b = .multiple b!"x, y")
      | _ => false) && decide (e.eval w0 HMap.empty = .error (.missing b!"x"))
    | _ => false) = true := by decide +kernel

/-! ### One line -/

theorem utf8_bytes (c : Char) (h : 32 ≤ c.toNat) : ∀ b ∈ String.utf8EncodeChar c, 32 ≤ b := by
  have hv : c.toNat = c.val.toNat := rfl
  unfold String.utf8EncodeChar
  rw [← hv]
  dsimp only
  have hc : c.toNat < 0x110000 := by
    have := c.valid
    rcases this with h | h
    · have : c.toNat < 0xd800 := h
      omega
    · exact h.2
  generalize c.toNat = v at hc h
  intro b hb
  rw [UInt8.le_iff_toNat_le]
  show 32 ≤ b.toNat
  repeat' split at hb
  all_goals
    simp only [List.mem_cons, List.not_mem_nil, or_false] at hb
  · subst hb; simp; omega
  all_goals
    rcases hb with rfl | rfl | rfl | rfl <;> simp only [UInt8.toNat_ofNat'] <;> omega

theorem line_append {a b : Bytes} (ha : OneLine a) (hb : OneLine b) : OneLine (a ++ b) := by
  intro x hx
  rcases List.mem_append.1 hx with hx | hx
  · exact ha x hx
  · exact hb x hx

theorem line_join {sep : Bytes} (hs : OneLine sep) : ∀ {l : List Bytes}, (∀ a ∈ l, OneLine a) → OneLine (joinWith sep l)
  | [], _ => fun _ h => by cases h
  | [a], h => h a (List.mem_cons_self ..)
  | a :: b :: l, h => by
    simp only [joinWith]
    exact line_append (line_append (h a (List.mem_cons_self ..)) hs)
      (line_join hs fun x hx => h x (List.mem_cons_of_mem _ hx))

theorem line_decimal (n : Nat) : OneLine (decimal n) := by
  intro c hc
  exact forall_byte (P := fun c => isDigit c = true → 32 ≤ c) (by decide +kernel) c (decimal_digit n c hc)

theorem line_hex (n : Nat) : OneLine (hexText n) := by
  intro c hc
  unfold hexText at hc
  obtain ⟨d, hd, rfl⟩ := List.mem_map.1 hc
  exact (by decide : ∀ d < 16, 32 ≤ hexDigit d) d (Nat.digits_lt_base (by decide) (List.mem_reverse.1 hd))

theorem line_esc {plain : Char → Bool} (hp : ∀ c, plain c = true → 32 ≤ c.toNat) {quote : Char} (hq : 32 ≤ quote.toNat)
    (c : Char) : OneLine (escChar plain quote c) := by
  unfold escChar
  repeat' split
  all_goals first
    | (unfold OneLine; decide)
    | skip
  · exact line_append (by unfold OneLine; decide) (utf8_bytes _ hq)
  · exact utf8_bytes _ (hp c ‹_›)
  · exact line_append (line_append (by unfold OneLine; decide) (line_hex _)) (by unfold OneLine; decide)

theorem line_str {plain : Char → Bool} (hp : ∀ c, plain c = true → 32 ≤ c.toNat) (s : Bytes) :
    OneLine (strDebug plain s) := by
  unfold strDebug
  refine line_append (line_append (by unfold OneLine; decide) ?_) (by unfold OneLine; decide)
  intro b hb
  obtain ⟨c, -, hc⟩ := List.mem_flatMap.1 hb
  exact line_esc hp (by decide) c b hc

theorem line_char {plain : Char → Bool} (hp : ∀ c, plain c = true → 32 ≤ c.toNat) (c : UInt8) :
    OneLine (charDebug plain c) :=
  line_append (line_append (by unfold OneLine; decide) (line_esc hp (by decide) _)) (by unfold OneLine; decide)

theorem line_kind {plain : Char → Bool} (hp : ∀ c, plain c = true → 32 ≤ c.toNat) (k : ErrKind) :
    OneLine (k.debug plain) := by
  have hl : ∀ t : Bytes, (∀ b ∈ t, 32 ≤ b) → OneLine t := fun _ h => h
  cases k <;> simp only [ErrKind.debug]
  · exact hl _ (by decide)
  · exact line_append (line_append (hl _ (by decide)) (line_char hp _)) (hl _ (by decide))
  · exact line_append (line_append (hl _ (by decide)) (line_str hp _)) (hl _ (by decide))
  · exact line_append (line_append (hl _ (by decide)) (line_char hp _)) (hl _ (by decide))
  · exact line_append (line_append (hl _ (by decide)) (line_char hp _)) (hl _ (by decide))
  · refine line_append (line_append (line_append (line_append (hl _ (by decide)) (line_str hp _)) (hl _ (by decide)))
      (line_join (hl _ (by decide)) ?_)) (hl _ (by decide))
    intro a ha
    obtain ⟨n, -, rfl⟩ := List.mem_map.1 ha
    exact line_str hp n
  · exact line_append (line_append (line_append (line_append (hl _ (by decide)) (line_decimal _)) (hl _ (by decide)))
      (line_decimal _)) (hl _ (by decide))
  · exact line_append (line_append (line_append (line_append (hl _ (by decide)) (line_decimal _)) (hl _ (by decide)))
      (line_decimal _)) (hl _ (by decide))
  · exact hl _ (by decide)

/-- C114: whatever the text and the names contain, `{:?}` of an error is one line without control characters
(std takes no control character to be printable). -/
theorem C114_line (plain : Char → Bool) (hp : ∀ c, plain c = true → 32 ≤ c.toNat) (source v : Bytes) (e : PErr)
    (b : BindErr) : OneLine (e.debug plain source) ∧ OneLine (evalErrorDebug plain v) ∧ OneLine (b.debug plain) := by
  have hl : ∀ t : Bytes, (∀ b ∈ t, 32 ≤ b) → OneLine t := fun _ h => h
  refine ⟨?_, ?_, ?_⟩
  · unfold PErr.debug
    exact line_append (line_append (line_append (line_append (line_append (line_append (line_append (line_append
      (hl _ (by decide)) (line_kind hp _)) (hl _ (by decide))) (line_decimal _)) (hl _ (by decide))) (line_decimal _))
      (hl _ (by decide))) (line_str hp _)) (hl _ (by decide))
  · exact line_append (line_append (hl _ (by decide)) (line_str hp _)) (hl _ (by decide))
  · cases b <;> exact line_append (line_append (hl _ (by decide)) (line_str hp _)) (hl _ (by decide))

/-- `{}` is not: a control character in the text is written as it is. -/
example : parse0 cfgOpt [c!"2", c!"+", 0x1B] = .err ⟨.illegalCharacter 0x1B, 2, 0⟩ ∧
    (0x1B : UInt8) ∈ (ErrKind.illegalCharacter 0x1B).message ∧
    (ErrKind.illegalCharacter 0x1B).debug (fun c => decide (32 ≤ c.toNat ∧ c.toNat < 127)) =
      b!"IllegalCharacter('\\u{1b}')" := by decide +kernel

/-! ### The order of errors -/

theorem order_nat : TotalOrder natCmp where
  eq _ _ := natCmp_eq
  swap := natCmp_swap
  trans _ _ _ h h' := natCmp_lt.2 (Nat.lt_trans (natCmp_lt.1 h) (natCmp_lt.1 h'))

theorem order_str : TotalOrder strCmp where
  eq _ _ := strCmp_eq
  swap := strCmp_swap
  trans _ _ _ h h' := strCmp_lt.2 (strCmp_trans (strCmp_lt.1 h) (strCmp_lt.1 h'))

/-- Lexicographic order of pairs. -/
theorem order_pair {α β : Type} {f : α → α → Ordering} {g : β → β → Ordering} (hf : TotalOrder f) (hg : TotalOrder g) :
    TotalOrder fun a b : α × β => (f a.1 b.1).then (g a.2 b.2) where
  eq a b := by
    rw [Ordering.then_eq_eq, hf.eq, hg.eq, Prod.ext_iff]
  swap a b := by
    rw [hf.swap a.1 b.1, hg.swap a.2 b.2]
    cases f a.1 b.1 <;> rfl
  trans a b c h h' := by
    rw [Ordering.then_eq_lt] at h h' ⊢
    rcases h with h | ⟨h1, h2⟩ <;> rcases h' with h' | ⟨h1', h2'⟩
    · exact .inl (hf.trans _ _ _ h h')
    · rw [hf.eq] at h1'; rw [← h1']; exact .inl h
    · rw [hf.eq] at h1; rw [h1]; exact .inl h'
    · rw [hf.eq] at h1 h1'; exact .inr ⟨(hf.eq _ _).2 (h1.trans h1'), hg.trans _ _ _ h2 h2'⟩

theorem order_strs : TotalOrder strsCmp := by
  refine ⟨?_, ?_, ?_⟩
  · intro a
    induction a with
    | nil => intro b; cases b <;> simp [strsCmp]
    | cons x a ih =>
      intro b
      cases b with
      | nil => simp [strsCmp]
      | cons y b => rw [strsCmp, Ordering.then_eq_eq, ih, order_str.eq, List.cons.injEq]
  · intro a
    induction a with
    | nil => intro b; cases b <;> rfl
    | cons x a ih =>
      intro b
      cases b with
      | nil => rfl
      | cons y b =>
        rw [strsCmp, strsCmp, ih b, order_str.swap x y]
        cases strCmp x y <;> rfl
  · intro a
    induction a with
    | nil => intro b c h h'; cases b <;> cases c <;> simp [strsCmp] at h h' ⊢
    | cons x a ih =>
      intro b c h h'
      cases b with
      | nil => simp [strsCmp] at h
      | cons y b =>
        cases c with
        | nil => simp [strsCmp] at h'
        | cons z c =>
          rw [strsCmp, Ordering.then_eq_lt] at h h' ⊢
          rcases h with h | ⟨h1, h2⟩ <;> rcases h' with h' | ⟨h1', h2'⟩
          · exact .inl (order_str.trans _ _ _ h h')
          · rw [order_str.eq] at h1'; rw [← h1']; exact .inl h
          · rw [order_str.eq] at h1; rw [h1]; exact .inl h'
          · rw [order_str.eq] at h1 h1'
            exact .inr ⟨(order_str.eq _ _).2 (h1.trans h1'), ih _ _ h2 h2'⟩

/-- An order that is another one of what distinguishes things. -/
theorem order_key {α β : Type} {f : α → α → Ordering} {g : β → β → Ordering} (hg : TotalOrder g) (key : α → β)
    (hinj : ∀ a b, key a = key b → a = b) (h : ∀ a b, f a b = g (key a) (key b)) : TotalOrder f where
  eq a b := by rw [h, hg.eq]; exact ⟨hinj a b, fun e => by rw [e]⟩
  swap a b := by rw [h, h, hg.swap]
  trans a b c h1 h2 := by rw [h] at h1 h2 ⊢; exact hg.trans _ _ _ h1 h2

/-- Everything in an error kind. -/
def kindKey : ErrKind → Nat × (Bytes × (List Bytes × (Nat × Nat)))
  | .unexpectedEnd => (0, [], [], 0, 0)
  | .unexpectedToken c => (1, [], [], c.toNat, 0)
  | .malformedNumber s => (2, s, [], 0, 0)
  | .illegalCharacter c => (3, [], [], c.toNat, 0)
  | .expectedToken c => (4, [], [], c.toNat, 0)
  | .variableNotDeclared v vs => (5, v, vs, 0, 0)
  | .tooFew a b => (6, [], [], a, b)
  | .tooMany a b => (7, [], [], a, b)
  | .missingArgument => (8, [], [], 0, 0)

/-- C114: errors are totally ordered, as `Ord` demands, so sorting them is well defined; `Equal` are only
equal ones, and kinds come in the order in which they are declared. -/
theorem C114_order : TotalOrder ErrKind.cmp ∧ TotalOrder BindErr.cmp ∧ TotalOrder strCmp ∧
    ∀ k k' : ErrKind, k.index < k'.index → k.cmp k' = .lt := by
  have hz : natCmp 0 0 = .eq := natCmp_eq.2 rfl
  have he : strCmp [] [] = .eq := rfl
  have hl : strsCmp [] [] = .eq := rfl
  have hth : ∀ x : Ordering, Ordering.eq.then x = x := fun _ => rfl
  have hth' : ∀ x : Ordering, x.then Ordering.eq = x := fun x => by cases x <;> rfl
  refine ⟨order_key (order_pair order_nat (order_pair order_str (order_pair order_strs (order_pair order_nat order_nat))))
    kindKey ?_ ?_, ?_, order_str, ?_⟩
  · intro a b h
    cases a <;> cases b <;> simp [kindKey, UInt8.toNat_inj] at h ⊢ <;> exact h
  · intro a b
    cases a <;> cases b <;> simp only [ErrKind.cmp, kindKey, ErrKind.index, he, hl, hz, hth, hth', natCmp_eq.2] <;> rfl
  · refine order_key (order_pair order_nat order_str) (fun b => match b with | .one s => (0, s) | .multiple s => (1, s)) ?_ ?_
    · intro a b h
      cases a <;> cases b <;> simp at h ⊢ <;> exact h
    · intro a b
      cases a <;> cases b <;> rfl
  · intro k k' h
    cases k <;> cases k' <;> simp only [ErrKind.index] at h <;> first | omega | rfl

/-- Two errors of one kind and two of different kinds. -/
example : (ErrKind.tooFew 2 1).cmp (.tooFew 3 0) = .lt ∧ (ErrKind.missingArgument).cmp (.malformedNumber b!"1.2.3") = .gt := by
  decide +kernel

/-! ### Parsers -/

theorem funcDebugE_faceless (plain : Char → Bool) (f : Func) : funcDebugE plain (facelessF f) = funcDebugE plain f := by
  unfold funcDebugE facelessF
  cases f.func <;> rfl

theorem symbol_faceless (plain : Char → Bool) (s : Symbol) : (facelessS s).debug plain = s.debug plain := by
  cases s with
  | var x => rfl
  | func f => simp only [facelessS, Symbol.debug, funcDebugE_faceless]

/-- A name and a symbol that can be printed and read back. -/
def TextEntry (p : Bytes × Symbol) : Prop := IsText p.1 ∧ ∀ f, p.2 = .func f → IsText f.name

theorem symbol_inj {plain : Char → Bool} {s s' : Symbol} (hs : ∀ f, s = .func f → IsText f.name)
    (hs' : ∀ f, s' = .func f → IsText f.name) {r r' : Bytes} (h : s.debug plain ++ r = s'.debug plain ++ r') :
    facelessS s = facelessS s' ∧ r = r' := by
  have hc := clear_debug
  cases s with
  | var x =>
    cases s' with
    | func f => simp [Symbol.debug] at h
    | var y =>
      simp only [Symbol.debug, List.append_assoc] at h
      obtain ⟨h1, h2⟩ := word_eq (hc.word x) (hc.word y) (stops_cons (by decide)) (stops_cons (by decide))
        (List.append_cancel_left h)
      exact ⟨by rw [hc.inj _ _ h1], (List.cons.inj h2).2⟩
  | func f =>
    cases s' with
    | var y => simp [Symbol.debug] at h
    | func f' =>
      simp only [Symbol.debug, funcDebugE, List.append_assoc] at h
      have h0 := List.append_cancel_left (List.append_cancel_left h)
      obtain ⟨h3, h4⟩ := strDebug_inj (hs f rfl) (hs' f' rfl) h0
      obtain ⟨h5, h6⟩ := word_eq (word_fnDebug _) (word_fnDebug _) (stops_cons (by decide)) (stops_cons (by decide))
        (List.append_cancel_left (as := b!", func: ") h4)
      obtain ⟨h7, h8⟩ := word_optDebug (List.append_cancel_left (as := b!", nb_args: ") h6)
      refine ⟨?_, List.append_cancel_left (as := b!"})") h8⟩
      show Symbol.func (facelessF f) = Symbol.func (facelessF f')
      unfold facelessF
      rw [h3, h7]
      revert h5
      cases f.func <;> cases f'.func <;> simp [fnDebug]

theorem entries_inj {plain : Char → Bool} {l l' : List (Bytes × Symbol)} (hl : ∀ p ∈ l, TextEntry p)
    (hl' : ∀ p ∈ l', TextEntry p) {r r' : Bytes} (h : entriesDebug plain l ++ r = entriesDebug plain l' ++ r') :
    l.map (fun p => (p.1, facelessS p.2)) = l'.map (fun p => (p.1, facelessS p.2)) ∧ r = r' := by
  have em : ∀ l : List (Bytes × Symbol), l.map (fun p => strDebug plain p.1 ++ b!": " ++ p.2.debug plain) =
      (l.map (fun p => (p.1, facelessS p.2))).map (fun p => strDebug plain p.1 ++ b!": " ++ p.2.debug plain) := by
    intro l
    rw [List.map_map]
    refine List.map_congr_left fun p _ => ?_
    simp only [Function.comp, symbol_faceless]
  have ht : ∀ {l : List (Bytes × Symbol)}, (∀ p ∈ l, TextEntry p) →
      ∀ p ∈ l.map (fun p => (p.1, facelessS p.2)), TextEntry p ∧ facelessS p.2 = p.2 := by
    intro l hl p hp
    obtain ⟨q, hq, rfl⟩ := List.mem_map.1 hp
    refine ⟨⟨(hl q hq).1, ?_⟩, ?_⟩
    · intro f hf
      have h := (hl q hq).2
      revert hf
      cases hq2 : q.2 with
      | var x => intro hf; cases hf
      | func g => intro hf; cases hf; exact h g hq2
    · cases q.2 with
      | var x => rfl
      | func g =>
        simp only [facelessS, facelessF]
        cases g.func <;> rfl
  unfold entriesDebug at h
  rw [em l, em l', List.append_assoc, List.append_assoc, List.append_assoc, List.append_assoc] at h
  refine joined_inj (P := fun p => TextEntry p ∧ facelessS p.2 = p.2) (by decide) ?_ ?_ _ _ (ht hl) (ht hl') r r'
    (List.append_cancel_left h)
  · rintro ⟨n, s⟩ ⟨n', s'⟩ r r' ⟨hp, he⟩ ⟨hp', he'⟩ h
    simp only [List.append_assoc] at h
    obtain ⟨h1, h2⟩ := strDebug_inj hp.1 hp'.1 h
    obtain ⟨h3, h4⟩ := symbol_inj hp.2 hp'.2 (List.append_cancel_left (as := b!": ") h2)
    simp only at h1 he he'
    rw [he, he'] at h3
    exact ⟨by rw [h1, h3], h4⟩
  · rintro ⟨n, s⟩ r r' _ h
    exact absurd (List.cons.inj h).1 (by decide)

theorem expected_inj {plain : Char → Bool} {vs vs' : Option (List Bytes)} (hv : ∀ l, vs = some l → ∀ n ∈ l, IsText n)
    (hv' : ∀ l, vs' = some l → ∀ n ∈ l, IsText n) {r r' : Bytes}
    (h : expectedDebug plain vs ++ r = expectedDebug plain vs' ++ r') : vs = vs' := by
  cases vs with
  | none =>
    cases vs' with
    | none => rfl
    | some l => simp [expectedDebug] at h
  | some l =>
    cases vs' with
    | none => simp [expectedDebug] at h
    | some l' =>
      simp only [expectedDebug, List.append_assoc] at h
      rw [(strs_inj (close := c!"}") (by decide) (by decide) (hv l rfl) (hv' l' rfl) (List.append_cancel_left h)).1]

theorem get_of_lists {c : Context} {l : List (Bytes × Symbol)} (h : Lists c l) (n : Bytes) (s : Symbol) :
    (c.get n).map facelessS = some s ↔ (n, s) ∈ l.map (fun p => (p.1, facelessS p.2)) := by
  rw [List.mem_map, Option.map_eq_some_iff]
  constructor
  · rintro ⟨a, ha, rfl⟩
    exact ⟨(n, a), (h.2.1 n a).1 ha, rfl⟩
  · rintro ⟨⟨m, a⟩, ha, he⟩
    cases he
    exact ⟨a, (h.2.1 m a).2 ha, rfl⟩

/-- C114, parsers: if two parsers are printed alike, the contexts have the same names, constants, expected
variables, and functions of the same names and numbers of arguments. -/
theorem C114_parser (plain : Char → Bool) (o o' : Oracle) (c c' : Context) (l l' : List (Bytes × Symbol))
    (hl : Lists c l) (hl' : Lists c' l') (ht : TextNames c) (ht' : TextNames c')
    (h : parserDebug plain l (c.getExpected.map o.ord) = parserDebug plain l' (c'.getExpected.map o'.ord)) :
    AlikeCtx c c' := by
  simp only [parserDebug, List.append_assoc] at h
  obtain ⟨h1, h2⟩ := entries_inj (fun p hp => hl.2.2 p.1 p.2 hp) (fun p hp => hl'.2.2 p.1 p.2 hp)
    (List.append_cancel_left h)
  have hm : ∀ {c : Context} {o : Oracle}, TextNames c → ∀ k, c.getExpected.map o.ord = some k → ∀ n ∈ k, IsText n := by
    intro c o ht k hk n hn
    obtain ⟨a, ha, rfl⟩ := Option.map_eq_some_iff.1 hk
    exact ht a ha n ((o.perm a).mem_iff.1 hn)
  have h3 := expected_inj (hm ht) (hm ht') (List.append_cancel_left (as := b!", expected_vars: ") h2)
  refine ⟨fun n => ?_, ?_⟩
  · apply Option.ext
    intro s
    rw [get_of_lists hl, get_of_lists hl', h1]
  · cases he : c.getExpected with
    | none =>
      cases he' : c'.getExpected with
      | none => trivial
      | some k => rw [he, he'] at h3; cases h3
    | some k =>
      cases he' : c'.getExpected with
      | none => rw [he, he'] at h3; cases h3
      | some k' =>
        rw [he, he'] at h3
        have h3 : o.ord k = o'.ord k' := Option.some.inj h3
        intro v
        rw [← (o.perm k).mem_iff, h3, (o'.perm k').mem_iff]

theorem findVars_faceless (e : Elem) : ∀ vs, findVars (faceless e) vs = findVars e vs := by
  induction e using Elem.ind with
  | num v => intro vs; rfl
  | var n => intro vs; rfl
  | un op a ih => intro vs; simp only [faceless, findVars, ih]
  | bin op l r ih1 ih2 => intro vs; simp only [faceless, findVars, ih1, ih2]
  | call f as ih =>
    intro vs
    simp only [faceless, findVars]
    induction as generalizing vs with
    | nil => rfl
    | cons a as iha =>
      simp only [facelessL, findVarsL, ih a (List.mem_cons_self ..)]
      exact iha (fun b hb => ih b (List.mem_cons_of_mem _ hb)) _

theorem show_faceless {fmt : F64 → Bytes} (e : Elem) : showE fmt (faceless e) = showE fmt e := by
  induction e using Elem.ind with
  | num v => rfl
  | var n => rfl
  | un op a ih => simp only [faceless, showE, ih]
  | bin op l r ih1 ih2 => simp only [faceless, showE, ih1, ih2]
  | call f as ih =>
    have h2 : showL fmt (facelessL as) = showL fmt as := by
      induction as with
      | nil => rfl
      | cons a as iha =>
        rw [facelessL, showL, showL, ih a (List.mem_cons_self ..), iha fun b hb => ih b (List.mem_cons_of_mem _ hb)]
    simp only [faceless, showE, h2]
    rfl

theorem faceless_call {f g : Func} (h : facelessF f = facelessF g) (as bs : List Elem)
    (hl : List.Forall₂ (fun a b => faceless a = faceless b) as bs) : faceless (.call f as) = faceless (.call g bs) := by
  have : as.map faceless = bs.map faceless := by
    induction hl with
    | nil => rfl
    | cons h _ ih => rw [List.map_cons, List.map_cons, h, ih]
  rw [faceless, faceless, h, facelessL_map, facelessL_map, this]

theorem faceless_congruent {c c' : Context} (h : ∀ n, (c.get n).map facelessS = (c'.get n).map facelessS) :
    Congruent (fun a b => faceless a = faceless b) c c' where
  lit _ _ _ := rfl
  look nm := by
    have h1 := h nm
    have hf : RelI (fun a b => faceless a = faceless b) (Ident.fromStr nm) (Ident.fromStr nm) := by
      cases Ident.fromStr nm with
      | const x => exact rfl
      | var n => exact ⟨rfl, rfl⟩
      | func f => exact ⟨rfl, faceless_call rfl⟩
    unfold lookup
    cases hc : c.get nm with
    | none =>
      cases hc' : c'.get nm with
      | none => exact hf
      | some b => rw [hc, hc'] at h1; cases h1
    | some a =>
      cases hc' : c'.get nm with
      | none => rw [hc, hc'] at h1; cases h1
      | some b =>
        rw [hc, hc'] at h1
        have h1 : facelessS a = facelessS b := Option.some.inj h1
        cases a with
        | var x =>
          cases b with
          | var y => cases h1; exact rfl
          | func g => cases h1
        | func f =>
          cases b with
          | var y => cases h1
          | func g =>
            have h2 : facelessF f = facelessF g := Symbol.func.inj h1
            exact ⟨(congrArg Func.nbArgs h2 : (facelessF f).nbArgs = (facelessF g).nbArgs), faceless_call h2⟩
  un h := by simp only [faceless, h]
  bin h h' := by simp only [faceless, h, h']
  isNum {a b} h := by cases a <;> cases b <;> first | rfl | cases h

/-- C114: without `compile-time-optimizations` such parsers accept the same texts, with results that are
printed alike, and reject the others with the same errors (but for the order of the suggestions). -/
theorem C114_alike (cfg : Cfg) (w w' : World) (o : Oracle) (c c' : Context) (input : Bytes) (ho : cfg.opt = false)
    (h : AlikeCtx c c') :
    match parse cfg w o c input, parse cfg w' o c' input with
    | .ok x, .ok y => faceless x.root = faceless y.root ∧ x.vars = y.vars ∧ x.debug o = y.debug o ∧
        x.show fmtF64 = y.show fmtF64
    | .err e, .err e' => e = e' ∨ ∃ v vs vs', e = ⟨.variableNotDeclared v vs, 0, input.length⟩ ∧
        e' = ⟨.variableNotDeclared v vs', 0, input.length⟩ ∧ ∀ u, u ∈ vs ↔ u ∈ vs'
    | .panic p, .panic p' => p = p'
    | _, _ => False := by
  have hp := parseImpl_related (cfg := cfg) (w := w) (w' := w') (faceless_congruent h.1) (by
    intro a b s hab
    unfold finish
    rw [ho]
    exact ⟨hab, rfl⟩) input
  have hok : ∀ x y : Xpr, faceless x.root = faceless y.root → x.vars = y.vars → faceless x.root = faceless y.root ∧
      x.vars = y.vars ∧ x.debug o = y.debug o ∧ x.show fmtF64 = y.show fmtF64 := by
    intro x y h1 h2
    refine ⟨h1, h2, ?_, ?_⟩
    · unfold Xpr.debug
      rw [← debug_faceless x.root, ← debug_faceless y.root, h1, h2]
    · unfold Xpr.show
      rw [← show_faceless x.root, ← show_faceless y.root, h1]
  unfold parse
  cases h1 : parseImpl cfg w c input <;> cases h2 : parseImpl cfg w' c' input <;> rw [h1, h2] at hp <;>
    first | exact False.elim hp | skip
  · rename_i x y
    obtain ⟨ht, hx, hy⟩ := hp
    have hxy : x.vars = y.vars := by rw [hx, hy, ← findVars_faceless, ht, findVars_faceless]
    simp only
    have h2 := h.2
    cases he : c.getExpected with
    | none =>
      cases he' : c'.getExpected with
      | none => exact hok x y ht hxy
      | some l => rw [he, he'] at h2; exact False.elim h2
    | some l =>
      cases he' : c'.getExpected with
      | none => rw [he, he'] at h2; exact False.elim h2
      | some l' =>
        rw [he, he'] at h2
        have h2 : ∀ v, v ∈ l ↔ v ∈ l' := h2
        simp only
        rw [← hxy, ← diffVars_congr o x.vars h2]
        cases hd : (diffVars o x.vars l).head? with
        | none => exact hok x y ht hxy
        | some v =>
          refine .inr ⟨v, _, _, rfl, rfl, fun u => ?_⟩
          rw [(o.perm l).mem_iff, (o.perm l').mem_iff]
          exact h2 u
  · exact .inl hp
  · exact hp
  · exact absurd h1 (parseImpl_ne_fuel _ _ _ _)

/-- The parsers of the examples: a constant, a function and an expected variable. -/
def ctxShown (addr : Nat) : Context :=
  ((Context.default.setVar b!"k" (F64.ofNat 2)).setFn ⟨b!"f", .dyn addr, some 1⟩).setExpected [b!"x"]
def listShown (addr : Nat) : List (Bytes × Symbol) := [(b!"k", .var (F64.ofNat 2)), (b!"f", .func ⟨b!"f", .dyn addr, some 1⟩)]

theorem lists_shown (addr : Nat) : Lists (ctxShown addr) (listShown addr) := by
  refine ⟨by show ([b!"k", b!"f"] : List Bytes).Nodup; decide, fun n s => ?_, fun n s h => ?_⟩
  · show (if n = b!"f" then _ else if n = b!"k" then _ else none) = some s ↔ _
    unfold listShown
    by_cases h1 : n = b!"f"
    · subst h1
      rw [if_pos rfl]
      simp [eq_comm]
    · rw [if_neg h1]
      by_cases h2 : n = b!"k"
      · subst h2
        rw [if_pos rfl]
        simp [eq_comm]
      · rw [if_neg h2]
        simp [h1, h2]
  · unfold listShown at h
    simp only [List.mem_cons, List.not_mem_nil, or_false, Prod.mk.injEq] at h
    rcases h with ⟨rfl, rfl⟩ | ⟨rfl, rfl⟩
    · exact ⟨isText_ascii (by decide), fun f hf => by cases hf⟩
    · exact ⟨isText_ascii (by decide), fun f hf => by cases hf; exact isText_ascii (by show ∀ c ∈ b!"f", c < 128; decide)⟩

/-- What is printed for them, and that it does not depend on the closure: the hypotheses of `C114_parser`. -/
example : parserDebug (fun c => decide (32 ≤ c.toNat ∧ c.toNat < 127)) (listShown 7) ((ctxShown 7).getExpected.map Oracle.id.ord) =
      b!"Parser { ctx: Context { symbols: {\"k\": Variable(2.0), \"f\": Function(Function { name: \"f\", func: Dyn, nb_args: Some(1) })}, expected_vars: Some({\"x\"}) } }" ∧
    parserDebug (fun c => decide (32 ≤ c.toNat ∧ c.toNat < 127)) (listShown 8) ((ctxShown 8).getExpected.map Oracle.id.ord) =
      parserDebug (fun c => decide (32 ≤ c.toNat ∧ c.toNat < 127)) (listShown 7) ((ctxShown 7).getExpected.map Oracle.id.ord) ∧
    (ctxShown 7).getExpected = some [b!"x"] := by decide +kernel
example : AlikeCtx (ctxShown 7) (ctxShown 8) ∧ (ctxShown 7).get b!"f" ≠ (ctxShown 8).get b!"f" :=
  ⟨C114_parser (fun c => decide (32 ≤ c.toNat ∧ c.toNat < 127)) Oracle.id Oracle.id _ _ _ _ (lists_shown 7) (lists_shown 8)
    (fun vs h n hn => by cases h; cases hn with | head => exact isText_ascii (by decide) | tail _ h => cases h)
    (fun vs h n hn => by cases h; cases hn with | head => exact isText_ascii (by decide) | tail _ h => cases h)
    (by decide +kernel), by decide +kernel⟩

/-- `f(k)+x` under both parsers: without optimisations the expressions print alike although they have different
values; with them the call is folded, and they do not print alike. -/
def wAddr : World := { w0 with user := fun a _ => match a with | .dyn n => some (F64.ofNat n) | _ => none }
def printed (cfg : Cfg) (addr : Nat) : Option (Bytes × Except EvErr F64) :=
  match parse cfg wAddr Oracle.id (ctxShown addr) b!"f(k)+x" with
  | .ok x => some (x.show fmtF64, x.eval wAddr (mx F64.f0))
  | _ => none
example : (printed cfgPlain 7).map Prod.fst = (printed cfgPlain 8).map Prod.fst ∧
    printed cfgPlain 7 ≠ printed cfgPlain 8 ∧ (printed cfgOpt 7).map Prod.fst ≠ (printed cfgOpt 8).map Prod.fst ∧
    (printed cfgOpt 7).map Prod.fst = some b!"(7 + x)" := by decide +kernel

end Props
end Xprs
