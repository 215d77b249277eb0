import Verif.Lemmas.Tokens
import Verif.Props.Grammar
/-
Properties C12, C13, C15 and C18: parentheses, whitespace, adjacent literals and the
values of literals.
-/
namespace Xprs
namespace Props
open Spec

/-! ### C13 -/

/-- C13: two texts with the same tokens have the same result; and every accepted text
consists of tokens. -/
theorem C13_layout (cfg : Cfg) (w : World) (o : Oracle) (ctx : Context) (s s' : Bytes)
    (ts : List Bytes) (hs : Lex s ts) (hs' : Lex s' ts) (x : Xpr) :
    parse cfg w o ctx s = .ok x ↔ parse cfg w o ctx s' = .ok x := by
  have key : ∀ {s s' : Bytes}, Lex s ts → Lex s' ts → parse cfg w o ctx s = .ok x →
      parse cfg w o ctx s' = .ok x := by
    intro s s' hs hs' h
    have h1 := parse_ok h
    have h2 := parseImpl_layout hs hs' h1
    unfold parse at h ⊢
    rw [h1] at h
    rw [h2]
    simp only at h ⊢
    split
    · rename_i vs hv
      rw [hv] at h
      simp only at h
      split
      · rename_i v hv
        rw [hv] at h
        cases h
      · rfl
    · rfl
  exact ⟨key hs hs', key hs' hs⟩

/-- C13, the other half: accepted texts consist of tokens, in exactly one way. -/
theorem C13_tokens (cfg : Cfg) (w : World) (o : Oracle) (ctx : Context) (s : Bytes) (x : Xpr)
    (h : parse cfg w o ctx s = .ok x) : ∃ ts, Lex s ts ∧ ∀ ts', Lex s ts' → ts' = ts := by
  obtain ⟨ts, h⟩ := parseImpl_lex (parse_ok h)
  exact ⟨ts, h, fun ts' h' => lex_unique h' h⟩

theorem literal_two {rest : Bytes} (h1 : notHead mantChar rest) (h2 : ¬ expStart rest) :
    Literal b!"2" rest (F64.ofDecimal 2 0) :=
  ⟨b!"2", b!"2", [], ⟨c!"2", rfl, by decide⟩, by decide,
    ⟨by decide, by decide, by decide, .inr ⟨rfl, by decide⟩⟩, .inl ⟨rfl, h1, h2, by rfl⟩⟩

/-- ` sin ( x) - 2` and `sin(x)-2` have the same tokens. -/
example : Lex b!" sin ( x)\t- 2" [b!"sin", b!"(", b!"x", b!")", b!"-", b!"2"] ∧
    Lex b!"sin(x)-2\n" [b!"sin", b!"(", b!"x", b!")", b!"-", b!"2"] := by
  have hn : ∀ {c : UInt8} {rest : Bytes}, ¬ nameChar c → notHead nameChar (c :: rest) := by
    intro c rest h d hd; cases hd; exact h
  constructor
  · refine .name (ws := b!" ") (nm := b!"sin") (by decide) ⟨⟨c!"s", rfl, by decide⟩, by decide,
      hn (by decide)⟩ ?_
    refine .sym (ws := b!" ") (by decide) (by decide) ?_
    refine .name (ws := b!" ") (nm := b!"x") (by decide) ⟨⟨c!"x", rfl, by decide⟩, by decide,
      hn (by decide)⟩ ?_
    refine .sym (ws := []) (by decide) (by decide) (.sym (ws := b!"\t") (by decide) (by decide) ?_)
    refine .num (ws := b!" ") (txt := b!"2") (rest := []) (by decide) (literal_two (by intro c h; cases h) ?_)
      (.nil (by decide))
    rintro ⟨e, sg, d, t, _, _, _, h⟩; cases h
  · refine .name (ws := []) (nm := b!"sin") (by decide) ⟨⟨c!"s", rfl, by decide⟩, by decide,
      hn (by decide)⟩ ?_
    refine .sym (ws := []) (by decide) (by decide) ?_
    refine .name (ws := []) (nm := b!"x") (by decide) ⟨⟨c!"x", rfl, by decide⟩, by decide,
      hn (by decide)⟩ ?_
    refine .sym (ws := []) (by decide) (by decide) (.sym (ws := []) (by decide) (by decide) ?_)
    refine .num (ws := []) (txt := b!"2") (rest := b!"\n") (by decide) (literal_two ?_ ?_)
      (.nil (by decide))
    · intro c h; cases h; decide
    · rintro ⟨e, sg, d, t, he, _, _, h⟩
      have := (List.cons.inj h).1
      rcases he with rfl | rfl <;> exact absurd this (by decide)
example : parse0 cfgPlain b!" sin ( x)\t- 2" = parse0 cfgPlain b!"sin(x)-2\n" := by decide +kernel

/-! ### C12 -/

/-- The full claim of C12 (false, see `C12_refuted`). -/
def C12_claim : Prop := ∀ (cfg : Cfg) (w : World) (o : Oracle) (ctx : Context) (s : Bytes) (x : Xpr),
    CtxTotal w ctx → parse cfg w o ctx s = .ok x →
    ∃ y, parse cfg w o ctx (c!"(" :: s ++ [c!")"]) = .ok y ∧
      (if cfg.opt then simplify cfg w x.root = .ok y.root else y.root = x.root)

/-- The exact result for an accepted text in parentheses: one more simplification of the
tree, which may panic if `!!` was used. -/
theorem C12_exact (cfg : Cfg) (w : World) (o : Oracle) (ctx : Context) (s ws ws' : Bytes) (x : Xpr)
    (h : parse cfg w o ctx s = .ok x) (hw : spaces ws) (hw' : spaces ws') :
    parse cfg w o ctx (ws ++ c!"(" :: s ++ c!")" :: ws') =
      match finOf cfg w x.root with
      | .ok e => .ok ⟨e, findVars e []⟩
      | .error p => .panic p := by
  have h1 := parseImpl_paren (parse_ok h) hw hw'
  cases hf : finOf cfg w x.root with
  | error p =>
    rw [hf] at h1
    exact parse_panic.2 h1
  | ok e =>
    rw [hf] at h1
    refine parse_of_impl h1 fun vs hvs n hn => ?_
    have hx : n ∈ x.vars := by
      obtain ⟨c, tw, _, _, _, _, hv⟩ := parseImpl_ok (parse_ok h)
      rw [hv, mem_findVars]
      right
      have := findVars_mem hn
      unfold finOf at hf
      split at hf
      · exact simplify_occurs _ hf this
      · cases hf; exact this
    have h2 := parse_ok h
    unfold parse at h
    rw [h2, hvs] at h
    simp only at h
    apply Classical.byContradiction
    intro hmem
    have : n ∈ diffVars o x.vars vs := mem_diffVars.2 ⟨hx, hmem⟩
    cases hd : diffVars o x.vars vs with
    | nil => rw [hd] at this; cases this
    | cons a l => rw [hd] at h; cases h

/-- C12 is false: `3!!(0-0-3+3-5)` is accepted, but in parentheses it panics. -/
theorem C12_refuted : ¬ C12_claim := by
  intro h
  have hp : (match parse0 cfgOpt b!"3!!(0-0-3+3-5)" with | .ok _ => true | _ => false) = true := by
    decide +kernel
  cases hx : parse0 cfgOpt b!"3!!(0-0-3+3-5)" with
  | ok x =>
    obtain ⟨y, hy, _⟩ := h cfgOpt w0 Oracle.id Context.default _ x (ctxTotal_default _) hx
    have : (match parse0 cfgOpt b!"(3!!(0-0-3+3-5))" with | .panic _ => true | _ => false) = true := by
      decide +kernel
    rw [show parse0 cfgOpt b!"(3!!(0-0-3+3-5))" = .ok y from hy] at this
    cases this
  | _ => rw [hx] at hp; cases hp

/-- C12 for all texts without `!!`; also with whitespace around the parentheses, and with
the variables.  Missing: texts with `!!` (see `C12_refuted`; `C12_exact` says what happens). -/
theorem C12_partial (cfg : Cfg) (w : World) (o : Oracle) (ctx : Context) (s ws ws' : Bytes) (x : Xpr)
    (hc : CtxTotal w ctx) (hb : ¬ DoubleBang s) (h : parse cfg w o ctx s = .ok x)
    (hw : spaces ws) (hw' : spaces ws') :
    ∃ y, parse cfg w o ctx (ws ++ c!"(" :: s ++ c!")" :: ws') = .ok y ∧
      (cfg.opt = true → simplify cfg w x.root = .ok y.root) ∧
      (cfg.opt = false → y = x) := by
  have h1 := C12_exact cfg w o ctx s ws ws' x h hw hw'
  obtain ⟨_, _, _, _, _, _, hv⟩ := parseImpl_ok (parse_ok h)
  cases ho : cfg.opt with
  | false =>
    rw [finOf_plain ho] at h1
    refine ⟨_, h1, by simp, fun _ => ?_⟩
    cases x; simp only at hv ⊢; rw [hv]
  | true =>
    obtain ⟨e, he, _⟩ := simplify_proper cfg w (P := Named ctx) (fun f hf => named_total hc hf) x.root
      (parseImpl_proper (parse_ok h) hb)
    have : finOf cfg w x.root = .ok e := by unfold finOf; rw [if_pos ho]; exact he
    rw [this] at h1
    exact ⟨_, h1, fun _ => he, by simp⟩

example : parse0 cfgOpt b!"(0 - x + 2*3)" = parse0 cfgOpt b!"0 - x + 2*3" := by decide +kernel
/-- The extra simplification is real. -/
example : parse0 cfgOpt b!"0-3" = .ok ⟨.un .minus (.num (F64.ofNat 3)), []⟩ ∧
    parse0 cfgOpt b!"(0-3)" = .ok ⟨.num (F64.ofNat 3).neg, []⟩ := by
  decide +kernel

/-! ### C15 -/

/-- The full claim of C15 (false, see `C15_refuted`). -/
def C15_claim : Prop := ∀ (cfg : Cfg) (w : World) (o : Oracle) (ctx : Context) (s : Bytes) (x : Xpr)
    (pre post : List Bytes) (a b : Bytes), parse cfg w o ctx s = .ok x →
    Lex s (pre ++ a :: b :: post) → ¬ (Number a ∧ Number b)

/-- C15 is false: `1+2 3` is accepted and is `(1+2)*3`. -/
theorem C15_refuted : ¬ C15_claim := by
  intro h
  have hp : parse0 cfgOpt b!"1+2 3" = .ok ⟨.num (F64.ofNat 9), []⟩ := by decide +kernel
  have hl : ∀ (d : UInt8) (rest : Bytes), d ∈ b!"123" → notHead mantChar rest → ¬ expStart rest →
      Literal [d] rest (F64.ofDecimal (decVal [d]) 0) := by
    intro d rest hd h1 h2
    have hdg : digit d := (forall_byte (P := fun d => d ∈ b!"123" → digit d) (by decide +kernel)) d hd
    refine ⟨[d], [d], [], ⟨d, rfl, .inl hdg⟩, ?_, ⟨?_, by simp, by simp, .inr ⟨rfl, ?_⟩⟩,
      .inl ⟨rfl, h1, h2, rfl⟩⟩
    · intro c hc; rw [List.mem_singleton.1 hc]; exact .inl hdg
    · intro c hc; rw [List.mem_singleton.1 hc]; exact hdg
    · exact digits_filter (ds := [d]) (by intro c hc; rw [List.mem_singleton.1 hc]; exact hdg)
  have hx : ∀ {c : UInt8} {rest : Bytes}, c ≠ c!"e" → c ≠ c!"E" → ¬ expStart (c :: rest) := by
    rintro c rest h1 h2 ⟨e, sg, d, t, he, _, _, heq⟩
    have := (List.cons.inj heq).1
    rcases he with rfl | rfl
    · exact h1 this
    · exact h2 this
  have nil1 : notHead mantChar [] := by intro c h; cases h
  have nil2 : ¬ expStart [] := by rintro ⟨e, sg, d, t, _, _, _, h⟩; cases h
  have n2 := hl c!"2" [] (by decide) nil1 nil2
  have n3 := hl c!"3" [] (by decide) nil1 nil2
  refine h cfgOpt w0 Oracle.id Context.default b!"1+2 3" _ [b!"1", b!"+"] [] b!"2" b!"3" hp ?_ ⟨⟨_, n2⟩, ⟨_, n3⟩⟩
  refine .num (ws := []) (txt := b!"1") (by decide) (hl c!"1" b!"+2 3" (by decide) ?_ (hx (by decide) (by decide))) ?_
  · intro c h; cases h; decide
  refine .sym (ws := []) (by decide) (by decide) ?_
  refine .num (ws := []) (txt := b!"2") (by decide) (hl c!"2" b!" 3" (by decide) ?_ (hx (by decide) (by decide))) ?_
  · intro c h; cases h; decide
  exact .num (ws := b!" ") (txt := b!"3") (by decide) n3 (.nil (by decide))

/-- C15 for literals that begin an operand of their own: at the beginning of the text,
after `(` and after `,`, a number literal followed by a number literal is never accepted.
Missing: literals after an operator, a sign or a name, where the claim is false
(`C15_refuted`). -/
theorem C15_partial (cfg : Cfg) (w : World) (o : Oracle) (ctx : Context) (s : Bytes) (x : Xpr)
    (pre post : List Bytes) (a b : Bytes) (h : parse cfg w o ctx s = .ok x)
    (hl : Lex s (pre ++ a :: b :: post)) (ha : Number a) (hb : Number b) :
    ∃ pre' t, pre = pre' ++ [t] ∧ t ≠ b!"(" ∧ t ≠ b!"," := by
  obtain ⟨c, tw, rfl, h2, h3, _⟩ := parseImpl_ok (parse_ok h)
  have h4 := lex_text.1 c tw [] h3 (.nil h2)
  have h5 := toks_noAdj.1 c tw [] h3 (.nil h2)
  rw [List.append_nil] at h4
  obtain ⟨v, ha⟩ := ha
  obtain ⟨u, hb⟩ := hb
  have h6 := h5 pre a b post (lex_unique h4 hl) (literal_head ha) (literal_head hb)
  obtain ⟨p, t, h7, h8⟩ : ∃ p t, pre = p ++ [t] ∧ ¬ opener t := by
    apply Classical.byContradiction
    intro hn
    exact h6 fun p t hp => Classical.byContradiction fun ht => hn ⟨p, t, hp, ht⟩
  exact ⟨p, t, h7, fun h => h8 (.inl h), fun h => h8 (.inr h)⟩

/-- C15, two literals at the beginning of the text, with nothing said about the rest. -/
theorem C15_start (cfg : Cfg) (w : World) (o : Oracle) (ctx : Context) (ws ws' a b rest : Bytes) (u v : F64)
    (hw : spaces ws) (hw' : spaces ws') (ha : Literal a (ws' ++ b ++ rest) u) (hb : Literal b rest v) (x : Xpr) :
    parse cfg w o ctx (ws ++ a ++ (ws' ++ b ++ rest)) ≠ .ok x := by
  intro h
  obtain ⟨ts, hl⟩ := parseImpl_lex (parse_ok h)
  obtain ⟨ts1, rfl, hl1⟩ := lex_num_inv hw ha hl
  obtain ⟨ts2, rfl, hl2⟩ := lex_num_inv hw' hb hl1
  obtain ⟨p, t, h7, _⟩ := C15_partial cfg w o ctx _ x [] ts2 a b h hl
    ⟨_, literal_nil ha⟩ ⟨_, literal_nil hb⟩
  have := congrArg List.length h7
  simp at this

example : parse0 cfgOpt b!"2 3" = .err ⟨.unexpectedToken c!"3", 2, 0⟩ := by decide +kernel
example : (match parse0 cfgOpt b!"x + max(1, 2 3)" with | .err _ => true | _ => false) = true := by
  decide +kernel

/-! ### C18 -/

/-- C18, values: a text that is a literal for the decimal number `M · 10^E`, alone or with
whitespace around it, is accepted in every build, and its value is the binary64 number
nearest to `M · 10^E` (ties to even, infinity above the range). -/
theorem C18_value (cfg : Cfg) (w : World) (o : Oracle) (ctx : Context) (ws txt tw : Bytes) (M : Nat) (E : Int)
    (hw : spaces ws) (ht : spaces tw) (h : Decimal txt tw M E) :
    ∃ v, parse cfg w o ctx (ws ++ txt ++ tw) = .ok ⟨.num v, []⟩ ∧
      NearestF64 (decNum M E * 2 ^ 1074) (decDen E) v ∧
      ∀ v', NearestF64 (decNum M E * 2 ^ 1074) (decDen E) v' → v' = v := by
  have hn := ofDecimal_nearest M E
  refine ⟨F64.ofDecimal M E, ?_, hn, fun v' hv => nearestF64_unique hv hn⟩
  have hl : Literal txt tw (F64.ofDecimal M E) := literal_iff_decimal.2 ⟨M, E, h, hn⟩
  refine parse_of_impl ?_ (by simp)
  have := parseImpl_text cfg w ctx (.num ws txt (F64.ofDecimal M E)) tw ⟨hw, hl⟩ ht
  rw [Cst.text] at this
  rw [this, Cst.meaning, Cst.den]
  simp only
  have hf : finOf cfg w (.num (F64.ofDecimal M E)) = .ok (.num (F64.ofDecimal M E)) := by
    unfold finOf
    split
    · rw [simplify]
    · rfl
  rw [hf]
  rfl

/-- C18, values anywhere: the number tokens of an accepted text are literals whose value
is the nearest binary64 number.  (`C17_exact` says that the tree is made from them.) -/
theorem C18_tokens (txt rest : Bytes) (v : F64) :
    Literal txt rest v ↔
    ∃ M E, Decimal txt rest M E ∧ NearestF64 (decNum M E * 2 ^ 1074) (decDen E) v :=
  literal_iff_decimal

theorem parseNumber_bad {pos : Nat} {mant rest : Bytes} (h : Mantissa mant rest) (hb : ¬ mantOk mant) :
    ∃ txt, parseNumber ⟨pos, mant ++ rest⟩ =
      .err ⟨.malformedNumber txt, pos, txt.length⟩ (numEnd ⟨pos, mant ++ rest⟩) := by
  obtain ⟨c, h1, h2⟩ := h.1
  have hh : (mant ++ rest).head? = some c := head_append h1
  cases hp : parseF64 (((mant ++ rest).take ((numEnd ⟨pos, mant ++ rest⟩).pos - pos)).filter (· ≠ c!"_")) with
  | some v =>
    exfalso
    have : parseNumber ⟨pos, mant ++ rest⟩ = .ok (.num v) (numEnd ⟨pos, mant ++ rest⟩) := by
      unfold parseNumber; simp only [hp]
    obtain ⟨txt, v', _, e, hl⟩ := literal_of_parseNumber hh (by rw [isDigit_iff]; exact h2) this
    exact hb (mantissa_of_literal h hl e.1)
  | none =>
    obtain ⟨m, ex, _, _, _, e1, e2⟩ := numEnd_spec ⟨pos, mant ++ rest⟩
    simp only at e1 e2
    refine ⟨(mant ++ rest).take ((numEnd ⟨pos, mant ++ rest⟩).pos - pos), ?_⟩
    have hlen : ((mant ++ rest).take ((numEnd ⟨pos, mant ++ rest⟩).pos - pos)).length =
        (numEnd ⟨pos, mant ++ rest⟩).pos - pos := by
      rw [List.length_take, Nat.min_eq_left]
      rw [e2, e1, List.length_append (as := m ++ ex)]; omega
    unfold parseNumber
    simp only [hp, errNum, hlen]
    congr 2
    omega

/-- C18, malformed literals, wherever they are: if an input is rejected for a malformed
number, then at that place there is a mantissa without a digit or with two points. -/
theorem C18_malformed_only (cfg : Cfg) (w : World) (o : Oracle) (ctx : Context) (input txt : Bytes)
    (off len : Nat) (h : parse cfg w o ctx input = .err ⟨.malformedNumber txt, off, len⟩) :
    ∃ mant rest, input.drop off = mant ++ rest ∧ Mantissa mant rest ∧ ¬ mantOk mant := by
  have hne : input ≠ [] := by
    rintro rfl
    rcases parse_err h with h | ⟨x, vs, v, h1, _⟩
    · rw [parseImpl_nil] at h
      split at h <;> cases h
    · rw [parseImpl_nil] at h1
      split at h1 <;> cases h1
  obtain ⟨_, h1, h2, ⟨c, h3, h4⟩, h5⟩ := C53_report cfg w o ctx input _ hne h (by simp)
  simp only at h1 h2 h5
  have hd : (input.drop off).head? = some c := by
    rw [← h1] at h3
    cases hd : input.drop off with
    | nil => rw [hd] at h3; simp at h3
    | cons a l =>
      rw [hd] at h3
      cases len with
      | zero => simp at h3
      | succ n => simpa using h3
  have hm : ∀ c ∈ (input.drop off).takeWhile isNumChar, mantChar c :=
    fun c hc => (isNumChar_iff c).1 (mem_takeWhile c hc)
  have hr : notHead mantChar ((input.drop off).dropWhile isNumChar) := by
    intro c hc
    have := head_dropWhile hc
    rw [← isNumChar_iff, this]; decide
  have hh : ((input.drop off).takeWhile isNumChar).head? = some c := by
    cases hd' : input.drop off with
    | nil => rw [hd'] at hd; cases hd
    | cons a l =>
      rw [hd'] at hd; cases hd
      have : isNumChar c = true := (isNumChar_iff c).2 (h4.imp id .inl)
      rw [List.takeWhile_cons, this]; rfl
  have hM : Mantissa ((input.drop off).takeWhile isNumChar) ((input.drop off).dropWhile isNumChar) :=
    ⟨⟨c, hh, h4⟩, hm, hr⟩
  have e : input.drop off = (input.drop off).takeWhile isNumChar ++ (input.drop off).dropWhile isNumChar :=
    (List.takeWhile_append_dropWhile).symm
  refine ⟨_, _, e, hM, fun hok => ?_⟩
  by_cases hx : expStart ((input.drop off).dropWhile isNumChar)
  · obtain ⟨ex, rest', M, E, _, e2, hD⟩ := (exists_decimal hM hok).2 hx
    rw [e2, ← List.append_assoc] at e
    exact h5 _ _ _ e (literal_iff_decimal.2 ⟨M, E, hD, ofDecimal_nearest M E⟩)
  · obtain ⟨M, E, hD⟩ := (exists_decimal hM hok).1 hx
    exact h5 _ _ _ e (literal_iff_decimal.2 ⟨M, E, hD, ofDecimal_nearest M E⟩)

/-- C18, malformed literals: a text that begins with a mantissa is rejected as malformed
there if and only if the mantissa has no digit or more than one point. -/
theorem C18_malformed (cfg : Cfg) (w : World) (o : Oracle) (ctx : Context) (ws mant rest : Bytes)
    (hw : spaces ws) (h : Mantissa mant rest) :
    (∃ txt, parse cfg w o ctx (ws ++ mant ++ rest) =
      .err ⟨.malformedNumber txt, ws.length, txt.length⟩) ↔
    ((∀ c ∈ mant, ¬ digit c) ∨ 2 ≤ mant.count c!".") := by
  have hiff : ((∀ c ∈ mant, ¬ digit c) ∨ 2 ≤ mant.count c!".") ↔ ¬ mantOk mant := by
    unfold mantOk
    constructor
    · rintro (h | h) ⟨⟨c, h1, h2⟩, h3⟩
      · exact h c h1 h2
      · omega
    · intro hn
      by_cases h1 : ∃ c ∈ mant, digit c
      · right
        by_cases h2 : mant.count c!"." ≤ 1
        · exact absurd ⟨h1, h2⟩ hn
        · omega
      · left
        intro c hc hd
        exact h1 ⟨c, hc, hd⟩
  rw [hiff, List.append_assoc]
  constructor
  · rintro ⟨txt, hp⟩ hok
    obtain ⟨m, r, e, hM, hb⟩ := C18_malformed_only cfg w o ctx _ _ _ _ hp
    rw [List.drop_left] at e
    have key : ∀ {a r : Bytes}, Mantissa a r → (a ++ r).takeWhile isNumChar = a := by
      intro a r ha
      refine takeWhile_append_stop (fun c hc => (isNumChar_iff c).2 (ha.2.1 c hc)) fun c hc => ?_
      have := ha.2.2 c hc
      rw [← isNumChar_iff] at this
      simpa using this
    have e1 := key h
    rw [e, key hM] at e1
    subst e1
    exact hb hok
  · intro hb
    obtain ⟨txt, ht⟩ := parseNumber_bad (pos := ws.length) h hb
    refine ⟨txt, ?_⟩
    obtain ⟨c, h1, h2⟩ := h.1
    have hh : (mant ++ rest).head? = some c := head_append h1
    have hsp : trim ⟨0, ws ++ (mant ++ rest)⟩ = ⟨ws.length, mant ++ rest⟩ := by
      rw [trim_spaces 0 hw, Nat.zero_add]
      intro d hd; rw [hh] at hd; cases hd
      exact ((starts c).1 h2).1
    have hc : (isDigit c || decide (c = c!".")) = true := by
      rcases h2 with h | h
      · rw [(isDigit_iff c).2 h]; rfl
      · rw [h]; decide
    have hat : ∀ rec, atom cfg ctx rec ⟨0, ws ++ (mant ++ rest)⟩ =
        parseNumber ⟨ws.length, mant ++ rest⟩ := by
      intro rec
      unfold atom
      simp only [hsp, hh]
      rw [if_pos hc]
    have hpi : parseImpl cfg w ctx (ws ++ (mant ++ rest)) =
        .err ⟨.malformedNumber txt, ws.length, txt.length⟩ := by
      unfold parseImpl
      rw [element, elementF, hat, ht]
      rfl
    unfold parse
    rw [hpi]

/-- C18, exponents: after a mantissa that is fine, `e` or `E` belongs to the literal if
and only if a digit, or a sign and a digit, follows it. -/
theorem C18_exponent (ws mant rest : Bytes) (ts : List Bytes) (hw : spaces ws) (h : Mantissa mant rest)
    (hok : mantOk mant) (hl : Lex (ws ++ mant ++ rest) ts) :
    (expStart rest ↔ ∃ ex ts', ex ≠ [] ∧ ts = (mant ++ ex) :: ts') ∧
    (¬ expStart rest ↔ ∃ ts', ts = mant :: ts' ∧ Lex rest ts') := by
  have a1 : expStart rest → ∃ ex ts', ex ≠ [] ∧ ts = (mant ++ ex) :: ts' := by
    intro hx
    obtain ⟨ex, rest', M, E, hne, rfl, hD⟩ := (exists_decimal h hok).2 hx
    rw [show ws ++ mant ++ (ex ++ rest') = ws ++ (mant ++ ex) ++ rest' by simp] at hl
    obtain ⟨ts', h1, _⟩ := lex_num_inv hw (literal_iff_decimal.2 ⟨M, E, hD, ofDecimal_nearest M E⟩) hl
    exact ⟨ex, ts', hne, h1⟩
  have a2 : ¬ expStart rest → ∃ ts', ts = mant :: ts' ∧ Lex rest ts' := by
    intro hx
    obtain ⟨M, E, hD⟩ := (exists_decimal h hok).1 hx
    exact lex_num_inv hw (literal_iff_decimal.2 ⟨M, E, hD, ofDecimal_nearest M E⟩) hl
  refine ⟨⟨a1, ?_⟩, ⟨a2, ?_⟩⟩
  · rintro ⟨ex, ts', hne, rfl⟩
    apply Classical.byContradiction
    intro hx
    obtain ⟨ts2, h1, _⟩ := a2 hx
    have := (List.cons.inj h1).1
    exact hne (by simpa using this)
  · rintro ⟨ts', rfl, _⟩ hx
    obtain ⟨ex, ts2, hne, h1⟩ := a1 hx
    have := (List.cons.inj h1).1
    exact hne (by simpa using this)

/-- C18, `e` not starting an exponent: a name that begins with `e` behind a mantissa is
read as a name, and multiplied. -/
theorem C18_identifier (cfg : Cfg) (w : World) (o : Oracle) (ctx : Context) (ws mant nm tw : Bytes)
    (hw : spaces ws) (ht : spaces tw) (h : Mantissa mant (nm ++ tw)) (hok : mantOk mant)
    (hn : IsName nm) (he : nm.head? = some c!"e") (hx : ¬ expStart (nm ++ tw))
    (hnf : ∀ f, lookup ctx nm ≠ .func f) (hd : Declared ctx ((Cst.name [] nm).tree ctx)) :
    ∃ M E v, Decimal mant (nm ++ tw) M E ∧ NearestF64 (decNum M E * 2 ^ 1074) (decDen E) v ∧
      ∃ x, parse cfg w o ctx (ws ++ mant ++ nm ++ tw) = .ok x ∧
        finOf cfg w (.bin .times (.num v) ((Cst.name [] nm).tree ctx)) = .ok x.root := by
  obtain ⟨M, E, hD⟩ := (exists_decimal h hok).1 hx
  have hv := ofDecimal_nearest M E
  refine ⟨M, E, F64.ofDecimal M E, hD, hv, ?_⟩
  have hl : Literal mant (nm ++ tw) (F64.ofDecimal M E) := literal_iff_decimal.2 ⟨M, E, hD, hv⟩
  have hsp : notHead nameChar tw := by
    intro c hc
    cases tw with
    | nil => cases hc
    | cons d tw =>
      cases hc
      exact (forall_byte (P := fun c => space c → ¬ nameChar c) (by decide +kernel)) _ (ht _ (by simp))
  obtain ⟨t, rfl⟩ : ∃ t, nm = c!"e" :: t := by
    cases nm with
    | nil => cases he
    | cons d t => cases he; exact ⟨t, rfl⟩
  have hfe : ∀ u, firstTok (c!"e" :: u) = some c!"e" := fun u => firstTok_cons (by decide)
  have hil : implLevel cfg < 7 := implLevel_lt cfg
  have hwf : (Cst.juxt (.num ws mant (F64.ofDecimal M E)) (.name [] (c!"e" :: t))).wf cfg (finOf cfg w) ctx tw := by
    refine ⟨⟨hw, hl⟩, ?_, ⟨by decide, isName_name hn hsp, hnf⟩, hil, c!"e", ?_, .inl (by decide)⟩
    · show firstTok (c!"e" :: (t ++ tw)) ≠ some c!"!"
      rw [hfe]; decide
    · exact hfe _
  have hp := parseImpl_text cfg w ctx _ tw hwf ht
  have hden : (Cst.name [] (c!"e" :: t)).den (finOf cfg w) ctx =
      .ok ((Cst.name [] (c!"e" :: t)).tree ctx) := by
    clear hv hD hl hp
    rw [Cst.den, Cst.tree]
    split <;> simp_all
  have hleaf : ∀ e : Elem, (∃ x, e = .num x) ∨ (∃ n, e = .var n) → finOf cfg w e = .ok e := by
    rintro e (⟨x, rfl⟩ | ⟨n, rfl⟩) <;> unfold finOf <;> split <;> first | rfl | rw [simplify]
  have htree : (∃ x, (Cst.name [] (c!"e" :: t)).tree ctx = .num x) ∨
      (∃ n, (Cst.name [] (c!"e" :: t)).tree ctx = .var n) := by
    rw [Cst.tree]
    split
    · exact .inl ⟨_, rfl⟩
    · exact .inr ⟨_, rfl⟩
  have hm : (Cst.juxt (.num ws mant (F64.ofDecimal M E)) (.name [] (c!"e" :: t))).meaning (finOf cfg w) ctx =
      finOf cfg w (.bin .times (.num (F64.ofDecimal M E)) ((Cst.name [] (c!"e" :: t)).tree ctx)) := by
    rw [Cst.meaning, Cst.den, hden, Cst.den]
    simp only [hleaf _ htree]
  have hprop : Proper (fun _ => False) (.bin .times (.num (F64.ofDecimal M E))
      ((Cst.name [] (c!"e" :: t)).tree ctx)) := by
    refine .bin (by decide) (.num _) ?_
    rcases htree with ⟨x, h⟩ | ⟨n, h⟩ <;> rw [h]
    · exact .num _
    · exact .var _
  have hfin : ∃ e, finOf cfg w (.bin .times (.num (F64.ofDecimal M E))
      ((Cst.name [] (c!"e" :: t)).tree ctx)) = .ok e ∧ ∀ n, Occurs n e →
      Occurs n ((Cst.name [] (c!"e" :: t)).tree ctx) := by
    unfold finOf
    split
    · obtain ⟨e, h1, _⟩ := simplify_proper cfg w (fun _ h => h.elim) _ hprop
      refine ⟨e, h1, fun n hn => ?_⟩
      simpa using simplify_occurs _ h1 hn
    · exact ⟨_, rfl, fun n hn => by simpa using hn⟩
  obtain ⟨e, hf, hocc⟩ := hfin
  rw [hm, hf] at hp
  have htxt : (Cst.juxt (.num ws mant (F64.ofDecimal M E)) (.name [] (c!"e" :: t))).text ++ tw =
      ws ++ mant ++ (c!"e" :: t) ++ tw := by simp [Cst.text]
  rw [htxt] at hp
  exact ⟨_, parse_of_impl hp fun vs hvs n hn => hd vs hvs n (hocc n (findVars_mem hn)), hf⟩

/-- `1_2.50e-1`: the decimal number 1250 · 10⁻³. -/
example : Decimal b!"1_2.50e-1" b!" " 1250 (-3) :=
  ⟨b!"1_2.50", b!"12", b!"50", ⟨c!"1", rfl, by decide⟩, by decide,
    ⟨by decide, by decide, by decide, .inl (by decide)⟩, by decide,
    .inr ⟨c!"e", b!"-", b!"1", .inl rfl, by decide, by decide, rfl,
      by intro c h; cases h; decide, .inr ⟨rfl, by decide⟩⟩⟩
example : parse0 cfgPlain b!"1_2.50e-1" = parse0 cfgPlain b!"1.25" := by decide +kernel
/-- Ties go to even: `2^53 + 1` is halfway between its neighbours. -/
example : parse0 cfgPlain b!"9007199254740993" = .ok ⟨.num (F64.ofNat 9007199254740992), []⟩ := by
  decide +kernel
example : parse0 cfgPlain b!"1e400" = .ok ⟨.num (.inf false), []⟩ := by decide +kernel
example : Mantissa b!"1.2.3" b!"e4" ∧ ¬ mantOk b!"1.2.3" := by
  refine ⟨⟨⟨c!"1", rfl, by decide⟩, by decide, by intro c h; cases h; decide⟩, ?_⟩
  rintro ⟨_, h⟩; revert h; decide
example : parse0 cfgPlain b!" 1.2.3e4" = .err ⟨.malformedNumber b!"1.2.3e4", 1, 7⟩ := by decide +kernel
example : parse0 cfgPlain b!"._" = .err ⟨.malformedNumber b!"._", 0, 2⟩ := by decide +kernel
example : parse0 cfgPlain b!"2e+x" = .ok ⟨.bin .plus (.bin .times (.num (F64.ofNat 2)) (.num f64E)) (.var b!"x"), [b!"x"]⟩ := by
  decide +kernel

end Props
end Xprs
