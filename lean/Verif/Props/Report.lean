import Verif.Report
import Verif.Props.Parsing
import Verif.Props.Binding
import Verif.Spec.Report
import Verif.Props.Utf8
import Verif.Props.Histories
import Verif.Lemmas.Render
/-
C69: the text of an error says everything about it.
-/
namespace Xprs
namespace Props
open Spec

theorem decimal_val (n : Nat) : digitsVal (decimal n) = n := by
  induction n using Nat.strongRecOn with
  | _ n ih =>
    unfold decimal
    have hc : ∀ k, k < 10 → (UInt8.ofNat (48 + k)).toNat - 48 = k := by decide
    split
    · rename_i h
      simp only [digitsVal, List.foldl_cons, List.foldl_nil, hc n h]
      omega
    · rename_i h
      have h1 := ih (n / 10) (by omega)
      unfold digitsVal at h1 ⊢
      rw [List.foldl_append, h1]
      simp only [List.foldl_cons, List.foldl_nil, hc (n % 10) (by omega)]
      omega

theorem decimal_digit (n : Nat) : ∀ c ∈ decimal n, isDigit c = true := by
  induction n using Nat.strongRecOn with
  | _ n ih =>
    unfold decimal
    have hc : ∀ k, k < 10 → isDigit (UInt8.ofNat (48 + k)) = true := by decide
    split
    · rename_i h
      intro c hm
      rw [List.mem_singleton.1 hm]
      exact hc n h
    · rename_i h
      intro c hm
      rcases List.mem_append.1 hm with hm | hm
      · exact ih (n / 10) (by omega) c hm
      · rw [List.mem_singleton.1 hm]
        exact hc (n % 10) (by omega)

theorem decimal_inj {a b : Nat} (h : decimal a = decimal b) : a = b := by
  rw [← decimal_val a, h, decimal_val]

/-- Two texts split at the first byte `c` that is not in the class `p`. -/
theorem split_inj {p : UInt8 → Prop} {c : UInt8} (hc : ¬ p c) : ∀ {a a' b b' : Bytes},
    (∀ x ∈ a, p x) → (∀ x ∈ a', p x) → a ++ c :: b = a' ++ c :: b' → a = a' ∧ b = b'
  | [], [], _, _, _, _, h => ⟨rfl, (List.cons.inj h).2⟩
  | [], x :: a', _, _, _, h2, h => absurd ((List.cons.inj h).1 ▸ h2 x (List.mem_cons_self ..)) hc
  | x :: a, [], _, _, h1, _, h => absurd ((List.cons.inj h).1 ▸ h1 x (List.mem_cons_self ..)) hc
  | x :: a, y :: a', b, b', h1, h2, h => by
    obtain ⟨hx, ht⟩ := List.cons.inj h
    obtain ⟨r1, r2⟩ := split_inj hc (fun z hz => h1 z (List.mem_cons_of_mem _ hz))
      (fun z hz => h2 z (List.mem_cons_of_mem _ hz)) ht
    exact ⟨by rw [hx, r1], r2⟩

theorem charText_inj : ∀ c d : UInt8, charText c = charText d → c = d := by
  have h : ∀ c : UInt8, (match charText c with
      | [x] => x
      | [x, y] => (x - 192) * 64 + (y - 128)
      | _ => 0) = c := forall_byte (by decide +kernel)
  intro c d he
  rw [← h c, he, h]

/-- The text of the character `c` is its UTF-8 encoding. -/
theorem charText_utf8 : ∀ c : UInt8, charText c = utf8 [shown c] := forall_byte (by decide +kernel)

/-- The list of names, separated by a text that begins with a byte no name contains, can
be read off. -/
theorem join_inj {c : UInt8} {sep : Bytes} : ∀ {l l' : List Bytes},
    (∀ n ∈ l, n ≠ [] ∧ c ∉ n) → (∀ n ∈ l', n ≠ [] ∧ c ∉ n) →
    joinWith (c :: sep) l = joinWith (c :: sep) l' → l = l'
  | [], [], _, _, _ => rfl
  | [], [a], _, h2, h => absurd h.symm (h2 a (List.mem_cons_self ..)).1
  | [a], [], h1, _, h => absurd h (h1 a (List.mem_cons_self ..)).1
  | [], a :: b :: t, _, _, h => by simp [joinWith] at h
  | a :: b :: t, [], _, _, h => by simp [joinWith] at h
  | [a], [b], _, _, h => by simpa [joinWith] using h
  | [a], b :: b' :: t, h1, _, h => by
    have h3 := (h1 a (List.mem_cons_self ..)).2
    simp only [joinWith] at h
    rw [h] at h3
    simp at h3
  | b :: b' :: t, [a], _, h1, h => by
    have h3 := (h1 a (List.mem_cons_self ..)).2
    simp only [joinWith] at h
    rw [← h] at h3
    simp at h3
  | a :: b :: t, a' :: b' :: t', h1, h2, h => by
    simp only [joinWith, List.append_assoc, List.cons_append] at h
    have hne : ∀ {n : Bytes}, c ∉ n → ∀ x ∈ n, x ≠ c := by
      intro n hn x hx he
      exact hn (he ▸ hx)
    obtain ⟨r1, r2⟩ := split_inj (p := (· ≠ c)) (by simp)
      (hne (h1 a (List.mem_cons_self ..)).2) (hne (h2 a' (List.mem_cons_self ..)).2) h
    have r3 := join_inj (fun n hn => h1 n (List.mem_cons_of_mem _ hn))
      (fun n hn => h2 n (List.mem_cons_of_mem _ hn)) (List.append_cancel_left r2)
    rw [r1, r3]

/-- The message determines the kind of an error, up to the suggestions. -/
theorem message_inj {k k' : ErrKind} (h : k.message = k'.message) :
    k = k' ∨ ∃ v vs vs', k = .variableNotDeclared v vs ∧ k' = .variableNotDeclared v vs' := by
  have hd : ¬ (isDigit c!" " = true) := by decide
  cases k <;> cases k' <;> simp [ErrKind.message] at h <;> try (exact .inl rfl)
  · exact .inl (by rw [charText_inj _ _ h])
  · exact .inl (by rw [h])
  · exact .inl (by rw [charText_inj _ _ h])
  · exact .inl (by rw [charText_inj _ _ h])
  · exact .inr ⟨_, _, _, by rw [h], rfl⟩
  · obtain ⟨r1, r2⟩ := split_inj hd (decimal_digit _) (decimal_digit _) h
    simp only [List.cons.injEq, true_and] at r2
    exact .inl (by rw [decimal_inj r1, decimal_inj r2])
  · obtain ⟨r1, r2⟩ := split_inj hd (decimal_digit _) (decimal_digit _) h
    simp only [List.cons.injEq, true_and] at r2
    exact .inl (by rw [decimal_inj r1, decimal_inj r2])

/-- C69 as stated, for parse errors: the diagnostic can always be shown, and two errors
with the same diagnostic are the same error. -/
def C69_claim : Prop :=
  ∀ (cfg : Cfg) (w w' : World) (o o' : Oracle) (ctx ctx' : Context) (input input' : Bytes) (e e' : PErr),
    parse cfg w o ctx input = .err e → parse cfg w' o' ctx' input' = .err e' →
    (∃ d, e.diag cfg input = .ok d) ∧
    (e.diag cfg input = e'.diag cfg input' → input = input' ∧ e = e')

/-- C69: it is not so.  Whether `a` and `b` or the single name "a`, `b" may be used cannot
be told from the suggestions. -/
theorem C69_refuted : ¬ C69_claim := by
  intro h
  have h1 : parse cfgPlain w0 Oracle.id (Context.default.setExpected [b!"a", b!"b"]) b!"x" =
      .err ⟨.variableNotDeclared b!"x" [b!"a", b!"b"], 0, 1⟩ := by decide +kernel
  have h2 : parse cfgPlain w0 Oracle.id (Context.default.setExpected [b!"a`, `b"]) b!"x" =
      .err ⟨.variableNotDeclared b!"x" [b!"a`, `b"], 0, 1⟩ := by decide +kernel
  have := ((h _ _ _ _ _ _ _ _ _ _ _ h1 h2).2 (by decide +kernel)).2
  revert this
  decide +kernel

theorem helpCount_ok {cfg : Cfg} {w : World} {o : Oracle} {ctx : Context} {input : Bytes} {e : PErr}
    (h : parse cfg w o ctx input = .err e) : ∃ n, helpCount cfg e = .ok n := by
  obtain ⟨h1, h2, h3⟩ := C46_help cfg w o ctx input e h
  cases hk : e.kind with
  | tooFew d g => exact ⟨_, (h1 d g hk).1⟩
  | tooMany d g => exact ⟨_, (h2 d g hk).1⟩
  | _ => exact ⟨none, h3 fun d g => by rw [hk]; exact ⟨nofun, nofun⟩⟩

/-- C69: the diagnostic of an error can always be shown. -/
theorem C69_shown (cfg : Cfg) (w : World) (o : Oracle) (ctx : Context) (input : Bytes) (e : PErr)
    (h : parse cfg w o ctx input = .err e) : ∃ d, e.diag cfg input = .ok d := by
  obtain ⟨n, hn⟩ := helpCount_ok h
  unfold PErr.diag PErr.help
  rw [hn]
  cases e.kind <;> exact ⟨_, rfl⟩

theorem diag_eq {cfg : Cfg} {w w' : World} {o o' : Oracle} {ctx ctx' : Context}
    {input input' : Bytes} {e e' : PErr} (h : parse cfg w o ctx input = .err e)
    (h' : parse cfg w' o' ctx' input' = .err e') (he : e.diag cfg input = e'.diag cfg input') :
    e.kind.message = e'.kind.message ∧ e.help cfg = e'.help cfg ∧ e.off = e'.off ∧ e.len = e'.len ∧
      input = input' := by
  obtain ⟨d, hd⟩ := C69_shown _ _ _ _ _ _ h
  obtain ⟨d', hd'⟩ := C69_shown _ _ _ _ _ _ h'
  rw [hd, hd'] at he
  have he := Except.ok.inj he
  subst he
  unfold PErr.diag at hd hd'
  cases h1 : e.help cfg with
  | error p => rw [h1] at hd; cases hd
  | ok t =>
    cases h2 : e'.help cfg with
    | error p => rw [h2] at hd'; cases hd'
    | ok t' =>
      rw [h1] at hd
      rw [h2] at hd'
      have hd := Except.ok.inj hd
      have hd' := Except.ok.inj hd'
      rw [← hd'] at hd
      simp only [Diag.mk.injEq] at hd
      obtain ⟨r1, r2, -, r3, r4, r5⟩ := hd
      exact ⟨r1, by rw [r2], r3, r4, r5⟩

/-- C69, what is true without conditions: the diagnostic determines the text, the place
and the kind of the error, everything but the list of the suggestions. -/
theorem C69_kind_partial (cfg : Cfg) (w w' : World) (o o' : Oracle) (ctx ctx' : Context)
    (input input' : Bytes) (e e' : PErr)
    (h : parse cfg w o ctx input = .err e) (h' : parse cfg w' o' ctx' input' = .err e')
    (he : e.diag cfg input = e'.diag cfg input') :
    input = input' ∧ e.off = e'.off ∧ e.len = e'.len ∧
      (e.kind = e'.kind ∨ ∃ v vs vs', e.kind = .variableNotDeclared v vs ∧
        e'.kind = .variableNotDeclared v vs') := by
  obtain ⟨h1, -, h3, h4, h5⟩ := diag_eq h h' he
  exact ⟨h5, h3, h4, message_inj h1⟩

/-- C69, also for the suggestions, if the names of the expected variables are not empty and
contain no backquote (what is missing: other names, which no text can mention). -/
theorem C69_partial (cfg : Cfg) (w w' : World) (o o' : Oracle) (ctx ctx' : Context)
    (hn : ∀ vs, ctx.getExpected = some vs → ∀ n ∈ vs, n ≠ [] ∧ c!"`" ∉ n)
    (hn' : ∀ vs, ctx'.getExpected = some vs → ∀ n ∈ vs, n ≠ [] ∧ c!"`" ∉ n)
    (input input' : Bytes) (e e' : PErr)
    (h : parse cfg w o ctx input = .err e) (h' : parse cfg w' o' ctx' input' = .err e')
    (he : e.diag cfg input = e'.diag cfg input') : input = input' ∧ e = e' := by
  obtain ⟨h1, h2, h3, h4, h5⟩ := diag_eq h h' he
  refine ⟨h5, ?_⟩
  have hfin : e.kind = e'.kind → e = e' := by
    intro hk
    cases e; cases e'
    simp only at hk h3 h4
    rw [hk, h3, h4]
  rcases message_inj h1 with hk | ⟨v, vs, vs', hk, hk'⟩
  · exact hfin hk
  · refine hfin ?_
    have hsug : ∀ {w : World} {o : Oracle} {ctx : Context} {input : Bytes} {e : PErr} {v vs},
        parse cfg w o ctx input = .err e → e.kind = .variableNotDeclared v vs →
        (∀ vs, ctx.getExpected = some vs → ∀ n ∈ vs, n ≠ [] ∧ c!"`" ∉ n) →
        ∀ n ∈ vs, n ≠ [] ∧ c!"`" ∉ n := by
      intro w o ctx input e v vs h hk hn
      cases hx : ctx.expectedVars with
      | none => exact absurd hk (C07_unset cfg w o ctx input hx e h v vs)
      | some ws =>
        rcases parse_err h with h1 | ⟨x, vs0, v0, _, hg, _, _, rfl⟩
        · exact absurd hk (by
            refine C07_unset cfg w o (dropExpected ctx) input rfl e ?_ v vs
            have := parseImpl_ctx cfg w (c := ctx) (c' := dropExpected ctx) rfl (input := input)
            rw [this] at h1
            unfold parse
            rw [h1])
        · simp only [ErrKind.variableNotDeclared.injEq] at hk
          obtain ⟨-, rfl⟩ := hk
          intro n hm
          exact hn _ hg n ((o.perm _).mem_iff.1 hm)
    unfold PErr.help at h2
    rw [hk, hk'] at h2
    simp only [Except.ok.injEq, List.append_cancel_right_eq, List.append_cancel_left_eq] at h2
    rw [hk, hk', join_inj (hsug h hk hn) (hsug h' hk' hn') h2]

/-- C69: a message quotes what stands in the source: the byte at its offset (a character of
ASCII), the number, or a name; an expected token is quoted and is not what stands there;
argument counts are those of the call at its span. -/
theorem C69_quotes (cfg : Cfg) (w : World) (o : Oracle) (ctx : Context) (input : Bytes) (e : PErr)
    (hne : input ≠ []) (h : parse cfg w o ctx input = .err e) :
    (∀ c, e.kind = .unexpectedToken c ∨ e.kind = .illegalCharacter c → c < 128 →
      Quotes e.kind.message ((input.drop e.off).take 1)) ∧
    (∀ txt, e.kind = .malformedNumber txt → Quotes e.kind.message ((input.drop e.off).take e.len)) ∧
    (∀ v vs, e.kind = .variableNotDeclared v vs → Quotes e.kind.message v ∧ v <:+: input) ∧
    (∀ c, e.kind = .expectedToken c → Quotes e.kind.message [c] ∧ input[e.off]? ≠ some c) ∧
    (∀ d g, e.kind = .tooFew d g ∨ e.kind = .tooMany d g →
      CallAt cfg (finOf cfg w) ctx input e.off e.len d g ∧
      ∃ pre, e.kind.message = pre ++ b!", expected " ++ decimal d ++ b!" got " ++ decimal g) := by
  have hat : ∀ {c}, input[e.off]? = some c → (input.drop e.off).take 1 = [c] := by
    intro c hc
    rw [← List.head?_drop] at hc
    cases hd : input.drop e.off with
    | nil => rw [hd] at hc; cases hc
    | cons x t => rw [hd] at hc; cases hc; rfl
  have hasc : ∀ {c : UInt8}, c < 128 → charText c = [c] := by
    intro c hc
    unfold charText
    rw [if_pos hc]
  refine ⟨?_, ?_, ?_, ?_, ?_⟩
  · rintro c hk hc
    have hr := (C53_report cfg w o ctx input e hne h (by
      intro v vs hv; rw [hv] at hk; rcases hk with hk | hk <;> cases hk)).2
    rcases hk with hk | hk <;> rw [hk] at hr ⊢
    · rw [hat hr.1]
      exact ⟨b!"Unexpected token: ", by decide, by simp [ErrKind.message, hasc hc]⟩
    · rw [hat hr.1]
      exact ⟨b!"Illegal character: ", by decide, by simp [ErrKind.message, hasc hc]⟩
  · intro txt hk
    have hr := (C53_report cfg w o ctx input e hne h (by
      intro v vs hv; rw [hv] at hk; cases hk)).2
    rw [hk] at hr ⊢
    rw [hr.1]
    exact ⟨b!"Malformed number: ", by decide, by simp [ErrKind.message]⟩
  · intro v vs hk
    refine ⟨?_, ?_⟩
    · rw [hk]
      exact ⟨b!"Variable not previously declared: ", by decide, by simp [ErrKind.message]⟩
    · cases hx : ctx.expectedVars with
      | none => exact absurd hk (C07_unset cfg w o ctx input hx e h v vs)
      | some ws =>
        rcases parse_err h with h1 | ⟨x, vs0, v0, hp, hg, hd, _, rfl⟩
        · have := ((parseImpl_good hne).1 e h1).2
          rw [hk] at this
          exact this.elim
        · simp only [ErrKind.variableNotDeclared.injEq] at hk
          obtain ⟨rfl, -⟩ := hk
          have hp' : parse cfg w o (dropExpected ctx) input = .ok x := by
            have := parseImpl_ctx cfg w (c := ctx) (c' := dropExpected ctx) rfl (input := input)
            rw [this] at hp
            exact parse_of_impl hp (by intro vs hv; cases hv)
          exact (C04_names cfg w o (dropExpected ctx) input x hp' _ (.inr hd)).1
  · intro c hk
    have hr := (C53_report cfg w o ctx input e hne h (by
      intro v vs hv; rw [hv] at hk; cases hk)).2
    rw [hk] at hr ⊢
    refine ⟨⟨b!"Expected token: ", by decide, ?_⟩, hr.2.1⟩
    have hc : c < 128 := by rcases hr.1 with rfl | rfl <;> decide
    simp [ErrKind.message, hasc hc]
  · rintro d g (hk | hk)
    · refine ⟨((C46_help cfg w o ctx input e h).1 d g hk).2.2, b!"Too few arguments for function call", ?_⟩
      rw [hk]; simp [ErrKind.message]
    · refine ⟨((C46_help cfg w o ctx input e h).2.1 d g hk).2.2, b!"Too many arguments for function call", ?_⟩
      rw [hk]; simp [ErrKind.message]

theorem intercalate_join (sep : Bytes) : ∀ l : List Bytes, List.intercalate sep l = joinWith sep l
  | [] => rfl
  | [a] => by simp [List.intercalate, joinWith]
  | a :: b :: t => by
    have := intercalate_join sep (b :: t)
    simp only [List.intercalate] at this ⊢
    simp [joinWith, List.intersperse, ← this]

/-- The listed variables of an expression are names. -/
theorem reach_names {cfg : Cfg} {w : World} {ctx : Context} {input : Bytes} {y : Xpr}
    (h : Reach cfg w ctx input y) : ∀ n ∈ y.vars, n ≠ [] ∧ c!"," ∉ n := by
  refine reach_ind (Q := fun _ vs => ∀ n ∈ vs, n ≠ [] ∧ c!"," ∉ n) ?_ ?_ h
  · intro x hx n hn
    have hp' : parse cfg w Oracle.id (dropExpected ctx) input = .ok x := by
      have := parseImpl_ctx cfg w (c := ctx) (c' := dropExpected ctx) rfl (input := input)
      rw [this] at hx
      exact parse_of_impl hx (by intro vs hv; cases hv)
    obtain ⟨-, ⟨c, t, rfl, -⟩, h2⟩ := C04_names cfg w Oracle.id (dropExpected ctx) input x hp' n (.inr hn)
    refine ⟨by simp, fun hm => ?_⟩
    exact absurd (h2 _ hm).1 (by decide)
  · intro e e' vs x v hq _ n hn
    exact hq n (by unfold Xpr.removeVar at hn; exact (List.mem_filter.1 hn).1)

/-- C69: the text of a bind error determines which variables are missing. -/
theorem C69_bind (cfg cfg' : Cfg) (w w' : World) (o o' : Oracle) (ctx ctx' : Context)
    (input input' : Bytes) (e e' : Xpr) (names names' l l' : List Bytes) (b b' : BindErr)
    (he : Reach cfg w ctx input e) (he' : Reach cfg' w' ctx' input' e')
    (hl : Missing e names l) (hl' : Missing e' names' l')
    (h : BindCall cfg w o e names (.err b)) (h' : BindCall cfg' w' o' e' names' (.err b'))
    (ht : b.text = b'.text) : l.Perm l' := by
  have key : ∀ {cfg : Cfg} {w : World} {o : Oracle} {ctx : Context} {input : Bytes} {e : Xpr}
      {names l : List Bytes} {b : BindErr}, Reach cfg w ctx input e → Missing e names l →
      BindCall cfg w o e names (.err b) → ∃ k, l.Perm k ∧ (∀ n ∈ k, n ≠ [] ∧ c!"," ∉ n) ∧
        (b = .one (joinWith b!", " k) ∨ b = .multiple (joinWith b!", " k)) := by
    intro cfg w o ctx input e names l b he hl h
    obtain ⟨c, g, hg, hr⟩ := bindCall_spec h
    have hm := missing_diffVars (o := o) (reach_vars he).1 names
    refine ⟨diffVars o e.vars names,
      (List.perm_ext_iff_of_nodup hl.1 hm.1).2 fun v => by rw [hl.2, hm.2],
      fun n hn => reach_names he n ((hm.2 n).1 hn).1, ?_⟩
    rw [bindWith_spec, intercalate_join] at hr
    split at hr
    · cases hr
    · split at hr
      · cases hr
      · split at hr <;> cases hr
        · exact .inl rfl
        · exact .inr rfl
  obtain ⟨k, hp, hn, hb⟩ := key he hl h
  obtain ⟨k', hp', hn', hb'⟩ := key he' hl' h'
  have hj : joinWith b!", " k = joinWith b!", " k' := by
    rcases hb with rfl | rfl <;> rcases hb' with rfl | rfl <;> simp [BindErr.text] at ht <;> exact ht
  rw [join_inj hn hn' hj] at hp
  exact hp.trans hp'.symm

/-- C69: the text of an evaluation error names a variable of the expression that has no
value, and determines it. -/
theorem C69_eval (w : World) (e : Xpr) (m : HMap F64) (v : Bytes)
    (h : e.eval w m = .error (.missing v)) :
    Occurs v e.root ∧ m v = none ∧
    ∀ w' (e' : Xpr) m' v', e'.eval w' m' = .error (.missing v') →
      evalErrorText v = evalErrorText v' → v' = v := by
  obtain ⟨h1, h2⟩ := C20_missing w e m v h
  refine ⟨h1, h2, fun w' e' m' v' _ ht => ?_⟩
  exact (by simpa [evalErrorText] using ht : v = v').symm

/-! Concrete errors. -/

example : (PErr.diag cfgPlain b!"1 + max(2,)" ⟨.missingArgument, 9, 2⟩) =
    .ok ⟨b!"Missing argument for function call", b!"Either remove comma or add argument.", b!"here", 9, 2,
      b!"1 + max(2,)"⟩ ∧
    parse0 cfgPlain b!"1 + max(2,)" = .err ⟨.missingArgument, 9, 2⟩ := by decide +kernel

example : parse0 cfgPlain b!"logn(1)" = .err ⟨.tooFew 2 1, 0, 7⟩ ∧
    PErr.diag cfgPlain b!"logn(1)" ⟨.tooFew 2 1, 0, 7⟩ =
    .ok ⟨b!"Too few arguments for function call, expected 2 got 1", b!"Try adding 1 argument.", b!"here", 0, 7,
      b!"logn(1)"⟩ := by decide +kernel

example : parse0 cfgPlain b!"sin(1,2,3)" = .err ⟨.tooMany 1 3, 0, 10⟩ ∧
    PErr.diag cfgPlain b!"sin(1,2,3)" ⟨.tooMany 1 3, 0, 10⟩ =
    .ok ⟨b!"Too many arguments for function call, expected 1 got 3", b!"Try removing 2 arguments.", b!"here",
      0, 10, b!"sin(1,2,3)"⟩ := by decide +kernel

/-- Outside ASCII the quoted character is not the one in the text (see C64): for `é` it is
`Ã`. -/
theorem C69_quotes_ascii : ∃ e, parse0 cfgPlain b!"é" = .err e ∧
    e.kind.message = b!"Illegal character: `Ã`" ∧ ¬ Quotes e.kind.message (b!"é".take 1) := by
  refine ⟨⟨.illegalCharacter 195, 0, 0⟩, by decide +kernel, by decide +kernel, ?_⟩
  rintro ⟨pre, hp, h⟩
  have h1 := congrArg (fun l : Bytes => l[l.length - 2]?) h
  simp only [ErrKind.message] at h1
  rw [show pre ++ c!"`" :: (b!"é".take 1) ++ [c!"`"] = (pre ++ [c!"`"]) ++ [195, c!"`"] by simp] at h1
  simp at h1
  revert h1
  decide +kernel

end Props
end Xprs
