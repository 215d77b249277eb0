import Verif.Props.Parsing
import Verif.Lemmas.Loosen
import Verif.Lemmas.Mention
/-
Property C66: how much of a text is needed to reject it.
-/
namespace Xprs
namespace Props
open Spec

/-! ### C66 -/

/-- C66, as one would like it: errors are found as early as possible.  What stands in
front of the error can be completed to an accepted text, and no text that begins with
the same bytes up to and including the offending one is accepted. -/
def C66_claim : Prop :=
  ∀ (cfg : Cfg) (w : World) (o : Oracle) (ctx : Context) (input : Bytes) (e : PErr),
    parse cfg w o ctx input = .err e →
    (∃ tail x, parse cfg w o ctx (input.take (foundAt e input.length) ++ tail) = .ok x) ∧
    (e.kind ≠ .unexpectedEnd → (∀ v vs, e.kind ≠ .variableNotDeclared v vs) →
      ∀ input', SameStart (e.off + e.len + 1) input input' →
        parse cfg w o ctx input' = .err e)

/-- C66: it is not so: `1E$` is rejected for its `E`, but `1E5` is accepted. -/
theorem C66_refuted : ¬ C66_claim := by
  intro h
  have h1 : parse0 cfgPlain b!"1E$" = .err ⟨.unexpectedToken c!"E", 1, 0⟩ := by decide +kernel
  have h2 := (h cfgPlain w0 Oracle.id Context.default b!"1E$" _ h1).2 (by decide)
    (by intro v vs hv; cases hv) b!"1E5" (by unfold SameStart; decide +kernel)
  have h3 : parse0 cfgPlain b!"1E5" = .err ⟨.unexpectedToken c!"E", 1, 0⟩ := h2
  revert h3
  decide +kernel

theorem eq_of_sameStart {n : Nat} {l l' : Bytes} (h : SameStart n l l') (hl : l.length < n) :
    l' = l := by
  unfold SameStart at h
  rw [List.take_of_length_le (by omega)] at h
  have h1 := congrArg List.length h
  rw [List.length_take] at h1
  rw [h, List.take_of_length_le (by omega)]

theorem parseImpl_local {cfg : Cfg} {w : World} {ctx : Context} {input input' : Bytes} {e : PErr}
    {d K : Nat} (hg : Ag d K ⟨0, input⟩ ⟨0, input'⟩) (hK : e.off + e.len + d ≤ K)
    (h : parseImpl cfg w ctx input = .err e) :
    (e.kind = .unexpectedEnd ∧ input.length ≤ e.off + 1) ∨
      parseImpl cfg w ctx input' = .err e := by
  have ho := out_element cfg w ctx (input.length + 1) d K noPrec ⟨0, input⟩ ⟨0, input'⟩ hg
  have he : elem cfg w ctx noPrec ⟨0, input'⟩
    = element cfg w ctx (input'.length + 1) noPrec ⟨0, input'⟩ := rfl
  rw [he] at ho
  unfold parseImpl at h ⊢
  cases hx : element cfg w ctx (input.length + 1) noPrec ⟨0, input⟩ with
  | ok root s =>
    rw [hx] at h ho
    simp only at h
    split at h
    · rename_i c hc
      simp only [PRes.err.injEq] at h
      subst h
      simp only at hK
      have l := (le_trim s).pos
      have hgap := hg.gap
      obtain ⟨t, h1, h2⟩ := ho.2 (by omega)
      have h3 := h2.trim (by omega)
      right
      rw [h1]
      simp only [← h3.head (by omega), hc, ← h3.pos]
    · simp at h
  | err e' s =>
    rw [hx] at h ho
    simp only [PRes.err.injEq] at h
    subst h
    obtain ⟨l, ht, h1⟩ := ho
    have lt := l.total
    simp only [Nat.zero_add] at lt
    by_cases hk : e'.kind = .unexpectedEnd
    · left
      unfold Tells at ht
      simp only [hk] at ht
      rw [ht.1] at lt
      simp only [List.length_nil, Nat.add_zero] at lt
      exact ⟨hk, by omega⟩
    · right
      have hp : s.pos ≤ e'.off + e'.len := by
        unfold Tells at ht
        split at ht <;> first | omega | exact absurd ‹_› hk | exact ht.elim
      obtain ⟨t, h2, _⟩ := h1 (by omega)
      rw [h2]
  | panic p => rw [hx] at h; simp at h
  | fuel => rw [hx] at h; simp at h

/-- C66, what is true of the second half: an error only depends on the text up to three
bytes behind the end of the place it names.  Every text that begins alike is rejected
with the same error.  Every build, context and kind of error. -/
theorem C66_lookahead_partial (cfg : Cfg) (w : World) (o : Oracle) (ctx : Context)
    (input input' : Bytes) (e : PErr) (h : parse cfg w o ctx input = .err e)
    (hs : SameStart (e.off + e.len + 3) input input') :
    parse cfg w o ctx input' = .err e := by
  rcases parse_err h with h' | ⟨x, vs, v, _, _, _, _, rfl⟩
  · have hg : Ag 3 (e.off + e.len + 3) ⟨0, input⟩ ⟨0, input'⟩ :=
      ⟨rfl, hs, by omega, .inl (Nat.le_refl _)⟩
    rcases parseImpl_local hg (Nat.le_refl _) h' with ⟨_, hl⟩ | h1
    · rw [eq_of_sameStart hs (by omega)]
      exact h
    · unfold parse
      rw [h1]
  · rw [eq_of_sameStart hs (by simp only; omega)]
    exact h

/-- C66: one byte is enough unless an exponent marker is near: if neither the byte at
the end of the place of the error nor the one before is an `e` or an `E`, then every
text that begins alike up to and including that byte is rejected with the same error.
(If the place ends where the text ends, the other text has to end there too.) -/
theorem C66_here_partial (cfg : Cfg) (w : World) (o : Oracle) (ctx : Context)
    (input input' : Bytes) (e : PErr) (h : parse cfg w o ctx input = .err e)
    (hend : e.kind ≠ .unexpectedEnd)
    (he : ∀ i c, input[i]? = some c → i = e.off + e.len ∨ i + 1 = e.off + e.len →
      c ≠ c!"e" ∧ c ≠ c!"E")
    (hs : SameStart (e.off + e.len + 1) input input') :
    parse cfg w o ctx input' = .err e := by
  rcases parse_err h with h' | ⟨x, vs, v, _, _, _, _, rfl⟩
  · have hg : Ag 1 (e.off + e.len + 1) ⟨0, input⟩ ⟨0, input'⟩ := by
      refine ⟨rfl, hs, by omega, .inr ?_⟩
      intro i c hi hk
      exact he i c hi (by simp only at hk; omega)
    rcases parseImpl_local hg (Nat.le_refl _) h' with ⟨hk, _⟩ | h1
    · exact absurd hk hend
    · unfold parse
      rw [h1]
  · rw [eq_of_sameStart hs (by simp only; omega)]
    exact h

/-- An error in the middle of a text: nothing behind it plays a role. -/
example (tail : Bytes) : parse0 cfgOpt (b!"1 + )" ++ tail) = .err ⟨.unexpectedToken c!")", 4, 0⟩ := by
  have h : parse0 cfgOpt b!"1 + )" = .err ⟨.unexpectedToken c!")", 4, 0⟩ := by decide +kernel
  refine C66_here_partial cfgOpt w0 Oracle.id Context.default b!"1 + )" _ _ h (by decide) ?_ ?_
  · intro i c hi hk
    simp only [Nat.add_zero] at hk
    rcases hk with rfl | hk
    · simp at hi; subst hi; decide
    · have : i = 3 := by omega
      subst this
      simp at hi; subst hi; decide
  · simp [SameStart]

/-- C66: three bytes are needed: with two, `1E+$` is rejected for its `E`, and `1E+5` is
accepted. -/
theorem C66_three :
    ¬ ∀ (cfg : Cfg) (w : World) (o : Oracle) (ctx : Context) (input input' : Bytes) (e : PErr),
      parse cfg w o ctx input = .err e → SameStart (e.off + e.len + 2) input input' →
      parse cfg w o ctx input' = .err e := by
  intro h
  have h1 : parse0 cfgPlain b!"1E+$" = .err ⟨.unexpectedToken c!"E", 1, 0⟩ := by decide +kernel
  have h2 := h cfgPlain w0 Oracle.id Context.default b!"1E+$" b!"1E+5" _ h1
    (by unfold SameStart; decide +kernel)
  have h3 : parse0 cfgPlain b!"1E+5" = .err ⟨.unexpectedToken c!"E", 1, 0⟩ := h2
  revert h3
  decide +kernel

/-- The text in front of an error can be completed to one that is not rejected. -/
theorem viable {cfg : Cfg} {w : World} {ctx ctx' : Context} {S : Elem → Elem → Prop}
    (hs' : Parallel cfg w ctx S) (hl : Loosened ctx ctx') (o : Oracle) (input : Bytes) (e : PErr)
    (h : parse cfg w o ctx input = .err e) :
    ∃ tail, Filler tail ∧ input.take (foundAt e input.length) ++ tail ≠ [] ∧
      ((∃ x, parse cfg w o ctx' (input.take (foundAt e input.length) ++ tail) = .ok x) ∨
        (cfg.opt = true ∧
          ∃ p, parse cfg w o ctx' (input.take (foundAt e input.length) ++ tail) = .panic p)) := by
  -- a complete text is accepted
  have fin : ∀ (text : Bytes), Reads cfg (elem cfg w ctx' noPrec ⟨0, text⟩) [] →
      (∃ x, parse cfg w o ctx' text = .ok x) ∨
        (cfg.opt = true ∧ ∃ p, parse cfg w o ctx' text = .panic p) := by
    intro text h1
    rcases h1 with ⟨a, t, h1, h2⟩ | ⟨ho, p, h1⟩
    · left
      have h3 : parseImpl cfg w ctx' text = .ok ⟨a, findVars a []⟩ := by
        unfold parseImpl
        rw [elem] at h1
        rw [h1]
        simp only [trim_cl (t := t) (by rw [h2]; exact .inl rfl), h2, List.head?_nil]
      refine ⟨⟨a, findVars a []⟩, ?_⟩
      unfold parse
      rw [h3]
      simp only [hl.1]
    · right
      refine ⟨ho, p, ?_⟩
      have h3 : parseImpl cfg w ctx' text = .panic p := by
        unfold parseImpl
        rw [elem] at h1
        rw [h1]
      unfold parse
      rw [h3]
  -- what is read completely
  have pass : ∀ (root : Elem) (s : St) (K : Nat),
      element cfg w ctx (input.length + 1) noPrec ⟨0, input⟩ = .ok root s →
      (trim s).pos = K → ∃ tail, Filler tail ∧ input.take K ++ tail ≠ [] ∧
        ((∃ x, parse cfg w o ctx' (input.take K ++ tail) = .ok x) ∨
          (cfg.opt = true ∧ ∃ p, parse cfg w o ctx' (input.take K ++ tail) = .panic p)) := by
    intro root s K hx hK
    have l0 := (element_consumes cfg w ctx _ _ _ _ _ hx).le.total
    have l1 := (element_consumes cfg w ctx _ _ _ _ _ hx).pos
    have l := le_trim s
    have lt := l.total
    have lp := l.pos
    simp only [Nat.zero_add] at l0
    have hv : AgV K [] ⟨0, input⟩ ⟨0, input.take K ++ []⟩ :=
      ⟨rfl, .inl rfl, input.take K, input.drop K, (List.take_append_drop K input).symm, rfl, by
        simp only [List.length_take, Nat.zero_add]; omega⟩
    obtain ⟨a, t, h1, _, h2⟩ := pass_element hs' hl _ _ _ _ _ hx K [] _ hv
      (by by_cases h5 : s.pos = K
          · exact .inr ⟨h5, .inl rfl⟩
          · exact .inl (by omega))
    refine ⟨[], fill_nil, ?_, .inl ⟨⟨a, findVars a []⟩, ?_⟩⟩
    · intro hn
      have := congrArg List.length hn
      simp only [List.length_append, List.length_take, List.length_nil] at this
      omega
    have h3 := h2.trim (Nat.le_of_eq hK)
    have h4 : parseImpl cfg w ctx' (input.take K ++ []) = .ok ⟨a, findVars a []⟩ := by
      unfold parseImpl
      rw [elem] at h1
      rw [h1]
      simp only [h3.tail_eq hK, List.head?_nil]
    unfold parse
    rw [h4]
    simp only [hl.1]
  rcases parse_err h with h' | ⟨x, vs, v, h1, _, _, _, rfl⟩
  · unfold parseImpl at h'
    cases hx : element cfg w ctx (input.length + 1) noPrec ⟨0, input⟩ with
    | ok root s =>
      rw [hx] at h'
      simp only at h'
      split at h'
      · rename_i c hc
        simp only [PRes.err.injEq] at h'
        subst h'
        exact pass root s _ hx rfl
      · simp at h'
    | err e' s =>
      rw [hx] at h'
      simp only [PRes.err.injEq] at h'
      subst h'
      have ho := out_element cfg w ctx (input.length + 1) 3 0 noPrec ⟨0, input⟩ ⟨0, input⟩
        (Ag.same _ _)
      rw [hx] at ho
      obtain ⟨l, ht, -⟩ := ho
      have lt := l.total
      simp only [Nat.zero_add] at lt
      have hp : foundAt e' input.length = pt e' s := by
        unfold foundAt pt
        unfold Tells at ht
        split at ht
        all_goals rename_i hk
        all_goals simp only [hk]
        · rw [ht.1] at lt
          simpa using lt.symm
        · exact ht.1
        · exact ht.1
        · exact ht.1
        · exact ht
        · exact ht
        · exact ht.1
        · exact ht.elim
      obtain ⟨tail, h0, h1, h2, h3, h4⟩ := fail_element hs' hl _ _ _ _ _ hx
      simp only [Nat.zero_add] at h2
      rw [hp]
      have hv : AgV (pt e' s) (tail ++ []) ⟨0, input⟩ ⟨0, input.take (pt e' s) ++ tail⟩ :=
        ⟨rfl, by rw [List.append_nil]; exact filler_tl h3, input.take (pt e' s), input.drop (pt e' s),
          (List.take_append_drop _ input).symm, by simp, by
            simp only [List.length_take, Nat.zero_add]; omega⟩
      refine ⟨tail, h3, ?_, fin _ (h4 [] (.inl rfl) _ hv)⟩
      intro hn
      obtain ⟨hn1, hn2⟩ := List.append_eq_nil_iff.1 hn
      rcases h0 with h0 | h0
      · have := congrArg List.length hn1
        simp only [List.length_take, List.length_nil] at this
        simp only at h0
        omega
      · exact h0 hn2
    | panic p => rw [hx] at h'; simp at h'
    | fuel => rw [hx] at h'; simp at h'
  · unfold parseImpl at h1
    cases hx : element cfg w ctx (input.length + 1) noPrec ⟨0, input⟩ with
    | ok root s =>
      rw [hx] at h1
      simp only at h1
      split at h1
      · simp at h1
      · rename_i hc
        refine pass root s _ hx ?_
        have l0 := (element_consumes cfg w ctx _ _ _ _ _ hx).le.total
        have lt := (le_trim s).total
        have hr : (trim s).rest = [] := by simpa using hc
        rw [hr] at lt
        simp only [List.length_nil, Nat.zero_add, Nat.add_zero] at l0 lt
        simp only [foundAt]
        omega
    | err e s => rw [hx] at h1; simp at h1
    | panic p => rw [hx] at h1; simp at h1
    | fuel => rw [hx] at h1; simp at h1

/-- C66, what is true of the first half: the text in front of an error can be completed to
a text that is accepted, if the functions may take any number of arguments and any variable
may occur.  In optimizing builds the folding of the completed text may panic (`logn(x` is
completed to a call of `logn` with one argument), but there is no error. -/
theorem C66_viable_partial (cfg : Cfg) (w : World) (o : Oracle)
    (ctx ctx' : Context) (hl : Loosened ctx ctx') (hopt : cfg.opt = true → OneArity ctx)
    (input : Bytes) (e : PErr) (h : parse cfg w o ctx input = .err e) :
    ∃ tail, Filler tail ∧
      ((∃ x, parse cfg w o ctx' (input.take (foundAt e input.length) ++ tail) = .ok x) ∨
        (cfg.opt = true ∧
          ∃ p, parse cfg w o ctx' (input.take (foundAt e input.length) ++ tail) = .panic p)) := by
  cases ho : cfg.opt with
  | false =>
    obtain ⟨tail, h1, -, h2⟩ := viable (parallel_plain ho w ctx) hl o input e h
    exact ⟨tail, h1, ho ▸ h2⟩
  | true =>
    obtain ⟨tail, h1, -, h2⟩ := viable (parallel_free cfg w (hopt ho)) hl o input e h
    exact ⟨tail, h1, ho ▸ h2⟩

/-- Contexts whose own functions stand under their names and are not built in, as
`set_func` makes them. -/
theorem C66_oneArity (ctx : Context)
    (h : ∀ nm f, ctx.get nm = some (.func f) → f.name = nm ∧ ∀ b, f.func ≠ .builtin b) :
    OneArity ctx := by
  have key : ∀ n f, lookup ctx n = .func f →
      (ctx.get n = some (.func f) ∧ f.name = n ∧ ∀ b, f.func ≠ .builtin b) ∨
        ∃ b : Builtin, f = b.toFunc := by
    intro n f hn
    unfold lookup at hn
    split at hn
    · rename_i s hs
      cases s with
      | var x => cases hn
      | func g => cases hn; exact .inl ⟨hs, h n f hs⟩
    · right
      unfold Ident.fromStr at hn
      split at hn
      · cases hn
      · split at hn
        · cases hn
        · split at hn
          · cases hn; exact ⟨_, rfl⟩
          · cases hn
  intro n m f g hn hm h1 h2
  rcases key n f hn with ⟨a1, a2, a3⟩ | ⟨b, rfl⟩ <;> rcases key m g hm with ⟨c1, c2, c3⟩ | ⟨d, rfl⟩
  · rw [a2, c2] at h1
    subst h1
    rw [a1] at c1
    cases c1
    rfl
  · exact absurd h2 (a3 d)
  · exact absurd h2.symm (c3 b)
  · cases h2
    rfl

/-- The context with the arities and the expected variables removed. -/
def loosen (ctx : Context) : Context :=
  ⟨fun nm => match lookup ctx nm with
    | .const x => some (.var x)
    | .var _ => none
    | .func f => some (.func { f with nbArgs := none }), none⟩

/-- Every context can be loosened. -/
theorem C66_loosened (ctx : Context) : Loosened ctx (loosen ctx) := by
  refine ⟨rfl, fun nm => ?_⟩
  have hl : lookup (loosen ctx) nm = match (match lookup ctx nm with
      | .const x => some (.var x)
      | .var _ => none
      | .func f => some (.func { f with nbArgs := none }) : Option Symbol) with
    | some s => Ident.ofSymbol s
    | none => Ident.fromStr nm := rfl
  rw [hl]
  cases h : lookup ctx nm with
  | const x => rfl
  | var v =>
    simp only
    unfold lookup at h
    split at h
    · rename_i s _
      cases s <;> simp [Ident.ofSymbol] at h
    · exact h
  | func f => rfl

/-- A name mentioned in a completed text stands in the text that is completed. -/
theorem mentions_filled {pre tail nm : Bytes} (ht : Filler tail) (h : Mentions (pre ++ tail) nm) :
    nm <:+: pre := by
  obtain ⟨a, b, h1, ⟨⟨c, hc, hl⟩, hall, -⟩, -⟩ := h
  have hch : ∀ x ∈ tail, ¬ letter x := by
    obtain ⟨k, h | h⟩ := ht
    · intro x hx
      rw [h] at hx
      rw [(List.mem_replicate.1 hx).2]
      decide
    · intro x hx
      rw [h] at hx
      rcases List.mem_append.1 hx with hx | hx
      · have hk : ∀ y ∈ (b!"(0)" : Bytes), ¬ letter y := by decide
        exact hk x hx
      · rw [(List.mem_replicate.1 hx).2]
        decide
  have hhd : ∀ x, tail.head? = some x → ¬ nameChar x := by
    intro x hx
    rcases filler_tl ht with h | h | h
    · rw [h] at hx; cases hx
    · rw [h] at hx; cases hx; decide
    · rw [h] at hx; cases hx; decide
  rcases List.append_eq_append_iff.1 h1 with ⟨u, h2, h3⟩ | ⟨u, h2, h3⟩
  · -- the name would begin in the completion
    exfalso
    have hm : c ∈ tail := by
      rw [h3]
      cases nm with
      | nil => simp at hc
      | cons d nm => simp at hc; simp [hc]
    exact hch c hm hl
  · rcases List.append_eq_append_iff.1 h3 with ⟨v, h4, h5⟩ | ⟨v, h4, h5⟩
    · -- the name ends before the completion begins
      exact ⟨a, v, by rw [h2, h4, List.append_assoc]⟩
    · -- no character of a name begins the completion
      cases v with
      | nil => exact ⟨a, [], by rw [h2, h4]; simp⟩
      | cons d v =>
        exfalso
        refine hhd d (by rw [h5]; rfl) (hall d ?_)
        rw [h4]; simp

/-- If the functions a text mentions take any number of arguments, loosening the context
changes nothing. -/
theorem agree_loosen {ctx : Context} {input text : Bytes}
    (hf : ∀ nm f, nm <:+: input → lookup ctx nm = .func f → f.nbArgs = none)
    (hm : ∀ nm, Mentions text nm → nm <:+: input) : AgreeCtx text ctx (loosen ctx) := by
  intro nm hn
  have hL := (C66_loosened ctx).2 nm
  cases hk : lookup ctx nm with
  | const c => rw [hk] at hL; exact hL.symm
  | var v => rw [hk] at hL; exact hL.symm
  | func f =>
    rw [hk] at hL
    rw [hL]
    have := hf nm f (hm nm hn) hk
    cases f
    simp only at this
    subst this
    rfl

/-- The functions of a loosened context take any number of arguments. -/
theorem loosen_free {ctx : Context} {nm : Bytes} {f : Func} (h : lookup (loosen ctx) nm = .func f) :
    f.nbArgs = none := by
  have hL := (C66_loosened ctx).2 nm
  cases hk : lookup ctx nm with
  | const c => rw [hk] at hL; rw [hL] at h; cases h
  | var v => rw [hk] at hL; rw [hL] at h; cases h
  | func g =>
    rw [hk] at hL
    rw [hL] at h
    cases h
    rfl

/-- A loosened context cannot be loosened further. -/
theorem loosen_again (ctx : Context) : Loosened (loosen ctx) (loosen ctx) := by
  refine ⟨rfl, fun nm => ?_⟩
  cases hk : lookup (loosen ctx) nm with
  | const c => rfl
  | var v => rfl
  | func f =>
    have := loosen_free hk
    cases f
    simp only at this
    subst this
    rfl

/-- The completion of a text without `!!` has none. -/
theorem noBang_filled {pre input tail : Bytes} (hp : pre <+: input) (ht : Filler tail)
    (h : ¬ DoubleBang input) : ¬ DoubleBang (pre ++ tail) := by
  rintro ⟨a, ws, b, hws, he⟩
  have hch : ∀ x ∈ tail, x ≠ c!"!" := by
    obtain ⟨k, h | h⟩ := ht
    · intro x hx
      rw [h] at hx
      rw [(List.mem_replicate.1 hx).2]
      decide
    · intro x hx
      rw [h] at hx
      rcases List.mem_append.1 hx with hx | hx
      · have hk : ∀ y ∈ (b!"(0)" : Bytes), y ≠ c!"!" := by decide
        exact hk x hx
      · rw [(List.mem_replicate.1 hx).2]
        decide
  have hq : ∃ v, pre = (a ++ c!"!" :: (ws ++ [c!"!"])) ++ v := by
    have he' : pre ++ tail = (a ++ c!"!" :: (ws ++ [c!"!"])) ++ b := by rw [he]; simp
    rcases List.append_eq_append_iff.1 he' with ⟨u, h2, h3⟩ | ⟨u, h2, h3⟩
    · rcases List.eq_nil_or_concat u with rfl | ⟨u', c, rfl⟩
      · exact ⟨[], by rw [h2]; simp⟩
      · exfalso
        have h4 := congrArg List.getLast? h2
        simp only [List.concat_eq_append, ← List.append_assoc, List.getLast?_append,
          Option.some_or, List.getLast?_cons] at h4
        have h5 : c = c!"!" := by simpa using h4.symm
        exact hch c (by rw [h3]; simp) h5
    · exact ⟨u, h2⟩
  obtain ⟨v, hv⟩ := hq
  obtain ⟨z, hz⟩ := hp
  exact h ⟨a, ws, v ++ z, hws, by rw [← hz, hv]; simp⟩

/-- C66, without loosening anything: if no variables are prescribed and no function with a
fixed number of arguments stands in the text, what is in front of an error can be completed
to a text that the same parser accepts. In optimizing builds the text must not contain `!!`
and the functions must not panic. -/
theorem C66_same_partial (cfg : Cfg) (w : World) (o : Oracle)
    (ctx : Context) (hexp : ctx.getExpected = none) (input : Bytes)
    (hopt : cfg.opt = true → CtxTotal w ctx ∧ ¬ DoubleBang input)
    (hf : ∀ nm f, nm <:+: input → lookup ctx nm = .func f → f.nbArgs = none) (e : PErr)
    (h : parse cfg w o ctx input = .err e) :
    ∃ tail x, Filler tail ∧
      parse cfg w o ctx (input.take (foundAt e input.length) ++ tail) = .ok x := by
  have same : ∀ text, (∀ nm, Mentions text nm → nm <:+: input) →
      parse cfg w o ctx text = parse cfg w o (loosen ctx) text := by
    intro text hm
    have he : (loosen ctx).getExpected = none := (C66_loosened ctx).1
    unfold parse
    rw [parseImpl_agree (agree_loosen hf hm), hexp, he]
  rw [same input (fun nm ⟨a, b, h1, _⟩ => ⟨a, b, by rw [h1]; simp⟩)] at h
  obtain ⟨tail, h1, hne, h2⟩ := viable
    (parallel_same cfg w (ctx := loosen ctx) fun _ _ => loosen_free) (loosen_again ctx) o input e h
  rw [← same _ fun nm hm => (mentions_filled h1 hm).trans (List.take_prefix _ _).isInfix] at h2
  rcases h2 with ⟨x, h2⟩ | ⟨ho, p, h2⟩
  · exact ⟨tail, x, h1, h2⟩
  · obtain ⟨ht, hb⟩ := hopt ho
    rcases C02_partial cfg w o ctx _ ht hne (noBang_filled (List.take_prefix _ _) h1 hb) with
      ⟨x, h3⟩ | ⟨e, h3⟩
    · rw [h2] at h3; cases h3
    · rw [h2] at h3; cases h3

/-- A text to which `C66_viable_partial` applies: the argument of the inner call is
missing; what is in front of the error is completed by an operand and two parentheses. -/
example : parse0 cfgPlain b!"2*(sin(-$x)" = .err ⟨.illegalCharacter c!"$", 8, 0⟩ ∧
    (b!"2*(sin(-$x)" : Bytes).take 8 = b!"2*(sin(-" ∧
    (match parse0 cfgPlain (b!"2*(sin(-" ++ b!"(0)))") with
      | .ok _ => true
      | _ => false) = true := by
  decide +kernel

/-- The same in an optimizing build: `(2-2)x` is read as a product there (the difference has
been folded to a number), up to the stray `$`. -/
example : OneArity Context.default ∧
    parse0 cfgOpt b!"min(3, (2-2)x*$" = .err ⟨.illegalCharacter c!"$", 14, 0⟩ ∧
    (match parse0 cfgOpt (b!"min(3, (2-2)x*" ++ b!"(0))") with
      | .ok _ => true
      | _ => false) = true := by
  refine ⟨C66_oneArity _ fun nm f h => ?_, by decide +kernel, by decide +kernel⟩
  cases h

/-- `C66_same_partial` applies to this text: `min` takes any number of arguments. -/
example : ∃ tail x, Filler tail ∧ parse0 cfgOpt (b!"min(3, (2-2)x*" ++ tail) = .ok x := by
  have h : parse0 cfgOpt b!"min(3, (2-2)x*$" = .err ⟨.illegalCharacter c!"$", 14, 0⟩ := by
    decide +kernel
  have hb : ¬ DoubleBang b!"min(3, (2-2)x*$" := by
    rintro ⟨a, ws, b, _, h⟩
    have : c!"!" ∈ b!"min(3, (2-2)x*$" := by rw [h]; simp
    revert this
    decide
  have hf : ∀ nm f, nm <:+: b!"min(3, (2-2)x*$" → lookup Context.default nm = .func f →
      f.nbArgs = none := by
    intro nm f hi h
    have h1 : Ident.fromStr nm = .func f := h
    unfold Ident.fromStr at h1
    split at h1
    · cases h1
    split at h1
    · cases h1
    split at h1
    · rename_i b hb
      cases h1
      unfold builtinByName at hb
      have split : ∀ {c : Prop} [Decidable c] {a x : Builtin} {y : Option Builtin},
          (if c then some a else y) = some x → (c ∧ x = a) ∨ y = some x := by
        intro c _ a x y h
        split at h
        · exact .inl ⟨‹_›, (Option.some.inj h).symm⟩
        · exact .inr h
      repeat
        rcases split hb with ⟨rfl, rfl⟩ | hb
        · first
            | rfl
            | (exfalso; revert hi; decide)
      cases hb
    · cases h1
  obtain ⟨tail, x, h1, h2⟩ := C66_same_partial cfgOpt w0 Oracle.id Context.default rfl
    b!"min(3, (2-2)x*$" (fun _ => ⟨ctxTotal_default w0, hb⟩) hf _ h
  have e : (b!"min(3, (2-2)x*$" : Bytes).take (foundAt ⟨.illegalCharacter c!"$", 14, 0⟩
      (b!"min(3, (2-2)x*$" : Bytes).length) = b!"min(3, (2-2)x*" := by decide
  rw [e] at h2
  exact ⟨tail, x, h1, h2⟩

/-- Why a panic is possible: with its arity loosened, `logn` is folded with one argument. -/
example : parse cfgOpt w0 Oracle.id (loosen Context.default) b!"logn(2)" = .panic .user := by
  decide +kernel

/-! Why the arities must be loosened: they are checked only behind the last argument. -/

theorem args_length {cfg : Cfg} {rec : Nat → St → R Elem} : ∀ (n : Nat) (as : List Elem) (s : St)
    (bs : List Elem) (s' : St), parseArgs cfg rec n as s = .ok bs s' → as.length + 1 ≤ bs.length
  | 0, _, _, _, _, h => by simp [parseArgs] at h
  | n + 1, as, s, bs, s', h => by
    rw [parseArgs] at h
    cases h1 : argument cfg rec s with
    | ok a s1 =>
      rw [h1] at h
      simp only [R.bind_ok] at h
      split at h
      · split at h
        · have := args_length n _ _ _ _ h
          simp only [List.length_append, List.length_cons, List.length_nil] at this
          omega
        · split at h
          · simp only [R.ok.injEq] at h
            rw [← h.1]; simp
          · simp [errTok] at h
      · unfold errEnd at h
        split at h <;> simp at h
    | err e s1 => rw [h1] at h; simp at h
    | panic p => rw [h1] at h; simp at h
    | fuel => rw [h1] at h; simp at h

theorem x_elem (cfg : Cfg) (w : World) {t : St} {rest : Bytes}
    (h : t.rest = c!"x" :: c!"," :: rest) :
    elem cfg w Context.default noPrec t = .ok (.var b!"x") ⟨t.pos + 1, c!"," :: rest⟩ := by
  have h1 : trim t = t := trim_of_trimmed (by intro c hc; rw [h] at hc; cases hc; decide)
  have h0 : trim ⟨t.pos + 1, c!"," :: rest⟩ = ⟨t.pos + 1, c!"," :: rest⟩ :=
    trim_of_trimmed (by intro c hc; cases hc; decide)
  have ht : t.rest.takeWhile isIdChar = [c!"x"] := by
    rw [h, List.takeWhile_cons, if_pos (by decide), List.takeWhile_cons, if_neg (by decide)]
  have h4 : atom cfg Context.default (elem cfg w Context.default) t =
      .ok (.var b!"x") ⟨t.pos + 1, c!"," :: rest⟩ := by
    unfold atom
    rw [h1]
    simp only [h, List.head?_cons]
    rw [if_neg (by decide), if_pos (by decide)]
    unfold parseIdent skipWhile
    rw [ht]
    have hl : lookup Context.default [c!"x"] = .var b!"x" := rfl
    simp only [hl]
    simp [adv, h]
  have h5 : consumeIf c!"!" ⟨t.pos + 1, c!"," :: rest⟩ = (false, ⟨t.pos + 1, c!"," :: rest⟩) := by
    unfold consumeIf
    rw [h0, if_neg (by simp)]
  have h6 : loop cfg (elem cfg w Context.default) noPrec (.var b!"x") ⟨t.pos + 1, c!"," :: rest⟩ =
      .ok (.var b!"x") ⟨t.pos + 1, c!"," :: rest⟩ := by
    rw [loop_unfold (elem_consumes cfg w _), h0]
    have : opInfo cfg (.var b!"x") noPrec ⟨t.pos + 1, c!"," :: rest⟩ = none := by
      unfold opInfo
      simp only [List.head?_cons]
      have : opOfByte c!"," = none := by decide
      rw [this]
      simp only
      split
      · rfl
      · rw [if_neg (by decide), if_neg (by decide)]
    rw [this]
  rw [loop] at h6
  rw [elem_unfold]
  unfold elementF
  rw [h4]
  simp only [R.bind_ok]
  rw [h5]
  simp only [Bool.false_eq_true, if_false]
  rw [h6]
  simp only [R.bind_ok]
  unfold finish
  split
  · rfl
  · rfl

theorem x_args (cfg : Cfg) (w : World) (as : List Elem) (p : Nat) (rest : Bytes) :
    args cfg (elem cfg w Context.default) as ⟨p, c!"x" :: c!"," :: rest⟩ =
      args cfg (elem cfg w Context.default) (as ++ [.var b!"x"]) ⟨p + 2, rest⟩ := by
  rw [args_unfold (elem_consumes cfg w _)]
  unfold argument
  rw [x_elem cfg w (t := ⟨p, c!"x" :: c!"," :: rest⟩) rfl]
  simp only [R.bind_ok]
  rw [trim_of_trimmed (by intro c hc; cases hc; decide)]
  simp [adv]

/-- C66: a call with too many arguments is not rejected before it ends: `sin(x,x,$` is
rejected for its `$`, although no text that begins with `sin(x,x,` is accepted. -/
theorem C66_late (cfg : Cfg) (w : World) (o : Oracle) (tail : Bytes) (x : Xpr) :
    parse cfg w o Context.default (b!"sin(x,x," ++ tail) ≠ .ok x ∧
    parse0 cfgPlain b!"sin(x,x,$" = .err ⟨.illegalCharacter c!"$", 8, 0⟩ := by
  refine ⟨?_, by decide +kernel⟩
  intro h
  have h1 : ∀ a s, elem cfg w Context.default noPrec ⟨0, b!"sin(x,x," ++ tail⟩ ≠ .ok a s := by
    intro a s hx
    rw [elem_unfold] at hx
    unfold elementF at hx
    have h2 : ∀ a s, atom cfg Context.default (elem cfg w Context.default)
        ⟨0, b!"sin(x,x," ++ tail⟩ ≠ .ok a s := by
      intro a s hx
      unfold atom at hx
      rw [trim_of_trimmed (by intro c hc; cases hc; decide)] at hx
      simp only [List.cons_append, List.head?_cons] at hx
      rw [if_neg (by decide), if_pos (by decide)] at hx
      have ht : (b!"sin(x,x," ++ tail).takeWhile isIdChar = b!"sin" := by
        simp only [List.cons_append]
        rw [List.takeWhile_cons, if_pos (by decide), List.takeWhile_cons, if_pos (by decide),
          List.takeWhile_cons, if_pos (by decide), List.takeWhile_cons, if_neg (by decide)]
      have hs : skipWhile isIdChar ⟨0, b!"sin(x,x," ++ tail⟩ = ⟨3, b!"(x,x," ++ tail⟩ := by
        unfold skipWhile
        simp only
        rw [ht]
        simp [adv]
      have hc : consumeIf c!"(" ⟨3, b!"(x,x," ++ tail⟩ = (true, ⟨4, b!"x,x," ++ tail⟩) := by
        unfold consumeIf
        rw [trim_of_trimmed (by intro c hc; cases hc; decide),
          if_pos (show List.head? (b!"(x,x," ++ tail) = some c!"(" from rfl)]
        simp [adv]
      unfold parseIdent at hx
      have e : (115 :: (105 :: (110 :: (40 :: (120 :: (44 :: (120 :: (44 :: ([] ++ tail)))))))) :
        Bytes) = b!"sin(x,x," ++ tail := rfl
      rw [e] at hx
      simp only [ht, hs, hc, if_true] at hx
      have hl : ∃ f, lookup Context.default b!"sin" = .func f ∧ f.nbArgs = some 1 :=
        ⟨_, rfl, rfl⟩
      obtain ⟨f, hf, hn⟩ := hl
      rw [hf] at hx
      simp only at hx
      cases ha : parseArgs cfg (elem cfg w Context.default) ((b!"x,x," ++ tail).length + 1) []
          ⟨4, b!"x,x," ++ tail⟩ with
      | ok bs s1 =>
        rw [ha] at hx
        simp only [R.bind_ok] at hx
        have hlen : 3 ≤ bs.length := by
          have hb : args cfg (elem cfg w Context.default) [] ⟨4, b!"x,x," ++ tail⟩ = .ok bs s1 := ha
          simp only [List.cons_append] at hb
          rw [x_args, x_args, args] at hb
          have := args_length _ _ _ _ _ hb
          simpa using this
        cases hq : assertConsume c!")" s1 with
        | ok u s2 =>
          rw [hq] at hx
          simp only [R.bind_ok] at hx
          unfold checkArity at hx
          rw [hn] at hx
          simp only at hx
          rw [if_neg (by omega), if_neg (by omega)] at hx
          simp [errTooMany] at hx
        | err e s => rw [hq] at hx; simp at hx
        | panic p => rw [hq] at hx; simp at hx
        | fuel => rw [hq] at hx; simp at hx
      | err e s => rw [ha] at hx; simp at hx
      | panic p => rw [ha] at hx; simp at hx
      | fuel => rw [ha] at hx; simp at hx
    cases ha : atom cfg Context.default (elem cfg w Context.default)
        ⟨0, b!"sin(x,x," ++ tail⟩ with
    | ok a s => exact h2 a s ha
    | err e s => rw [ha] at hx; simp at hx
    | panic p => rw [ha] at hx; simp at hx
    | fuel => rw [ha] at hx; simp at hx
  have h2 : ∀ y, parseImpl cfg w Context.default (b!"sin(x,x," ++ tail) ≠ .ok y := by
    intro y hy
    unfold parseImpl at hy
    unfold elem at h1
    generalize element cfg w Context.default _ noPrec _ = r at hy h1
    cases r with
    | ok a s => exact h1 a s rfl
    | err e s => simp at hy
    | panic p => simp at hy
    | fuel => simp at hy
  unfold parse at h
  generalize parseImpl cfg w Context.default _ = r at h h2
  cases r with
  | ok y => exact h2 y rfl
  | err e => simp at h
  | panic p => simp at h
  | fuel => simp at h

end Props
end Xprs
