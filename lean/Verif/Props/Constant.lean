import Verif.Lemmas.Constant
import Verif.Props.Builds
/-
Property C68: a constant in the context means the same as a variable of that value.
-/
namespace Xprs
namespace Props
open Spec

/-- C68: what can be parsed with a variable can be parsed with the variable made a
constant, and then has the value it has when the variable is given that value. -/
def C68_claim : Prop := ∀ (cfg : Cfg) (w : World) (o : Oracle) (ctx : Context) (n : Bytes) (v : F64)
    (input : Bytes) (x : Xpr) (m : HMap F64) (u : F64), PowLaws w → lookup ctx n = .var n →
  parse cfg w o ctx input = .ok x → x.eval w (m.insert n v) = .ok u →
  ∃ y u', parse cfg w o (ctx.setVar n v) input = .ok y ∧ y.eval w m = .ok u' ∧ Same u u'

/-- `1+x 3` with the variable. -/
def oneX3 : Xpr := ⟨.bin .plus (.num F64.f1) (.bin .times (.var b!"x") (.num (F64.ofNat 3))), [b!"x"]⟩

/-- C68 is false: `1+x 3` is 7 at `x = 2`, but 9 if `x` is the constant 2. -/
theorem C68_refuted : ¬ C68_claim := by
  intro h
  obtain ⟨y, u, h1, h2, h3⟩ := h cfgPlain wPow Oracle.id Context.default b!"x" (F64.ofNat 2) b!"1+x 3"
    oneX3 HMap.empty (F64.ofNat 7) wPow_laws rfl (by decide +kernel) (by decide +kernel)
  have h4 : parse cfgPlain wPow Oracle.id (Context.default.setVar b!"x" (F64.ofNat 2)) b!"1+x 3" =
      .ok ⟨.bin .times (.bin .plus (.num F64.f1) (.num (F64.ofNat 2))) (.num (F64.ofNat 3)), []⟩ := by
    decide +kernel
  rw [h4] at h1
  cases h1
  have h5 : Xpr.eval wPow ⟨.bin .times (.bin .plus (.num F64.f1) (.num (F64.ofNat 2)))
      (.num (F64.ofNat 3)), []⟩ HMap.empty = .ok (F64.ofNat 9) := by decide +kernel
  rw [h5] at h2
  cases h2
  rcases h3 with h3 | ⟨⟨s, h3⟩, _⟩
  · revert h3; decide +kernel
  · cases s <;> revert h3 <;> decide +kernel

/-- Other ways in which it fails: `x 2` and `(x)2` are read with a variable and rejected with
a constant; and in an optimizing build `y%x` at `y = 2.5`, `x = 1` is 0.5 if `x` is a variable
and 0 if it is a constant. -/
theorem C68_other_refuted : (∀ t ∈ [b!"x 2", b!"(x)2"], ∀ cfg ∈ [cfgPlain, cfgOpt],
      (∃ x, parse cfg wPow Oracle.id Context.default t = .ok x) ∧
      ¬ ∃ x, parse cfg wPow Oracle.id (Context.default.setVar b!"x" F64.f1) t = .ok x) ∧
    (∃ x y, parse cfgOpt wPow Oracle.id Context.default b!"y%x" = .ok x ∧
      x.eval wPow ((HMap.empty.insert b!"y" f25).insert b!"x" F64.f1) = .ok (F64.ofDecimal 5 (-1)) ∧
      parse cfgOpt wPow Oracle.id (Context.default.setVar b!"x" F64.f1) b!"y%x" = .ok y ∧
      y.eval wPow (HMap.empty.insert b!"y" f25) = .ok F64.f0) := by
  have key : ∀ {r : PRes}, (match r with | .ok _ => true | _ => false) = true → ∃ x, r = .ok x := by
    intro r h; cases r with
    | ok x => exact ⟨x, rfl⟩
    | _ => cases h
  have key' : ∀ {r : PRes}, (match r with | .ok _ => true | _ => false) = false → ¬ ∃ x, r = .ok x := by
    rintro _ h ⟨x, rfl⟩; cases h
  constructor
  · intro t ht cfg hc
    simp only [List.mem_cons, List.not_mem_nil, or_false] at ht hc
    rcases ht with rfl | rfl <;> rcases hc with rfl | rfl <;>
      exact ⟨key (by decide +kernel), key' (by decide +kernel)⟩
  · exact ⟨yModX, ⟨.num F64.f0, []⟩, by decide +kernel, by decide +kernel,
      by decide +kernel, by decide +kernel⟩

theorem lookup_setVar (ctx : Context) (n : Bytes) (v : F64) (nm : Bytes) :
    lookup (ctx.setVar n v) nm = if nm = n then .const v else lookup ctx nm := by
  unfold lookup
  by_cases h : nm = n <;>
    simp [Context.get, Context.setVar, HMap.get, HMap.insert, h, Ident.ofSymbol]

theorem sameBut_setVar {ctx : Context} {n : Bytes} (v : F64) (h : lookup ctx n = .var n) :
    SameBut n ctx (ctx.setVar n v) := by
  intro nm
  rw [lookup_setVar]
  by_cases hc : nm = n
  · subst hc
    rw [h, if_pos rfl]
    exact .inr ⟨rfl, fun _ => nofun, fun _ => nofun⟩
  · rw [if_neg hc]
    exact .inl rfl

/-- Without optimizations every tree has a meaning. -/
theorem den_plain_ok (ctx : Context) : (∀ (x : Cst) (p : Panic), x.den .ok ctx ≠ .error p) ∧
    (∀ (as : CArgs) (p : Panic), as.den .ok ctx ≠ .error p) := by
  refine cst_ind ?_ ?_ ?_ ?_ ?_ ?_ ?_ ?_ ?_ ?_
  · intro ws txt v p h; cases h
  · intro ws nm p h
    rw [Cst.den] at h
    split at h <;> cases h
  · intro ws nm ws2 as ih p h
    rw [Cst.den] at h
    split at h
    · exact ih _ (by assumption)
    · split at h <;> cases h
  · intro ws x ws2 ih p h
    rw [Cst.den] at h
    split at h
    · exact ih _ (by assumption)
    · cases h
  · intro ws neg x ih p h
    rw [Cst.den] at h
    split at h
    · exact ih _ (by assumption)
    · cases h
  · intro x ws ih p h
    rw [Cst.den] at h
    split at h
    · exact ih _ (by assumption)
    · cases h
  · intro l ws op r ihl ihr p h
    rw [Cst.den] at h
    split at h
    · exact ihl _ (by assumption)
    · split at h
      · exact ihr _ (by assumption)
      · cases h
  · intro l r ihl ihr p h
    rw [Cst.den] at h
    split at h
    · exact ihl _ (by assumption)
    · split at h
      · exact ihr _ (by assumption)
      · cases h
  · intro x ws ih p h
    rw [CArgs.den] at h
    split at h
    · exact ih _ (by assumption)
    · cases h
  · intro x ws as ih ihs p h
    rw [CArgs.den] at h
    split at h
    · exact ih _ (by assumption)
    · simp only at h
      split at h
      · exact ihs _ (by assumption)
      · cases h

/-- C68 for builds without optimizations and texts in which no number follows the name or
a closing parenthesis directly: the tree is the same, with the value filled in; the name is
no longer a variable; and the values agree for all values of the other variables.
Missing, and refuted above: texts like `1+x 3`, and builds with optimizations
(`C68_builds_partial`). -/
theorem C68_partial (cfg : Cfg) (w : World) (o : Oracle) (ctx : Context) (n : Bytes) (v : F64)
    (input : Bytes) (x : Xpr) (ho : cfg.opt = false) (hl : lookup ctx n = .var n)
    (hn : ∀ ts, Lex input ts → ApartFrom n ts) (h : parse cfg w o ctx input = .ok x) :
    ∃ y, parse cfg w o (ctx.setVar n v) input = .ok y ∧ y.root = fixVar n v x.root ∧
      (∀ k, k ∈ y.vars ↔ k ∈ x.vars ∧ k ≠ n) ∧
      ∀ m, y.eval w m = x.eval w (m.insert n v) := by
  obtain ⟨c, tw, e, h1, h2, h3, h4, h5, h6⟩ := parseImpl_den (parse_ok h)
  rw [finOf_plain ho] at h3 h4 h5
  cases h5
  have ha : ApartFrom n (c.toks ++ []) := hn _ (by rw [h1]; exact lex_text.1 c tw [] h3 (.nil h2))
  have hw := (wf_but (sameBut_setVar v hl)).1 c tw [] h3 (.nil h2) ha
  have hd := (den_fix (lookup_setVar ctx n v) hl).1 c tw _ h3 h4
  have hp := parseImpl_text cfg w (ctx.setVar n v) c tw (by rw [finOf_plain ho]; exact hw) h2
  rw [Cst.meaning, finOf_plain ho, hd, ← h1] at hp
  have hv : ∀ k, k ∈ findVars (fixVar n v x.root) [] ↔ k ∈ x.vars ∧ k ≠ n := by
    intro k
    rw [h6, mem_findVars, mem_findVars]
    simp only [List.not_mem_nil, false_or]
    exact occurs_fixVar k x.root
  refine ⟨⟨fixVar n v x.root, _⟩, parse_of_impl hp ?_, rfl, hv, fun m => eval_fixVar m x.root⟩
  intro vs hvs k hk
  exact parse_expected h hvs ((hv k).1 hk).1

/-- The converse: what is read with the constant is read with the variable, if that is
allowed.  (It then gives the tree above.) -/
theorem C68_accept_partial (cfg : Cfg) (w : World) (o : Oracle) (ctx : Context) (n : Bytes) (v : F64)
    (input : Bytes) (ho : cfg.opt = false) (hl : lookup ctx n = .var n)
    (hn : ∀ ts, Lex input ts → ApartFrom n ts) (he : ∀ vs, ctx.getExpected = some vs → n ∈ vs) :
    (∃ y, parse cfg w o (ctx.setVar n v) input = .ok y) ↔ ∃ x, parse cfg w o ctx input = .ok x := by
  constructor
  · rintro ⟨y, h⟩
    obtain ⟨c, tw, e, h1, h2, h3, h4, h5, h6⟩ := parseImpl_den (parse_ok h)
    rw [finOf_plain ho] at h3 h4 h5
    cases h5
    have ha : ApartFrom n (c.toks ++ []) := hn _ (by rw [h1]; exact lex_text.1 c tw [] h3 (.nil h2))
    have hw := (wf_but (sameBut_setVar v hl).symm).1 c tw [] h3 (.nil h2) ha
    have hp := parseImpl_text cfg w ctx c tw (by rw [finOf_plain ho]; exact hw) h2
    rw [Cst.meaning, finOf_plain ho, ← h1] at hp
    cases hd : c.den .ok ctx with
    | error p =>
      exact absurd hd ((den_plain_ok ctx).1 c p)
    | ok e =>
      rw [hd] at hp
      refine ⟨_, parse_of_impl hp ?_⟩
      intro vs hvs k hk
      by_cases hc : k = n
      · rw [hc]; exact he vs hvs
      · refine parse_expected (vs := vs) h hvs ?_
        have hd' := (den_fix (lookup_setVar ctx n v) hl).1 c tw _ hw hd
        rw [h4] at hd'
        rw [h6, mem_findVars, Except.ok.inj hd']
        rw [mem_findVars] at hk
        simp only [List.not_mem_nil, false_or] at hk ⊢
        exact (occurs_fixVar k _).2 ⟨hk, hc⟩
  · rintro ⟨x, h⟩
    obtain ⟨y, hy, _⟩ := C68_partial cfg w o ctx n v input x ho hl hn h
    exact ⟨y, hy⟩

theorem parens_apart {n input : Bytes} (hn : ∀ ts, Lex input ts → ApartFrom n ts) :
    ∀ ts, Lex input ts → ParensApart ts :=
  fun ts ht p b q he hd => (hn ts ht p _ b q he hd).2 rfl

/-- C68 for any build, acceptance: for texts without two `!` in a row in which no number
follows the name or a closing parenthesis directly, making a variable a constant changes nothing. -/
theorem C68_builds_accept_partial (cfg : Cfg) (w : World) (o : Oracle) (ctx : Context) (n : Bytes)
    (v : F64) (input : Bytes) (hw : CtxTotal w ctx) (hb : ¬ DoubleBang input)
    (hl : lookup ctx n = .var n) (hn : ∀ ts, Lex input ts → ApartFrom n ts) (he : ctx.getExpected = none) :
    (∃ y, parse cfg w o (ctx.setVar n v) input = .ok y) ↔ ∃ x, parse cfg w o ctx input = .ok x := by
  have hw' : CtxTotal w (ctx.setVar n v) := by
    intro nm f hf
    refine hw nm f ?_
    by_cases hc : nm = n
    · simp [Context.get, Context.setVar, HMap.get, HMap.insert, hc] at hf
    · simpa [Context.get, Context.setVar, HMap.get, HMap.insert, hc] using hf
  rw [C16_accept_partial cfg (plainOf cfg) w o o (ctx.setVar n v) input rfl hw' hb (parens_apart hn) he,
    C16_accept_partial cfg (plainOf cfg) w o o ctx input rfl hw hb (parens_apart hn) he]
  exact C68_accept_partial (plainOf cfg) w o ctx n v input rfl hl hn
    (by rw [he]; intro vs h; cases h)

/-- C68 for any build, for texts in which no number follows the name or a closing parenthesis
directly: whatever the variant that is not optimized computes without a doubtful step, both the variable
and the constant give, up to the sign of zero.  Missing, and refuted above: doubtful steps
(`y%x`), numbers that follow those directly. -/
theorem C68_builds_partial (cfg : Cfg) (w : World) (o : Oracle) (ctx : Context) (n : Bytes)
    (v : F64) (input : Bytes) (x0 x y : Xpr) (m : HMap F64) (u : F64)
    (hw : NoPower x0.root ∨ PowLaws w) (hl : lookup ctx n = .var n) (hn : ∀ ts, Lex input ts → ApartFrom n ts)
    (h0 : parse (plainOf cfg) w o ctx input = .ok x0) (hr : Runs w (m.insert n v) x0.root u)
    (h : parse cfg w o ctx input = .ok x) (h' : parse cfg w o (ctx.setVar n v) input = .ok y) :
    (∃ a, x.eval w (m.insert n v) = .ok a ∧ Same u a) ∧ ∃ b, y.eval w m = .ok b ∧ Same u b := by
  have hn' := parens_apart hn
  obtain ⟨y0, h1, h2, -, -⟩ := C68_partial (plainOf cfg) w o ctx n v input x0 rfl hl hn h0
  refine ⟨(C16_value_partial (plainOf cfg) cfg w o o ctx input x0 x _ u rfl rfl hw hn' h0 h hr).2, ?_⟩
  refine (C16_value_partial (plainOf cfg) cfg w o o _ input y0 y m u rfl rfl
    (hw.imp_left fun hp => h2 ▸ noPower_subst _ hp fun k _ => ?_) hn' h1 h' ?_).2
  · split <;> (intro l r h; cases h)
  rw [h2]
  exact runs_fixVar _ hr

/-- The hypotheses hold of `(x-x)*3 + abs(x)`, the name `x` and the value 2. -/
example : lookup Context.default b!"x" = .var b!"x" := rfl
example : ∃ b, b!"x".head? = some b ∧ letter b := ⟨c!"x", rfl, by decide⟩
example : ∀ ts, Lex keptInput ts → ApartFrom b!"x" ts := by
  intro ts h p a b q he hd
  rw [lex_unique h kept_lex] at he
  constructor
  · rintro rfl
    rcases p with _ | ⟨_, _ | ⟨_, _ | ⟨_, _ | ⟨_, _ | ⟨_, _ | ⟨_, _ | ⟨_, _ | ⟨_, _ | ⟨_, _ | ⟨_, p⟩⟩⟩⟩⟩⟩⟩⟩⟩⟩ <;>
      simp at he
    · rw [← he.2.1] at hd; exact not_digitTok (by decide) hd
    · rw [← he.2.2.2.1] at hd; exact not_digitTok (by decide) hd
    · have := he.2.2.2.2.2.2.2.2.2.2
      rcases p with _ | ⟨_, p⟩
      · simp at this
        rw [← this.1] at hd; exact not_digitTok (by decide) hd
      · have := congrArg List.length this
        simp at this
        omega
  · rintro rfl
    exact kept_apart ts h p b q (by rw [lex_unique h kept_lex]; exact he) hd
example : fixVar b!"x" (F64.ofNat 2) keptTree =
    .bin .plus (.bin .times (.bin .minus (.num (F64.ofNat 2)) (.num (F64.ofNat 2))) (.num (F64.ofNat 3)))
      (.call (Builtin.abs.toFunc) [.num (F64.ofNat 2)]) := by rfl
example : parse cfgPlain wPow Oracle.id (Context.default.setVar b!"x" (F64.ofNat 2)) keptInput =
    .ok ⟨fixVar b!"x" (F64.ofNat 2) keptTree, []⟩ := by decide +kernel
example : parse cfgOpt wPow Oracle.id (Context.default.setVar b!"x" (F64.ofNat 2)) keptInput =
    .ok ⟨.num (F64.ofNat 2), []⟩ := by decide +kernel

end Props
end Xprs
