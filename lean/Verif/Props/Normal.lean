import Verif.Props.Histories
import Verif.Lemmas.Normal
/-
Properties C35, C36 and C37: what simplification leaves alone.
-/
namespace Xprs
namespace Props
open Spec

/-! ### C36 -/

/-- C36 as stated. -/
def C36_claim : Prop := ∀ (cfg : Cfg) (w : World) (e e' : Elem),
  simplify cfg w e = .ok e' → simplify cfg w e' = .ok e'

/-- `0 - 3` becomes the negation of `3`, which becomes the number `-3`. -/
theorem C36_refuted : ¬ C36_claim := by
  intro h
  have h1 : simplify cfgOpt w0 (.bin .minus (.num F64.f0) (.num (F64.ofNat 3))) =
      .ok (.un .minus (.num (F64.ofNat 3))) := by decide +kernel
  have h2 := h _ _ _ _ h1
  have h3 : simplify cfgOpt w0 (.un .minus (.num (F64.ofNat 3))) =
      .ok (.num (F64.neg (F64.ofNat 3))) := by decide +kernel
  rw [h3] at h2; cases h2

/-- In a nightly build also without any literal: `x - -(-x)` becomes `x + -x` and then
`0`. -/
theorem C36_refuted_nightly (w : World) : ∃ e e', (∀ c, ¬ Sub (.num c) e) ∧
    simplify { cfgOpt with nightly := true } w e = .ok e' ∧
    simplify { cfgOpt with nightly := true } w e' ≠ .ok e' := by
  refine ⟨.bin .minus (.var b!"x") (.un .minus (.un .minus (.var b!"x"))),
    .bin .plus (.var b!"x") (.un .minus (.var b!"x")), ?_, rfl, ?_⟩
  · intro c h
    cases h with
    | left h => cases h
    | right h => cases h with | operand h => cases h with | operand h => cases h
  · intro h
    have : simplify { cfgOpt with nightly := true } w (.bin .plus (.var b!"x") (.un .minus (.var b!"x")))
      = .ok (.num F64.f0) := rfl
    rw [this] at h; cases h

/-- What is missing from C36: nightly builds, and results that contain the negation of
a literal (which only `0 - c` produces).  All other results are fixed points. -/
theorem C36_partial (cfg : Cfg) (w : World) (e e' : Elem) (hc : cfg.nightly = false)
    (h : simplify cfg w e = .ok e') (hn : ¬ NegLit e') : simplify cfg w e' = .ok e' :=
  simplify_idem hc e e' h hn

/-- A tree that is really changed, to a result without a negated literal. -/
example : simplify cfgOpt w0 (.bin .plus (.bin .times (.num F64.f1) (.var b!"x"))
      (.bin .plus (.num F64.f1) (.num F64.f1))) =
    .ok (.bin .plus (.var b!"x") (.num (F64.ofNat 2))) := by decide +kernel
example : ¬ NegLit (.bin .plus (.var b!"x") (.num (F64.ofNat 2))) := by
  simp [negLit_bin, negLit_num, negLit_var]

/-! ### C35 -/

/-- C35 as stated. -/
def C35_claim : Prop := ∀ (cfg : Cfg) (w : World) (ctx : Context) (input : Bytes) (e : Xpr)
    (x : Bytes) (v : F64), CtxTotal w ctx → Reach cfg w ctx input e → x ∉ e.vars →
  e.simplifyFor cfg w x v = .ok e

/-- Without `compile-time-optimizations`, `1+2` is folded by any `simplify_for`. -/
theorem C35_refuted_plain : ¬ C35_claim := by
  intro h
  have h1 : parse0 cfgPlain b!"1+2" =
      .ok ⟨.bin .plus (.num F64.f1) (.num (F64.ofNat 2)), []⟩ := by decide +kernel
  have := h cfgPlain w0 Context.default _ _ b!"x" F64.f1 (ctxTotal_default w0)
    (.parsed (o := Oracle.id) h1) (by simp)
  have h2 : Xpr.simplifyFor cfgPlain w0 ⟨.bin .plus (.num F64.f1) (.num (F64.ofNat 2)), []⟩
    b!"x" F64.f1 = .ok ⟨.num (F64.ofNat 3), []⟩ := by decide +kernel
  rw [h2] at this
  simp only [Except.ok.injEq, Xpr.mk.injEq] at this
  cases this.1

/-- With it, `0-3` is not finished by the parser. -/
theorem C35_refuted_opt : ¬ C35_claim := by
  intro h
  have h1 : parse0 cfgOpt b!"0-3" = .ok ⟨.un .minus (.num (F64.ofNat 3)), []⟩ := by decide +kernel
  have := h cfgOpt w0 Context.default _ _ b!"x" F64.f1 (ctxTotal_default w0)
    (.parsed (o := Oracle.id) h1) (by simp)
  have h2 : Xpr.simplifyFor cfgOpt w0 ⟨.un .minus (.num (F64.ofNat 3)), []⟩
    b!"x" F64.f1 = .ok ⟨.num (F64.neg (F64.ofNat 3)), []⟩ := by decide +kernel
  rw [h2] at this
  simp only [Except.ok.injEq, Xpr.mk.injEq] at this
  cases this.1

theorem removeVar_absent {vs : List Bytes} {x : Bytes} (h : x ∉ vs) : Xpr.removeVar vs x = vs := by
  unfold Xpr.removeVar
  rw [List.filter_eq_self]
  intro a ha
  simp only [Bool.not_eq_true', decide_eq_false_iff_not]
  rintro rfl; exact h ha

/-- What is missing from C35: trees that are not fully simplified.  In any build,
along any history: if simplification has nothing left to do, then `simplify_for` of a
variable that is not in `vars` returns the very same expression. -/
theorem C35_partial (cfg : Cfg) (w : World) (ctx : Context) (input : Bytes) (e : Xpr)
    (x : Bytes) (v : F64) (he : Reach cfg w ctx input e) (hx : x ∉ e.vars)
    (hfix : simplify cfg w e.root = .ok e.root) : e.simplifyFor cfg w x v = .ok e := by
  unfold Xpr.simplifyFor
  rw [simplifyFor_fix e.root hfix fun ho => hx ((reach_vars he).2 x ho), removeVar_absent hx]

/-- The premise of `C35_partial` holds for every expression parsed with
`compile-time-optimizations` and for every result of `simplify_for`, in builds that are
not nightly, unless the tree contains a negated literal. -/
theorem C35_fixed_partial (cfg : Cfg) (w : World) (ctx : Context) (input : Bytes) (e : Xpr)
    (hc : cfg.nightly = false) (hn : ¬ NegLit e.root)
    (h : (cfg.opt = true ∧ ∃ o, parse cfg w o ctx input = .ok e) ∨
      ∃ (e0 : Xpr) (y : Bytes) (u : F64), e0.simplifyFor cfg w y u = .ok e) :
    simplify cfg w e.root = .ok e.root := by
  have : ∃ e0, simplify cfg w e0 = .ok e.root := by
    rcases h with ⟨ho, o, hp⟩ | ⟨e0, y, u, hs⟩
    · obtain ⟨c, tw, e0, _, _, _, _, h5, _⟩ := parseImpl_den (parse_ok hp)
      unfold finOf at h5
      rw [if_pos ho] at h5
      exact ⟨e0, h5⟩
    · unfold Xpr.simplifyFor at hs
      split at hs
      · cases hs
      · rename_i r hr; cases hs; exact simplifyFor_result hr
  obtain ⟨e0, h0⟩ := this
  exact simplify_idem hc e0 _ h0 hn

/-- `x*y - 2` for `z`. -/
example : parse0 cfgOpt b!"x*y - (1+1)" = .ok
    ⟨.bin .minus (.bin .times (.var b!"x") (.var b!"y")) (.num (F64.ofNat 2)), [b!"x", b!"y"]⟩ := by
  decide +kernel
example : ¬ NegLit (.bin .minus (.bin .times (.var b!"x") (.var b!"y")) (.num (F64.ofNat 2))) := by
  simp [negLit_bin, negLit_num, negLit_var]

/-! ### C37 -/

/-- C37 as stated. -/
def C37_claim : Prop := ∀ (cfg : Cfg) (w : World) (o : Oracle) (ctx : Context) (input : Bytes) (e : Xpr),
  CtxTotal w ctx → cfg.opt = true → parse cfg w o ctx input = .ok e → e.vars = [] →
  ∃ c, e.root = .num c

/-- `0-3` is stored as the negation of `3`. -/
theorem C37_refuted : ¬ C37_claim := by
  intro h
  have h1 : parse0 cfgOpt b!"0-3" = .ok ⟨.un .minus (.num (F64.ofNat 3)), []⟩ := by decide +kernel
  obtain ⟨c, hc⟩ := h cfgOpt w0 Oracle.id Context.default _ _ (ctxTotal_default w0) rfl h1 rfl
  cases hc

/-- What is missing from C37: nightly builds and trees with a negated literal.  In all
other cases a parsed expression without variables is a number. -/
theorem C37_partial (cfg : Cfg) (w : World) (o : Oracle) (ctx : Context) (input : Bytes) (e : Xpr)
    (ho : cfg.opt = true) (hc : cfg.nightly = false) (h : parse cfg w o ctx input = .ok e)
    (hv : e.vars = []) : (∃ c, e.root = .num c) ∨ NegLit e.root := by
  by_cases hn : NegLit e.root
  · exact .inr hn
  · left
    have hfix := C35_fixed_partial cfg w ctx input e hc hn (.inl ⟨ho, o, h⟩)
    refine fix_closed e.root hfix fun n hn => ?_
    have := ((C05_vars cfg w o ctx input e h).2 n).2 hn
    rw [hv] at this; cases this

/-- Negated literals only come from subtractions: in every build, also nightly, a text
without the character `-` that has no variables left is a number. -/
theorem C37_text_partial (cfg : Cfg) (w : World) (o : Oracle) (ctx : Context) (input : Bytes)
    (e : Xpr) (ho : cfg.opt = true) (h : parse cfg w o ctx input = .ok e) (hv : e.vars = [])
    (hm : c!"-" ∉ input) : ∃ c, e.root = .num c := by
  obtain ⟨c, tw, e0, h1, h2, h3, h4, h5, _⟩ := parseImpl_den (parse_ok h)
  have keeps : Keeps (finOf cfg w) NoSub := keeps_finOf fun e e' h hn => (simplify_noSub e e' h hn).1
  have hno : NoSub e0 := by
    refine (den_ind (Q := NoSub) (B := fun op => op ≠ .minus) (fun t => c!"-" ∉ t) keeps
      (fun _ => noSub_num) (fun _ _ _ _ _ => noSub_var)
      (fun f es _ _ h => noSub_call.2 h) (fun op a _ h => noSub_un.2 h)
      (fun op a b hb h1 h2 => noSub_bin.2 ⟨hb, h1, h2⟩) (by decide) ?_ ?_).1 c tw e0 h3 ?_ h4
    · rintro l ws op r rest _ ht rfl
      apply ht
      simp [Cst.text, opChar]
    · intro x y z ht hy; exact ht (by simp [hy])
    · intro hc; exact hm (by rw [h1]; simp [hc])
  unfold finOf at h5
  rw [if_pos ho] at h5
  refine (simplify_noSub e0 _ h5 hno).2 fun n hn => ?_
  have := ((C05_vars cfg w o ctx input e h).2 n).2 hn
  rw [hv] at this; cases this

/-- Folding of a closed expression, and of one whose variable cancels. -/
example : parse0 cfgOpt b!"2*(3+4)! % 11" = .ok ⟨.num (F64.ofNat 4), []⟩ := by decide +kernel
example : parse0 cfgOpt b!"7 + 0*x" = .ok ⟨.num (F64.ofNat 7), []⟩ := by decide +kernel

end Props
end Xprs
