import Verif.Lemmas.Orders
import Verif.Props.Builds
import Verif.Props.Constant
import Verif.Props.Grammar
/-
Property C86: the two orders of operations accept the same texts, and differ only where an
implicit product meets `*`, `/` or `%`.
-/
namespace Xprs
namespace Props
open Spec

/-- Every variable among the tokens is declared. -/
def DeclaredToks (ctx : Context) (ts : List Bytes) : Prop :=
  ∀ vs, ctx.getExpected = some vs → ∀ n ∈ ts, IsName n → lookup ctx n = .var n → n ∈ vs

/-- The texts that a build without `compile-time-optimizations` accepts, whatever the order of
operations: rows of operands and operators. -/
theorem C86_rows (cfg : Cfg) (w : World) (o : Oracle) (ctx : Context) (input : Bytes) (ho : cfg.opt = false) :
    (∃ x, parse cfg w o ctx input = .ok x) ↔
    ∃ ts num, Lex input ts ∧ Flat ctx (.row num) ts ∧ DeclaredToks ctx ts := by
  constructor
  · rintro ⟨x, hx⟩
    obtain ⟨c, tw, e, h1, h2, h3, h4, h5, h6⟩ := parseImpl_den (parse_ok hx)
    rw [finOf_plain ho] at h3 h4 h5
    obtain ⟨ts, n, hl, hf⟩ := (flat_iff (cfg := cfg) input).2 ⟨c, tw, h1, h2, h3⟩
    refine ⟨ts, n, hl, hf, fun vs hvs m hm hn hv => parse_expected hx hvs ?_⟩
    have ht : ts = c.toks := by
      have := lex_text.1 c tw [] h3 (.nil h2)
      rw [h1] at hl
      rw [lex_unique hl this, List.append_nil]
    rw [(C05_vars cfg w o ctx input x hx).2]
    cases h5
    exact (token_occurs hn hv).1 c tw _ h3 h4 (ht ▸ hm)
  · rintro ⟨ts, n, hl, hf, hd⟩
    obtain ⟨c, tw, rfl, h2, h3⟩ := (flat_iff (cfg := cfg) input).1 ⟨ts, n, hl, hf⟩
    have hp := parseImpl_text cfg w ctx c tw (by rw [finOf_plain ho]; exact h3) h2
    rw [finOf_plain ho] at hp
    cases he : c.den .ok ctx with
    | error p => exact absurd he ((den_plain_ok ctx).1 c p)
    | ok e =>
      have hm : c.meaning .ok ctx = .ok e := by rw [Cst.meaning, he]
      rw [hm] at hp
      refine ⟨_, parse_of_impl hp fun vs hvs m hm => ?_⟩
      have hocc : Occurs m e := by simpa using (mem_findVars _ _ _).1 hm
      obtain ⟨q1, q2, q3⟩ := occurs_token hl hp hocc
      exact hd vs hvs m q1 q2 q3

/-- `1/2x` is a row; `2 3` is not accepted in either order, `x 3` is in both. -/
example : Flat Context.default (.row false) [b!"1", b!"/", b!"2", b!"x"] := by
  refine .juxt (ts := [b!"1", b!"/", b!"2"]) (us := [b!"x"]) (t := b!"x") (c := c!"x") (n := false) ?_
    (.plain (.var ⟨⟨c!"x", rfl, by decide⟩, by decide⟩ (fun f h => ?_) (fun v h => ?_))) rfl rfl (.inl (by decide))
  · refine .oper (ts := [b!"1"]) (us := [b!"2"]) (n := true) (k := true) (.one (.plain (.num ?_))) (by decide)
      (.plain (.num ?_))
    · exact ⟨_, b!"1", b!"1", [], by decide, by decide, by unfold MantShape; decide, .inl ⟨rfl, nofun, by rintro ⟨_, _, _, _, _, _, _, h⟩; simp at h, rfl⟩⟩
    · exact ⟨_, b!"2", b!"2", [], by decide, by decide, by unfold MantShape; decide, .inl ⟨rfl, nofun, by rintro ⟨_, _, _, _, _, _, _, h⟩; simp at h, rfl⟩⟩
  · revert h; rw [show lookup Context.default b!"x" = .var b!"x" from rfl]; nofun
  · revert h; rw [show lookup Context.default b!"x" = .var b!"x" from rfl]; nofun
example : (match parse0 cfgPlain b!"2 3", parse0 cfgPej b!"2 3" with | .err _, .err _ => true | _, _ => false) = true := by
  decide +kernel
example : (match parse0 cfgPlain b!"x 3", parse0 cfgPej b!"x 3" with | .ok _, .ok _ => true | _, _ => false) = true := by
  decide +kernel

/-- Without `compile-time-optimizations` the order of operations has no influence on what is
accepted; nor have the functions' results. -/
theorem C86_order (cfg cfg' : Cfg) (w w' : World) (o o' : Oracle) (ctx : Context) (input : Bytes)
    (ho : cfg.opt = false) (ho' : cfg'.opt = false) :
    (∃ x, parse cfg w o ctx input = .ok x) ↔ ∃ x, parse cfg' w' o' ctx input = .ok x := by
  rw [C86_rows cfg w o ctx input ho, C86_rows cfg' w' o' ctx input ho']

/-- Optimizing builds accept nothing that the other builds, of whichever order, reject
(declarations of variables aside: `x-x` needs no variable if it is optimized). -/
theorem C86_fewer (cfg cfg' : Cfg) (w w' : World) (o o' : Oracle) (ctx : Context) (input : Bytes) (x : Xpr)
    (ho : cfg'.opt = false) (he : ctx.getExpected = none) (hx : parse cfg w o ctx input = .ok x) :
    ∃ y, parse cfg' w' o' ctx input = .ok y := by
  obtain ⟨c, tw, rfl, k2, k3, k4, k5⟩ := parseImpl_ok (parse_ok hx)
  rw [C86_rows cfg' w' o' ctx _ ho]
  have hfin : ∀ v, finOf cfg w (.num v) = .ok (.num v) := by
    intro v; unfold finOf; split
    · rw [simplify]
    · rfl
  obtain ⟨n, _, h3, _⟩ := (flat_of_cst hfin).1 c tw [] (.nil k2) k3
  exact ⟨_, n, lex_text.1 c tw [] k3 (.nil k2), by simpa using h3, by rw [DeclaredToks, he]; nofun⟩

/-- `(3+4)5` is accepted by the other builds only. -/
example : (match parse0 cfgPlain b!"(3+4)5", parse0 cfgOpt b!"(3+4)5" with
    | .ok _, .err _ => true | _, _ => false) = true := by decide +kernel

/-- With `compile-time-optimizations` the same holds for texts without numbers right behind a
closing parenthesis and without `!!`. -/
theorem C86_builds (cfg cfg' : Cfg) (w w' : World) (o o' : Oracle) (ctx : Context) (input : Bytes)
    (hw : CtxTotal w ctx) (hw' : CtxTotal w' ctx) (hb : ¬ DoubleBang input)
    (hn : ∀ ts, Lex input ts → ParensApart ts) (he : ctx.getExpected = none) :
    (∃ x, parse cfg w o ctx input = .ok x) ↔ ∃ x, parse cfg' w' o' ctx input = .ok x := by
  rw [C16_accept_partial cfg { cfg with opt := false } w o o ctx input rfl hw hb hn he,
    C16_accept_partial cfg' { cfg' with opt := false } w' o' o' ctx input rfl hw' hb hn he]
  exact C86_order _ _ w w' o o' ctx input rfl rfl

/-- Where there is no `*`, `/` or `%`, two builds that differ in the order of operations only
give the same expression. -/
theorem C86_same (cfg cfg' : Cfg) (w : World) (o o' : Oracle) (ctx : Context) (input : Bytes) (ts : List Bytes)
    (hc : SameButOrder cfg cfg') (hl : Lex input ts)
    (h1 : b!"*" ∉ ts) (h2 : b!"/" ∉ ts) (h3 : b!"%" ∉ ts) (x : Xpr) :
    parse cfg w o ctx input = .ok x ↔ parse cfg' w o' ctx input = .ok x := by
  have key : ∀ (cfg cfg' : Cfg) (o o' : Oracle), SameButOrder cfg cfg' →
      parse cfg w o ctx input = .ok x → parse cfg' w o' ctx input = .ok x := by
    intro cfg cfg' o o' hc hx
    obtain ⟨c, tw, rfl, k2, k3, k4, k5⟩ := parseImpl_ok (parse_ok hx)
    have ht : FarToks (c.toks ++ []) := by
      rw [← lex_unique hl (lex_text.1 c tw [] k3 (.nil k2))]
      exact ⟨h1, h2, h3⟩
    have hw := (wf_order (cfg' := cfg')).1 c tw [] (.nil k2) ht k3
    rw [finOf_order hc] at hw k4
    refine parse_of_impl ?_ fun vs hvs m hm => parse_expected hx hvs hm
    rw [parseImpl_text cfg' w ctx c tw hw k2, k4]
    cases x; simp only at k5 ⊢; rw [k5]
  exact ⟨key cfg cfg' o o' hc, key cfg' cfg o' o ⟨hc.1.symm, hc.2.1.symm, hc.2.2.symm⟩⟩

/-- Implicit products beside `+`, `-`, `^` and `!`; with `/` they matter. -/
example : parse0 cfgPlain b!"2x^3 - 5!y" = parse0 cfgPej b!"2x^3 - 5!y" := by decide +kernel
example : parse0 cfgPlain b!"1/2x" =
    .ok ⟨.bin .times (.bin .divide (.num (F64.ofNat 1)) (.num (F64.ofNat 2))) (.var b!"x"), [b!"x"]⟩ := by
  decide +kernel
example : parse0 cfgPej b!"1/2x" =
    .ok ⟨.bin .divide (.num (F64.ofNat 1)) (.bin .times (.num (F64.ofNat 2)) (.var b!"x")), [b!"x"]⟩ := by
  decide +kernel
example : SameButOrder cfgPlain cfgPej := ⟨rfl, rfl, rfl⟩

/-- The same where everything that is multiplied is multiplied with `*`. -/
theorem C86_written (cfg cfg' : Cfg) (w : World) (o o' : Oracle) (ctx : Context) (input : Bytes) (ts : List Bytes)
    (hc : SameButOrder cfg cfg') (hl : Lex input ts) (hp : ProductsWritten ctx ts) (x : Xpr) :
    parse cfg w o ctx input = .ok x ↔ parse cfg' w o' ctx input = .ok x := by
  have key : ∀ (cfg cfg' : Cfg) (o o' : Oracle), SameButOrder cfg cfg' →
      parse cfg w o ctx input = .ok x → parse cfg' w o' ctx input = .ok x := by
    intro cfg cfg' o o' hc hx
    obtain ⟨c, tw, rfl, k2, k3, k4, k5⟩ := parseImpl_ok (parse_ok hx)
    have ht : ProductsWritten ctx c.toks := by
      rw [lex_unique hl (lex_text.1 c tw [] k3 (.nil k2)), List.append_nil] at hp
      exact hp
    have hcl : ClearTail tw := by
      have := clearTail_spaces k2 (rest := []) nofun
      rwa [List.append_nil] at this
    have hw := (fence_wf (cfg' := cfg')).1 c tw tw hcl k3
    rw [fence_written.1 c tw [] (.nil k2) ht k3, finOf_order hc] at hw
    rw [finOf_order hc] at k4
    refine parse_of_impl ?_ fun vs hvs m hm => parse_expected hx hvs hm
    rw [parseImpl_text cfg' w ctx c tw hw k2, k4]
    cases x; simp only at k5 ⊢; rw [k5]
  exact ⟨key cfg cfg' o o' hc, key cfg' cfg o' o ⟨hc.1.symm, hc.2.1.symm, hc.2.2.symm⟩⟩

/-- Calls are no products. -/
example : ProductsWritten Context.default [b!"sin", b!"(", b!"x", b!")", b!"/", b!"2", b!"*", b!"x"] := by
  intro p a b q h ha hf
  rcases p with _ | ⟨_, _ | ⟨_, _ | ⟨_, _ | ⟨_, _ | ⟨_, _ | ⟨_, _ | ⟨_, p⟩⟩⟩⟩⟩⟩⟩ <;> simp at h
  · obtain ⟨rfl, rfl, rfl⟩ := h
    exact absurd rfl (hf ⟨⟨c!"s", rfl, by decide⟩, by decide⟩ _)
  · obtain ⟨_, rfl, rfl, rfl⟩ := h
    rcases ha with ⟨c, hc, hh⟩ | ha | ha
    · cases hc; exact absurd hh (by decide)
    · exact absurd ha (by decide)
    · exact absurd ha (by decide)
  · obtain ⟨_, _, rfl, rfl, rfl⟩ := h
    rintro ⟨c, hc, hh⟩
    cases hc; exact absurd hh (by decide)
  · obtain ⟨_, _, _, rfl, rfl, rfl⟩ := h
    rintro ⟨c, hc, hh⟩
    cases hc; exact absurd hh (by decide)
  · obtain ⟨_, _, _, _, rfl, rfl, rfl⟩ := h
    rcases ha with ⟨c, hc, hh⟩ | ha | ha
    · cases hc; exact absurd hh (by decide)
    · exact absurd ha (by decide)
    · exact absurd ha (by decide)
  · obtain ⟨_, _, _, _, _, rfl, rfl, rfl⟩ := h
    rintro ⟨c, hc, hh⟩
    cases hc; exact absurd hh (by decide)
  · obtain ⟨_, _, _, _, _, _, rfl, rfl, rfl⟩ := h
    rcases ha with ⟨c, hc, hh⟩ | ha | ha
    · cases hc; exact absurd hh (by decide)
    · exact absurd ha (by decide)
    · exact absurd ha (by decide)
  · have := congrArg List.length h.2.2.2.2.2.2.2
    simp at this
    omega
example : parse0 cfgPlain b!"sin(x)/2*x" = parse0 cfgPej b!"sin(x)/2*x" := by decide +kernel

/-- An accepted text can be given parentheses so that both orders of operations read the
expression it stands for: around its implicit products and around what they multiply. -/
theorem C86_fence (cfg : Cfg) (w : World) (o : Oracle) (ctx : Context) (input : Bytes) (x : Xpr)
    (ho : cfg.opt = false) (hx : parse cfg w o ctx input = .ok x) :
    ∃ (c : Cst) (tw : Bytes), input = c.text ++ tw ∧ bare (c.fence.text ++ tw) = bare input ∧
      ∀ cfg' w' o', cfg'.opt = false → parse cfg' w' o' ctx (c.fence.text ++ tw) = .ok x := by
  obtain ⟨c, tw, rfl, k2, k3, k4, k5⟩ := parseImpl_ok (parse_ok hx)
  rw [finOf_plain ho] at k3 k4
  refine ⟨c, tw, rfl, ?_, fun cfg' w' o' ho' => ?_⟩
  · have := fence_bare.1 c
    unfold bare at *
    rw [List.filter_append, List.filter_append, this]
  · refine parse_of_impl ?_ fun vs hvs m hm => parse_expected hx hvs hm
    have hc : ClearTail tw := by
      have := clearTail_spaces k2 (rest := []) nofun
      rwa [List.append_nil] at this
    have hw := (fence_wf (cfg' := cfg')).1 c tw tw hc k3
    rw [parseImpl_text cfg' w' ctx c.fence tw (by rw [finOf_plain ho']; exact hw) k2, finOf_plain ho', Cst.meaning,
      fence_den.1 c]
    rw [Cst.meaning] at k4
    rw [k4]
    cases x; simp only at k5 ⊢; rw [k5]

/-- The text `1/2x`, with the parentheses of either reading. -/
example : (Cst.bin (.num [] b!"1" (F64.ofNat 1)) [] .divide
      (.juxt (.num [] b!"2" (F64.ofNat 2)) (.name [] b!"x"))).fence.text = b!"1/((2)(x))" ∧
    (Cst.juxt (.bin (.num [] b!"1" (F64.ofNat 1)) [] .divide (.num [] b!"2" (F64.ofNat 2)))
      (.name [] b!"x")).fence.text = b!"((1/2)(x))" := by decide
example : parse0 cfgPlain b!"1/((2)(x))" = parse0 cfgPej b!"1/2x" := by decide +kernel
example : parse0 cfgPej b!"((1/2)(x))" = parse0 cfgPlain b!"1/2x" := by decide +kernel

end Props
end Xprs
