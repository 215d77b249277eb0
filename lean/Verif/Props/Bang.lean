import Verif.Lemmas.Bang
import Verif.Props.Histories
/-
Property C77: exactly which accepted texts cannot be evaluated.

The parser takes the second `!` of `3!!x` for a binary operator, and evaluating such
a node reaches an `unreachable!()` (src/xprs.rs:303, 349).  C02, C20 and C23 are false as
stated because of that; here the texts and the trees concerned are characterised.
-/
namespace Xprs.Props
open Xprs Xprs.Spec

/-- C77 for trees: of an expression obtained from a text in any way, evaluated with all
its variables given, the result is a number if no `!` in it is a binary operator, and
the panic of `unreachable!()` if one is. -/
theorem C77_tree (cfg : Cfg) (w : World) (ctx : Context) (input : Bytes) (e : Xpr) (m : HMap F64)
    (hw : CtxTotal w ctx) (h : Reach cfg w ctx input e)
    (hm : ∀ n, Occurs n e.root → ∃ v, m n = some v) :
    ((∃ v, e.eval w m = .ok v) ↔ ∀ l r, ¬ Sub (.bin .factorial l r) e.root) ∧
    (e.eval w m = .error (.panic .unreachable) ↔ ∃ l r, Sub (.bin .factorial l r) e.root) := by
  have h1 : (∀ l r, ¬ Sub (.bin .factorial l r) e.root) → ∃ v, e.eval w m = .ok v := by
    intro hb
    have hs := eval_spec w m e.root (proper_mono (fun f => named_total hw) _
      (proper_of_no_bang _ (reach_calls h) (reach_unaries h) hb))
    rw [firstMissing_none.2 fun n hn => hm n ((mem_readVars n _).1 hn)] at hs
    exact hs
  have h2 : (∃ l r, Sub (.bin .factorial l r) e.root) →
      e.eval w m = .error (.panic .unreachable) := by
    rintro ⟨l, r, hs⟩
    cases he : e.eval w m with
    | ok v => exact absurd he (no_value_of_bang e.root hs v)
    | error p =>
      cases p with
      | missing n =>
        obtain ⟨ho, hn⟩ := C20_missing w e m n he
        obtain ⟨v, hv⟩ := hm n ho
        rw [hn] at hv; cases hv
      | panic p => rw [C23_only_unreachable cfg w ctx input e m hw h p he]
  refine ⟨⟨fun ⟨v, hv⟩ l r hs => no_value_of_bang e.root hs v hv, h1⟩, fun hp => ?_, h2⟩
  refine Classical.byContradiction fun hb => ?_
  obtain ⟨v, hv⟩ := h1 fun l r hs => hb ⟨l, r, hs⟩
  rw [hp] at hv; cases hv

/-- An expression has a value for some choice of the variables, or for none. -/
theorem C77_some_value (cfg : Cfg) (w : World) (ctx : Context) (input : Bytes) (e : Xpr)
    (hw : CtxTotal w ctx) (h : Reach cfg w ctx input e) :
    (∃ m v, e.eval w m = .ok v) ↔ ∀ l r, ¬ Sub (.bin .factorial l r) e.root := by
  constructor
  · rintro ⟨m, v, hv⟩ l r hs
    exact no_value_of_bang e.root hs v hv
  · intro hb
    obtain ⟨v, hv⟩ := ((C77_tree cfg w ctx input e (fun _ => some F64.f0) hw h fun _ _ => ⟨_, rfl⟩).1).2 hb
    exact ⟨_, v, hv⟩

/-- C77 for texts: in a build without `compile-time-optimizations` the tree of an
accepted text has a binary `!` exactly if two exclamation marks follow each other in the
text, with or without whitespace between them. -/
theorem C77_text (cfg : Cfg) (w : World) (o : Oracle) (ctx : Context) (input : Bytes) (x : Xpr)
    (ho : cfg.opt = false) (h : parse cfg w o ctx input = .ok x) :
    (∃ l r, Sub (.bin .factorial l r) x.root) ↔ DoubleBang input := by
  constructor
  · rintro ⟨l, r, hs⟩
    refine Classical.byContradiction fun hn => ?_
    have hp := reach_proper (.parsed h) hn
    have : ∀ e : Elem, Sub (.bin .factorial l r) e → Proper (Named ctx) e → False := by
      intro e hs
      induction hs with
      | refl => intro hp; cases hp with | bin ho _ _ => exact ho rfl
      | left _ ih => intro hp; cases hp with | bin _ a _ => exact ih a
      | right _ ih => intro hp; cases hp with | bin _ _ a => exact ih a
      | operand _ ih => intro hp; cases hp with | un _ a => exact ih a
      | arg hm _ ih => intro hp; cases hp with | call _ _ a => exact ih (a _ hm)
    exact this _ hs hp
  · intro hb
    obtain ⟨c, tw, e, h1, h2, h3, h4, h5, h6⟩ := parseImpl_den (parse_ok h)
    have hfin : ∀ e e', finOf cfg w e = .ok e' → e' = e := by
      intro e e' he
      simp only [finOf, ho, Bool.false_eq_true, if_false] at he
      cases he; rfl
    cases hfin _ _ h5
    rw [h1] at hb
    exact stray_den hfin c tw _ h3 h4 (stray_of_bang h3 h2 hb)

/-- Put together: without optimizations, an accepted text can be evaluated exactly if it
has no `!!`; if it has one, evaluation panics as soon as the variables are given. -/
theorem C77_plain (cfg : Cfg) (w : World) (o : Oracle) (ctx : Context) (input : Bytes) (x : Xpr)
    (ho : cfg.opt = false) (hw : CtxTotal w ctx) (h : parse cfg w o ctx input = .ok x) :
    ((∃ m v, x.eval w m = .ok v) ↔ ¬ DoubleBang input) ∧
    (DoubleBang input → ∀ m, (∀ n ∈ x.vars, ∃ v, m n = some v) →
      x.eval w m = .error (.panic .unreachable)) := by
  have ht := C77_text cfg w o ctx input x ho h
  refine ⟨?_, fun hb m hm => ?_⟩
  · rw [C77_some_value cfg w ctx input x hw (.parsed h), ← ht]
    exact ⟨fun h ⟨l, r, hs⟩ => h l r hs, fun h l r hs => h ⟨l, r, hs⟩⟩
  · exact (C77_tree cfg w ctx input x m hw (.parsed h)
      fun n hn => hm n ((reach_vars (.parsed h)).2 n hn)).2.2 (ht.2 hb)

/-- `2*x! ! y` is accepted, and cannot be evaluated. -/
example : DoubleBang b!"2*x! ! y" := ⟨b!"2*x", b!" ", b!" y", by decide, by decide⟩
example : ∃ e, parse0 cfgPlain b!"2*x! ! y" = .ok ⟨e, [b!"x", b!"y"]⟩ ∧
    eval w0 (fun _ => some F64.f1) e = .error (.panic .unreachable) := by
  refine ⟨.bin .times (.num (F64.ofNat 2)) (.bin .factorial (.un .factorial (.var b!"x")) (.var b!"y")),
    by decide +kernel, by decide +kernel⟩

/-- `(x!)!` has two exclamation marks, but not in a row: it is the factorial of a
factorial. -/
example : ¬ DoubleBang b!"(x!)!" ∧ parse0 cfgPlain b!"(x!)!" =
    .ok ⟨.un .factorial (.un .factorial (.var b!"x")), [b!"x"]⟩ := by
  refine ⟨fun h => bang_not_apart h (by decide), by decide +kernel⟩

/-- In a build with `compile-time-optimizations` the text alone does not decide: the
simplification removes the product with 0, and the binary `!` with it. -/
theorem C77_plain_needed : ∃ x, parse0 cfgOpt b!"0*(3!!x)" = .ok x ∧ DoubleBang b!"0*(3!!x)" ∧
    x.eval w0 (fun _ => some F64.f1) = .ok F64.f0 := by
  refine ⟨⟨.num F64.f0, []⟩, by decide +kernel, ⟨b!"0*(3", [], b!"x)", by decide, by decide⟩, by decide +kernel⟩

end Xprs.Props
