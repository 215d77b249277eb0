import Verif.Lemmas.Show
import Verif.Props.Normal
import Verif.Props.Grammar
import Verif.Props.Builds
/-
Property C39: the text of an expression, read back.
-/
namespace Xprs
namespace Props
open Spec

/-- The full claim of C39 (false, see `C39_refuted`). -/
def C39_claim : Prop := ∀ (fmt : F64 → Bytes) (cfg : Cfg) (w : World) (o : Oracle) (ctx : Context)
    (input : Bytes) (e : Xpr), Prints fmt → parse cfg w o ctx input = .ok e →
    ∃ e', parse cfg w o ctx (e.show fmt) = .ok e' ∧ e'.root = e.root

/-- A way to print numbers as std promises (not the digits std chooses). -/
noncomputable def someFmt : F64 → Bytes
  | .fin false _ h => (exists_literal h).choose
  | .fin true _ h => c!"-" :: (exists_literal h).choose
  | .inf false => b!"inf"
  | .inf true => b!"-inf"
  | .nan => b!"NaN"
theorem someFmt_prints : Prints someFmt :=
  ⟨fun _ h => (exists_literal h).choose_spec, fun _ _ => rfl, rfl, rfl, rfl⟩

/-! ### The trees a parse returns -/

theorem name_isName {nm rest : Bytes} (h : Name nm rest) : IsName nm := ⟨h.1, h.2.1⟩

theorem literal_sign {t rest : Bytes} {v : F64} (h : Literal t rest v) :
    v = .inf false ∨ ∃ n k, v = .fin false n k := by
  have key : ∀ M E, F64.ofDecimal M E = .inf false ∨ ∃ n k, F64.ofDecimal M E = .fin false n k := by
    intro M E
    have : ∀ N D, F64.ofMag false N D = .inf false ∨ ∃ n k, F64.ofMag false N D = .fin false n k := by
      intro N D
      unfold F64.ofMag
      split
      · rename_i hr; exact .inr ⟨_, hr, rfl⟩
      · exact .inl rfl
    unfold F64.ofDecimal
    split <;> exact this _ _
  obtain ⟨_, _, _, _, _, _, ⟨_, _, _, rfl⟩ | ⟨_, _, _, _, _, _, _, _, ⟨_, rfl⟩ | ⟨_, rfl⟩⟩⟩ := h <;>
    exact key _ _

/-- Without `compile-time-optimizations`, and without `!` followed by `!`, a parse
returns a tree of the kind that can be written. -/
theorem C09_image (cfg : Cfg) (w : World) (o : Oracle) (ctx : Context) (input : Bytes) (e : Xpr)
    (ho : cfg.opt = false) (h : parse cfg w o ctx input = .ok e) (hd : ¬ DoubleBang input) :
    Sayable ctx e.root := by
  obtain ⟨c, tw, d, h1, h2, h3, h4, h5, _⟩ := parseImpl_den (parse_ok h)
  have hfin : ∀ a b, finOf cfg w a = .ok b → b = a := by
    intro a b hab
    unfold finOf at hab
    rw [if_neg (by simp [ho])] at hab
    cases hab; rfl
  rw [hfin _ _ h5]
  refine (den_ind_name (cfg := cfg) (ctx := ctx) (Q := Sayable ctx)
    (B := fun op => op ≠ .factorial) (fun t => ¬ DoubleBang t)
    (fun a b hab ha => by rw [hfin _ _ hab]; exact ha) ?_ ?_ ?_
    (fun op a hop ha => .un (hop.imp_right fun h => h.imp_right fun h => h.1) ha)
    (fun op a b hop ha hb => .bin hop ha hb) (by decide) ?_ ?_).1 c tw d h3 ?_ h4
  · rintro v (⟨t, rest, hl⟩ | ⟨nm, hn, hl⟩)
    · rcases literal_sign hl with rfl | ⟨n, k, rfl⟩
      · exact .inf
      · exact .lit
    · exact .const (name_isName hn) hl
  · intro nm n1 n2 hl _
    exact .var ⟨n1, n2⟩ (by simp [hl]) (by simp [hl])
  · rintro f es ⟨nm, hn, hl⟩ ha hes
    exact .call (name_isName hn) hl ha.1 ha.2 hes
  · rintro l ws op r rest hw ht rfl
    exact ht (bin_bang hw)
  · intro x y z ht hb; exact ht (hb.infix x z)
  · intro hb; exact hd (by rw [h1]; exact hb.left tw)

/-! ### Reading back -/

/-- Numbers are finite, and not negative unless `neg` and not the base of a power; the
operators are those of the grammar, without the factorial. -/
structure Printable (neg : Bool) (e : Elem) : Prop where
  num : ∀ x, Sub (.num x) e → ∃ s n h, x = .fin s n h ∧ (s = true → neg = true)
  base : ∀ x r, Sub (.bin .power (.num x) r) e → ∃ n h, x = .fin false n h
  un : ∀ op a, Sub (.un op a) e → op = .plus ∨ op = .minus
  bin : ∀ op a b, Sub (.bin op a b) e → op ≠ .factorial

theorem Printable.sub {neg : Bool} {e t : Elem} (h : Printable neg e)
    (hs : ∀ u, Sub u t → Sub u e) : Printable neg t :=
  ⟨fun x k => h.num x (hs _ k), fun x r k => h.base x r (hs _ k), fun op a k => h.un op a (hs _ k),
    fun op a b k => h.bin op a b (hs _ k)⟩

theorem legible_of {ctx : Context} {neg : Bool} : ∀ e : Elem, Printable neg e →
    (∀ n, Occurs n e → IsName n ∧ lookup ctx n = .var n) →
    Calls (fun f => IsName f.name ∧ lookup ctx f.name = .func f) e → Legible ctx neg e := by
  intro e
  induction e using Elem.ind with
  | num x =>
    intro hp _ _
    obtain ⟨s, n, k, rfl, hs⟩ := hp.num x .refl
    cases s with
    | false => exact .lit
    | true => exact .minus (hs rfl)
  | var nm =>
    intro _ hv _
    obtain ⟨h1, h2⟩ := hv nm .here
    exact .var h1 (by simp [h2]) (by simp [h2])
  | bin op l r ihl ihr =>
    intro hp hv hc
    rw [calls_bin] at hc
    refine .bin (hp.bin _ _ _ .refl)
      (ihl (hp.sub fun _ => .left) (fun n hn => hv n (.left hn)) hc.1)
      (ihr (hp.sub fun _ => .right) (fun n hn => hv n (.right hn)) hc.2) ?_
    rintro rfl ⟨n, k, rfl⟩
    obtain ⟨_, _, h⟩ := hp.base _ r .refl
    cases h
  | un op a ih =>
    intro hp hv hc
    rw [calls_un] at hc
    exact .un (hp.un _ _ .refl) (ih (hp.sub fun _ => .operand) (fun n hn => hv n (.operand hn)) hc)
  | call f args ih =>
    intro hp hv hc
    rw [calls_call] at hc
    obtain ⟨⟨⟨h1, h2⟩, h3, h4⟩, h5⟩ := hc
    exact .call h1 h2 h3 h4 fun a ha =>
      ih a ha (hp.sub fun _ => .arg ha) (fun n hn => hv n (.arg ha hn)) (h5 a ha)

/-- C39, where it holds: the text of a parsed expression is read as the same expression if
its numbers are finite, its numbers are not negative (with `compile-time-optimizations`:
unless they are the base of a power), it has no factorial, its functions are found under
the name they carry, and (with `compile-time-optimizations`) there is nothing left to
simplify.  What is missing: other expressions, for which it is false in general. -/
theorem C39_settled_partial (fmt : F64 → Bytes) (cfg : Cfg) (w : World) (o : Oracle)
    (ctx : Context) (input : Bytes) (e : Xpr) (hf : Prints fmt) (hctx : OwnNames ctx)
    (h : parse cfg w o ctx input = .ok e) (hp : Printable cfg.opt e.root)
    (ho : cfg.opt = true → simplify cfg w e.root = .ok e.root) :
    parse cfg w o ctx (e.show fmt) = .ok e := by
  have h0 := parse_ok h
  obtain ⟨_, _, _, _, _, _, _, _, hv⟩ := parseImpl_den h0
  have hl : Legible ctx cfg.opt e.root := by
    refine legible_of e.root hp (fun n hn => ?_) ?_
    · obtain ⟨a1, a2, a3, _⟩ := parseImpl_occurs h0 hn
      exact ⟨⟨a1, a2⟩, a3⟩
    · intro f args hs
      obtain ⟨⟨nm, h1, h2⟩, h3⟩ := parseImpl_calls_name h0 f args hs
      exact ⟨hctx nm f (name_isName h1) h2, h3⟩
  have hi := parseImpl_show hf hl (w := w) (cfg := cfg) ho
  have : (⟨e.root, findVars e.root []⟩ : Xpr) = e := by rw [← hv]
  rw [this] at hi
  exact parse_of_impl hi fun vs hvs n hn => parse_expected h hvs hn

/-- The last condition holds if the NIGHTLY rules are off and the expression has no unary
minus in front of a number. -/
theorem C39_partial (fmt : F64 → Bytes) (cfg : Cfg) (w : World) (o : Oracle) (ctx : Context)
    (input : Bytes) (e : Xpr) (hf : Prints fmt) (hctx : OwnNames ctx)
    (h : parse cfg w o ctx input = .ok e) (hp : Printable cfg.opt e.root)
    (ho : cfg.opt = true → cfg.nightly = false ∧ ¬ NegLit e.root) :
    parse cfg w o ctx (e.show fmt) = .ok e :=
  C39_settled_partial fmt cfg w o ctx input e hf hctx h hp fun hopt =>
    C35_fixed_partial cfg w ctx input e (ho hopt).1 (ho hopt).2 (.inl ⟨hopt, o, h⟩)

theorem ite_some {α : Type} {c : Prop} [Decidable c] {x b : α} {r : Option α}
    (h : (if c then some x else r) = some b) : (c ∧ x = b) ∨ r = some b := by
  split at h
  · exact .inl ⟨‹_›, by injection h⟩
  · exact .inr h

/-- The default context, and one that only adds functions under their own names and
does not redefine `recip`. -/
theorem ownNames_of {ctx : Context} (h : ∀ nm f, ctx.get nm = some (.func f) → f.name = nm)
    (hr : ctx.get b!"recip" = none) : OwnNames ctx := by
  intro nm f hn hl
  unfold lookup at hl ⊢
  cases hg : ctx.get nm with
  | some s =>
    rw [hg] at hl
    cases s with
    | var x => cases hl
    | func g =>
      injection hl with hl
      subst hl
      rw [h nm g hg, hg]
      exact ⟨hn, rfl⟩
  | none =>
    rw [hg] at hl
    simp only at hl
    have key : ∀ b, builtinByName nm = some b → b.name = nm ∨ b = .recip := by
      intro b hb
      unfold builtinByName at hb
      repeat
        rcases ite_some hb with ⟨rfl, rfl⟩ | hb
        · first | exact .inl rfl | exact .inr rfl
      cases hb
    unfold Ident.fromStr at hl
    split at hl
    · cases hl
    split at hl
    · cases hl
    split at hl
    · rename_i h1 h2 _ b hb
      injection hl with hl
      subst hl
      rcases key b hb with hk | rfl
      · have : b.toFunc.name = nm := hk
        rw [this, hg]
        refine ⟨hn, ?_⟩
        simp only
        unfold Ident.fromStr
        rw [if_neg h1, if_neg h2, hb]
      · refine ⟨?_, ?_⟩
        · exact ⟨⟨c!"r", rfl, by decide⟩, by decide⟩
        · have : (Builtin.toFunc .recip).name = b!"recip" := rfl
          rw [this, hr]
          rfl
    · cases hl

theorem ownNames_default : OwnNames Context.default :=
  ownNames_of (fun _ _ h => by cases h) rfl

/-- The hypothesis about names of the theorems on printing: every function is printed under a
name by which it is found, in the default context and in each that adds functions under their
own names only and does not redefine `recip`. -/
theorem C39_own_names (ctx : Context) (h : ∀ nm f, ctx.get nm = some (.func f) → f.name = nm)
    (hr : ctx.get b!"recip" = none) (nm : Bytes) (f : Func) (hn : IsName nm) (hl : lookup ctx nm = .func f) :
    IsName f.name ∧ lookup ctx f.name = .func f := ownNames_of h hr nm f hn hl

def finite : F64 → Bool
  | .fin false _ _ => true
  | _ => false
theorem of_finite {x : F64} (h : finite x = true) : ∃ n k, x = .fin false n k := by
  unfold finite at h
  split at h
  · exact ⟨_, _, rfl⟩
  · cases h

/-- C39 without `compile-time-optimizations`, in terms of the input: no `!` in it, the
constants of the context finite and not negative, and no literal so large that it
overflows. -/
theorem C39_plain_partial (fmt : F64 → Bytes) (cfg : Cfg) (w : World) (o : Oracle) (ctx : Context)
    (input : Bytes) (e : Xpr) (hf : Prints fmt) (hctx : OwnNames ctx) (ho : cfg.opt = false)
    (hk : ∀ nm x, ctx.get nm = some (.var x) → ∃ n h, x = .fin false n h)
    (h : parse cfg w o ctx input = .ok e) (hb : c!"!" ∉ input)
    (hi : ¬ Sub (.num (.inf false)) e.root) : parse cfg w o ctx (e.show fmt) = .ok e := by
  refine C39_partial fmt cfg w o ctx input e hf hctx h ?_ (by simp [ho])
  obtain ⟨c, tw, d, h1, h2, h3, h4, h5, _⟩ := parseImpl_den (parse_ok h)
  have hfin : ∀ a b, finOf cfg w a = .ok b → b = a := by
    intro a b hab
    unfold finOf at hab
    rw [if_neg (by simp [ho])] at hab
    cases hab; rfl
  have hconst : ∀ nm x, lookup ctx nm = .const x → ∃ n h, x = .fin false n h := by
    intro nm x hl
    unfold lookup at hl
    split at hl
    · rename_i s hs
      cases s with
      | func g => cases hl
      | var y => injection hl with hl; subst hl; exact hk nm y hs
    · unfold Ident.fromStr at hl
      split at hl
      · injection hl with hl
        subst hl
        exact of_finite (by decide +kernel)
      split at hl
      · injection hl with hl
        subst hl
        exact of_finite (by decide +kernel)
      split at hl <;> cases hl
  have main : ¬ Sub (.num (.inf false)) d → Printable false d := by
    refine (den_ind_name (cfg := cfg) (ctx := ctx)
      (Q := fun d => ¬ Sub (.num (.inf false)) d → Printable false d)
      (B := fun op => op ≠ .factorial) (fun t => c!"!" ∉ t)
      (fun a b hab ha => by rw [hfin _ _ hab]; exact ha) ?_ ?_ ?_ ?_ ?_ (by decide) ?_ ?_).1 c tw d h3 ?_ h4
    · intro v hv hn
      have : ∃ n h, v = .fin false n h := by
        rcases hv with ⟨t, rest, hl⟩ | ⟨nm, _, hl⟩
        · rcases literal_sign hl with rfl | h
          · exact absurd .refl hn
          · exact h
        · exact hconst nm v hl
      obtain ⟨n, k, rfl⟩ := this
      refine ⟨fun x hx => ?_, fun x r hx => ?_, fun op a hx => ?_, fun op a b hx => ?_⟩ <;> cases hx
      exact ⟨false, n, k, rfl, by simp⟩
    · intro nm _ _ _ _ _
      refine ⟨fun x hx => ?_, fun x r hx => ?_, fun op a hx => ?_, fun op a b hx => ?_⟩ <;> cases hx
    · intro f es _ _ hes hn
      have hq := fun a ha => hes a ha fun k => hn (.arg ha k)
      refine ⟨fun x hx => ?_, fun x r hx => ?_, fun op a hx => ?_, fun op a b hx => ?_⟩ <;>
        cases hx <;> rename_i a' hx ha
      · exact (hq _ ha).num _ hx
      · exact (hq _ ha).base _ _ hx
      · exact (hq _ ha).un _ _ hx
      · exact (hq _ ha).bin _ _ _ hx
    · intro op a hop ha hn
      have hq := ha fun k => hn (.operand k)
      refine ⟨fun x hx => ?_, fun x r hx => ?_, fun op a hx => ?_, fun op a b hx => ?_⟩
      · cases hx; rename_i hx; exact hq.num _ hx
      · cases hx; rename_i hx; exact hq.base _ _ hx
      · cases hx with
        | refl =>
          rcases hop with h | h | ⟨_, t, ht⟩
          · exact .inl h
          · exact .inr h
          · exact absurd (by simp) ht
        | operand hx => exact hq.un _ _ hx
      · cases hx; rename_i hx; exact hq.bin _ _ _ hx
    · intro op a b hop ha hb hn
      have q1 := ha fun k => hn (.left k)
      have q2 := hb fun k => hn (.right k)
      refine ⟨fun x hx => ?_, fun x r hx => ?_, fun op a hx => ?_, fun op a b hx => ?_⟩
      · cases hx with
        | left hx => exact q1.num _ hx
        | right hx => exact q2.num _ hx
      · cases hx with
        | refl =>
          obtain ⟨s, n, k, rfl, hs⟩ := q1.num _ .refl
          cases s with
          | false => exact ⟨n, k, rfl⟩
          | true => exact absurd (hs rfl) (by decide)
        | left hx => exact q1.base _ _ hx
        | right hx => exact q2.base _ _ hx
      · cases hx with
        | left hx => exact q1.un _ _ hx
        | right hx => exact q2.un _ _ hx
      · cases hx with
        | refl => exact hop
        | left hx => exact q1.bin _ _ _ hx
        | right hx => exact q2.bin _ _ _ hx
    · rintro l ws op r rest hw ht rfl
      exact ht (by simp [Cst.text, opChar])
    · intro x y z ht hb; exact ht (by simp [hb])
    · intro hc; exact hb (by rw [h1]; simp [hc])
  rw [hfin _ _ h5] at hi ⊢
  rw [ho]
  exact main hi

/-! ### Where it fails -/

/-- C39 fails for every expression with a factorial in it: its text `(!…)` is never
accepted, in any build and context. -/
theorem C39_factorial (fmt : F64 → Bytes) (cfg : Cfg) (w : World) (o : Oracle) (ctx : Context)
    (e : Xpr) (a : Elem) (h : Sub (.un .factorial a) e.root) (x : Xpr) :
    parse cfg w o ctx (e.show fmt) ≠ .ok x := by
  intro hp
  refine no_paren_bang (parse_ok hp) (List.IsInfix.trans ?_ (show_sub h))
  refine ⟨[], showE fmt a ++ b!")", ?_⟩
  simp [showE, opText]

/-- `x!` -/
theorem C39_refuted : ¬ C39_claim := by
  intro h
  have hp : parse0 cfgPlain b!"x!" = .ok ⟨.un .factorial (.var b!"x"), [b!"x"]⟩ := by decide +kernel
  obtain ⟨e', h1, _⟩ := h someFmt cfgPlain w0 Oracle.id Context.default _ _ someFmt_prints hp
  exact C39_factorial someFmt cfgPlain w0 Oracle.id Context.default _ _ .refl e' h1

/-- `1e999` is printed `inf`, which is read as a variable. -/
theorem C39_inf_refuted (fmt : F64 → Bytes) (hf : Prints fmt) :
    parse0 cfgPlain b!"1e999" = .ok ⟨.num (.inf false), []⟩ ∧
    parse0 cfgPlain (Xpr.show fmt ⟨.num (.inf false), []⟩) = .ok ⟨.var b!"inf", [b!"inf"]⟩ := by
  refine ⟨by decide +kernel, ?_⟩
  have : Xpr.show fmt ⟨.num (.inf false), []⟩ = b!"inf" := hf.inf
  rw [this]
  decide +kernel

/-- With optimizations, `(-3)^x` is printed `(-3 ^ x)`, which is read as `-(3^x)`. -/
theorem C39_base_refuted (fmt : F64 → Bytes) (h3 : fmt (.neg (F64.ofNat 3)) = b!"-3") :
    parse0 cfgOpt b!"(-3)^x" = .ok ⟨.bin .power (.num (.neg (F64.ofNat 3))) (.var b!"x"), [b!"x"]⟩ ∧
    parse0 cfgOpt (Xpr.show fmt ⟨.bin .power (.num (.neg (F64.ofNat 3))) (.var b!"x"), [b!"x"]⟩) =
      .ok ⟨.un .minus (.bin .power (.num (F64.ofNat 3)) (.var b!"x")), [b!"x"]⟩ := by
  refine ⟨by decide +kernel, ?_⟩
  have : Xpr.show fmt ⟨.bin .power (.num (.neg (F64.ofNat 3))) (.var b!"x"), [b!"x"]⟩ = b!"(-3 ^ x)" := by
    simp [Xpr.show, showE, h3, opText]
  rw [this]
  decide +kernel

/-- With optimizations, `0 - 3` is printed `(-3)`, which is read as a number. -/
theorem C39_sign_refuted (fmt : F64 → Bytes) (h3 : fmt (F64.ofNat 3) = b!"3") :
    parse0 cfgOpt b!"0 - 3" = .ok ⟨.un .minus (.num (F64.ofNat 3)), []⟩ ∧
    parse0 cfgOpt (Xpr.show fmt ⟨.un .minus (.num (F64.ofNat 3)), []⟩) =
      .ok ⟨.num (.neg (F64.ofNat 3)), []⟩ := by
  refine ⟨by decide +kernel, ?_⟩
  have : Xpr.show fmt ⟨.un .minus (.num (F64.ofNat 3)), []⟩ = b!"(-3)" := by
    simp [Xpr.show, showE, h3, opText]
  rw [this]
  decide +kernel

/-- A context with its own `recip`: `invert(x)` is printed `recip(x)`, which calls the
other function. -/
def ctxRecip : Context := Context.default.setFn ⟨b!"recip", .static 0, some 1⟩
theorem C39_name_refuted (fmt : F64 → Bytes) :
    parse cfgPlain w0 Oracle.id ctxRecip b!"invert(x)" =
      .ok ⟨.call (Builtin.toFunc .recip) [.var b!"x"], [b!"x"]⟩ ∧
    parse cfgPlain w0 Oracle.id ctxRecip (Xpr.show fmt ⟨.call (Builtin.toFunc .recip) [.var b!"x"], [b!"x"]⟩) =
      .ok ⟨.call ⟨b!"recip", .static 0, some 1⟩ [.var b!"x"], [b!"x"]⟩ := by
  refine ⟨by decide +kernel, ?_⟩
  have : Xpr.show fmt ⟨.call (Builtin.toFunc .recip) [.var b!"x"], [b!"x"]⟩ = b!"recip(x)" := by
    simp [Xpr.show, showE, showL, joinWith, Builtin.toFunc, Builtin.name]
  rw [this]
  decide +kernel

/-! ### Examples -/

example (fmt : F64 → Bytes) (h2 : fmt (F64.ofNat 2) = b!"2") :
    (match parse0 cfgPlain b!"-x + sum(2, y*z)" with
      | .ok e => e.show fmt | _ => []) = b!"((-x) + sum(2, (y * z)))" := by
  have : parse0 cfgPlain b!"-x + sum(2, y*z)" = .ok ⟨.bin .plus (.un .minus (.var b!"x"))
      (.call (Builtin.toFunc .sum) [.num (F64.ofNat 2), .bin .times (.var b!"y") (.var b!"z")]),
      [b!"x", b!"y", b!"z"]⟩ := by decide +kernel
  rw [this]
  simp [Xpr.show, showE, showL, joinWith, h2, opText, Builtin.toFunc, Builtin.name]

/-- The hypotheses of `C39_plain_partial` are met by `-x + sum(2, y*z)`. -/
example : ∃ e, parse0 cfgPlain b!"-x + sum(2, y*z)" = .ok e ∧ parse0 cfgPlain (e.show someFmt) = .ok e := by
  have h : parse0 cfgPlain b!"-x + sum(2, y*z)" = .ok ⟨.bin .plus (.un .minus (.var b!"x"))
      (.call (Builtin.toFunc .sum) [.num (F64.ofNat 2), .bin .times (.var b!"y") (.var b!"z")]),
      [b!"x", b!"y", b!"z"]⟩ := by decide +kernel
  refine ⟨_, h, C39_plain_partial someFmt cfgPlain w0 Oracle.id Context.default _ _ someFmt_prints
    ownNames_default rfl (fun _ _ h => by cases h) h (by decide) ?_⟩
  have h2 : F64.ofNat 2 ≠ .inf false := by decide +kernel
  generalize F64.ofNat 2 = c at h2
  intro hs
  cases hs with
  | left hs => cases hs with | operand hs => cases hs
  | right hs =>
    cases hs with
    | arg ha hs =>
      rcases List.mem_cons.1 ha with rfl | ha
      · cases hs; exact h2 rfl
      · rw [List.mem_singleton.1 ha] at hs
        cases hs with
        | left hs => cases hs
        | right hs => cases hs

/-- Those of `C39_partial` by `x*(2 - 5)` with optimizations, a tree with a negative
number. -/
example : ∃ e, parse0 cfgOpt b!"x*(2 - 5)" = .ok e ∧ Sub (.num (F64.ofNat 3).neg) e.root ∧
    parse0 cfgOpt (e.show someFmt) = .ok e := by
  have h : parse0 cfgOpt b!"x*(2 - 5)" = .ok ⟨.bin .times (.var b!"x") (.num (F64.ofNat 3).neg), [b!"x"]⟩ := by
    decide +kernel
  have h3 : ∃ n k, F64.ofNat 3 = .fin false n k := of_finite (by decide +kernel)
  refine ⟨_, h, .right .refl, C39_partial someFmt cfgOpt w0 Oracle.id Context.default _ _ someFmt_prints
    ownNames_default h ?_ fun _ => ⟨rfl, ?_⟩⟩
  · obtain ⟨n, k, h3⟩ := h3
    refine ⟨fun x hx => ?_, fun x r hx => ?_, fun op a hx => ?_, fun op a b hx => ?_⟩
    · cases hx with
      | left hx => cases hx
      | right hx => cases hx; rw [h3]; exact ⟨true, n, k, rfl, fun _ => rfl⟩
    · cases hx with
      | left hx => cases hx
      | right hx => cases hx
    · cases hx with
      | left hx => cases hx
      | right hx => cases hx
    · cases hx with
      | left hx => cases hx
      | right hx => cases hx
      | refl => decide
  · rintro ⟨c, hx⟩
    cases hx with
    | left hx => cases hx
    | right hx => cases hx

end Props
end Xprs
