import Verif.Lemmas.Shown
import Verif.Props.Print
import Verif.Props.Histories
import Verif.Lemmas.Rename
/-
Property C89: a printed expression says which expression it is.
-/
namespace Xprs
namespace Props
open Spec

/-- C89 as stated: expressions made in one context and printed alike are the same. -/
def C89_claim : Prop := ∀ (cfg cfg' : Cfg) (w w' : World) (ctx : Context) (a b : Bytes) (x y : Xpr),
  OwnNames ctx → Reach cfg w ctx a x → Reach cfg' w' ctx b y → x.show fmtF64 = y.show fmtF64 → x.root = y.root

/-- The variable `inf` and the number `1e999` are both printed `inf`; and a call of the built-in
function `invert` is printed like one of the user's function `recip`. -/
theorem C89_refuted : ¬ C89_claim ∧
    ∃ x y, parse cfgPlain w0 Oracle.id ctxRecip b!"invert(x)" = .ok x ∧
      parse cfgPlain w0 Oracle.id ctxRecip b!"recip(x)" = .ok y ∧
      x.show fmtF64 = y.show fmtF64 ∧ x.root ≠ y.root := by
  constructor
  · intro h
    have h1 : parse0 cfgPlain b!"inf" = .ok ⟨.var b!"inf", [b!"inf"]⟩ := by decide +kernel
    have h2 : parse0 cfgPlain b!"1e999" = .ok ⟨.num (.inf false), []⟩ := by decide +kernel
    have := h cfgPlain cfgPlain w0 w0 _ _ _ _ _ ownNames_default (.parsed h1) (.parsed h2) rfl
    cases this
  · exact ⟨⟨.call (Builtin.toFunc .recip) [.var b!"x"], [b!"x"]⟩, ⟨.call ⟨b!"recip", .static 0, some 1⟩ [.var b!"x"], [b!"x"]⟩,
      by decide +kernel, by decide +kernel, by decide +kernel, by decide +kernel⟩

theorem word_numerical {t : Bytes} (h : Numerical t) : Word t := by
  intro c hc hs
  have := h c hc
  revert this
  simp only [sepChar, List.mem_cons, List.not_mem_nil, or_false] at hs
  rcases hs with rfl | rfl | rfl | rfl | rfl <;> decide

theorem literal_head {t rest : Bytes} {v : F64} (h : Literal t rest v) : ∃ c t', t = c :: t' ∧ (digit c ∨ c = c!".") := by
  obtain ⟨mant, ip, fp, ⟨c, hc, hd⟩, -, -, h⟩ := h
  cases mant with
  | nil => cases hc
  | cons d m =>
    cases hc
    obtain ⟨rfl, -⟩ | ⟨e, sg, ds, -, -, -, rfl, -⟩ := h <;> exact ⟨_, _, rfl, hd⟩

theorem clear_of_prints {fmt : F64 → Bytes} (hf : Prints fmt) (hc : ∀ n h, Numerical (fmt (.fin false n h)))
    (hi : ∀ a b, fmt a = fmt b → a = b) : Distinct fmt where
  word v := by
    cases v with
    | nan => rw [hf.nan]; unfold Word; decide
    | inf s => cases s <;> simp only [hf.inf, hf.negInf] <;> unfold Word <;> decide
    | fin s n h =>
      cases s with
      | false => exact word_numerical (hc n h)
      | true => rw [hf.neg]; exact word_numerical (numerical_cons (by decide) (hc n h))
  ne v hv := by
    cases v with
    | nan => rw [hf.nan] at hv; cases hv
    | inf s => cases s <;> simp only [hf.inf, hf.negInf] at hv <;> cases hv
    | fin s n h =>
      cases s with
      | false =>
        obtain ⟨c, t, h1, -⟩ := literal_head (hf.pos n h)
        rw [hv] at h1; cases h1
      | true => rw [hf.neg] at hv; cases hv
  inj := hi

theorem clear_fmt : Distinct fmtF64 := clear_of_prints C72_prints fmt_numerical fun a b h => C72_injective a b (.inl h)
theorem clear_debug : Distinct debugF64 := clear_of_prints debug_prints debug_numerical fun a b h => C72_injective a b (.inr h)

theorem fmt_noSign : NoSign fmtF64 := by
  intro v c hv
  cases v with
  | nan => cases hv
  | inf s => cases s <;> cases hv
  | fin s n h =>
    obtain ⟨d, t, h1, h2⟩ := literal_head (C72_prints.pos n h)
    cases s with
    | false => rw [h1] at hv; cases hv; exact h2
    | true => rw [C72_prints.neg, h1] at hv; cases hv

/-- The only numbers that are printed like names. -/
theorem fmt_name (v : F64) (h : IsName (fmtF64 v)) : fmtF64 v = b!"inf" ∨ fmtF64 v = b!"NaN" := by
  obtain ⟨⟨c, hc, hl⟩, -⟩ := h
  cases v with
  | nan => exact .inr rfl
  | inf s =>
    cases s with
    | false => exact .inl rfl
    | true => cases hc; exact absurd hl (by decide)
  | fin s n h =>
    obtain ⟨d, t, h1, h2⟩ := literal_head (C72_prints.pos n h)
    cases s with
    | false =>
      rw [h1] at hc
      cases hc
      exfalso
      rcases h2 with h2 | rfl
      · exact (letter_ops _ hl).2.2.1 h2
      · exact absurd hl (by decide)
    | true => rw [C72_prints.neg] at hc; cases hc; exact absurd hl (by decide)

/-- The functions that can be called in a context. -/
def Callable (ctx : Context) (f : Func) : Prop := ∃ nm, IsName nm ∧ lookup ctx nm = .func f

theorem reach_legible {cfg : Cfg} {w : World} {ctx : Context} {input : Bytes} {x : Xpr}
    (h : Reach cfg w ctx input x) : Legible (Callable ctx) x.root ∧ ∀ n ∈ x.vars, IsName n := by
  obtain ⟨-, h1, o, e0, h2, h3⟩ := C32_partial cfg w ctx input x h
  have hn : ∀ n ∈ x.vars, IsName n := fun n hn =>
    have := parseImpl_occurs (parse_ok h2) (h3 n hn)
    ⟨this.1, this.2.1⟩
  refine ⟨⟨fun n ho => hn n (h1 n ho), ?_⟩, hn⟩
  refine reach_ind (Q := fun e _ => Calls (Callable ctx) e) (fun _ h => ?_)
    (fun _ _ _ _ _ hq h => simplifyFor_calls _ h hq) h
  intro f as hs
  obtain ⟨⟨nm, hnm, hl⟩, ha⟩ := parseImpl_calls_name h f as hs
  exact ⟨⟨nm, name_isName hnm, hl⟩, ha⟩

theorem callable_name {ctx : Context} (hctx : OwnNames ctx) :
    (∀ f, Callable ctx f → IsName f.name) ∧
    ∀ f f', Callable ctx f → Callable ctx f' → f.name = f'.name → f = f' := by
  refine ⟨fun f ⟨nm, h1, h2⟩ => (hctx nm f h1 h2).1, fun f f' ⟨nm, h1, h2⟩ ⟨nm', h1', h2'⟩ h => ?_⟩
  have h3 := (hctx nm f h1 h2).2
  have h4 := (hctx nm' f' h1' h2').2
  rw [h, h4] at h3
  cases h3; rfl

/-- C89, `Display`: what is missing is that a variable may be called `inf` or `NaN` (and that
functions may be stored under names other than their own).  Otherwise expressions made in one
context from any texts, in any builds, by any simplifications, that are printed alike are the
same trees with the same numbers and functions. -/
theorem C89_display_partial (cfg cfg' : Cfg) (w w' : World) (ctx : Context) (a b : Bytes) (x y : Xpr)
    (hctx : OwnNames ctx) (hx : Reach cfg w ctx a x) (hy : Reach cfg' w' ctx b y)
    (hi : ∀ n, n = b!"inf" ∨ n = b!"NaN" → n ∉ x.vars ∧ n ∉ y.vars)
    (h : x.show fmtF64 = y.show fmtF64) : x.root = y.root := by
  obtain ⟨hF, hn⟩ := callable_name hctx
  have clash : ∀ {cfg : Cfg} {w : World} {a : Bytes} {x : Xpr}, Reach cfg w ctx a x →
      (∀ n, n = b!"inf" ∨ n = b!"NaN" → n ∉ x.vars) → NoClash fmtF64 x.root := by
    intro cfg w a x hx hi n ho v hv
    have h1 := (reach_legible hx).1.vars n ho
    rw [← hv] at h1
    exact hi n (hv ▸ fmt_name v h1) ((C32_partial cfg w ctx a x hx).2.1 n ho)
  refine (show_eq clear_fmt fmt_noSign hF hn x.root y.root [] [] (reach_legible hx).1 (reach_legible hy).1
    (clash hx fun n h => (hi n h).1) (clash hy fun n h => (hi n h).2) nofun nofun ?_).1
  rw [List.append_nil, List.append_nil]
  exact h

/-- C89, `Debug`: with `{:?}` all expressions made in one context are told apart: equal texts come
from equal trees and the same sets of variables. -/
theorem C89_debug (cfg cfg' : Cfg) (w w' : World) (o o' : Oracle) (ctx : Context) (a b : Bytes) (x y : Xpr)
    (hctx : OwnNames ctx) (hx : Reach cfg w ctx a x) (hy : Reach cfg' w' ctx b y)
    (h : x.debug o = y.debug o') : x.root = y.root ∧ x.vars.Perm y.vars := by
  obtain ⟨hF, hn⟩ := callable_name hctx
  simp only [Xpr.debug, List.append_assoc] at h
  obtain ⟨h1, h2⟩ := debug_eq clear_debug hF hn x.root y.root _ _ (reach_legible hx).1 (reach_legible hy).1
    (List.append_cancel_left h)
  refine ⟨h1, ?_⟩
  have h3 := quotes_eq (fun n hn => word_name ((reach_legible hx).2 n ((o.perm _).mem_iff.1 hn)))
    (fun n hn => word_name ((reach_legible hy).2 n ((o'.perm _).mem_iff.1 hn))) (List.append_cancel_left h2)
  exact (o.perm _).symm.trans (h3 ▸ o'.perm _)

/-- C89: and so they have the same values. -/
theorem C89_values (cfg cfg' : Cfg) (w w' : World) (o o' : Oracle) (ctx : Context) (a b : Bytes) (x y : Xpr)
    (hctx : OwnNames ctx) (hx : Reach cfg w ctx a x) (hy : Reach cfg' w' ctx b y)
    (h : x.debug o = y.debug o' ∨ (x.show fmtF64 = y.show fmtF64 ∧
      ∀ n, n = b!"inf" ∨ n = b!"NaN" → n ∉ x.vars ∧ n ∉ y.vars)) (m : HMap F64) : x.eval w m = y.eval w m := by
  have : x.root = y.root := by
    rcases h with h | ⟨h, hi⟩
    · exact (C89_debug cfg cfg' w w' o o' ctx a b x y hctx hx hy h).1
    · exact C89_display_partial cfg cfg' w w' ctx a b x y hctx hx hy hi h
  unfold Xpr.eval
  rw [this]

/-! ### Two contexts -/

theorem facelessL_map (as : List Elem) : facelessL as = as.map faceless := by
  induction as with
  | nil => rfl
  | cons a as ih => rw [facelessL, ih]; rfl

theorem word_fnDebug (p : FnPtr) : Word (fnDebug p) := by cases p <;> unfold Word <;> simp only [fnDebug] <;> decide

theorem word_optDebug {a b : Option Nat} {r r' : Bytes}
    (h : optDebug a ++ c!" " :: r = optDebug b ++ c!" " :: r') : a = b ∧ r = r' := by
  have hw : ∀ n, Word (decimal n) := fun n c hc hs => by
    have := decimal_digit n c hc
    revert this
    simp only [sepChar, List.mem_cons, List.not_mem_nil, or_false] at hs
    rcases hs with rfl | rfl | rfl | rfl | rfl <;> decide
  cases a with
  | none =>
    cases b with
    | none => exact ⟨rfl, (List.cons.inj (List.append_cancel_left h)).2⟩
    | some n => cases h
  | some m =>
    cases b with
    | none => cases h
    | some n =>
      simp only [optDebug, List.append_assoc] at h
      obtain ⟨h1, h2⟩ := word_eq (hw m) (hw n) (stops_cons (by decide)) (stops_cons (by decide))
        (List.append_cancel_left h)
      exact ⟨by rw [decimal_inj h1], (List.append_cancel_left (as := b!") ") h2)⟩

theorem facelessF_eq {f f' : Func} (h1 : IsName f.name) (h2 : IsName f'.name) {r r' : Bytes}
    (h : funcDebug f ++ r = funcDebug f' ++ r') : facelessF f = facelessF f' ∧ r = r' := by
  simp only [funcDebug, List.append_assoc] at h
  obtain ⟨h3, h4⟩ := quoted_eq (word_name h1) (word_name h2) (List.append_cancel_left h)
  obtain ⟨h5, h6⟩ := word_eq (word_fnDebug _) (word_fnDebug _) (stops_cons (by decide)) (stops_cons (by decide))
    (List.append_cancel_left (as := b!", func: ") h4)
  obtain ⟨h7, h8⟩ := word_optDebug (List.append_cancel_left (as := b!", nb_args: ") h6)
  refine ⟨?_, (List.cons.inj h8).2⟩
  unfold facelessF
  rw [h3, h7]
  revert h5
  cases f.func <;> cases f'.func <;> simp [fnDebug]

theorem debug_faceless (e : Elem) : debugE (faceless e) = debugE e := by
  induction e using Elem.ind with
  | num v => rfl
  | var n => rfl
  | un op a ih => simp only [faceless, debugE, ih]
  | bin op l r ih1 ih2 => simp only [faceless, debugE, ih1, ih2]
  | call f as ih =>
    have h1 : funcDebug (facelessF f) = funcDebug f := by
      unfold funcDebug facelessF
      cases f.func <;> rfl
    have h2 : debugL (facelessL as) = debugL as := by
      rw [facelessL_map, debugL_map, debugL_map, List.map_map]
      exact List.map_congr_left fun a ha => ih a ha
    simp only [faceless, debugE, h1, h2]

theorem debug_alike {F F' : Func → Prop} (hF : ∀ f, F f → IsName f.name) (hF' : ∀ f, F' f → IsName f.name) (e : Elem) :
    ∀ e' r r', Legible F e → Legible F' e' → debugE e ++ r = debugE e' ++ r' → faceless e = faceless e' ∧ r = r' := by
  have hc := clear_debug
  induction e using Elem.ind with
  | num v =>
    intro e' r r' he he' h
    cases e' with
    | num v' =>
      simp only [debugE, List.append_assoc] at h
      obtain ⟨h1, h2⟩ := word_eq (hc.word v) (hc.word v') (stops_cons (by decide)) (stops_cons (by decide))
        (List.append_cancel_left h)
      exact ⟨by rw [hc.inj _ _ h1], (List.cons.inj h2).2⟩
    | _ => simp [debugE] at h
  | var n =>
    intro e' r r' he he' h
    cases e' with
    | var n' =>
      simp only [debugE, List.append_assoc] at h
      obtain ⟨rfl, h2⟩ := quoted_eq (word_name he.name) (word_name he'.name) (List.append_cancel_left h)
      exact ⟨rfl, (List.cons.inj h2).2⟩
    | _ => simp [debugE] at h
  | un op a ih =>
    intro e' r r' he he' h
    cases e' with
    | un op' b =>
      simp only [debugE, List.append_assoc] at h
      obtain ⟨h1, h2⟩ := word_eq (word_opDebug op) (word_opDebug op') (stops_cons (by decide)) (stops_cons (by decide))
        (List.append_cancel_left h)
      obtain ⟨h3, h4⟩ := ih b _ _ he.un he'.un (List.append_cancel_left (as := b!", operand: ") h2)
      exact ⟨by rw [faceless, faceless, opDebug_inj h1, h3], List.append_cancel_left h4⟩
    | _ => simp [debugE] at h
  | bin op x y ihl ihr =>
    intro e' r r' he he' h
    cases e' with
    | bin op' x' y' =>
      simp only [debugE, List.append_assoc] at h
      obtain ⟨h1, h2⟩ := word_eq (word_opDebug op) (word_opDebug op') (stops_cons (by decide)) (stops_cons (by decide))
        (List.append_cancel_left h)
      obtain ⟨k1, h3⟩ := ihl x' _ _ he.left he'.left (List.append_cancel_left (as := b!", lhs: ") h2)
      obtain ⟨k2, h4⟩ := ihr y' _ _ he.right he'.right (List.append_cancel_left h3)
      exact ⟨by rw [faceless, faceless, opDebug_inj h1, k1, k2], List.append_cancel_left h4⟩
    | _ => simp [debugE] at h
  | call f as ih =>
    intro e' r r' he he' h
    cases e' with
    | call f' as' =>
      simp only [debugE, List.append_assoc, debugL_map] at h
      obtain ⟨k1, h2⟩ := facelessF_eq (hF f he.fn.1) (hF' f' he'.fn.1) (List.append_cancel_left h)
      have em : ∀ as : List Elem, as.map debugE = (as.map faceless).map debugE := fun as => by
        rw [List.map_map]
        exact List.map_congr_left fun a _ => (debug_faceless a).symm
      rw [em as, em as'] at h2
      obtain ⟨k2, h3⟩ := join_eq (Ok := fun _ => True) (close := c!"]") (by decide) (fun _ => trivial) (fun _ => trivial)
        (as.map faceless) (as'.map faceless) (by simpa using he.fn.2) (by simpa using he'.fn.2)
        (fun a ha a' ha' r r' _ _ h => by
          obtain ⟨b, hb, rfl⟩ := List.mem_map.1 ha
          obtain ⟨b', hb', rfl⟩ := List.mem_map.1 ha'
          rw [debug_faceless, debug_faceless] at h
          exact ih b hb b' r r' (he.arg hb) (he'.arg hb') h) _ _ (List.append_cancel_left h2)
      exact ⟨by rw [faceless, faceless, k1, facelessL_map, facelessL_map, k2], List.append_cancel_left (as := b!" })") h3⟩
    | _ => simp [debugE] at h

/-- C89, `Debug`, of expressions made in two contexts: equal texts come from trees that differ at most
in what functions compute that have the same name, the same number of arguments, and are both plain
functions or both closures; and the expressions are printed alike if and only if that is so and the
variables are listed alike. -/
theorem C89_contexts (cfg cfg' : Cfg) (w w' : World) (o o' : Oracle) (ctx ctx' : Context) (a b : Bytes) (x y : Xpr)
    (hctx : OwnNames ctx) (hctx' : OwnNames ctx') (hx : Reach cfg w ctx a x) (hy : Reach cfg' w' ctx' b y) :
    x.debug o = y.debug o' ↔ faceless x.root = faceless y.root ∧ o.ord x.vars = o'.ord y.vars := by
  constructor
  · intro h
    simp only [Xpr.debug, List.append_assoc] at h
    obtain ⟨h1, h2⟩ := debug_alike (callable_name hctx).1 (callable_name hctx').1 x.root y.root _ _
      (reach_legible hx).1 (reach_legible hy).1 (List.append_cancel_left h)
    exact ⟨h1, quotes_eq (fun n hn => word_name ((reach_legible hx).2 n ((o.perm _).mem_iff.1 hn)))
      (fun n hn => word_name ((reach_legible hy).2 n ((o'.perm _).mem_iff.1 hn))) (List.append_cancel_left h2)⟩
  · rintro ⟨h1, h2⟩
    unfold Xpr.debug
    rw [← debug_faceless x.root, ← debug_faceless y.root, h1, h2]

/-- Functions called `f` of two contexts: a plain function and a closure are told apart, two closures
are not. -/
example : Xpr.debug Oracle.id ⟨.call ⟨b!"f", .dyn 7, some 1⟩ [vx], [b!"x"]⟩ =
      Xpr.debug Oracle.id ⟨.call ⟨b!"f", .dyn 8, some 1⟩ [vx], [b!"x"]⟩ ∧
    Xpr.debug Oracle.id ⟨.call ⟨b!"f", .dyn 7, some 1⟩ [vx], [b!"x"]⟩ ≠
      Xpr.debug Oracle.id ⟨.call ⟨b!"f", .static 7, some 1⟩ [vx], [b!"x"]⟩ ∧
    parse cfgPlain w0 Oracle.id (Context.default.setFn ⟨b!"f", .dyn 8, some 1⟩) b!"f(x)" =
      .ok ⟨.call ⟨b!"f", .dyn 8, some 1⟩ [vx], [b!"x"]⟩ ∧
    parse cfgPlain w0 Oracle.id (Context.default.setFn ⟨b!"f", .static 7, some 1⟩) b!"f(x)" =
      .ok ⟨.call ⟨b!"f", .static 7, some 1⟩ [vx], [b!"x"]⟩ := by decide +kernel

/-- The hypotheses hold of `x+2` and `(x) + 2.0`, which are printed alike. -/
example : parse0 cfgOpt b!"x+2" = .ok ⟨.bin .plus vx (.num (F64.ofNat 2)), [b!"x"]⟩ ∧
    parse0 cfgPlain b!"(x) + 2.0" = .ok ⟨.bin .plus vx (.num (F64.ofNat 2)), [b!"x"]⟩ := by decide +kernel
example : Xpr.debug Oracle.id ⟨.bin .plus vx (.num (F64.ofNat 2)), [b!"x"]⟩ =
    b!"Xprs { root: BinOp(BinOp { op: Plus, lhs: Variable(\"x\"), rhs: Number(2.0) }), vars: {\"x\"} }" := by
  decide +kernel
example : Xpr.debug Oracle.id ⟨.call (Builtin.toFunc .max) [vx, .un .minus vx], [b!"x"]⟩ =
    b!"Xprs { root: Function(FunctionCall { desc: Function { name: \"max\", func: Static, nb_args: None }, args: [Variable(\"x\"), UnOp(UnOp { op: Minus, operand: Variable(\"x\") })] }), vars: {\"x\"} }" := by
  decide +kernel

end Props
end Xprs
