import Verif.Lemmas.Compose
import Verif.Props.Tokens
import Verif.Props.Builtins
import Verif.Props.Names
/-
Property C62: texts can be put together, and the value of the whole is made of the values
of the parts.
-/
namespace Xprs
namespace Props
open Spec

theorem expected_of {cfg : Cfg} {w : World} {o : Oracle} {ctx : Context} {s : Bytes} {x : Xpr}
    (h : parse cfg w o ctx s = .ok x) {vs : List Bytes} (hv : ctx.getExpected = some vs)
    {n : Bytes} (hn : Occurs n x.root) : n ∈ vs := by
  have h2 := parse_ok h
  have hx : n ∈ x.vars := by
    obtain ⟨c, tw, _, _, _, _, hv⟩ := parseImpl_ok h2
    rw [hv, mem_findVars]; exact .inr hn
  unfold parse at h
  rw [h2, hv] at h
  simp only at h
  apply Classical.byContradiction
  intro hmem
  have : n ∈ diffVars o x.vars vs := mem_diffVars.2 ⟨hx, hmem⟩
  cases hd : diffVars o x.vars vs with
  | nil => rw [hd] at this; cases this
  | cons a l => rw [hd] at h; cases h

theorem finOf_occurs {cfg : Cfg} {w : World} {e e' : Elem} (h : finOf cfg w e = .ok e') {n : Bytes}
    (ho : Occurs n e') : Occurs n e := by
  unfold finOf at h
  split at h
  · exact simplify_occurs _ h ho
  · cases h; exact ho

theorem exceptBind_ok {α β : Type} {x : PM α} {f : α → PM β} {b : β} (h : x.bind f = .ok b) :
    ∃ a, x = .ok a ∧ f a = .ok b := by
  cases x with
  | error p => cases h
  | ok a => exact ⟨a, rfl, h⟩

/-- A parse that ends with a tree whose variables are allowed. -/
theorem parse_outcome {cfg : Cfg} {w : World} {o : Oracle} {ctx : Context} {s : Bytes} {r : PM Elem}
    (h : parseImpl cfg w ctx s = outcome r)
    (hv : ∀ vs, ctx.getExpected = some vs → ∀ e, r = .ok e → ∀ n, Occurs n e → n ∈ vs) :
    parse cfg w o ctx s = outcome r := by
  cases r with
  | error p => exact parse_panic.2 h
  | ok e =>
    refine parse_of_impl h fun vs hvs n hn => ?_
    rcases (mem_findVars n e []).1 hn with h | h
    · cases h
    · exact hv vs hvs e rfl n h

section
variable (cfg : Cfg) (w : World) (o : Oracle) (ctx : Context)

/-- C62: the tree of `(s) op (t)`, in every build: that of the operator with the trees of
the parts (the right one simplified once more), simplified. -/
theorem C62_infix (s t : Bytes) (x y : Xpr) (op : Op) (hop : op ≠ .factorial)
    (hs : parse cfg w o ctx s = .ok x) (ht : parse cfg w o ctx t = .ok y) :
    parse cfg w o ctx (inParens s ++ opChar op :: inParens t) =
      outcome ((finOf cfg w y.root).bind fun b => finOf cfg w (.bin op x.root b)) := by
  refine parse_outcome (parseImpl_infix hop (parse_ok hs) (parse_ok ht)) ?_
  intro vs hvs e he n hn
  obtain ⟨b, hb, he⟩ := exceptBind_ok he
  have := finOf_occurs he hn
  rw [occurs_bin] at this
  rcases this with h | h
  · exact expected_of hs hvs h
  · exact expected_of ht hvs (finOf_occurs hb h)

/-- The tree of a call `nm(t1,…,tn)`. -/
theorem C62_call (nm : Bytes) (f : Func) (ts : List Bytes) (xs : List Xpr) (hn : IsName nm)
    (hf : lookup ctx nm = .func f) (hne : ts ≠ []) (ha' : ∀ n, f.nbArgs = some n → ts.length = n)
    (hs : List.Forall₂ (fun t x => parse cfg w o ctx t = .ok x) ts xs) :
    parse cfg w o ctx (nm ++ inParens (commas ts)) =
      outcome (finOf cfg w (.call f (xs.map (·.root)))) := by
  refine parse_outcome (parseImpl_call (hs.imp fun _ _ h => parse_ok h) hne hn hf ha') ?_
  intro vs hvs e he n hn
  have := finOf_occurs he hn
  rw [occurs_call] at this
  obtain ⟨a, ha, h⟩ := this
  obtain ⟨x, hx, rfl⟩ := List.mem_map.1 ha
  clear hn he hf ha hne ha'
  induction hs with
  | nil => cases hx
  | cons h1 _ ih =>
    rcases List.mem_cons.1 hx with rfl | hx
    · exact expected_of h1 hvs h
    · exact ih hx

/-- The tree of `-(s)` and `+(s)`. -/
theorem C62_prefix (s : Bytes) (x : Xpr) (neg : Bool) (hs : parse cfg w o ctx s = .ok x) :
    parse cfg w o ctx ((if neg then c!"-" else c!"+") :: inParens s) =
      outcome ((finOf cfg w x.root).bind fun a =>
        finOf cfg w (.un (if neg then .minus else .plus) a)) := by
  refine parse_outcome (parseImpl_prefix neg (parse_ok hs)) ?_
  intro vs hvs e he n hn
  obtain ⟨b, hb, he⟩ := exceptBind_ok he
  have := finOf_occurs he hn
  rw [occurs_un] at this
  exact expected_of hs hvs (finOf_occurs hb this)

/-- The tree of `(s)!`. -/
theorem C62_postfix (s : Bytes) (x : Xpr) (hs : parse cfg w o ctx s = .ok x) :
    parse cfg w o ctx (inParens s ++ [c!"!"]) = outcome (finOf cfg w (.un .factorial x.root)) := by
  refine parse_outcome (parseImpl_postfix (parse_ok hs)) ?_
  intro vs hvs e he n hn
  have := finOf_occurs he hn
  rw [occurs_un] at this
  exact expected_of hs hvs this

/-! ### Values

In a build without compile-time optimisations (for the others, `Props/ComposeBuilds`
says what the simplification of the trees above does to the value). -/

theorem vars_parsed {s : Bytes} {x : Xpr} (hs : parse cfg w o ctx s = .ok x) (n : Bytes) :
    n ∈ x.vars ↔ Occurs n x.root := (C05_vars cfg w o ctx s x hs).2 n

theorem unchecked_of {z : Xpr} {m : HMap F64} {v : F64} (h : z.eval w m = .ok v) :
    z.evalUnchecked w m = .ok v := (C21_unchecked w z m).1 v h

/-- C62: `(s) op (t)` is accepted when `s` and `t` are; it has their variables, and its
value is the operator's of their values.  A missing variable is reported by the left
operand first. -/
theorem C62_operators (ho : cfg.opt = false) (s t : Bytes) (x y : Xpr) (op : Op)
    (hop : op ≠ .factorial) (hs : parse cfg w o ctx s = .ok x) (ht : parse cfg w o ctx t = .ok y) :
    ∃ z, parse cfg w o ctx (inParens s ++ opChar op :: inParens t) = .ok z ∧
      (∀ n, n ∈ z.vars ↔ n ∈ x.vars ∨ n ∈ y.vars) ∧
      (∀ m a b, x.eval w m = .ok a → y.eval w m = .ok b →
        ∃ v, z.eval w m = .ok v ∧ z.evalUnchecked w m = .ok v ∧
          if op = .power then v = w.powf a b else IeeeOp op a b v) ∧
      (∀ m r, x.eval w m = .error r → z.eval w m = .error r) ∧
      (∀ m a r, x.eval w m = .ok a → y.eval w m = .error r → z.eval w m = .error r) := by
  have h := C62_infix cfg w o ctx s t x y op hop hs ht
  rw [finOf_plain ho] at h
  have h : parse cfg w o ctx (inParens s ++ opChar op :: inParens t) =
      .ok ⟨.bin op x.root y.root, findVars (.bin op x.root y.root) []⟩ := by
    rw [h]; rfl
  refine ⟨_, h, fun n => ?_, fun m a b ha hb => ?_, fun m r hr => ?_, fun m a r ha hr => ?_⟩
  · rw [vars_parsed cfg w o ctx h, vars_parsed cfg w o ctx hs, vars_parsed cfg w o ctx ht, occurs_bin]
  · have key : ∀ v, binF w op a b = .ok v →
        Xpr.eval w ⟨.bin op x.root y.root, findVars (.bin op x.root y.root) []⟩ m = .ok v := by
      intro v hv
      show eval w m (.bin op x.root y.root) = .ok v
      rw [eval, show eval w m x.root = .ok a from ha, show eval w m y.root = .ok b from hb]
      simp only [hv]; rfl
    cases op with
    | plus => exact ⟨_, key _ rfl, unchecked_of w (key _ rfl), adds a b⟩
    | minus => exact ⟨_, key _ rfl, unchecked_of w (key _ rfl), adds a (F64.neg b)⟩
    | times => exact ⟨_, key _ rfl, unchecked_of w (key _ rfl), muls a b⟩
    | divide => exact ⟨_, key _ rfl, unchecked_of w (key _ rfl), divs a b⟩
    | modulo => exact ⟨_, key _ rfl, unchecked_of w (key _ rfl), rems a b⟩
    | power => exact ⟨_, key _ rfl, unchecked_of w (key _ rfl), rfl⟩
    | factorial => exact absurd rfl hop
  · show eval w m (.bin op x.root y.root) = .error r
    rw [eval, show eval w m x.root = .error r from hr]
  · show eval w m (.bin op x.root y.root) = .error r
    rw [eval, show eval w m x.root = .ok a from ha, show eval w m y.root = .error r from hr]

/-- The value of `-(s)`, `+(s)` and `(s)!`. -/
theorem C62_unary (ho : cfg.opt = false) (s : Bytes) (x : Xpr) (hs : parse cfg w o ctx s = .ok x) :
    (∃ z, parse cfg w o ctx (c!"-" :: inParens s) = .ok z ∧ ∀ m a, x.eval w m = .ok a →
      ∃ v, z.eval w m = .ok v ∧ (∀ q, value a = some q → value v = some (-q)) ∧
        (a ≠ .nan → signBit v = !signBit a) ∧ (a = .nan ↔ v = .nan)) ∧
    (∃ z, parse cfg w o ctx (c!"+" :: inParens s) = .ok z ∧ ∀ m, z.eval w m = x.eval w m) ∧
    (∃ z, parse cfg w o ctx (inParens s ++ [c!"!"]) = .ok z ∧ ∀ m a, x.eval w m = .ok a →
      ∃ v, z.eval w m = .ok v ∧ FactorialOf a v) := by
  have h1 := C62_prefix cfg w o ctx s x true hs
  have h2 := C62_prefix cfg w o ctx s x false hs
  have h3 := C62_postfix cfg w o ctx s x hs
  simp only [finOf_plain ho, if_true, Bool.false_eq_true, if_false] at h1 h2 h3
  refine ⟨⟨_, h1, fun m a ha => ⟨F64.neg a, ?_, fun q => neg_value, ?_, ?_⟩⟩, ⟨_, h2, fun m => ?_⟩,
    ⟨_, h3, fun m a ha => ?_⟩⟩
  · show eval w m (.un .minus x.root) = _
    rw [eval, show eval w m x.root = .ok a from ha]; rfl
  · intro h; cases a <;> first | rfl | exact absurd rfl h
  · cases a <;> simp [F64.neg]
  · show eval w m (.un .plus x.root) = eval w m x.root
    rw [eval]; cases eval w m x.root <;> rfl
  · obtain ⟨v, hv, hf⟩ := factorial_of a
    refine ⟨v, ?_, hf⟩
    show eval w m (.un .factorial x.root) = _
    rw [eval, show eval w m x.root = .ok a from ha]
    simp only [unF, hv]; rfl

theorem evalL_of {m : HMap F64} : ∀ {xs : List Xpr} {vs : List F64},
    List.Forall₂ (fun x v => x.eval w m = .ok v) xs vs → evalL w m (xs.map (·.root)) = .ok vs
  | _, _, .nil => rfl
  | _, _, .cons (a := x) h hs => by
    rw [List.map_cons, evalL, show eval w m x.root = _ from h, evalL_of hs]

theorem wrap_apply (c : Closure) (vs : List F64) (h : ∀ n, c.nbArgs = some n → vs.length = n) :
    ∃ v, Spec.Closure.apply c vs = some v ∧ c.wrap vs = some v := by
  cases c with
  | f0 f => match vs, h 0 rfl with | [], _ => exact ⟨_, rfl, rfl⟩
  | f1 f => match vs, h 1 rfl with | [a], _ => exact ⟨_, rfl, rfl⟩
  | f2 f => match vs, h 2 rfl with | [a, b], _ => exact ⟨_, rfl, rfl⟩
  | f3 f => match vs, h 3 rfl with | [a, b, c], _ => exact ⟨_, rfl, rfl⟩
  | f4 f => match vs, h 4 rfl with | [a, b, c, d], _ => exact ⟨_, rfl, rfl⟩
  | f5 f => match vs, h 5 rfl with | [a, b, c, d, e], _ => exact ⟨_, rfl, rfl⟩
  | f6 f => match vs, h 6 rfl with | [a, b, c, d, e, f], _ => exact ⟨_, rfl, rfl⟩
  | f7 f => match vs, h 7 rfl with | [a, b, c, d, e, f, g], _ => exact ⟨_, rfl, rfl⟩
  | f8 f => match vs, h 8 rfl with | [a, b, c, d, e, f, g, h], _ => exact ⟨_, rfl, rfl⟩
  | f9 f => match vs, h 9 rfl with | [a, b, c, d, e, f, g, h, i], _ => exact ⟨_, rfl, rfl⟩
  | slice f => exact ⟨_, by cases vs <;> rfl, rfl⟩

/-- A function made by `xprs_fn!` from one of 1 to 9 arguments or of a slice, under
whatever name it is registered: a call with the right number of arguments is accepted and
its value is that of the function for the values of the arguments, in the order they are
written. -/
theorem C62_wrapped (ho : cfg.opt = false) (c : Closure) (p : FnPtr) (hb : ∀ b, p ≠ .builtin b)
    (hw : w.user p = c.wrap) (nm nm' : Bytes) (hn : IsName nm)
    (hf : lookup ctx nm = .func (xprsFn nm' p c)) (ts : List Bytes) (xs : List Xpr) (hne : ts ≠ [])
    (ha : ∀ n, c.nbArgs = some n → ts.length = n)
    (hs : List.Forall₂ (fun t x => parse cfg w o ctx t = .ok x) ts xs) :
    ∃ z, parse cfg w o ctx (nm ++ inParens (commas ts)) = .ok z ∧
      (∀ n, n ∈ z.vars ↔ ∃ x ∈ xs, n ∈ x.vars) ∧
      ∀ m vs, List.Forall₂ (fun x v => x.eval w m = .ok v) xs vs →
        ∃ v, Spec.Closure.apply c vs = some v ∧ z.eval w m = .ok v ∧ z.evalUnchecked w m = .ok v := by
  have h := C62_call cfg w o ctx nm _ ts xs hn hf hne ha hs
  rw [finOf_plain ho] at h
  refine ⟨_, h, fun n => ?_, fun m vs hv => ?_⟩
  · rw [vars_parsed cfg w o ctx h, occurs_call]
    constructor
    · rintro ⟨a, ha, h⟩
      obtain ⟨x, hx, rfl⟩ := List.mem_map.1 ha
      refine ⟨x, hx, ?_⟩
      obtain ⟨t, ht⟩ : ∃ t, parse cfg w o ctx t = .ok x := by
        clear * - hs hx
        induction hs with
        | nil => cases hx
        | @cons t _ _ _ h1 _ ih =>
          rcases List.mem_cons.1 hx with rfl | hx
          · exact ⟨t, h1⟩
          · exact ih hx
      exact (vars_parsed cfg w o ctx ht n).2 h
    · rintro ⟨x, hx, hn⟩
      refine ⟨x.root, List.mem_map.2 ⟨x, hx, rfl⟩, ?_⟩
      obtain ⟨t, ht⟩ : ∃ t, parse cfg w o ctx t = .ok x := by
        clear * - hs hx
        induction hs with
        | nil => cases hx
        | @cons t _ _ _ h1 _ ih =>
          rcases List.mem_cons.1 hx with rfl | hx
          · exact ⟨t, h1⟩
          · exact ih hx
      exact (vars_parsed cfg w o ctx ht n).1 hn
  · obtain ⟨v, h1, h2⟩ := wrap_apply c vs (fun n hn => by
      rw [← hv.length_eq, ← hs.length_eq]; exact ha n hn)
    have he : Xpr.eval w ⟨.call (xprsFn nm' p c) (xs.map (·.root)),
        findVars (.call (xprsFn nm' p c) (xs.map (·.root))) []⟩ m = .ok v := by
      show eval w m (.call _ _) = _
      rw [eval, evalL_of w hv]
      simp only [callFn, xprsFn, hw, h2]
      cases p with
      | builtin b => exact absurd rfl (hb b)
      | _ => rfl
    exact ⟨v, h1, he, unchecked_of w he⟩

end

/-- The claim that every function registered under a name can be called. -/
def C62_callable_claim : Prop :=
  ∀ (cfg : Cfg) (w : World) (o : Oracle) (ctx : Context) (nm : Bytes) (p : FnPtr) (c : Closure),
    IsName nm → lookup ctx nm = .func (xprsFn nm p c) → w.user p = c.wrap →
    ∃ input x args, parse cfg w o ctx input = .ok x ∧ Sub (.call (xprsFn nm p c) args) x.root

/-- A function without arguments is never called, by whatever text. -/
theorem C62_nullary (cfg : Cfg) (w : World) (ctx : Context) (input : Bytes) (e : Xpr)
    (h : Reach cfg w ctx input e) (f : Func) (hf : f.nbArgs = some 0) (args : List Elem) :
    ¬ Sub (.call f args) e.root := by
  intro hs
  obtain ⟨h1, h2, _⟩ := C08_arity cfg w ctx input e h f args hs
  have := h2 0 hf
  omega

/-- The claim is false: a function without arguments can be registered, but the parser
knows no empty list of arguments. -/
theorem C62_callable_refuted : ¬ C62_callable_claim := by
  intro h
  have hn : IsName b!"f" := ⟨⟨_, rfl, by decide⟩, by decide⟩
  obtain ⟨input, x, args, hp, hs⟩ := h cfgPlain { w0 with user := fun _ _ => some F64.f1 } Oracle.id
    (Context.default.setFn (xprsFn b!"f" (.static 1) (.f0 F64.f1))) b!"f" (.static 1) (.f0 F64.f1)
    hn rfl rfl
  exact C62_nullary _ _ _ _ _ (.parsed hp) _ rfl _ hs

/-- `f()` and `f(1)`, where `f` takes no arguments. -/
example : parse cfgPlain w0 Oracle.id
      (Context.default.setFn (xprsFn b!"f" (.static 1) (.f0 F64.f1))) b!"f()" =
    .err ⟨.missingArgument, 1, 2⟩ ∧
  parse cfgPlain w0 Oracle.id
      (Context.default.setFn (xprsFn b!"f" (.static 1) (.f0 F64.f1))) b!"f(1)" =
    .err ⟨.tooMany 0 1, 0, 4⟩ := by decide +kernel

/-- The difference of two numbers as a function of the user. -/
def wDiff : World := { w0 with user := fun _ => (Closure.f2 F64.sub).wrap }

/-- A call of it: `f(x+1,2y)` at `x = 2`, `y = 5` is -7. -/
example : (match parse cfgPlain wDiff Oracle.id
      (Context.default.setFn (xprsFn b!"f" (.static 1) (.f2 F64.sub)))
      (b!"f" ++ inParens (commas [b!"x+1", b!"2y"])) with
    | .ok z => z.eval wDiff (fun n => if n = b!"x" then some (F64.ofNat 2) else some (F64.ofNat 5))
    | _ => .error (.panic .unreachable)) = .ok (F64.neg (F64.ofNat 7)) := by decide +kernel
/-- `(1+2)*(3+4)`, and `(1+2)!`. -/
example : (match parse0 cfgPlain (inParens b!"1+2" ++ opChar .times :: inParens b!"3+4") with
    | .ok z => z.evalNoVars w0 | _ => .error (.panic .unreachable)) = .ok (F64.ofNat 21) ∧
  (match parse0 cfgPlain (inParens b!"1+2" ++ [c!"!"]) with
    | .ok z => z.evalNoVars w0 | _ => .error (.panic .unreachable)) = .ok (F64.ofNat 6) := by
  decide +kernel

end Props
end Xprs
