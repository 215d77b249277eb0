import Verif.Lemmas.Parse
import Verif.Props.Evaluation
/-
Properties C01 to C08, C46 and C53: what `parse` can return for an arbitrary input.
-/
namespace Xprs
namespace Props
open Spec

/-- Build configurations for the examples: an optimised PEMDAS release build and a
debug build without compile-time optimisation. -/
def cfgOpt : Cfg := { opt := true, pejmdas := false, nightly := false, overflowChecks := false }
def cfgPlain : Cfg := { opt := false, pejmdas := false, nightly := false, overflowChecks := true }

/-- `parse` with the default context, for the examples. -/
def parse0 (cfg : Cfg) (input : Bytes) : PRes := parse cfg w0 Oracle.id Context.default input

/-! ### C01 -/

/-- C01: `parse` returns, for every input; the model has an explicit outcome `fuel` for
not having returned within the bound on the recursion. -/
theorem C01_terminates (cfg : Cfg) (w : World) (o : Oracle) (ctx : Context) (input : Bytes) :
    (∃ x, parse cfg w o ctx input = .ok x) ∨ (∃ e, parse cfg w o ctx input = .err e) ∨
    (∃ p, parse cfg w o ctx input = .panic p) := by
  cases h : parse cfg w o ctx input with
  | ok x => simp
  | err e => simp
  | panic p => simp
  | fuel =>
    exfalso
    have := parseImpl_ne_fuel cfg w ctx input
    unfold parse at h
    cases hp : parseImpl cfg w ctx input with
    | ok y =>
      simp only [hp] at h
      split at h
      · split at h <;> cases h
      · cases h
    | err e => simp [hp] at h
    | panic p => simp [hp] at h
    | fuel => exact absurd hp this

/-- C01, depth: a recursive descent cut off at any depth above the input length gives
the same result as one cut off at `length + 1`, so no deeper call is ever made. -/
theorem C01_depth (cfg : Cfg) (w : World) (ctx : Context) (input : Bytes) (pos p n : Nat)
    (hn : input.length + 1 ≤ n) :
    element cfg w ctx n p ⟨pos, input⟩ = element cfg w ctx (input.length + 1) p ⟨pos, input⟩ ∧
    element cfg w ctx n p ⟨pos, input⟩ ≠ .fuel :=
  ⟨element_fuel cfg w ctx _ _ _ _ (by simp only; omega) (by simp only; omega),
    element_noFuel cfg w ctx n p _ (by simp only; omega)⟩

/-- The bound is reached: `((` needs depth 3. -/
example : (match element cfgPlain w0 Context.default 2 0 ⟨0, b!"(("⟩ with
    | .fuel => true | _ => false) = true := by decide +kernel
example : parse0 cfgPlain b!"((" = .err ⟨.unexpectedEnd, 1, 0⟩ := by decide +kernel

/-! ### C02 -/

/-- The full claim of C02 (false, see `C02_refuted_empty`, `C02_refuted_bang`). -/
def C02_claim : Prop := ∀ (cfg : Cfg) (w : World) (o : Oracle) (ctx : Context) (input : Bytes),
  CtxTotal w ctx → ∀ p, parse cfg w o ctx input ≠ .panic p

theorem ctxTotal_default (w : World) : CtxTotal w Context.default := by
  intro nm f h; cases h

/-- C02 is false: in a build with overflow checks the empty input panics (`cursor - 1`). -/
theorem C02_refuted_empty : ¬ C02_claim := by
  intro h
  refine h cfgPlain w0 Oracle.id Context.default [] (ctxTotal_default _) .overflow ?_
  decide +kernel

/-- C02 is false: with compile-time optimisation `3!!2` reaches an `unreachable!()`. -/
theorem C02_refuted_bang : ¬ C02_claim := by
  intro h
  refine h cfgOpt w0 Oracle.id Context.default b!"3!!2" (ctxTotal_default _) .unreachable ?_
  decide +kernel

/-- C02, what holds: the only panics are the one on the empty input with overflow checks
and, with compile-time optimisation, `unreachable!()` on an input in which two `!`
follow each other.  Missing from the full claim: exactly these two classes of inputs. -/
theorem C02_panics_partial (cfg : Cfg) (w : World) (o : Oracle) (ctx : Context) (input : Bytes)
    (hw : CtxTotal w ctx) (p : Panic) (h : parse cfg w o ctx input = .panic p) :
    (input = [] ∧ cfg.overflowChecks = true ∧ p = .overflow) ∨
    (DoubleBang input ∧ cfg.opt = true ∧ p = .unreachable) := by
  rw [parse_panic] at h
  by_cases hne : input = []
  · subst hne
    left
    rw [parseImpl_nil] at h
    split at h
    · cases h; simp [*]
    · cases h
  · right
    obtain ⟨h1, h2, h3⟩ := (parseImpl_good hne).2 p h hw
    exact ⟨h3, h2, h1⟩

/-- C02 for all other inputs, in every build. -/
theorem C02_partial (cfg : Cfg) (w : World) (o : Oracle) (ctx : Context) (input : Bytes)
    (hw : CtxTotal w ctx) (hne : input ≠ []) (hb : ¬ DoubleBang input) :
    (∃ x, parse cfg w o ctx input = .ok x) ∨ (∃ e, parse cfg w o ctx input = .err e) := by
  rcases C01_terminates cfg w o ctx input with h | h | ⟨p, h⟩
  · exact .inl h
  · exact .inr h
  · rcases C02_panics_partial cfg w o ctx input hw p h with ⟨h, _⟩ | ⟨h, _⟩
    · exact absurd h hne
    · exact absurd h hb

/-- The hypotheses hold of `f(2, x)` with a user function that indexes two arguments. -/
def wIdx : World := { w0 with user := fun _ args => (args[1]?).bind fun b => some b }
def ctxF : Context := Context.default.setFn ⟨b!"f", .static 7, some 2⟩
example : CtxTotal wIdx ctxF := by
  intro nm f h args hk
  simp only [ctxF, Context.get, Context.setFn, HMap.get, HMap.insert, Context.default,
    HMap.empty] at h
  split at h
  · cases h
    have := hk.2 2 rfl
    match args, this with
    | [a, b], _ => exact ⟨b, rfl⟩
  · cases h
example : ¬ DoubleBang b!"f(2, x)" := by
  rintro ⟨a, ws, b, _, h⟩
  have : c!"!" ∈ b!"f(2, x)" := by rw [h]; simp
  revert this; decide

/-! ### C03 -/

/-- The full claim of C03 (false, see `C03_refuted`). -/
def C03_claim : Prop := ∀ (cfg : Cfg) (w : World) (o : Oracle) (ctx : Context) (input : Bytes) e,
  parse cfg w o ctx input = .err e → e.off + e.len ≤ input.length

/-- C03 is false: the error for the empty input has offset 2⁶⁴ − 1. -/
theorem C03_refuted : ¬ C03_claim := by
  intro h
  have := h cfgOpt w0 Oracle.id Context.default [] ⟨.unexpectedEnd, 2 ^ 64 - 1, 0⟩
    (by decide +kernel)
  revert this; decide

/-- C03 for every non-empty input (the empty one is missing). -/
theorem C03_partial (cfg : Cfg) (w : World) (o : Oracle) (ctx : Context) (input : Bytes) (e : PErr)
    (hne : input ≠ []) (h : parse cfg w o ctx input = .err e) : e.off + e.len ≤ input.length := by
  rcases parse_err h with h | ⟨x, vs, v, _, _, _, _, rfl⟩
  · exact ((parseImpl_good hne).1 e h).1
  · simp

/-- Spans at the very end of the input: an error on its last byte, and a two-byte one. -/
example : parse0 cfgOpt b!"2+" = .err ⟨.unexpectedEnd, 1, 0⟩ := by decide +kernel
example : parse0 cfgOpt b!"sin()" = .err ⟨.missingArgument, 3, 2⟩ := by decide +kernel

/-! ### C53 -/

/-- C53: what an error says is true of the input: the unexpected token is the byte at
the offset, an illegal character is no beginning of an operand, an expected
parenthesis is not there, a malformed number is the slice at the span and no literal
begins there, and a wrong argument count belongs to a call that is written there with
that many legal arguments.  (`Report`, in `Spec/Errors.lean`.)  The remaining error,
an undeclared variable, is C07. -/
theorem C53_report (cfg : Cfg) (w : World) (o : Oracle) (ctx : Context) (input : Bytes) (e : PErr)
    (hne : input ≠ []) (h : parse cfg w o ctx input = .err e)
    (hk : ∀ v vs, e.kind ≠ .variableNotDeclared v vs) :
    Report cfg (finOf cfg w) ctx input e := by
  rcases parse_err h with h | ⟨x, vs, v, _, _, _, _, rfl⟩
  · exact (parseImpl_good hne).1 e h
  · exact absurd rfl (hk _ _)

/-- An error in each class. -/
example : parse0 cfgOpt b!"1 + )" = .err ⟨.unexpectedToken c!")", 4, 0⟩ := by decide +kernel
example : parse0 cfgOpt b!"1 + #" = .err ⟨.illegalCharacter c!"#", 4, 0⟩ := by decide +kernel
example : parse0 cfgOpt b!"1 + sin x" = .err ⟨.expectedToken c!"(", 8, 0⟩ := by decide +kernel
example : parse0 cfgOpt b!"1 + 2.3.4e5 " = .err ⟨.malformedNumber b!"2.3.4e5", 4, 7⟩ := by
  decide +kernel
example : parse0 cfgOpt b!"1+atan2(x)" = .err ⟨.tooFew 2 1, 2, 8⟩ := by decide +kernel
example : parse0 cfgOpt b!"1+sin(x, y)" = .err ⟨.tooMany 1 2, 2, 9⟩ := by decide +kernel

/-! ### C04 -/

/-- The bytes of names and literals are ASCII. -/
theorem nameChar_ascii : ∀ c, nameChar c → c < 128 := forall_byte (by decide +kernel)

/-- C04, names: a variable of a parsed expression is a contiguous part of the input of
the form `[A-Za-z][A-Za-z0-9_']*`; in particular it is ASCII. -/
theorem C04_names (cfg : Cfg) (w : World) (o : Oracle) (ctx : Context) (input : Bytes) (x : Xpr)
    (h : parse cfg w o ctx input = .ok x) (n : Bytes) (hn : Occurs n x.root ∨ n ∈ x.vars) :
    n <:+: input ∧ (∃ c t, n = c :: t ∧ letter c) ∧ (∀ c ∈ n, nameChar c ∧ c < 128) := by
  have hi := parse_ok h
  have ho : Occurs n x.root := by
    rcases hn with hn | hn
    · exact hn
    · obtain ⟨c, tw, h1, h2, h3, h4, h5⟩ := parseImpl_ok hi
      rw [h5] at hn
      simpa using (mem_findVars _ _ _).1 hn
  obtain ⟨⟨c, hc, hl⟩, h2, _, h4⟩ := parseImpl_occurs hi ho
  refine ⟨h4, ?_, fun c hc => ⟨h2 c hc, nameChar_ascii c (h2 c hc)⟩⟩
  cases n with
  | nil => simp at hc
  | cons a t => simp at hc; subst hc; exact ⟨a, t, rfl, hl⟩

/-- C04, the slice converted in `parse_identifier`: at every state in which `atom` calls
it, the slice is a name and is what was skipped. -/
theorem C04_name_slice (s : St) (c : UInt8) (hc : s.rest.head? = some c) (hl : letter c) :
    Name (s.rest.takeWhile isIdChar) (skipWhile isIdChar s).rest ∧
    s.rest = s.rest.takeWhile isIdChar ++ (skipWhile isIdChar s).rest ∧
    ∀ c ∈ s.rest.takeWhile isIdChar, c < 128 := by
  have h := name_of_takeWhile hc ((isIdStart_iff c).2 hl)
  exact ⟨h, (eats_skipWhile isIdChar s).1, fun d hd => nameChar_ascii d (h.2.1 d hd)⟩

theorem mantChar_ascii : ∀ c, mantChar c → c < 128 := forall_byte (by decide +kernel)
theorem digit_ascii : ∀ c, digit c → c < 128 := forall_byte (by decide +kernel)

/-- C04, the slice converted in `parse_number`, at every state in which `atom` calls it:
digits, points and underscores, then possibly `e`/`E`, a sign and digits. -/
theorem C04_number_slice (s : St) (c : UInt8) (hc : s.rest.head? = some c)
    (hd : digit c ∨ c = c!".") :
    ∃ txt, s.rest = txt ++ (numEnd s).rest ∧ txt = s.rest.take ((numEnd s).pos - s.pos) ∧
      txt ≠ [] ∧ (∀ b ∈ txt, b < 128) ∧
      ∃ mant ex, txt = mant ++ ex ∧ (∀ b ∈ mant, mantChar b) ∧
        (ex = [] ∨ ∃ e sg ds, ex = e :: sg ++ ds ∧ (e = c!"e" ∨ e = c!"E") ∧
          (sg = [] ∨ sg = [c!"+"] ∨ sg = [c!"-"]) ∧ ds ≠ [] ∧ ∀ b ∈ ds, digit b) := by
  obtain ⟨mant, ex, hm, hmt, hsh, he⟩ := numEnd_spec s
  have hex : ex = [] ∨ ∃ e sg ds, ex = e :: sg ++ ds ∧ (e = c!"e" ∨ e = c!"E") ∧
          (sg = [] ∨ sg = [c!"+"] ∨ sg = [c!"-"]) ∧ ds ≠ [] ∧ ∀ b ∈ ds, digit b := by
    revert hsh
    generalize (numEnd s).rest = r
    intro hsh
    cases hsh with
    | plain => exact .inl rfl
    | exp e sg ds _ h1 h2 h3 h4 _ => exact .inr ⟨e, sg, ds, rfl, h1, h2, h3, h4⟩
  have hne : mant ≠ [] := by
    rw [hmt]
    intro h
    have hcn : isNumChar c = true := by
      rcases hd with hd | rfl
      · exact isDigit_isNumChar ((isDigit_iff c).2 hd)
      · decide
    cases hr : s.rest with
    | nil => rw [hr] at hc; simp at hc
    | cons a t =>
      rw [hr] at hc h
      simp at hc; subst hc
      simp [hcn] at h
  refine ⟨mant ++ ex, he.1, ?_, by simp [hne], ?_, mant, ex, rfl, hm, hex⟩
  · rw [he.2, he.1, Nat.add_sub_cancel_left, List.take_left]
  · intro b hb
    rcases List.mem_append.1 hb with hb | hb
    · exact mantChar_ascii b (hm b hb)
    · rcases hex with rfl | ⟨e, sg, ds, rfl, he, hsg, _, hds⟩
      · cases hb
      · have hb' : b = e ∨ b ∈ sg ∨ b ∈ ds := by simpa [or_assoc] using hb
        rcases hb' with rfl | hb' | hb'
        · rcases he with rfl | rfl <;> decide
        · rcases hsg with rfl | rfl | rfl
          · cases hb'
          · simp at hb'; subst hb'; decide
          · simp at hb'; subst hb'; decide
        · exact digit_ascii b (hds b hb')

/-- A name next to multi-byte UTF-8 text, and a literal with all parts. -/
example : parse0 cfgOpt b!"1_0.5e-3 + x'1_" = .ok
    ⟨.bin .plus (.num (F64.ofDecimal 105 (-4))) (.var b!"x'1_"), [b!"x'1_"]⟩ := by decide +kernel
example : parse0 cfgOpt b!"xé" = .err ⟨.unexpectedToken 195, 1, 0⟩ := by decide +kernel

/-! ### C05 -/

/-- C05: `vars` of a parsed expression is duplicate free and consists of exactly the
variables occurring in the tree. -/
theorem C05_vars (cfg : Cfg) (w : World) (o : Oracle) (ctx : Context) (input : Bytes) (x : Xpr)
    (h : parse cfg w o ctx input = .ok x) :
    x.vars.Nodup ∧ ∀ n, n ∈ x.vars ↔ Occurs n x.root := by
  obtain ⟨c, tw, h1, h2, h3, h4, h5⟩ := parseImpl_ok (parse_ok h)
  rw [h5]
  exact ⟨nodup_findVars _ _ List.nodup_nil, fun n => by rw [mem_findVars]; simp⟩

/-- Repeated variables, inside calls too; `0*z` is simplified away. -/
example : (match parse0 cfgOpt b!"x + sum(y, x^y, 2) + 0*z" with
    | .ok x => some x.vars
    | _ => none) = some [b!"x", b!"y"] := by decide +kernel

/-! ### C06 -/

/-- The names of the built-in constants and functions, as listed in
`token/identifier.rs` (the README writes the constants `PI` and `E`, which are not
recognised). -/
def builtinNames : List Bytes :=
  [b!"pi", b!"e", b!"sin", b!"sinh", b!"asin", b!"asinh", b!"cos", b!"cosh", b!"acos", b!"acosh",
    b!"tan", b!"tanh", b!"atan", b!"atan2", b!"atanh", b!"ln", b!"log", b!"logn", b!"sqrt",
    b!"cbrt", b!"exp", b!"abs", b!"floor", b!"ceil", b!"round", b!"trunc", b!"sum", b!"mean",
    b!"invert", b!"recip", b!"min", b!"max", b!"hypot", b!"fract", b!"gamma", b!"factorial"]

theorem builtinNames_not_var : ∀ n ∈ builtinNames, ∀ m, Ident.fromStr n ≠ .var m := by
  have h : ∀ n ∈ builtinNames, (match Ident.fromStr n with | .var _ => false | _ => true) = true := by
    decide +kernel
  intro n hn m he
  have := h n hn
  rw [he] at this
  cases this

/-- C06: neither a name defined in the context nor a built-in name is ever a variable of
a parsed expression. -/
theorem C06_not_var (cfg : Cfg) (w : World) (o : Oracle) (ctx : Context) (input : Bytes) (x : Xpr)
    (h : parse cfg w o ctx input = .ok x) (n : Bytes) (hn : n ∈ x.vars) :
    ctx.get n = none ∧ n ∉ builtinNames := by
  have ho := ((C05_vars cfg w o ctx input x h).2 n).1 hn
  obtain ⟨_, _, hl, _⟩ := parseImpl_occurs (parse_ok h) ho
  unfold lookup at hl
  cases hg : ctx.get n with
  | some s => rw [hg] at hl; cases s <;> cases hl
  | none =>
    rw [hg] at hl
    exact ⟨rfl, fun hm => builtinNames_not_var n hm n hl⟩

/-- C06, functions: every function called in a parsed expression is one the context
holds under some name, or a built-in one under a name the context does not define. -/
theorem C06_functions (cfg : Cfg) (w : World) (o : Oracle) (ctx : Context) (input : Bytes) (x : Xpr)
    (h : parse cfg w o ctx input = .ok x) (f : Func) (args : List Elem)
    (hs : Sub (.call f args) x.root) :
    ∃ n, ctx.get n = some (.func f) ∨
      (ctx.get n = none ∧ n ∈ builtinNames ∧ ∃ b : Builtin, f = b.toFunc) := by
  obtain ⟨nm, hl⟩ := (parseImpl_calls (parse_ok h) f args hs).1
  refine ⟨nm, ?_⟩
  unfold lookup at hl
  cases hg : ctx.get nm with
  | some s =>
    rw [hg] at hl
    cases s with
    | var v => cases hl
    | func g => left; injection hl with hl; rw [hl]
  | none =>
    rw [hg] at hl
    right
    simp only [Ident.fromStr] at hl
    split at hl
    · cases hl
    split at hl
    · cases hl
    split at hl
    · rename_i b hb
      injection hl with hl
      refine ⟨rfl, ?_, b, hl.symm⟩
      clear hl
      refine Classical.byContradiction fun hnm => ?_
      simp only [builtinNames, List.mem_cons, List.not_mem_nil, not_or, not_false_eq_true,
        and_true] at hnm
      simp [builtinByName, hnm] at hb
    · cases hl

/-- C06, priority: a name the context defines as a constant denotes that constant, and
one it defines as a function denotes a call of that function, whatever built-in has
the same name.  Stated for the whole input being that name, or a call of it. -/
theorem C06_priority (cfg : Cfg) (w : World) (o : Oracle) (ctx : Context) (nm : Bytes)
    (hn : Name nm []) (he : ctx.expectedVars = none) :
    (∀ v, ctx.get nm = some (.var v) → parse cfg w o ctx nm = .ok ⟨.num v, []⟩) ∧
    (∀ f y, ctx.get nm = some (.func f) → f.nbArgs = some 1 → Name y [] →
      lookup ctx y = .var y →
      parse cfg w o ctx (nm ++ b!"(" ++ y ++ b!")") = .ok ⟨.call f [.var y], [y]⟩) := by
  have hpi : ∀ i, parse cfg w o ctx i = parseImpl cfg w ctx i := by
    intro i
    unfold parse Context.getExpected
    cases parseImpl cfg w ctx i <;> simp [he]
  constructor
  · intro v hv
    have hl : lookup ctx nm = .const v := by unfold lookup; rw [hv]; rfl
    have := parseImpl_text cfg w ctx (.name [] nm) [] ⟨by simp [spaces], hn, by simp [hl]⟩
      (by simp [spaces])
    rw [hpi]
    simp only [Cst.text, List.nil_append, List.append_nil] at this
    rw [this]
    have hf : finOf cfg w (.num v) = .ok (.num v) := by
      unfold finOf; split
      · rw [simplify]
      · rfl
    simp only [Cst.meaning, Cst.den, hl, hf]
    rfl
  · intro f y hf hn1 hy hly
    have hl : lookup ctx nm = .func f := by unfold lookup; rw [hf]; rfl
    have hyn : Name y b!")" := ⟨hy.1, hy.2.1, by intro c hc; simp at hc; subst hc; decide⟩
    have := parseImpl_text cfg w ctx (.call [] nm [] (.last (.name [] y) [])) []
      ⟨by simp [spaces], hn, by simp [spaces], ⟨f, hl, by simp [hn1, CArgs.count]⟩,
        by simp [spaces], by simp [spaces], hyn, by simp [hly]⟩ (by simp [spaces])
    rw [hpi]
    have ht : (Cst.call [] nm [] (.last (.name [] y) [])).text ++ [] = nm ++ b!"(" ++ y ++ b!")" := by
      simp [Cst.text, CArgs.text]
    rw [ht] at this
    rw [this]
    have hf1 : finOf cfg w (.var y) = .ok (.var y) := by
      unfold finOf; split
      · rw [simplify]
      · rfl
    have hf2 : finOf cfg w (.call f [.var y]) = .ok (.call f [.var y]) := by
      unfold finOf; split
      · simp [simplify, simplifyL, simpCall, numsOf]
      · rfl
    simp only [Cst.meaning, Cst.den, CArgs.den, hl, hly, hf1, hf2]
    rfl

/-- `sin` redefined as a constant and as a function; `PI` is a variable. -/
example : parse cfgOpt w0 Oracle.id (Context.default.setVar b!"sin" F64.f1) b!"sin + pi" =
    .ok ⟨.num (F64.add F64.f1 f64PI), []⟩ := by decide +kernel
example : parse cfgOpt w0 Oracle.id (Context.default.setFn ⟨b!"sin", .static 1, some 2⟩) b!"sin(x, y)" =
    .ok ⟨.call ⟨b!"sin", .static 1, some 2⟩ [.var b!"x", .var b!"y"], [b!"x", b!"y"]⟩ := by
  decide +kernel
example : parse0 cfgOpt b!"PI" = .ok ⟨.var b!"PI", [b!"PI"]⟩ := by decide +kernel

/-! ### C07 -/

/-- The context without its expected variables. -/
def dropExpected (ctx : Context) : Context := { ctx with expectedVars := none }

/-- C07: the outcome with expected variables `vs`, in terms of the outcome without:
accepted iff all variables are among `vs`; otherwise the error names a variable of the
expression that is not among `vs`, lists `vs` in some order, and spans the input.
Errors and panics are the same. -/
theorem C07_expected (cfg : Cfg) (w : World) (o : Oracle) (ctx : Context) (input : Bytes)
    (vs : List Bytes) (he : ctx.expectedVars = some vs) :
    (∀ x, parse cfg w o (dropExpected ctx) input = .ok x →
      ((∀ n, Occurs n x.root → n ∈ vs) → parse cfg w o ctx input = .ok x) ∧
      (∀ n, Occurs n x.root → n ∉ vs → ∃ v avail, Occurs v x.root ∧ v ∉ vs ∧ avail.Perm vs ∧
        parse cfg w o ctx input = .err ⟨.variableNotDeclared v avail, 0, input.length⟩)) ∧
    ((∀ x, parse cfg w o (dropExpected ctx) input ≠ .ok x) →
      parse cfg w o ctx input = parse cfg w o (dropExpected ctx) input) := by
  have hdrop : parse cfg w o (dropExpected ctx) input = parseImpl cfg w ctx input := by
    rw [parseImpl_ctx cfg w (c := ctx) (c' := dropExpected ctx) rfl]
    unfold parse dropExpected Context.getExpected
    cases parseImpl cfg w ⟨ctx.symbols, none⟩ input <;> rfl
  rw [hdrop]
  constructor
  · intro x hx
    have hvars : ∀ n, n ∈ x.vars ↔ Occurs n x.root := by
      intro n
      obtain ⟨c, tw, h1, h2, h3, h4, h5⟩ := parseImpl_ok hx
      rw [h5, mem_findVars]; simp
    have hp : parse cfg w o ctx input = match (diffVars o x.vars vs).head? with
        | some v => .err ⟨.variableNotDeclared v (o.ord vs), 0, input.length⟩
        | none => .ok x := by
      unfold parse Context.getExpected; simp only [hx, he]; rfl
    constructor
    · intro hall
      have : diffVars o x.vars vs = [] := by
        rw [List.eq_nil_iff_forall_not_mem]
        intro v hv
        obtain ⟨h1, h2⟩ := mem_diffVars.1 hv
        exact h2 (hall v ((hvars v).1 h1))
      rw [hp, this]; rfl
    · intro n hn hnv
      have hm : n ∈ diffVars o x.vars vs := mem_diffVars.2 ⟨(hvars n).2 hn, hnv⟩
      cases hd : diffVars o x.vars vs with
      | nil => rw [hd] at hm; cases hm
      | cons v t =>
        have hv : v ∈ diffVars o x.vars vs := by rw [hd]; simp
        obtain ⟨h1, h2⟩ := mem_diffVars.1 hv
        refine ⟨v, o.ord vs, (hvars v).1 h1, h2, o.perm vs, ?_⟩
        rw [hp, hd]; rfl
  · intro hno
    unfold parse
    cases hx : parseImpl cfg w ctx input with
    | ok x => exact absurd hx (hno x)
    | err e => rfl
    | panic p => rfl
    | fuel => rfl

/-- C07: without expected variables the check never fails. -/
theorem C07_unset (cfg : Cfg) (w : World) (o : Oracle) (ctx : Context) (input : Bytes)
    (he : ctx.expectedVars = none) (e : PErr) (h : parse cfg w o ctx input = .err e) (v : Bytes)
    (vs : List Bytes) : e.kind ≠ .variableNotDeclared v vs := by
  rcases parse_err h with h | ⟨x, vs', v, _, hg, _⟩
  · by_cases hne : input = []
    · subst hne
      rw [parseImpl_nil] at h
      split at h
      · cases h
      · cases h; simp
    · have := ((parseImpl_good hne).1 e h).2
      intro hk
      rw [hk] at this
      exact this
  · rw [Context.getExpected, he] at hg; cases hg

/-- Expected `{x, y}`. -/
def ctxXY : Context := Context.default.setExpected [b!"x", b!"y"]
example : parse cfgOpt w0 Oracle.id ctxXY b!"x + y" =
    .ok ⟨.bin .plus (.var b!"x") (.var b!"y"), [b!"x", b!"y"]⟩ := by decide +kernel
example : parse cfgOpt w0 Oracle.id ctxXY b!"x + z" =
    .err ⟨.variableNotDeclared b!"z" [b!"x", b!"y"], 0, 5⟩ := by decide +kernel

/-! ### C08 -/

/-- C08: in every expression obtained from `parse` and any simplifications, each call
has at least one argument and exactly `nb_args` of them if that is declared, and calls
a function the context or the built-ins define. -/
theorem C08_arity (cfg : Cfg) (w : World) (ctx : Context) (input : Bytes) (e : Xpr)
    (h : Reach cfg w ctx input e) (f : Func) (args : List Elem) (hs : Sub (.call f args) e.root) :
    0 < args.length ∧ (∀ n, f.nbArgs = some n → args.length = n) ∧ Named ctx f := by
  obtain ⟨h1, h2, h3⟩ := reach_calls h f args hs
  exact ⟨h2, h3, h1⟩

/-- C08: so functions that do not panic on the declared number of arguments never
panic while an expression obtained from `parse` is evaluated or simplified (any panic
is the `unreachable!()` of C02 and C23), nor while parsing (`C02_panics_partial`). -/
theorem C08_no_user_panic (cfg : Cfg) (w : World) (ctx : Context) (input : Bytes) (e : Xpr)
    (hw : CtxTotal w ctx) (h : Reach cfg w ctx input e) :
    (∀ o p, parse cfg w o ctx input = .panic p → p ≠ .user) ∧
    (∀ m p, e.eval w m = .error (.panic p) → p ≠ .user) ∧
    (∀ m p, e.evalUnchecked w m = .error p → p ≠ .user) ∧
    (∀ x v p, e.simplifyFor cfg w x v = .error p → p ≠ .user) ∧
    (∀ l p, e.simplifyForMultiple cfg w l = .error p → p ≠ .user) := by
  have hc : Calls (FnTotal w) e.root := by
    intro f args hs
    obtain ⟨h1, h2⟩ := reach_calls h f args hs
    exact ⟨named_total hw h1, h2⟩
  refine ⟨?_, ?_, ?_, ?_, ?_⟩
  · intro o p hp
    rcases C02_panics_partial cfg w o ctx input hw p hp with ⟨_, _, rfl⟩ | ⟨_, _, rfl⟩ <;> decide
  · intro m p hp
    rw [eval_unr w m e.root hc hp]; decide
  · intro m p hp
    unfold Xpr.evalUnchecked at hp
    rw [evalU_eq] at hp
    cases hev : eval w m e.root with
    | ok v => rw [hev] at hp; cases hp
    | error r =>
      cases r with
      | missing n => rw [hev] at hp; cases hp; decide
      | panic q =>
        rw [hev] at hp; cases hp
        rw [eval_unr w m e.root hc hev]; decide
  · intro x v p hp
    unfold Xpr.simplifyFor at hp
    cases hs : simplifyFor cfg w x v e.root with
    | ok r => rw [hs] at hp; cases hp
    | error q =>
      rw [hs] at hp; cases hp
      rw [simplifyFor_unr cfg w x v e.root hc _ hs]; decide
  · intro l
    unfold Xpr.simplifyForMultiple
    generalize e.root = t at hc
    generalize e.vars = vs
    induction l generalizing t vs with
    | nil => intro p hp; rw [Xpr.simplifyLoop] at hp; cases hp
    | cons xv l ih =>
      intro p hp
      obtain ⟨x, v⟩ := xv
      rw [Xpr.simplifyLoop] at hp
      split at hp
      · rename_i q hs; cases hp
        rw [simplifyFor_unr cfg w x v t hc _ hs]; decide
      · rename_i t' hs
        exact ih t' (simplifyFor_calls _ hs hc) _ p hp

/-- A call with two arguments that is simplified for one of its variables. -/
example : ∃ e e', parse cfgOpt wIdx Oracle.id ctxF b!"1 + f(x, y)" = .ok e ∧
    e.simplifyFor cfgOpt wIdx b!"x" F64.f1 = .ok e' ∧
    e'.root = .bin .plus (.num F64.f1)
      (.call ⟨b!"f", .static 7, some 2⟩ [.num F64.f1, .var b!"y"]) :=
  ⟨⟨.bin .plus (.num F64.f1) (.call ⟨b!"f", .static 7, some 2⟩ [.var b!"x", .var b!"y"]),
    [b!"x", b!"y"]⟩, ⟨.bin .plus (.num F64.f1)
      (.call ⟨b!"f", .static 7, some 2⟩ [.num F64.f1, .var b!"y"]), [b!"y"]⟩,
    by decide +kernel, by decide +kernel, rfl⟩

/-! ### C46 -/

/-- C46: computing the help text of an error returned by `parse` never underflows; it
mentions a number exactly for the argument-count errors, and that number is the
(positive) difference between the number of arguments declared and the number written
at the reported place. -/
theorem C46_help (cfg : Cfg) (w : World) (o : Oracle) (ctx : Context) (input : Bytes) (e : PErr)
    (h : parse cfg w o ctx input = .err e) :
    (∀ d g, e.kind = .tooFew d g → helpCount cfg e = .ok (some (d - g)) ∧ 0 < d - g ∧
      CallAt cfg (finOf cfg w) ctx input e.off e.len d g) ∧
    (∀ d g, e.kind = .tooMany d g → helpCount cfg e = .ok (some (g - d)) ∧ 0 < g - d ∧
      CallAt cfg (finOf cfg w) ctx input e.off e.len d g) ∧
    ((∀ d g, e.kind ≠ .tooFew d g ∧ e.kind ≠ .tooMany d g) → helpCount cfg e = .ok none) := by
  have hr : ∀ d g, e.kind = .tooFew d g ∨ e.kind = .tooMany d g →
      Report cfg (finOf cfg w) ctx input e := by
    intro d g hk
    rcases parse_err h with h | ⟨x, vs, v, _, _, _, _, rfl⟩
    · by_cases hne : input = []
      · subst hne
        rw [parseImpl_nil] at h
        split at h
        · cases h
        · cases h; rcases hk with hk | hk <;> cases hk
      · exact (parseImpl_good hne).1 e h
    · rcases hk with hk | hk <;> cases hk
  refine ⟨?_, ?_, ?_⟩
  · intro d g hk
    have := (hr d g (.inl hk)).2
    rw [hk] at this
    obtain ⟨h1, h2⟩ := this
    refine ⟨?_, by omega, h2⟩
    unfold helpCount; rw [hk]; simp only; rw [if_pos (by omega)]
  · intro d g hk
    have := (hr d g (.inr hk)).2
    rw [hk] at this
    obtain ⟨h1, h2⟩ := this
    refine ⟨?_, by omega, h2⟩
    unfold helpCount; rw [hk]; simp only; rw [if_pos (by omega)]
  · intro hk
    unfold helpCount
    cases hkk : e.kind with
    | tooFew d g => exact absurd hkk (hk d g).1
    | tooMany d g => exact absurd hkk (hk d g).2
    | _ => rfl

example : helpCount cfgPlain ⟨.tooMany 1 3, 2, 9⟩ = .ok (some 2) := by decide +kernel
example : parse0 cfgPlain b!"1+sin(x, y, z)" = .err ⟨.tooMany 1 3, 2, 12⟩ := by decide +kernel

end Props
end Xprs
