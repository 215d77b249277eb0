import Verif.Props.Values
import Verif.Props.Display
import Verif.Macro
/-
The test suite of the project (`/repo/src/tests`) and the examples in its documentation,
run on the model.  They are tests, not proofs of properties: they check that the model does
what the project's authors checked that the program does.  Left out: the values of `sin`
and `cos`, which the model leaves open (the shape of the trees is checked instead).
-/
namespace Xprs
namespace Conformance
open Xprs.Props

/-- `powf` for natural exponents, as far as the tests need it. -/
def powNat (a b : F64) : F64 :=
  ((List.range 16).find? fun k => F64.beq b (F64.ofNat k)).elim .nan
    fun k => (List.range k).foldl (fun r _ => F64.mul r a) F64.f1

/-- The functions of the tests in `ctx.rs`: `double` and `add` (static functions 0 and 1). -/
def wT : World := { w0 with
  powf := powNat
  user := fun p args => match p, args with
    | .static 0, [x] => some (F64.mul x (F64.ofNat 2))
    | .static 1, [x, y] => some (F64.add x y)
    | _, _ => none }

def pejmdas : Cfg := { cfgPlain with pejmdas := true }
def pejmdasOpt : Cfg := { cfgOpt with pejmdas := true }
def nightlyOpt : Cfg := { cfgOpt with nightly := true }
def builds : List Cfg := [cfgPlain, cfgOpt, nightlyOpt, pejmdas, pejmdasOpt]

def parseT (cfg : Cfg) (t : Bytes) : PRes := parse cfg wT Oracle.id Context.default t

/-- `assert_eq!(res.unwrap(), expected)`, with the program's own `==`. -/
def parsesTo (cfg : Cfg) (ctx : Context) (t : Bytes) (e : Xpr) : Bool :=
  match parse cfg wT Oracle.id ctx t with
  | .ok x => decide (x.eqX e = .ok true)
  | _ => false

def isErr (cfg : Cfg) (t : Bytes) : Bool :=
  match parseT cfg t with
  | .err _ => true
  | _ => false

/-- Two texts are read, with equal results. -/
def alike (cfg : Cfg) (t u : Bytes) : Bool :=
  match parseT cfg t, parseT cfg u with
  | .ok x, .ok y => decide (x.eqX y = .ok true)
  | _, _ => false

/-- The value of a text. -/
def evalsTo (cfg : Cfg) (t : Bytes) (vars : List (Bytes × F64)) (v : F64) : Bool :=
  match parseT cfg t with
  | .ok x => decide (x.eval wT (HMap.ofList vars) = .ok v)
  | _ => false

def n (k : Nat) : Elem := .num (F64.ofNat k)
def v (s : Bytes) : Elem := .var s

/-! ### `parser/valid.rs` -/

/-- `get_valid_test_cases` (`valid.rs:41-441`) -/
def valid : List (Bytes × Xpr) := [
  (b!"2", ⟨n 2, []⟩),
  (b!"((2))", ⟨n 2, []⟩),
  (b!"2 + pi", ⟨.bin .plus (n 2) (.num f64PI), []⟩),
  (b!"2 * y", ⟨.bin .times (n 2) (v b!"y"), [b!"y"]⟩),
  (b!"(2 + 1) + 3", ⟨.bin .plus (.bin .plus (n 2) (n 1)) (n 3), []⟩),
  (b!"-(2 + 1)^4", ⟨.un .minus (.bin .power (.bin .plus (n 2) (n 1)) (n 4)), []⟩),
  (b!"(-(2 + 1))^4", ⟨.bin .power (.un .minus (.bin .plus (n 2) (n 1))) (n 4), []⟩),
  (b!"2 + 3", ⟨.bin .plus (n 2) (n 3), []⟩),
  (b!"2 + 3 * 4", ⟨.bin .plus (n 2) (.bin .times (n 3) (n 4)), []⟩),
  (b!"2 * 4 + 1", ⟨.bin .plus (.bin .times (n 2) (n 4)) (n 1), []⟩),
  (b!"3 / 2 * 4", ⟨.bin .times (.bin .divide (n 3) (n 2)) (n 4), []⟩),
  (b!"3 % 2 * 4", ⟨.bin .times (.bin .modulo (n 3) (n 2)) (n 4), []⟩),
  (b!"2 + -5", ⟨.bin .plus (n 2) (.un .minus (n 5)), []⟩),
  (b!"2 + 3 ^ 2 * 3 + 4",
    ⟨.bin .plus (.bin .plus (n 2) (.bin .times (.bin .power (n 3) (n 2)) (n 3))) (n 4), []⟩),
  (b!"2^2^(2^2 + 1)",
    ⟨.bin .power (.bin .power (n 2) (n 2)) (.bin .plus (.bin .power (n 2) (n 2)) (n 1)), []⟩),
  (b!"2 * (3 + (4 - 1))",
    ⟨.bin .times (n 2) (.bin .plus (n 3) (.bin .minus (n 4) (n 1))), []⟩),
  (b!"sin(2)", ⟨.call Builtin.sin.toFunc [n 2], []⟩),
  (b!"abs(sin(2))", ⟨.call Builtin.abs.toFunc [.call Builtin.sin.toFunc [n 2]], []⟩),
  (b!"sin(-cos(2))",
    ⟨.call Builtin.sin.toFunc [.un .minus (.call Builtin.cos.toFunc [n 2])], []⟩),
  (b!"sin(2)^2", ⟨.bin .power (.call Builtin.sin.toFunc [n 2]) (n 2), []⟩),
  (b!"2 * x + 3y + 4x + 5",
    ⟨.bin .plus (.bin .plus (.bin .plus (.bin .times (n 2) (v b!"x")) (.bin .times (n 3) (v b!"y")))
      (.bin .times (n 4) (v b!"x"))) (n 5), [b!"x", b!"y"]⟩),
  (b!"2 + -5", ⟨.bin .plus (n 2) (.un .minus (n 5)), []⟩),
  (b!"-1 + 2", ⟨.bin .plus (.un .minus (n 1)) (n 2), []⟩),
  (b!"-1 * 2", ⟨.bin .times (.un .minus (n 1)) (n 2), []⟩),
  (b!"1 / -2", ⟨.bin .divide (n 1) (.un .minus (n 2)), []⟩),
  (b!"1 ^ -2", ⟨.bin .power (n 1) (.un .minus (n 2)), []⟩),
  (b!"-2 ^ 2", ⟨.un .minus (.bin .power (n 2) (n 2)), []⟩)]

example : ∀ cfg ∈ [cfgPlain, pejmdas], ∀ c ∈ valid,
    parsesTo cfg Context.default c.1 c.2 = true := by decide +kernel

/-- `WHITESPACES` (`valid.rs:453-464`) -/
def whitespaces : List (Bytes × Bytes) := [
  (b!"2 + 3", b!"2+3"), (b!"2 + 3 * 4", b!"2+3*4"), (b!"2 * 4 + 1", b!"2*4+1"),
  (b!"3 / 2 * 4", b!"3/2*4"), (b!"3  %2*  4", b!"3%2*4"), (b!"2 +  - 5", b!"2+-5"),
  (b!"2 + 3 ^ 2 * 3 + 4", b!"2+3^2*3+4"), (b!"2^ 2  ^ (2^ 2 + 1)", b!"2^2^(2^2+1)"),
  (b!"2 * (3 + (4 - 1) )", b!"2*(3+(4-1))"), (b!"sin   ( 2 )  ^ 2", b!"sin(2)^2")]

example : ∀ cfg ∈ builds, ∀ c ∈ whitespaces, alike cfg c.1 c.2 = true := by decide +kernel

/-! ### `parser/comptime_optimizations.rs` -/

/-- `get_valid_test_cases` (`comptime_optimizations.rs:27-123`) -/
def comptime : List (Bytes × Xpr) := [
  (b!"2 + pi", ⟨.num (F64.add f64PI (F64.ofNat 2)), []⟩),
  (b!"2 * y", ⟨.bin .times (n 2) (v b!"y"), [b!"y"]⟩),
  (b!"2 + 3 * 4", ⟨n 14, []⟩),
  (b!"2 * 4 + 1", ⟨n 9, []⟩),
  (b!"3 / 2 * 4", ⟨n 6, []⟩),
  (b!"3 % 2 * 4", ⟨n 4, []⟩),
  (b!"2 + -5", ⟨.num (F64.neg (F64.ofNat 3)), []⟩),
  (b!"2 + 3 ^ 2 * 3 + 4", ⟨n 33, []⟩),
  (b!"2^2^(2^2 + 1)", ⟨n 1024, []⟩),
  (b!"2 * (3 + (4 - 1))", ⟨n 12, []⟩),
  (b!"sin(-cos(2))", ⟨.num (wT.libm1 .sin (F64.neg (wT.libm1 .cos (F64.ofNat 2)))), []⟩),
  (b!"x - x", ⟨n 0, []⟩),
  (b!"(a + b) - (b + a)", ⟨n 0, []⟩)]

example : ∀ cfg ∈ [cfgOpt, nightlyOpt, pejmdasOpt], ∀ c ∈ comptime,
    parsesTo cfg Context.default c.1 c.2 = true := by decide +kernel

/-! ### `parser/implicit_multiplication.rs` -/

/-- The cases common to both tables (`implicit_multiplication.rs:5-31`) -/
def implicit : List (Bytes × Bytes) := [
  (b!"2(3)", b!"2*(3)"), (b!"2(3+4)", b!"2*(3+4)"), (b!"2 (3+4)5", b!"2*(3+4)*5"),
  (b!"2 (3+4) 5", b!"2*(3+4)*5"), (b!"2(3+4)(5+6)", b!"2*(3+4)*(5+6)"),
  (b!"2x + 3 x y", b!"2*x + 3*x*y"), (b!"12 + 3-1x+3y x", b!"12 + 3-1*x+3*y*x")]

example : ∀ cfg ∈ builds, ∀ c ∈ implicit, alike cfg c.1 c.2 = true := by decide +kernel
example : ∀ cfg ∈ [cfgPlain, cfgOpt, nightlyOpt],
    alike cfg b!"6/2(2+1)" b!"6/2*(2+1)" = true ∧ alike cfg b!"1/2x" b!"(1/2)*x" = true := by
  decide +kernel
example : ∀ cfg ∈ [pejmdas, pejmdasOpt],
    alike cfg b!"6/2(2+1)" b!"6/(2*(2+1))" = true ∧ alike cfg b!"1/2x" b!"1/(2*x)" = true := by
  decide +kernel
example : ∀ cfg ∈ builds, isErr cfg b!"2 5" = true := by decide +kernel

/-! ### `parser/error.rs` -/

example : ∀ cfg ∈ builds, ∀ t ∈ [b!"sin 2", b!"sin+2", b!"sin(2", b!"2+ -3 +", b!"(2 + 3",
    b!"2 + 3)", b!"2 * (3 + 4", b!"2 * (3 + )", b!"1 2"], isErr cfg t = true := by decide +kernel

/-! ### `parser/ctx.rs` -/

def double : Func := xprsFn b!"double" (.static 0) (.f1 fun x => F64.mul x (F64.ofNat 2))
def add : Func := xprsFn b!"add" (.static 1) (.f2 F64.add)
def mean : Func := xprsFn b!"mean" (.static 2) (.slice fun _ => F64.f0)
def phi : F64 := F64.ofDecimal 1618033988749895 (-15)

/-- `get_parser_with_ctx` (`ctx.rs:22-37`) -/
def ctxT : Context :=
  (((((Context.default.setVar b!"x" (F64.ofNat 2)).setVar b!"phi" phi).setFn double).setFn add).setVar
    b!"y" F64.f1).setFn mean

/-- `get_valid_test_cases` (`ctx.rs:39-93`) -/
def ctxCases : List (Bytes × Elem) := [
  (b!"y", n 1),
  (b!"2 + phi", .bin .plus (n 2) (.num phi)),
  (b!"2 + phi * x", .bin .plus (n 2) (.bin .times (.num phi) (n 2))),
  (b!"double(2 + phi * x)", .call double [.bin .plus (n 2) (.bin .times (.num phi) (n 2))]),
  (b!"add(2, 3)", .call add [n 2, n 3]),
  (b!"mean(2, 3, 4)", .call mean [n 2, n 3, n 4])]

example : ∀ c ∈ ctxCases, parsesTo cfgPlain ctxT c.1 ⟨c.2, []⟩ = true := by decide +kernel

/-! ### `issues/issue_15.rs`, `issues/issue_18.rs` -/

def issue15 : List (Bytes × F64) := [
  (b!"1", F64.f1), (b!"1.2", F64.ofDecimal 12 (-1)), (b!"1.2e3", F64.ofDecimal 12 2),
  (b!"1.2e-3", F64.ofDecimal 12 (-4)), (b!"1.2e+3", F64.ofDecimal 12 2),
  (b!"1e", F64.mul F64.f1 f64E), (b!"1.2e", F64.mul (F64.ofDecimal 12 (-1)) f64E),
  (b!"1.2e+ 1", F64.add (F64.mul (F64.ofDecimal 12 (-1)) f64E) F64.f1),
  (b!"1.2e- 1", F64.sub (F64.mul (F64.ofDecimal 12 (-1)) f64E) F64.f1)]

example : ∀ cfg ∈ builds, ∀ c ∈ issue15, evalsTo cfg c.1 [] c.2 = true := by decide +kernel
example : ∀ cfg ∈ builds, ∀ t ∈ [b!"1.2e+", b!"1.2e-"], isErr cfg t = true := by decide +kernel
example : ∀ cfg ∈ builds, (match parseT cfg b!"x^4" with
    | .ok x => decide (x.vars = [b!"x"]) | _ => false) = true := by decide +kernel

/-! ### `factorial.rs` -/

/-- `assert_f64_eq!` (`macros.rs:1-8`): the difference is less than `f64::EPSILON`. -/
def near (a b : F64) : Bool := F64.blt (F64.abs (F64.sub a b)) (F64.ofDecimal 2220446049250313 (-31))

/-- `test_float_factorial` (`factorial.rs:6-25`) -/
def factorials : List (F64 × F64) := [
  (.inf true, .nan), (F64.neg (F64.ofNat 5), .nan), (F64.neg (F64.ofDecimal 25 (-1)), .nan),
  (F64.neg F64.f1, .nan), (F64.neg F64.f0, F64.f1), (F64.f0, F64.f1), (F64.f1, F64.f1),
  (F64.ofDecimal 25 (-1), .nan), (F64.ofNat 2, F64.ofNat 2), (F64.ofNat 5, F64.ofNat 120),
  (F64.ofNat 169, F64.ofDecimal 42690680090047027 288),
  (F64.ofNat 170, F64.ofDecimal 7257415615307994 291),
  (F64.ofNat 171, .inf false), (.inf false, .inf false)]

example : ∀ c ∈ factorials, (match factorial c.1 with
    | .ok r => decide (r = c.2) || near r c.2 | _ => false) = true := by decide +kernel

/-! ### `xprs/eval.rs` -/

/-- `VALID` (`eval.rs:19-37`) without the values of `sin`. -/
def evals : List (Bytes × List (Bytes × F64) × F64) := [
  (b!"2(3)", [], F64.ofNat 6), (b!"2 + 3 ^ 2 * 3 + 4", [], F64.ofNat 33),
  (b!"2^2^(2^2 + 1)", [], F64.ofNat 1024),
  (b!"2 * x + 3y + 4x + 5", [(b!"x", F64.ofNat 2), (b!"y", F64.ofNat 3)], F64.ofNat 26),
  (b!"12 + 3-1x+3y x", [(b!"x", F64.ofNat 2), (b!"y", F64.ofNat 3)], F64.ofNat 31),
  (b!"2 (3+4) 5", [], F64.ofNat 70)]

example : ∀ cfg ∈ builds, ∀ c ∈ evals, evalsTo cfg c.1 c.2.1 c.2.2 = true := by decide +kernel
example : ∀ cfg ∈ [cfgPlain, cfgOpt, nightlyOpt], evalsTo cfg b!"6/2(2+1)" [] (F64.ofNat 9) = true ∧
    evalsTo cfg b!"1/2x" [(b!"x", F64.ofNat 2)] F64.f1 = true := by decide +kernel
example : ∀ cfg ∈ [pejmdas, pejmdasOpt], evalsTo cfg b!"6/2(2+1)" [] F64.f1 = true ∧
    evalsTo cfg b!"1/2x" [(b!"x", F64.ofNat 2)] (F64.ofDecimal 25 (-2)) = true := by decide +kernel
example : ∀ cfg ∈ builds, (match parseT cfg b!"2 * x + 3y + 4x + 5" with
    | .ok x => (match x.eval wT (HMap.ofList [(b!"x", F64.ofNat 2)]) with
      | .error _ => true | _ => false)
    | _ => false) = true := by decide +kernel

/-! ### `xprs/simplify.rs` -/

/-- `xprs == parser.parse(t).unwrap()` -/
def isText (cfg : Cfg) (r : PM Xpr) (t : Bytes) : Bool :=
  match r with
  | .ok x => parsesTo cfg Context.default t x
  | _ => false

/-- The test runs with the default features (`simplify.rs:4-22`). -/
example : ∀ cfg ∈ [cfgOpt, nightlyOpt, pejmdasOpt], (match parseT cfg b!"2x + 3y + 4x + 5z" with
    | .ok x =>
      let x1 := x.simplifyFor cfg wT b!"x" (F64.ofNat 2)
      isText cfg x1 b!"4 + 3y + 8 + 5z" && (match x1 with
        | .ok x1 =>
          let x2 := x1.simplifyFor cfg wT b!"y" (F64.ofNat 3)
          isText cfg x2 b!"21 + 5z" && (match x2 with
            | .ok x2 => isText cfg (x2.simplifyFor cfg wT b!"unknown" (F64.ofNat 4)) b!"21 + 5z"
            | _ => false)
        | _ => false)
    | _ => false) = true := by decide +kernel

/-! ### `xprs/hof.rs` -/

/-- `bind2` of `2x + y`, made the function with address 7. -/
def wH (cfg : Cfg) : World := { wT with
  user := fun p args => match p, args with
    | .dyn 7, [x, y] =>
      match parseT cfg b!"2x + y" with
      | .ok e => (match e.bind2 cfg wT Oracle.id b!"x" b!"y" with
        | .ok f => (match f x y with
          | .ok r => some r
          | _ => none)
        | _ => none)
      | _ => none
    | _, _ => none }
def ctxH : Context := Context.default.setFn ⟨b!"hof", .dyn 7, some 2⟩

/-- `parser.parse(t).unwrap().eval_unchecked(..) == r` -/
def hofIs (cfg : Cfg) (t : Bytes) (m : HMap F64) (r : Nat) : Bool :=
  match parse cfg (wH cfg) Oracle.id ctxH t with
  | .ok x => decide (x.evalUnchecked (wH cfg) m = .ok (F64.ofNat r))
  | _ => false

example : ∀ cfg ∈ builds, hofIs cfg b!"hof(2, 3)" HMap.empty 7 = true ∧
    hofIs cfg b!"hof(2, 3) + 3 * hof(4, 5)" HMap.empty 46 = true ∧
    hofIs cfg b!"hof(x, hof(2, 3))" (HMap.ofList [(b!"x", F64.ofNat 42)]) 91 = true ∧
    (match parse cfg (wH cfg) Oracle.id ctxH b!"hof(2)" with | .err _ => true | _ => false) = true := by
  decide +kernel

/-! ### The examples in the documentation of `xprs.rs`, `lib.rs` and `examples/` -/

/-- Natural numbers below 100, as `Display` writes them. -/
def fmtNat (x : F64) : Bytes :=
  ((List.range 100).find? fun k => F64.beq x (F64.ofNat k)).elim b!"?" fun k =>
    (toString k).toList.map fun c => c.toNat.toUInt8

def shows (r : PM Xpr) (t : Bytes) (vars : List Bytes) : Bool :=
  match r with
  | .ok x => decide (x.show fmtNat = t) && decide (x.vars = vars)
  | _ => false

def parsed (cfg : Cfg) (t : Bytes) : PM Xpr :=
  match parseT cfg t with
  | .ok x => .ok x
  | _ => .error .unwrap

/-- `xprs.rs:55-73`, `91-116` -/
example : ∀ cfg ∈ builds,
    evalsTo cfg b!"2 * x + y" [(b!"x", F64.ofNat 3), (b!"y", F64.ofNat 2)] (F64.ofNat 8) = true := by
  decide +kernel
/-- `xprs.rs:127-141`, `177-191` -/
example : ∀ cfg ∈ builds, shows (parsed cfg b!"2 * x + y") b!"((2 * x) + y)" [b!"x", b!"y"] = true ∧
    shows ((parsed cfg b!"2 * x + y").bind fun x => x.simplifyFor cfg wT b!"x" (F64.ofNat 3)) b!"(6 + y)" [b!"y"]
      = true := by decide +kernel
/-- `xprs.rs:203-217`, `233-247` -/
example : ∀ cfg ∈ builds, shows (parsed cfg b!"2 * x + y + 4z") b!"(((2 * x) + y) + (4 * z))"
      [b!"x", b!"y", b!"z"] = true ∧
    shows ((parsed cfg b!"2 * x + y + 4z").bind fun x => x.simplifyForMultiple cfg wT
      [(b!"x", F64.ofNat 3), (b!"z", F64.ofNat 2)]) b!"((6 + y) + 8)" [b!"y"] = true := by
  decide +kernel
/-- `examples/xprs_simplification.rs:8-24`, first two lines of output -/
example : ∀ cfg ∈ builds, shows (parsed cfg b!"w + sin(x + 2y) * (3 * z)")
      b!"(w + (sin((x + (2 * y))) * (3 * z)))" [b!"w", b!"x", b!"y", b!"z"] = true ∧
    shows ((parsed cfg b!"w + sin(x + 2y) * (3 * z)").bind fun x => x.simplifyFor cfg wT b!"z"
      (F64.ofNat 4)) b!"(w + (sin((x + (2 * y))) * 12))" [b!"w", b!"x", b!"y"] = true := by decide +kernel
/-- `parser.rs:28-36`, `73-83` -/
example : ∀ cfg ∈ builds, (match parseT cfg b!"2 * (x + 1)" with | .ok _ => true | _ => false) = true ∧
    isErr cfg b!"(x + 1" = true := by decide +kernel
/-- `examples/with_context.rs:6-16` -/
example : ∀ cfg ∈ builds, (match parse cfg wT Oracle.id
    (((Context.default.setFn double).setVar b!"foo" F64.f1).setVar b!"bar" (F64.ofNat 2))
      b!"double(foo) + bar" with
    | .ok x => decide (x.evalNoVars wT = .ok (F64.ofNat 4)) | _ => false) = true := by decide +kernel
/-- `examples/with_allowed_variables.rs:5-14` -/
example : ∀ cfg ∈ builds,
    (match parse cfg wT Oracle.id (Context.default.setExpected [b!"x", b!"y"]) b!"x + y" with
      | .ok _ => true | _ => false) = true ∧
    (match parse cfg wT Oracle.id (Context.default.setExpected [b!"x", b!"y"]) b!"x + z" with
      | .err _ => true | _ => false) = true := by decide +kernel

end Conformance
end Xprs
