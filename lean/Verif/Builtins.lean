import Verif.Factorial
/-
The built-in functions and identifiers:
`/repo/src/utils/built_in_functions.rs`, `/repo/src/token/identifier.rs`.
-/
namespace Xprs

/-- The functions of one argument the platform supplies: methods of `f64`, and
`tgamma` (`f64::gamma` in nightly builds, `/repo/src/utils/factorial.rs:4-18`). -/
inductive Std1 where
  | sin | sinh | asin | asinh | cos | cosh | acos | acosh | tan | tanh | atan | atanh
  | ln | log10 | cbrt | exp | tgamma
deriving DecidableEq

/-- The methods of `f64` with one more argument the platform supplies: `x.atan2(y)`,
`x.log(base)`, `x.hypot(y)`. -/
inductive Std2 where
  | atan2 | log | hypot
deriving DecidableEq

/-- What the model does not define itself: the platform's libm and the functions
supplied by the user. -/
structure World where
  /-- libm functions of one argument. -/
  libm1 : Std1 → F64 → F64
  /-- libm functions of two arguments; the first one is `self`. -/
  libm2 : Std2 → F64 → F64 → F64
  /-- `f64::powf` -/
  powf : F64 → F64 → F64
  /-- User functions; `none` means that the call panics.  Simplification: user
  functions are deterministic. -/
  user : FnPtr → List F64 → Option F64
  /-- Sign of the zero `Iterator::sum::<f64>` starts from (`-0.0` since Rust 1.83,
  `0.0` before). -/
  sumInit : Bool

/-- `args.iter().sum::<f64>()` -/
def sumF (w : World) (args : List F64) : F64 :=
  args.foldl F64.add (F64.zero w.sumInit)

/-- `xprs_fn!(wrap f, 1)` (`/repo/src/token/function.rs:169-172`): `f(args[0])`, the
index panics when there is no argument. -/
def wrap1 (f : F64 → PM F64) : List F64 → PM F64
  | a :: _ => f a
  | [] => .error .user

/-- `xprs_fn!(wrap f, 2)` (`/repo/src/token/function.rs:173-176`). -/
def wrap2 (f : F64 → F64 → PM F64) : List F64 → PM F64
  | a :: b :: _ => f a b
  | _ => .error .user

/-- The implementations of the built-in functions
(`/repo/src/utils/built_in_functions.rs:5-109`). -/
def Builtin.run (w : World) : Builtin → List F64 → PM F64
  | .abs => wrap1 fun x => .ok (F64.abs x)
  | .floor => wrap1 fun x => .ok (F64.floor x)
  | .ceil => wrap1 fun x => .ok (F64.ceil x)
  | .round => wrap1 fun x => .ok (F64.round x)
  | .trunc => wrap1 fun x => .ok (F64.trunc x)
  | .fract => wrap1 fun x => .ok (F64.fract x)
  | .recip => wrap1 fun x => .ok (F64.recip x)
  | .factorial => wrap1 Xprs.factorial
  | .sum => fun args => .ok (sumF w args)
  | .mean => fun args => .ok (F64.div (sumF w args) (F64.ofNat args.length))
  | .min => fun args => .ok (args.foldl F64.fmin (.inf false))
  | .max => fun args => .ok (args.foldl F64.fmax (.inf true))
  | .sqrt => wrap1 fun x => .ok (F64.sqrt x)
  | .atan2 => wrap2 fun x y => .ok (w.libm2 .atan2 x y)
  | .logn => wrap2 fun x y => .ok (w.libm2 .log x y)
  | .hypot => wrap2 fun x y => .ok (w.libm2 .hypot x y)
  | .sin => wrap1 fun x => .ok (w.libm1 .sin x)
  | .sinh => wrap1 fun x => .ok (w.libm1 .sinh x)
  | .asin => wrap1 fun x => .ok (w.libm1 .asin x)
  | .asinh => wrap1 fun x => .ok (w.libm1 .asinh x)
  | .cos => wrap1 fun x => .ok (w.libm1 .cos x)
  | .cosh => wrap1 fun x => .ok (w.libm1 .cosh x)
  | .acos => wrap1 fun x => .ok (w.libm1 .acos x)
  | .acosh => wrap1 fun x => .ok (w.libm1 .acosh x)
  | .tan => wrap1 fun x => .ok (w.libm1 .tan x)
  | .tanh => wrap1 fun x => .ok (w.libm1 .tanh x)
  | .atan => wrap1 fun x => .ok (w.libm1 .atan x)
  | .atanh => wrap1 fun x => .ok (w.libm1 .atanh x)
  | .ln => wrap1 fun x => .ok (w.libm1 .ln x)
  | .log => wrap1 fun x => .ok (w.libm1 .log10 x)
  | .cbrt => wrap1 fun x => .ok (w.libm1 .cbrt x)
  | .exp => wrap1 fun x => .ok (w.libm1 .exp x)
  | .gamma => wrap1 fun x => .ok (w.libm1 .tgamma x)

/-- `nb_args` of the built-in functions: `None` for the four variadic ones
(`/repo/src/utils/built_in_functions.rs`). -/
def Builtin.nbArgs : Builtin → Option Nat
  | .sum | .mean | .min | .max => none
  | .atan2 | .logn | .hypot => some 2
  | _ => some 1

/-- The `name` field of the built-in functions
(`/repo/src/utils/built_in_functions.rs`). -/
def Builtin.name : Builtin → Bytes
  | .sin => b!"sin" | .sinh => b!"sinh" | .asin => b!"asin" | .asinh => b!"asinh"
  | .cos => b!"cos" | .cosh => b!"cosh" | .acos => b!"acos" | .acosh => b!"acosh"
  | .tan => b!"tan" | .tanh => b!"tanh" | .atan => b!"atan" | .atan2 => b!"atan2"
  | .atanh => b!"atanh"
  | .ln => b!"ln" | .log => b!"log" | .logn => b!"logn"
  | .sqrt => b!"sqrt" | .cbrt => b!"cbrt"
  | .exp => b!"exp" | .abs => b!"abs" | .floor => b!"floor" | .ceil => b!"ceil"
  | .round => b!"round" | .trunc => b!"trunc"
  | .sum => b!"sum" | .mean => b!"mean" | .recip => b!"recip"
  | .min => b!"min" | .max => b!"max" | .hypot => b!"hypot" | .fract => b!"fract"
  | .factorial => b!"factorial" | .gamma => b!"gamma"

/-- The constants `SIN`, `SINH`, … of `/repo/src/utils/built_in_functions.rs`. -/
def Builtin.toFunc (b : Builtin) : Func :=
  { name := b.name, func := .builtin b, nbArgs := b.nbArgs }

/-- `FunctionCall::call` (`/repo/src/element/function_call.rs:29-32`), through
`Deref for FnPointer` (`/repo/src/token/function.rs:87-96`). -/
def callFn (w : World) (f : Func) (args : List F64) : PM F64 :=
  match f.func with
  | .builtin b => b.run w args
  | p =>
    match w.user p args with
    | some v => .ok v
    | none => .error .user

/-- `Identifier` (`/repo/src/token/identifier.rs:8-15`) -/
inductive Ident where
  | func (f : Func)
  | const (x : F64)
  | var (n : Bytes)

/-- `f64::consts::PI` as its decimal literal in core. -/
def f64PI : F64 := F64.ofDecimal 314159265358979323846264338327950288 (-35)
/-- `f64::consts::E` as its decimal literal in core. -/
def f64E : F64 := F64.ofDecimal 271828182845904523536028747135266250 (-35)

/-- The built-in function called `name`, if any: the function arms of
`Identifier::from_str` (`/repo/src/token/identifier.rs:25-64`), in source order. -/
def builtinByName (n : Bytes) : Option Builtin :=
  if n = b!"sin" then some .sin
  else if n = b!"sinh" then some .sinh
  else if n = b!"asin" then some .asin
  else if n = b!"asinh" then some .asinh
  else if n = b!"cos" then some .cos
  else if n = b!"cosh" then some .cosh
  else if n = b!"acos" then some .acos
  else if n = b!"acosh" then some .acosh
  else if n = b!"tan" then some .tan
  else if n = b!"tanh" then some .tanh
  else if n = b!"atan" then some .atan
  else if n = b!"atan2" then some .atan2
  else if n = b!"atanh" then some .atanh
  else if n = b!"ln" then some .ln
  else if n = b!"log" then some .log
  else if n = b!"logn" then some .logn
  else if n = b!"sqrt" then some .sqrt
  else if n = b!"cbrt" then some .cbrt
  else if n = b!"exp" then some .exp
  else if n = b!"abs" then some .abs
  else if n = b!"floor" then some .floor
  else if n = b!"ceil" then some .ceil
  else if n = b!"round" then some .round
  else if n = b!"trunc" then some .trunc
  else if n = b!"sum" then some .sum
  else if n = b!"mean" then some .mean
  else if n = b!"invert" then some .recip
  else if n = b!"recip" then some .recip
  else if n = b!"min" then some .min
  else if n = b!"max" then some .max
  else if n = b!"hypot" then some .hypot
  else if n = b!"fract" then some .fract
  else if n = b!"gamma" then some .gamma
  else if n = b!"factorial" then some .factorial
  else none

/-- `Identifier::from_str` (`/repo/src/token/identifier.rs:20-68`). -/
def Ident.fromStr (n : Bytes) : Ident :=
  if n = b!"pi" then .const f64PI
  else if n = b!"e" then .const f64E
  else
    match builtinByName n with
    | some b => .func b.toFunc
    | none => .var n

end Xprs
