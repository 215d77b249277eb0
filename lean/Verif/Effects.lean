import Verif.Eval
/-
The same code with functions that have a memory.

`Verif/Eval.lean`, `Verif/Simplify.lean` and `Verif/Parser.lean` take user functions to
be deterministic.  A user function is an `Fn(&[f64]) -> f64` (`function.rs:43-54`), so it
may count its calls, draw random numbers or write to a file.  Here the functions share a
state of any type, every call may change it, and the functions of the code pass it along
in the order in which they make calls.  `Props/Effects.lean` shows that for functions
without memory nothing changes (`C63_pure`).
-/
namespace Xprs

/-- User functions with a shared memory; `none` means that the call panics. -/
structure Stateful (σ : Type) where
  call : FnPtr → List F64 → σ → Option F64 × σ

variable {σ : Type}

/-- `FunctionCall::call` (`/repo/src/element/function_call.rs:29-32`).  The built-in
functions have no memory. -/
def callS (w : World) (u : Stateful σ) (f : Func) (args : List F64) (t : σ) : PM F64 × σ :=
  match f.func with
  | .builtin b => (b.run w args, t)
  | p =>
    match u.call p args t with
    | (some v, t') => (.ok v, t')
    | (none, t') => (.error .user, t')

/-! ### `xprs.rs` -/

mutual
/-- `eval_element` (`xprs.rs:272-317`) -/
def evalS (w : World) (u : Stateful σ) (m : HMap F64) : Elem → σ → Except EvErr F64 × σ
  | .num x, t => (.ok x, t)
  | .var n, t =>
    match m.get n with
    | some x => (.ok x, t)
    | none => (.error (.missing n), t)
  | .un op e, t =>
    match evalS w u m e t with
    | (.error r, t1) => (.error r, t1)
    | (.ok v, t1) => (liftP (unF op v), t1)
  | .bin op l r, t =>
    match evalS w u m l t with
    | (.error r, t1) => (.error r, t1)
    | (.ok a, t1) =>
      match evalS w u m r t1 with
      | (.error r, t2) => (.error r, t2)
      | (.ok b, t2) => (liftP (binF w op a b), t2)
  | .call f args, t =>
    match evalSL w u m args t with
    | (.error r, t1) => (.error r, t1)
    | (.ok vs, t1) => (liftP (callS w u f vs t1).1, (callS w u f vs t1).2)
/-- `map(..).collect::<Result<Vec<_>, _>>()` (`xprs.rs:307-311`) -/
def evalSL (w : World) (u : Stateful σ) (m : HMap F64) : List Elem → σ → Except EvErr (List F64) × σ
  | [], t => (.ok [], t)
  | a :: as, t =>
    match evalS w u m a t with
    | (.error r, t1) => (.error r, t1)
    | (.ok v, t1) =>
      match evalSL w u m as t1 with
      | (.error r, t2) => (.error r, t2)
      | (.ok vs, t2) => (.ok (v :: vs), t2)
end

mutual
/-- `eval_element_unchecked` (`xprs.rs:320-361`) -/
def evalUS (w : World) (u : Stateful σ) (m : HMap F64) : Elem → σ → PM F64 × σ
  | .num x, t => (.ok x, t)
  | .var n, t =>
    match m.get n with
    | some x => (.ok x, t)
    | none => (.error .unwrap, t)
  | .un op e, t =>
    match evalUS w u m e t with
    | (.error r, t1) => (.error r, t1)
    | (.ok v, t1) =>
      match op with
      | .plus => (.ok v, t1)
      | .minus => (.ok (F64.neg v), t1)
      | .factorial => (factorial v, t1)
      | .times | .divide | .power | .modulo => (.error .unreachable, t1)
  | .bin op l r, t =>
    match evalUS w u m l t with
    | (.error r, t1) => (.error r, t1)
    | (.ok a, t1) =>
      match evalUS w u m r t1 with
      | (.error r, t2) => (.error r, t2)
      | (.ok b, t2) =>
        match op with
        | .plus => (.ok (F64.add a b), t2)
        | .minus => (.ok (F64.sub a b), t2)
        | .times => (.ok (F64.mul a b), t2)
        | .divide => (.ok (F64.div a b), t2)
        | .power => (.ok (w.powf a b), t2)
        | .modulo => (.ok (F64.rem a b), t2)
        | .factorial => (.error .unreachable, t2)
  | .call f args, t =>
    match evalUSL w u m args t with
    | (.error r, t1) => (.error r, t1)
    | (.ok vs, t1) => callS w u f vs t1
/-- `map(..).collect::<Vec<_>>()` (`xprs.rs:353-357`) -/
def evalUSL (w : World) (u : Stateful σ) (m : HMap F64) : List Elem → σ → PM (List F64) × σ
  | [], t => (.ok [], t)
  | a :: as, t =>
    match evalUS w u m a t with
    | (.error r, t1) => (.error r, t1)
    | (.ok v, t1) =>
      match evalUSL w u m as t1 with
      | (.error r, t2) => (.error r, t2)
      | (.ok vs, t2) => (.ok (v :: vs), t2)
end

/-! ### `element/simplify.rs`

The arms of `BinOp::simplify` and `UnOp::simplify` on simplified operands call no
function of the user: `simpBin` and `simpUn` are those of `Verif/Simplify.lean`. -/

/-- The tail of `FunctionCall::simplify` (`simplify.rs:304-308`) -/
def simpCallS (w : World) (u : Stateful σ) (f : Func) (args : List Elem) (t : σ) : PM Elem × σ :=
  if (numsOf args).length = args.length then
    ((callS w u f (numsOf args) t).1.map .num, (callS w u f (numsOf args) t).2)
  else (.ok (.call f args), t)

mutual
/-- `Element::simplify` (`simplify.rs:29-36`) and what it calls. -/
def simplifyS (cfg : Cfg) (w : World) (u : Stateful σ) : Elem → σ → PM Elem × σ
  | .num x, t => (.ok (.num x), t)
  | .var n, t => (.ok (.var n), t)
  | .bin op l r, t =>
    match simplifyS cfg w u l t with
    | (.error p, t1) => (.error p, t1)
    | (.ok l', t1) =>
      match simplifyS cfg w u r t1 with
      | (.error p, t2) => (.error p, t2)
      | (.ok r', t2) => (simpBin cfg w op l' r', t2)
  | .un op e, t =>
    match simplifyS cfg w u e t with
    | (.error p, t1) => (.error p, t1)
    | (.ok e', t1) => (simpUn op e', t1)
  | .call f args, t =>
    match simplifySL cfg w u args t with
    | (.error p, t1) => (.error p, t1)
    | (.ok args', t1) => simpCallS w u f args' t1
/-- `simplify.rs:292-302` -/
def simplifySL (cfg : Cfg) (w : World) (u : Stateful σ) : List Elem → σ → PM (List Elem) × σ
  | [], t => (.ok [], t)
  | a :: as, t =>
    match simplifyS cfg w u a t with
    | (.error p, t1) => (.error p, t1)
    | (.ok a', t1) =>
      match simplifySL cfg w u as t1 with
      | (.error p, t2) => (.error p, t2)
      | (.ok as', t2) => (.ok (a' :: as'), t2)
end

mutual
/-- `Element::simplify_for` (`simplify.rs:19-27`) and what it calls. -/
def simplifyForS (cfg : Cfg) (w : World) (u : Stateful σ) (x : Bytes) (v : F64) :
    Elem → σ → PM Elem × σ
  | .num a, t => (.ok (.num a), t)
  | .var n, t => if n = x then (.ok (.num v), t) else (.ok (.var n), t)
  | .bin op l r, t =>
    match simplifyForS cfg w u x v l t with
    | (.error p, t1) => (.error p, t1)
    | (.ok l', t1) =>
      match simplifyForS cfg w u x v r t1 with
      | (.error p, t2) => (.error p, t2)
      | (.ok r', t2) => simplifyS cfg w u (.bin op l' r') t2
  | .un op e, t =>
    match simplifyForS cfg w u x v e t with
    | (.error p, t1) => (.error p, t1)
    | (.ok e', t1) => simplifyS cfg w u (.un op e') t1
  | .call f args, t =>
    match simplifyForSL cfg w u x v args t with
    | (.error p, t1) => (.error p, t1)
    | (.ok args', t1) => simplifyS cfg w u (.call f args') t1
/-- `simplify.rs:278-282` -/
def simplifyForSL (cfg : Cfg) (w : World) (u : Stateful σ) (x : Bytes) (v : F64) :
    List Elem → σ → PM (List Elem) × σ
  | [], t => (.ok [], t)
  | a :: as, t =>
    match simplifyForS cfg w u x v a t with
    | (.error p, t1) => (.error p, t1)
    | (.ok a', t1) =>
      match simplifyForSL cfg w u x v as t1 with
      | (.error p, t2) => (.error p, t2)
      | (.ok as', t2) => (.ok (a' :: as'), t2)
end

/-! ### `parser.rs`

What `Verif/Parser.lean` says about the functions of the same name applies here too. -/

/-- Sequencing (`?` and plain statements). -/
def R.bindS {α β : Type} (x : R α × σ) (f : α → St → σ → R β × σ) : R β × σ :=
  match x with
  | (.ok a s, t) => f a s t
  | (.err e s, t) => (.err e s, t)
  | (.panic p, t) => (.panic p, t)
  | (.fuel, t) => (.fuel, t)

/-- `argument` (`parser.rs:337-354`) -/
def argumentS (cfg : Cfg) (rec : Nat → St → σ → R Elem × σ) (s : St) (t : σ) : R Elem × σ :=
  match rec noPrec s t with
  | (.err e s', t') =>
    match e.kind with
    | .unexpectedToken _ => (errMissing cfg s', t')
    | _ => (.err e s', t')
  | r => r

/-- `parse_arguments` (`parser.rs:314-334`) -/
def parseArgsS (cfg : Cfg) (rec : Nat → St → σ → R Elem × σ) :
    Nat → List Elem → St → σ → R (List Elem) × σ
  | 0, _, _, t => (.fuel, t)
  | fuel + 1, args, s, t =>
    R.bindS (argumentS cfg rec s t) fun arg s1 t1 =>
      let s2 := trim s1
      match s2.rest.head? with
      | some c =>
        if c = c!"," then parseArgsS cfg rec fuel (args ++ [arg]) (adv s2 1) t1
        else if c = c!")" then (.ok (args ++ [arg]) s2, t1)
        else (errTok s2 c, t1)
      | none => (errEnd cfg s2, t1)

/-- `parse_identifier` (`parser.rs:228-280`) -/
def parseIdentS (cfg : Cfg) (ctx : Context) (rec : Nat → St → σ → R Elem × σ) (s : St) (t : σ) :
    R Elem × σ :=
  let name := s.rest.takeWhile isIdChar
  let s1 := skipWhile isIdChar s
  match lookup ctx name with
  | .const x => (.ok (.num x) s1, t)
  | .var n => (.ok (.var n) s1, t)
  | .func f =>
    if (consumeIf c!"(" s1).1 then
      let s2 := (consumeIf c!"(" s1).2
      R.bindS (parseArgsS cfg rec (s2.rest.length + 1) [] s2 t) fun args s3 t3 =>
        R.bindS (assertConsume c!")" s3, t3) fun _ s4 t4 =>
          (checkArity f args s.pos s4, t4)
    else (errExpected (consumeIf c!"(" s1).2 c!"(", t)

/-- `atom` (`parser.rs:189-225`) -/
def atomS (cfg : Cfg) (ctx : Context) (rec : Nat → St → σ → R Elem × σ) (s0 : St) (t : σ) :
    R Elem × σ :=
  let s := trim s0
  match s.rest.head? with
  | none => (errEnd cfg s, t)
  | some c =>
    if isDigit c || decide (c = c!".") then (parseNumber s, t)
    else if isIdStart c then parseIdentS cfg ctx rec s t
    else if c = c!"+" then
      R.bindS (rec unopPrec (adv s 1) t) fun e s' t' => (.ok (.un .plus e) s', t')
    else if c = c!"-" then
      R.bindS (rec unopPrec (adv s 1) t) fun e s' t' => (.ok (.un .minus e) s', t')
    else if c = c!"(" then
      R.bindS (rec noPrec (adv s 1) t) fun e s' t' =>
        R.bindS (assertConsume c!")" s', t') fun _ s'' t'' => (.ok e s'', t'')
    else if c = c!")" then (errTok s c, t)
    else (errIllegal s c, t)

/-- The `while let` loop of `element` (`parser.rs:173-178`) -/
def opLoopS (cfg : Cfg) (rec : Nat → St → σ → R Elem × σ) (p : Nat) :
    Nat → Elem → St → σ → R Elem × σ
  | 0, _, _, t => (.fuel, t)
  | fuel + 1, el, s, t =>
    let s1 := trim s
    match opInfo cfg el p s1 with
    | none => (.ok el s1, t)
    | some (op, q, k) =>
      R.bindS (rec q (adv s1 k) t) fun rhs s2 t2 => opLoopS cfg rec p fuel (.bin op el rhs) s2 t2

/-- The compile time optimisation at the end of `element` (`parser.rs:180-183`). -/
def finishS (cfg : Cfg) (w : World) (u : Stateful σ) (el : Elem) (s : St) (t : σ) : R Elem × σ :=
  if cfg.opt then
    match simplifyS cfg w u el t with
    | (.ok e, t') => (.ok e s, t')
    | (.error p, t') => (.panic p, t')
  else (.ok el s, t)

/-- The body of `element` (`parser.rs:161-186`). -/
def elementFS (cfg : Cfg) (w : World) (u : Stateful σ) (ctx : Context)
    (rec : Nat → St → σ → R Elem × σ) (p : Nat) (s : St) (t : σ) : R Elem × σ :=
  R.bindS (atomS cfg ctx rec s t) fun a s1 t1 =>
    let el := if (consumeIf c!"!" s1).1 then .un .factorial a else a
    let s2 := (consumeIf c!"!" s1).2
    R.bindS (opLoopS cfg rec p (s2.rest.length + 1) el s2 t1) fun el' s3 t3 =>
      finishS cfg w u el' s3 t3

/-- `element` (`parser.rs:161-186`) -/
def elementS (cfg : Cfg) (w : World) (u : Stateful σ) (ctx : Context) :
    Nat → Nat → St → σ → R Elem × σ
  | 0, _, _, t => (.fuel, t)
  | n + 1, p, s, t => elementFS cfg w u ctx (elementS cfg w u ctx n) p s t

/-- `ParserImpl::parse` (`parser.rs:134-153`) -/
def parseImplS (cfg : Cfg) (w : World) (u : Stateful σ) (ctx : Context) (input : Bytes) (t : σ) :
    PRes × σ :=
  match elementS cfg w u ctx (input.length + 1) noPrec ⟨0, input⟩ t with
  | (.ok root s, t') =>
    match (trim s).rest.head? with
    | some c => (.err ⟨.unexpectedToken c, (trim s).pos, 0⟩, t')
    | none => (.ok ⟨root, findVars root []⟩, t')
  | (.err e _, t') => (.err e, t')
  | (.panic p, t') => (.panic p, t')
  | (.fuel, t') => (.fuel, t')

/-- `Parser::parse` (`parser.rs:85-106`) -/
def parseS (cfg : Cfg) (w : World) (u : Stateful σ) (o : Oracle) (ctx : Context) (input : Bytes)
    (t : σ) : PRes × σ :=
  match parseImplS cfg w u ctx input t with
  | (.ok x, t') =>
    match ctx.getExpected with
    | some expected =>
      match (diffVars o x.vars expected).head? with
      | some v => (.err ⟨.variableNotDeclared v (o.ord expected), 0, input.length⟩, t')
      | none => (.ok x, t')
    | none => (.ok x, t')
  | r => r

namespace Xpr

/-- `Xprs::eval` (`xprs.rs:75-80`) -/
def evalS (w : World) (u : Stateful σ) (e : Xpr) (m : HMap F64) (t : σ) : Except EvErr F64 × σ :=
  _root_.Xprs.evalS w u m e.root t
/-- `Xprs::eval_unchecked` (`xprs.rs:119-121`) -/
def evalUncheckedS (w : World) (u : Stateful σ) (e : Xpr) (m : HMap F64) (t : σ) : PM F64 × σ :=
  _root_.Xprs.evalUS w u m e.root t

/-- `simplify_for_in_place` (`xprs.rs:143-148`) and `simplify_for` (194-197). -/
def simplifyForS (cfg : Cfg) (w : World) (u : Stateful σ) (e : Xpr) (x : Bytes) (v : F64) (t : σ) :
    PM Xpr × σ :=
  match _root_.Xprs.simplifyForS cfg w u x v e.root t with
  | (.error p, t') => (.error p, t')
  | (.ok root, t') => (.ok ⟨root, removeVar e.vars x⟩, t')

end Xpr

end Xprs
