import Verif.Eval
/-
The same code with a count of the steps it takes.

Every function returns what the function of the same name returns, paired with a number
of steps.  A step is a call of `eq`, `simplify`, `simplify_for`, `eval_element` or
`find_variables` on one element, an arm of a `match` that is tried, an argument passed to
a function, or a byte of the input that is looked at or copied.  Not counted: the work of
user functions and of single operations of the standard library (arithmetic, `powf`, hash
tables, comparing two names); reading a number takes as many steps as its text has bytes.
`C65_same` shows that the values are those of the code without the count.
-/
namespace Xprs

/-- `n` more steps. -/
def tick {α : Type} (n : Nat) (x : α × Nat) : α × Nat := (x.1, n + x.2)

/-- Sequencing (`?`, unwinding): the steps add up. -/
def thenC {ε α β : Type} (x : Except ε α × Nat) (f : α → Except ε β × Nat) : Except ε β × Nat :=
  match x with
  | (.error p, n) => (.error p, n)
  | (.ok a, n) => tick n (f a)

/-! ### `==` -/

/-- `&&` -/
def andC (x y : PM Bool × Nat) : PM Bool × Nat :=
  thenC x fun b => if b then y else (.ok false, 0)
/-- `||` -/
def orC (x y : PM Bool × Nat) : PM Bool × Nat :=
  thenC x fun b => if b then (.ok true, 0) else y

mutual
/-- `==` on `Element` (`binop.rs:39-60`, derived for the others) -/
def eqC : Elem → Elem → PM Bool × Nat
  | .num a, .num b => (.ok (F64.beq a b), 1)
  | .bin o l r, .bin o' l' r' =>
    tick 1 <|
    if o = o' then
      match o with
      | .divide | .minus | .modulo | .power => andC (eqC l l') (eqC r r')
      | .plus | .times => orC (andC (eqC l l') (eqC r r')) (andC (eqC l r') (eqC r l'))
      | .factorial => (.error .unreachable, 0)
    else (.ok false, 0)
  | .un o e, .un o' e' => tick 1 (if o = o' then eqC e e' else (.ok false, 0))
  | .call f as, .call g bs =>
    tick 1 <|
    if f = g then (if as.length = bs.length then eqCL as bs else (.ok false, 0)) else (.ok false, 0)
  | .var a, .var b => (.ok (decide (a = b)), 1)
  | _, _ => (.ok false, 1)
def eqCL : List Elem → List Elem → PM Bool × Nat
  | a :: as, b :: bs => andC (eqC a b) (eqCL as bs)
  | _, _ => (.ok true, 0)
end

/-! ### `simplify.rs` -/

/-- An arm guarded by a comparison with a literal, followed by the remaining arms. -/
def armC (g : Bool) (res : Elem) (rest : PM Elem × Nat) : PM Elem × Nat :=
  if g then (.ok res, 1) else tick 1 rest
/-- An arm with two such guards. -/
def armC2 (g g' : Bool) (res : Elem) (rest : PM Elem × Nat) : PM Elem × Nat :=
  if g && g' then (.ok res, 2) else tick 2 rest
/-- An arm guarded by the comparison of two elements. -/
def guardC (a b : Elem) (res : Elem) (rest : PM Elem × Nat) : PM Elem × Nat :=
  thenC (eqC a b) fun c => if c then (.ok res, 1) else tick 1 rest
/-- The last two arms of `BinOp::simplify` (`simplify.rs:221-238`) -/
def foldC (w : World) (op : Op) (l r : Elem) : PM Elem × Nat := (foldBin w op l r, 1)

/-- The `Plus` arms (`simplify.rs:53-72`) -/
def simpPlusC (cfg : Cfg) (w : World) (l r : Elem) : PM Elem × Nat :=
  armC l.is0 r <| armC r.is0 l <|
    let tail := foldC w .plus l r
    let second :=
      match cfg.nightly, r.negOf? with
      | true, some operand => guardC l operand (.num F64.f0) tail
      | _, _ => tail
    match cfg.nightly, l.negOf? with
    | true, some operand => guardC operand r (.num F64.f0) second
    | _, _ => second
/-- The `Minus` arms (`simplify.rs:73-99`) -/
def simpMinusC (cfg : Cfg) (w : World) (l r : Elem) : PM Elem × Nat :=
  armC l.is0 (.un .minus r) <| armC r.is0 l <| guardC l r (.num F64.f0) <|
    match cfg.nightly, r.negOf? with
    | true, some operand => (.ok (.bin .plus l operand), 1)
    | _, _ => foldC w .minus l r
/-- The `Times` arms (`simplify.rs:100-132`) -/
def simpTimesC (cfg : Cfg) (w : World) (l r : Elem) : PM Elem × Nat :=
  armC l.is0 (.num F64.f0) <| armC r.is0 (.num F64.f0) <| armC l.is1 r <| armC r.is1 l <|
    match cfg.nightly, l.negOf?, r.negOf? with
    | true, some a, some b => (.ok (.bin .times a b), 1)
    | _, _, _ => foldC w .times l r
/-- The `Divide` arms (`simplify.rs:133-175`, 186-188) -/
def simpDivideC (cfg : Cfg) (w : World) (l r : Elem) : PM Elem × Nat :=
  armC2 l.is0 r.is0 (.num .nan) <| armC l.is0 (.num F64.f0) <| armC r.is0 (.num (.inf false)) <|
    armC r.is1 l <| guardC l r (.num F64.f1) <|
      match cfg.nightly, l.negOf?, r.negOf? with
      | true, some a, some b => (.ok (.bin .divide a b), 1)
      | _, _, _ => armC r.is0 (.num F64.f1) (foldC w .divide l r)
/-- The `Power` arms (`simplify.rs:176-184, 189-194`) -/
def simpPowerC (w : World) (l r : Elem) : PM Elem × Nat :=
  armC2 l.is0 r.is0 (.num F64.f1) <| armC l.is0 (.num F64.f0) <| armC r.is1 l <| foldC w .power l r
/-- The `Modulo` arms (`simplify.rs:195-219`) -/
def simpModuloC (w : World) (l r : Elem) : PM Elem × Nat :=
  armC2 l.is0 r.is0 (.num .nan) <| armC l.is0 (.num F64.f0) <| armC r.is0 (.num .nan) <|
    armC r.is1 (.num F64.f0) <| guardC l r (.num F64.f0) (foldC w .modulo l r)
/-- The `match self` of `BinOp::simplify` (`simplify.rs:52-239`) -/
def simpBinC (cfg : Cfg) (w : World) : Op → Elem → Elem → PM Elem × Nat
  | .plus => simpPlusC cfg w
  | .minus => simpMinusC cfg w
  | .times => simpTimesC cfg w
  | .divide => simpDivideC cfg w
  | .power => simpPowerC w
  | .modulo => simpModuloC w
  | .factorial => foldC w .factorial

mutual
/-- `Element::simplify` (`simplify.rs:29-36`) and what it calls. -/
def simplifyC (cfg : Cfg) (w : World) : Elem → PM Elem × Nat
  | .num x => (.ok (.num x), 1)
  | .var n => (.ok (.var n), 1)
  | .bin op l r =>
    tick 1 <| thenC (simplifyC cfg w l) fun l' => thenC (simplifyC cfg w r) fun r' =>
      simpBinC cfg w op l' r'
  | .un op e => tick 1 <| thenC (simplifyC cfg w e) fun e' => (simpUn op e', 1)
  | .call f args =>
    tick 1 <| thenC (simplifyCL cfg w args) fun args' => (simpCall w f args', args'.length)
/-- `simplify.rs:292-302` -/
def simplifyCL (cfg : Cfg) (w : World) : List Elem → PM (List Elem) × Nat
  | [] => (.ok [], 0)
  | a :: as =>
    thenC (simplifyC cfg w a) fun a' => thenC (simplifyCL cfg w as) fun as' => (.ok (a' :: as'), 0)
end

mutual
/-- `Element::simplify_for` (`simplify.rs:19-27`) and what it calls. -/
def simplifyForC (cfg : Cfg) (w : World) (x : Bytes) (v : F64) : Elem → PM Elem × Nat
  | .num a => (.ok (.num a), 1)
  | .var n => if n = x then (.ok (.num v), 1) else (.ok (.var n), 1)
  | .bin op l r =>
    tick 1 <| thenC (simplifyForC cfg w x v l) fun l' => thenC (simplifyForC cfg w x v r) fun r' =>
      simplifyC cfg w (.bin op l' r')
  | .un op e => tick 1 <| thenC (simplifyForC cfg w x v e) fun e' => simplifyC cfg w (.un op e')
  | .call f args =>
    tick 1 <| thenC (simplifyForCL cfg w x v args) fun args' => simplifyC cfg w (.call f args')
/-- `simplify.rs:278-282` -/
def simplifyForCL (cfg : Cfg) (w : World) (x : Bytes) (v : F64) : List Elem → PM (List Elem) × Nat
  | [] => (.ok [], 0)
  | a :: as =>
    thenC (simplifyForC cfg w x v a) fun a' => thenC (simplifyForCL cfg w x v as) fun as' =>
      (.ok (a' :: as'), 0)
end

/-! ### `xprs.rs`, `element/mod.rs` -/

mutual
/-- `eval_element` (`xprs.rs:272-317`) -/
def evalC (w : World) (m : HMap F64) : Elem → Except EvErr F64 × Nat
  | .num x => (.ok x, 1)
  | .var n =>
    match m.get n with
    | some x => (.ok x, 1)
    | none => (.error (.missing n), 1)
  | .un op e => tick 1 <| thenC (evalC w m e) fun v => (liftP (unF op v), 0)
  | .bin op l r =>
    tick 1 <| thenC (evalC w m l) fun a => thenC (evalC w m r) fun b => (liftP (binF w op a b), 0)
  | .call f args =>
    tick 1 <| thenC (evalCL w m args) fun vs => (liftP (callFn w f vs), vs.length)
/-- `map(..).collect::<Result<Vec<_>, _>>()` (`xprs.rs:307-311`) -/
def evalCL (w : World) (m : HMap F64) : List Elem → Except EvErr (List F64) × Nat
  | [] => (.ok [], 0)
  | a :: as =>
    thenC (evalC w m a) fun v => thenC (evalCL w m as) fun vs => (.ok (v :: vs), 0)
end

mutual
/-- The steps of `Element::find_variables` (`element/mod.rs:76-93`). -/
def findCost : Elem → Nat
  | .var _ => 1
  | .bin _ l r => 1 + findCost l + findCost r
  | .un _ e => 1 + findCost e
  | .call _ args => 1 + findCostL args
  | .num _ => 1
def findCostL : List Elem → Nat
  | [] => 0
  | a :: as => findCost a + findCostL as
end

/-! ### `parser.rs` -/

/-- Sequencing (`?` and plain statements). -/
def R.bindC {α β : Type} (x : R α × Nat) (f : α → St → R β × Nat) : R β × Nat :=
  match x with
  | (.ok a s, n) => tick n (f a s)
  | (.err e s, n) => (.err e s, n)
  | (.panic p, n) => (.panic p, n)
  | (.fuel, n) => (.fuel, n)

/-- Making an error copies the whole input (`src: ... .to_owned()`,
`parser.rs:561-670`). -/
def errC {α : Type} (s : St) (r : R α) : R α × Nat := (r, s.pos + s.rest.length + 1)

/-- The bytes `skip_while` looks at between `s` and `s'`, the one it stops at included. -/
def gap (s s' : St) : Nat := s'.pos - s.pos + 1

/-- `assert_eq_consume` (`parser.rs:442-447`) -/
def assertConsumeC (c : UInt8) (s : St) : R Unit × Nat :=
  tick (gap s (consumeIf c s).2) <|
  if (consumeIf c s).1 then (.ok () (consumeIf c s).2, 0)
  else errC (consumeIf c s).2 (errExpected (consumeIf c s).2 c)

/-- `parse_number` (`parser.rs:283-311`): the literal is skipped, filtered and converted;
three more bytes are looked at for an exponent. -/
def parseNumberC (s : St) : R Elem × Nat :=
  let s' := numEnd s
  let txt := s.rest.take (s'.pos - s.pos)
  tick (3 * gap s s' + 3) <|
  match parseF64 (txt.filter (· ≠ c!"_")) with
  | some x => (.ok (.num x) s', 0)
  | none => errC s' (errNum s' txt)

/-- `argument` (`parser.rs:337-354`) -/
def argumentC (cfg : Cfg) (rec : Nat → St → R Elem × Nat) (s : St) : R Elem × Nat :=
  match rec noPrec s with
  | (.err e s', n) =>
    match e.kind with
    | .unexpectedToken _ => tick n (errC s' (errMissing cfg s'))
    | _ => (.err e s', n)
  | r => r

/-- `parse_arguments` (`parser.rs:314-334`) -/
def parseArgsC (cfg : Cfg) (rec : Nat → St → R Elem × Nat) : Nat → List Elem → St → R (List Elem) × Nat
  | 0, _, _ => (.fuel, 0)
  | fuel + 1, args, s =>
    R.bindC (argumentC cfg rec s) fun arg s1 =>
      let s2 := trim s1
      tick (gap s1 s2) <|
      match s2.rest.head? with
      | some c =>
        if c = c!"," then parseArgsC cfg rec fuel (args ++ [arg]) (adv s2 1)
        else if c = c!")" then (.ok (args ++ [arg]) s2, 0)
        else errC s2 (errTok s2 c)
      | none => errC s2 (errEnd cfg s2)

/-- The arity check of `parse_identifier` (`parser.rs:250-272`) -/
def checkArityC (f : Func) (args : List Elem) (start : Nat) (s : St) : R Elem × Nat :=
  match f.nbArgs with
  | some n =>
    if args.length = n then (.ok (.call f args) s, 1)
    else if args.length < n then errC s (errTooFew s n args.length start)
    else errC s (errTooMany s n args.length start)
  | none => (.ok (.call f args) s, 1)

/-- `parse_identifier` (`parser.rs:228-280`): the name is skipped and looked up. -/
def parseIdentC (cfg : Cfg) (ctx : Context) (rec : Nat → St → R Elem × Nat) (s : St) : R Elem × Nat :=
  let name := s.rest.takeWhile isIdChar
  let s1 := skipWhile isIdChar s
  tick (2 * gap s s1) <|
  match lookup ctx name with
  | .const x => (.ok (.num x) s1, 0)
  | .var n => (.ok (.var n) s1, 0)
  | .func f =>
    tick (gap s1 (consumeIf c!"(" s1).2) <|
    if (consumeIf c!"(" s1).1 then
      let s2 := (consumeIf c!"(" s1).2
      R.bindC (parseArgsC cfg rec (s2.rest.length + 1) [] s2) fun args s3 =>
        R.bindC (assertConsumeC c!")" s3) fun _ s4 => checkArityC f args s.pos s4
    else errC (consumeIf c!"(" s1).2 (errExpected (consumeIf c!"(" s1).2 c!"(")

/-- `atom` (`parser.rs:189-225`) -/
def atomC (cfg : Cfg) (ctx : Context) (rec : Nat → St → R Elem × Nat) (s0 : St) : R Elem × Nat :=
  let s := trim s0
  tick (gap s0 s) <|
  match s.rest.head? with
  | none => errC s (errEnd cfg s)
  | some c =>
    if isDigit c || decide (c = c!".") then parseNumberC s
    else if isIdStart c then parseIdentC cfg ctx rec s
    else if c = c!"+" then
      R.bindC (rec unopPrec (adv s 1)) fun e s' => (.ok (.un .plus e) s', 1)
    else if c = c!"-" then
      R.bindC (rec unopPrec (adv s 1)) fun e s' => (.ok (.un .minus e) s', 1)
    else if c = c!"(" then
      R.bindC (rec noPrec (adv s 1)) fun e s' =>
        R.bindC (assertConsumeC c!")" s') fun _ s'' => (.ok e s'', 1)
    else if c = c!")" then errC s (errTok s c)
    else errC s (errIllegal s c)

/-- The `while let` loop of `element` (`parser.rs:173-178`) -/
def opLoopC (cfg : Cfg) (rec : Nat → St → R Elem × Nat) (p : Nat) : Nat → Elem → St → R Elem × Nat
  | 0, _, _ => (.fuel, 0)
  | fuel + 1, el, s =>
    let s1 := trim s
    tick (gap s s1) <|
    match opInfo cfg el p s1 with
    | none => (.ok el s1, 0)
    | some (op, q, k) =>
      R.bindC (rec q (adv s1 k)) fun rhs s2 => opLoopC cfg rec p fuel (.bin op el rhs) s2

/-- The compile time optimisation at the end of `element` (`parser.rs:180-183`). -/
def finishC (cfg : Cfg) (w : World) (el : Elem) (s : St) : R Elem × Nat :=
  if cfg.opt then
    match simplifyC cfg w el with
    | (.ok e, n) => (.ok e s, n)
    | (.error p, n) => (.panic p, n)
  else (.ok el s, 0)

/-- The body of `element` (`parser.rs:161-186`). -/
def elementFC (cfg : Cfg) (w : World) (ctx : Context) (rec : Nat → St → R Elem × Nat)
    (p : Nat) (s : St) : R Elem × Nat :=
  tick 1 <| R.bindC (atomC cfg ctx rec s) fun a s1 =>
    let el := if (consumeIf c!"!" s1).1 then .un .factorial a else a
    let s2 := (consumeIf c!"!" s1).2
    tick (gap s1 s2) <|
    R.bindC (opLoopC cfg rec p (s2.rest.length + 1) el s2) fun el' s3 => finishC cfg w el' s3

/-- `element` (`parser.rs:161-186`) -/
def elementC (cfg : Cfg) (w : World) (ctx : Context) : Nat → Nat → St → R Elem × Nat
  | 0, _, _ => (.fuel, 0)
  | n + 1, p, s => elementFC cfg w ctx (elementC cfg w ctx n) p s

/-- `ParserImpl::parse` (`parser.rs:134-153`) -/
def parseImplC (cfg : Cfg) (w : World) (ctx : Context) (input : Bytes) : PRes × Nat :=
  match elementC cfg w ctx (input.length + 1) noPrec ⟨0, input⟩ with
  | (.ok root s, n) =>
    tick (n + gap s (trim s)) <|
    match (trim s).rest.head? with
    | some c => (.err ⟨.unexpectedToken c, (trim s).pos, 0⟩, input.length)
    | none => (.ok ⟨root, findVars root []⟩, findCost root)
  | (.err e _, n) => (.err e, n)
  | (.panic p, n) => (.panic p, n)
  | (.fuel, n) => (.fuel, n)

/-- `Parser::parse` (`parser.rs:85-106`): one step for every variable of the expression,
and the declared ones are copied into an error. -/
def parseC (cfg : Cfg) (w : World) (o : Oracle) (ctx : Context) (input : Bytes) : PRes × Nat :=
  match parseImplC cfg w ctx input with
  | (.ok x, n) =>
    match ctx.getExpected with
    | some expected =>
      match (diffVars o x.vars expected).head? with
      | some v =>
        (.err ⟨.variableNotDeclared v (o.ord expected), 0, input.length⟩,
          n + x.vars.length + input.length + expected.length)
      | none => (.ok x, n + x.vars.length)
    | none => (.ok x, n)
  | r => r

end Xprs
