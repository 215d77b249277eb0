import Verif.Heap
/-
`/repo/src/parser.rs` with the boxes it allocates and frees (see `Heap.lean`).

Where an error is returned with `?` or `yeet!`, and where a panic unwinds, the elements a
function holds at that point are dropped; this is written out call by call.  What
`Verif/Parser.lean` says about the functions of the same name applies here too.
-/
namespace Xprs

/-- Sequencing (`?` and plain statements); `clean` drops what the caller holds meanwhile. -/
def R.thenH {α β : Type} (x : R α × Mem) (clean : Mem → Mem) (f : α → St → Mem → R β × Mem) :
    R β × Mem :=
  match x with
  | (.ok a s, m) => f a s m
  | (.err e s, m) => (.err e s, clean m)
  | (.panic p, m) => (.panic p, clean m)
  | (.fuel, m) => (.fuel, clean m)

/-- A computation that does not move the cursor. -/
def R.ofRun (x : Run HElem) (s : St) : R HElem × Mem :=
  match x with
  | (.ok e, m) => (.ok e s, m)
  | (.error p, m) => (.panic p, m)

/-- `parse_number` (`parser.rs:283-311`): a number is not boxed. -/
def parseNumberH (s : St) : R HElem :=
  let s' := numEnd s
  let txt := s.rest.take (s'.pos - s.pos)
  match parseF64 (txt.filter (· ≠ c!"_")) with
  | some x => .ok (.num x) s'
  | none => errNum s' txt

/-- `argument` (`parser.rs:337-354`) -/
def argumentH (cfg : Cfg) (rec : Nat → St → Mem → R HElem × Mem) (s : St) (m : Mem) : R HElem × Mem :=
  match rec noPrec s m with
  | (.err e s', m') =>
    match e.kind with
    | .unexpectedToken _ => (errMissing cfg s', m')
    | _ => (.err e s', m')
  | r => r

/-- `parse_arguments` (`parser.rs:314-334`) -/
def parseArgsH (cfg : Cfg) (rec : Nat → St → Mem → R HElem × Mem) :
    Nat → List HElem → St → Mem → R (List HElem) × Mem
  | 0, args, _, m => (.fuel, m.dropL args)
  | fuel + 1, args, s, m =>
    R.thenH (argumentH cfg rec s m) (fun m => m.dropL args) fun arg s1 m1 =>
      let s2 := trim s1
      match s2.rest.head? with
      | some c =>
        if c = c!"," then parseArgsH cfg rec fuel (args ++ [arg]) (adv s2 1) m1
        else if c = c!")" then (.ok (args ++ [arg]) s2, m1)
        else (errTok s2 c, m1.dropL (args ++ [arg]))
      | none => (errEnd cfg s2, m1.dropL (args ++ [arg]))

/-- The arity check of `parse_identifier` and `FunctionCall::new_element`
(`parser.rs:250-273`). -/
def checkArityH (f : Func) (args : List HElem) (start : Nat) (s : St) (m : Mem) : R HElem × Mem :=
  match f.nbArgs with
  | some n =>
    if args.length = n then R.ofRun (newCall m f args) s
    else if args.length < n then (errTooFew s n args.length start, (m.dropL args).release f)
    else (errTooMany s n args.length start, (m.dropL args).release f)
  | none => R.ofRun (newCall m f args) s

/-- `parse_identifier` (`parser.rs:228-280`): `cloned()` makes a reference to the function
(`parser.rs:240`), which moves into the call or is dropped with `ident`. -/
def parseIdentH (cfg : Cfg) (ctx : Context) (rec : Nat → St → Mem → R HElem × Mem) (s : St) (m : Mem) :
    R HElem × Mem :=
  let name := s.rest.takeWhile isIdChar
  let s1 := skipWhile isIdChar s
  match lookup ctx name with
  | .const x => (.ok (.num x) s1, m)
  | .var n => (.ok (.var n) s1, m)
  | .func f =>
    if (consumeIf c!"(" s1).1 then
      let s2 := (consumeIf c!"(" s1).2
      R.thenH (parseArgsH cfg rec (s2.rest.length + 1) [] s2 (m.share f)) (fun m => m.release f)
        fun args s3 m3 =>
          R.thenH (assertConsume c!")" s3, m3) (fun m => (m.dropL args).release f) fun _ s4 m4 =>
            checkArityH f args s.pos s4 m4
    else (errExpected (consumeIf c!"(" s1).2 c!"(", (m.share f).release f)

/-- `atom` (`parser.rs:189-225`) -/
def atomH (cfg : Cfg) (ctx : Context) (rec : Nat → St → Mem → R HElem × Mem) (s0 : St) (m : Mem) :
    R HElem × Mem :=
  let s := trim s0
  match s.rest.head? with
  | none => (errEnd cfg s, m)
  | some c =>
    if isDigit c || decide (c = c!".") then (parseNumberH s, m)
    else if isIdStart c then parseIdentH cfg ctx rec s m
    else if c = c!"+" then
      R.thenH (rec unopPrec (adv s 1) m) id fun e s' m' => R.ofRun (newUn m' .plus e) s'
    else if c = c!"-" then
      R.thenH (rec unopPrec (adv s 1) m) id fun e s' m' => R.ofRun (newUn m' .minus e) s'
    else if c = c!"(" then
      R.thenH (rec noPrec (adv s 1) m) id fun e s' m' =>
        R.thenH (assertConsume c!")" s', m') (fun m => m.drop e) fun _ s'' m'' => (.ok e s'', m'')
    else if c = c!")" then (errTok s c, m)
    else (errIllegal s c, m)

/-- The `while let` loop of `element` (`parser.rs:173-178`) -/
def opLoopH (cfg : Cfg) (rec : Nat → St → Mem → R HElem × Mem) (p : Nat) :
    Nat → HElem → St → Mem → R HElem × Mem
  | 0, el, _, m => (.fuel, m.drop el)
  | fuel + 1, el, s, m =>
    let s1 := trim s
    match opInfo cfg el.erase p s1 with
    | none => (.ok el s1, m)
    | some (op, q, k) =>
      R.thenH (rec q (adv s1 k) m) (fun m => m.drop el) fun rhs s2 m2 =>
        R.thenH (R.ofRun (newBin m2 op el rhs) s2) id fun el' s3 m3 => opLoopH cfg rec p fuel el' s3 m3

/-- The compile time optimisation at the end of `element` (`parser.rs:180-183`). -/
def finishH (cfg : Cfg) (w : World) (el : HElem) (s : St) (m : Mem) : R HElem × Mem :=
  if cfg.opt then R.ofRun (simplifyH cfg w m el) s else (.ok el s, m)

/-- `if self.consume_if_eq(b'!')` (`parser.rs:168-170`) -/
def bangH (bang : Bool) (m : Mem) (a : HElem) : Run HElem :=
  if bang then newUn m .factorial a else (.ok a, m)

/-- The body of `element` (`parser.rs:161-186`). -/
def elementFH (cfg : Cfg) (w : World) (ctx : Context) (rec : Nat → St → Mem → R HElem × Mem)
    (p : Nat) (s : St) (m : Mem) : R HElem × Mem :=
  R.thenH (atomH cfg ctx rec s m) id fun a s1 m1 =>
    R.thenH (R.ofRun (bangH (consumeIf c!"!" s1).1 m1 a) (consumeIf c!"!" s1).2) id fun el s2 m2 =>
      R.thenH (opLoopH cfg rec p (s2.rest.length + 1) el s2 m2) id fun el' s3 m3 =>
        finishH cfg w el' s3 m3

/-- `element` (`parser.rs:161-186`) -/
def elementH (cfg : Cfg) (w : World) (ctx : Context) : Nat → Nat → St → Mem → R HElem × Mem
  | 0, _, _, m => (.fuel, m)
  | n + 1, p, s, m => elementFH cfg w ctx (elementH cfg w ctx n) p s m

/-- Result of `Parser::parse`, with addresses. -/
inductive HRes where
  | ok (x : HXpr)
  | err (e : PErr)
  | panic (p : Panic)
  | fuel

/-- The result without addresses. -/
def HRes.erase : HRes → PRes
  | .ok x => .ok x.erase
  | .err e => .err e
  | .panic p => .panic p
  | .fuel => .fuel

/-- What the caller owns afterwards. -/
def HRes.kept : HRes → List HXpr
  | .ok x => [x]
  | _ => []

/-- `ParserImpl::parse` (`parser.rs:134-153`): when something follows the expression, `root`
is dropped. -/
def parseImplH (cfg : Cfg) (w : World) (ctx : Context) (m : Mem) (input : Bytes) : HRes × Mem :=
  match elementH cfg w ctx (input.length + 1) noPrec ⟨0, input⟩ m with
  | (.ok root s, m1) =>
    match (trim s).rest.head? with
    | some c => (.err ⟨.unexpectedToken c, (trim s).pos, 0⟩, m1.drop root)
    | none => (.ok ⟨root, findVars root.erase []⟩, m1)
  | (.err e _, m1) => (.err e, m1)
  | (.panic p, m1) => (.panic p, m1)
  | (.fuel, m1) => (.fuel, m1)

/-- `Parser::parse` (`parser.rs:85-106`): for an undeclared variable `xprs` is dropped. -/
def parseH (cfg : Cfg) (w : World) (o : Oracle) (ctx : Context) (m : Mem) (input : Bytes) : HRes × Mem :=
  match parseImplH cfg w ctx m input with
  | (.ok x, m1) =>
    match ctx.getExpected with
    | some expected =>
      match (diffVars o x.vars expected).head? with
      | some v => (.err ⟨.variableNotDeclared v (o.ord expected), 0, input.length⟩, m1.dropX x)
      | none => (.ok x, m1)
    | none => (.ok x, m1)
  | r => r

end Xprs
