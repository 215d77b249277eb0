import Verif.Simplify
/-
`/repo/src/parser.rs`, `/repo/src/token/operator.rs`, `/repo/src/utils/precedence.rs`.
-/
namespace Xprs

/-! ### Character classes -/

/-- `u8::is_ascii_digit`, the pattern `b'0'..=b'9'` -/
def isDigit (c : UInt8) : Bool := decide (48 ≤ c ∧ c ≤ 57)
/-- the pattern `b'a'..=b'z'` -/
def isLower (c : UInt8) : Bool := decide (97 ≤ c ∧ c ≤ 122)
/-- the pattern `b'A'..=b'Z'` -/
def isUpper (c : UInt8) : Bool := decide (65 ≤ c ∧ c ≤ 90)
/-- `u8::is_ascii_whitespace`: space, `\t`, `\n`, `\x0C`, `\r` -/
def isWs (c : UInt8) : Bool :=
  decide (c = 32 ∨ c = 9 ∨ c = 10 ∨ c = 12 ∨ c = 13)
/-- the first-character test for identifiers (`parser.rs:197`) -/
def isIdStart (c : UInt8) : Bool := isUpper c || isLower c
/-- the predicate of `parse_identifier` (`parser.rs:231`) -/
def isIdChar (c : UInt8) : Bool :=
  decide (c = c!"_") || decide (c = c!"'") || isUpper c || isLower c || isDigit c
/-- the predicate of `parse_number` (`parser.rs:285`) -/
def isNumChar (c : UInt8) : Bool :=
  isDigit c || decide (c = c!".") || decide (c = c!"_")

/-! ### Operators and precedences -/

/-- `TryFrom<u8> for Operator` (`/repo/src/token/operator.rs:29-40`) -/
def opOfByte (c : UInt8) : Option Op :=
  if c = c!"!" then some .factorial
  else if c = c!"+" then some .plus
  else if c = c!"-" then some .minus
  else if c = c!"*" then some .times
  else if c = c!"/" then some .divide
  else if c = c!"^" then some .power
  else if c = c!"%" then some .modulo
  else none

/-- `get_for_op` (`/repo/src/utils/precedence.rs:23-31`) -/
def precOf : Op → Nat
  | .plus | .minus => 1
  | .times | .divide | .modulo => 2
  | .power => 4
  | .factorial => 5

/-- `NO_PRECEDENCE` (`precedence.rs:5`) -/
def noPrec : Nat := 0
/-- `UNOP_PRECEDENCE` (`precedence.rs:7`) -/
def unopPrec : Nat := 3
/-- `IMPLICIT_MULTIPLICATION_PRECEDENCE` (`precedence.rs:11-16`) -/
def implPrec (cfg : Cfg) : Nat := if cfg.pejmdas then 3 else precOf .times

/-! ### Errors -/

/-- `ErrorKind` (`parser.rs:531-559`); a `char` made from a byte is the byte. -/
inductive ErrKind where
  | unexpectedEnd
  | unexpectedToken (c : UInt8)
  | malformedNumber (s : Bytes)
  | illegalCharacter (c : UInt8)
  | expectedToken (c : UInt8)
  | variableNotDeclared (v : Bytes) (avail : List Bytes)
  | tooFew (expected got : Nat)
  | tooMany (expected got : Nat)
  | missingArgument
  deriving DecidableEq, Repr

/-- `ParseError` (`parser.rs:453-460`): kind and span (offset, length).  The source
text is omitted: every constructor stores the parser's input.  Assumption on
`miette` 7: a span made from an offset alone has length 0, one made from a range
`a..b` is `(a, b - a)`. -/
structure PErr where
  kind : ErrKind
  off : Nat
  len : Nat
  deriving DecidableEq, Repr

/-- State of `ParserImpl` (`parser.rs:113-121`): the cursor and `input[cursor..]`
(all reads are `input.get(cursor + k)`; the input before the cursor is never read
again except for the slices, which are taken from the text just skipped). -/
structure St where
  pos : Nat
  rest : Bytes
  deriving DecidableEq

/-- Outcome of a parsing function: a value and the new state, an error (with the
state at that point, because `argument` reads the cursor afterwards), a panic, or
running out of the fuel of the model. -/
inductive R (α : Type) where
  | ok (a : α) (s : St)
  | err (e : PErr) (s : St)
  | panic (p : Panic)
  | fuel

/-- Sequencing (`?` and plain statements). -/
def R.bind {α β : Type} (x : R α) (f : α → St → R β) : R β :=
  match x with
  | .ok a s => f a s
  | .err e s => .err e s
  | .panic p => .panic p
  | .fuel => .fuel

/-- `a - 1` on `usize`: panics on underflow with overflow checks, else wraps. -/
def subOne (cfg : Cfg) (a : Nat) : PM Nat :=
  if a = 0 then (if cfg.overflowChecks then .error .overflow else .ok (2 ^ cfg.usize.bits - 1))
  else .ok (a - 1)

/-- `new_unexpected_end_of_expression` (`parser.rs:564-572`) -/
def errEnd {α : Type} (cfg : Cfg) (s : St) : R α :=
  match subOne cfg s.pos with
  | .error p => .panic p
  | .ok o => .err ⟨.unexpectedEnd, o, 0⟩ s
/-- `new_unexpected_token` (`parser.rs:576-582`) -/
def errTok {α : Type} (s : St) (c : UInt8) : R α := .err ⟨.unexpectedToken c, s.pos, 0⟩ s
/-- `new_malformed_number` (`parser.rs:586-593`) -/
def errNum {α : Type} (s : St) (txt : Bytes) : R α :=
  .err ⟨.malformedNumber txt, s.pos - txt.length, txt.length⟩ s
/-- `new_illegal_character` (`parser.rs:597-603`) -/
def errIllegal {α : Type} (s : St) (c : UInt8) : R α :=
  .err ⟨.illegalCharacter c, s.pos, 0⟩ s
/-- `new_expected_token` (`parser.rs:607-613`) -/
def errExpected {α : Type} (s : St) (c : UInt8) : R α :=
  .err ⟨.expectedToken c, s.pos, 0⟩ s
/-- `new_too_few_arguments` (`parser.rs:634-645`) -/
def errTooFew {α : Type} (s : St) (expected got start : Nat) : R α :=
  .err ⟨.tooFew expected got, start, s.pos - start⟩ s
/-- `new_too_many_arguments` (`parser.rs:649-660`) -/
def errTooMany {α : Type} (s : St) (expected got start : Nat) : R α :=
  .err ⟨.tooMany expected got, start, s.pos - start⟩ s
/-- `new_missing_argument` (`parser.rs:664-670`) -/
def errMissing {α : Type} (cfg : Cfg) (s : St) : R α :=
  match subOne cfg s.pos with
  | .error p => .panic p
  | .ok o => .err ⟨.missingArgument, o, 2⟩ s

/-! ### Lexing helpers -/

/-- `self.cursor += n` -/
def adv (s : St) (n : Nat) : St := ⟨s.pos + n, s.rest.drop n⟩

/-- `skip_while` (`parser.rs:371-375`) -/
def skipWhile (p : UInt8 → Bool) (s : St) : St :=
  adv s (s.rest.takeWhile p).length

/-- `next_trim` (`parser.rs:390-393`): the state after skipping whitespace; the
current byte is `(trim s).rest.head?`. -/
def trim (s : St) : St := skipWhile isWs s

/-- `consume_if_eq` (`parser.rs:378-382`) -/
def consumeIf (c : UInt8) (s : St) : Bool × St :=
  if (trim s).rest.head? = some c then (true, adv (trim s) 1) else (false, trim s)

/-- `assert_eq_consume` (`parser.rs:442-447`) -/
def assertConsume (c : UInt8) (s : St) : R Unit :=
  if (consumeIf c s).1 then .ok () (consumeIf c s).2 else errExpected (consumeIf c s).2 c

/-! ### Numbers -/

/-- Value of a string of ASCII digits. -/
def digitsVal (l : Bytes) : Nat := l.foldl (fun n c => 10 * n + (c.toNat - 48)) 0

/-- `str::parse::<f64>` on the strings the parser passes it: digits, at most one
point, at least one mantissa digit, an optional exponent; anything else is an error.
The value is the nearest `f64` (documented guarantee of std).  The other forms std
accepts (sign, `inf`, `nan`) cannot occur as the text starts with a digit or a
point. -/
def parseF64 (txt : Bytes) : Option F64 :=
  let ip := txt.takeWhile isDigit
  let r1 := txt.drop ip.length
  let hasDot := decide (r1.head? = some c!".")
  let r2 := if hasDot then r1.drop 1 else r1
  let fp := if hasDot then r2.takeWhile isDigit else []
  let r3 := r2.drop fp.length
  if ip.length + fp.length = 0 then none
  else
    let M := digitsVal (ip ++ fp)
    match r3 with
    | [] => some (F64.ofDecimal M (-(fp.length : Int)))
    | c :: r4 =>
      if c = c!"e" ∨ c = c!"E" then
        let sgn := r4.head?
        let ds := if sgn = some c!"+" ∨ sgn = some c!"-" then r4.drop 1 else r4
        if ds ≠ [] ∧ ds.all isDigit then
          let ev : Int := if sgn = some c!"-" then -(digitsVal ds : Int) else digitsVal ds
          some (F64.ofDecimal M (ev - fp.length))
        else none
      else none

/-- Length of the exponent marker (`parser.rs:287-295`): 2 for `e±d`, 1 for `ed`,
else 0. -/
def expLen (l : Bytes) : Nat :=
  match l with
  | c :: c1 :: t =>
    if c = c!"e" ∨ c = c!"E" then
      let withSign := (decide (c1 = c!"+") || decide (c1 = c!"-")) &&
        (match t with | c2 :: _ => isDigit c2 | [] => false)
      let plain := isDigit c1
      withSign.toNat * 2 + plain.toNat
    else 0
  | _ => 0

/-- The end of a number literal (`parser.rs:285-297`). -/
def numEnd (s : St) : St :=
  let s1 := skipWhile isNumChar s
  let s2 := adv s1 (expLen s1.rest)
  skipWhile isDigit s2

/-- `parse_number` (`parser.rs:283-311`) -/
def parseNumber (s : St) : R Elem :=
  let s' := numEnd s
  let txt := s.rest.take (s'.pos - s.pos)
  match parseF64 (txt.filter (· ≠ c!"_")) with
  | some x => .ok (.num x) s'
  | none => errNum s' txt

/-! ### Recursive descent

The functions below take the recursive call `element` as an argument `rec`. -/

/-- `argument` (`parser.rs:337-354`) -/
def argument (cfg : Cfg) (rec : Nat → St → R Elem) (s : St) : R Elem :=
  match rec noPrec s with
  | .err e s' =>
    match e.kind with
    | .unexpectedToken _ => errMissing cfg s'
    | _ => .err e s'
  | r => r

/-- `parse_arguments` (`parser.rs:314-334`); the loop is bounded by `fuel`. -/
def parseArgs (cfg : Cfg) (rec : Nat → St → R Elem) : Nat → List Elem → St → R (List Elem)
  | 0, _, _ => .fuel
  | fuel + 1, args, s =>
    (argument cfg rec s).bind fun arg s1 =>
      let s2 := trim s1
      match s2.rest.head? with
      | some c =>
        if c = c!"," then parseArgs cfg rec fuel (args ++ [arg]) (adv s2 1)
        else if c = c!")" then .ok (args ++ [arg]) s2
        else errTok s2 c
      | none => errEnd cfg s2

/-- The arity check of `parse_identifier` (`parser.rs:250-272`). -/
def checkArity (f : Func) (args : List Elem) (start : Nat) (s : St) : R Elem :=
  match f.nbArgs with
  | some n =>
    if args.length = n then .ok (.call f args) s
    else if args.length < n then errTooFew s n args.length start
    else errTooMany s n args.length start
  | none => .ok (.call f args) s

/-- `parse_identifier` (`parser.rs:228-280`) -/
def parseIdent (cfg : Cfg) (ctx : Context) (rec : Nat → St → R Elem) (s : St) : R Elem :=
  let name := s.rest.takeWhile isIdChar
  let s1 := skipWhile isIdChar s
  match lookup ctx name with
  | .const x => .ok (.num x) s1
  | .var n => .ok (.var n) s1
  | .func f =>
    if (consumeIf c!"(" s1).1 then
      let s2 := (consumeIf c!"(" s1).2
      (parseArgs cfg rec (s2.rest.length + 1) [] s2).bind fun args s3 =>
        (assertConsume c!")" s3).bind fun _ s4 =>
          checkArity f args s.pos s4
    else errExpected (consumeIf c!"(" s1).2 c!"("

/-- `atom` (`parser.rs:189-225`) -/
def atom (cfg : Cfg) (ctx : Context) (rec : Nat → St → R Elem) (s0 : St) : R Elem :=
  let s := trim s0
  match s.rest.head? with
  | none => errEnd cfg s
  | some c =>
    if isDigit c || decide (c = c!".") then parseNumber s
    else if isIdStart c then parseIdent cfg ctx rec s
    else if c = c!"+" then
      (rec unopPrec (adv s 1)).bind fun e s' => .ok (.un .plus e) s'
    else if c = c!"-" then
      (rec unopPrec (adv s 1)).bind fun e s' => .ok (.un .minus e) s'
    else if c = c!"(" then
      (rec noPrec (adv s 1)).bind fun e s' =>
        (assertConsume c!")" s').bind fun _ s'' => .ok e s''
    else if c = c!")" then errTok s c
    else errIllegal s c

/-- `get_operator_infos` (`parser.rs:406-438`) on the trimmed state: the operator, its
precedence and the number of bytes consumed. -/
def opInfo (cfg : Cfg) (el : Elem) (p : Nat) (s : St) : Option (Op × Nat × Nat) :=
  match s.rest.head? with
  | none => none
  | some c =>
    match opOfByte c with
    | some op => if precOf op ≤ p then none else some (op, precOf op, 1)
    | none =>
      if implPrec cfg ≤ p then none
      else if isLower c || decide (c = c!"(") then some (.times, implPrec cfg, 0)
      else if isDigit c && !el.isNum then some (.times, implPrec cfg, 0)
      else none

/-- The `while let` loop of `element` (`parser.rs:173-178`), bounded by `fuel`. -/
def opLoop (cfg : Cfg) (rec : Nat → St → R Elem) (p : Nat) : Nat → Elem → St → R Elem
  | 0, _, _ => .fuel
  | fuel + 1, el, s =>
    let s1 := trim s
    match opInfo cfg el p s1 with
    | none => .ok el s1
    | some (op, q, k) =>
      (rec q (adv s1 k)).bind fun rhs s2 => opLoop cfg rec p fuel (.bin op el rhs) s2

/-- The compile time optimisation at the end of `element` (`parser.rs:180-183`). -/
def finish (cfg : Cfg) (w : World) (el : Elem) (s : St) : R Elem :=
  if cfg.opt then
    match simplify cfg w el with
    | .ok e => .ok e s
    | .error p => .panic p
  else .ok el s

/-- The body of `element` (`parser.rs:161-186`). -/
def elementF (cfg : Cfg) (w : World) (ctx : Context) (rec : Nat → St → R Elem)
    (p : Nat) (s : St) : R Elem :=
  (atom cfg ctx rec s).bind fun a s1 =>
    let el := if (consumeIf c!"!" s1).1 then .un .factorial a else a
    let s2 := (consumeIf c!"!" s1).2
    (opLoop cfg rec p (s2.rest.length + 1) el s2).bind fun el' s3 => finish cfg w el' s3

/-- `element` (`parser.rs:161-186`); the first argument bounds the depth of the
recursion. -/
def element (cfg : Cfg) (w : World) (ctx : Context) : Nat → Nat → St → R Elem
  | 0, _, _ => .fuel
  | n + 1, p, s => elementF cfg w ctx (element cfg w ctx n) p s

/-- The struct `Xprs` (`/repo/src/xprs.rs:20-25`) -/
structure Xpr where
  root : Elem
  vars : List Bytes
  deriving DecidableEq

/-- Result of `Parser::parse`. -/
inductive PRes where
  | ok (x : Xpr)
  | err (e : PErr)
  | panic (p : Panic)
  /-- the model ran out of fuel (shown not to happen) -/
  | fuel
  deriving DecidableEq

/-- `ParserImpl::parse` (`parser.rs:134-153`) -/
def parseImpl (cfg : Cfg) (w : World) (ctx : Context) (input : Bytes) : PRes :=
  match element cfg w ctx (input.length + 1) noPrec ⟨0, input⟩ with
  | .ok root s =>
    match (trim s).rest.head? with
    | some c => .err ⟨.unexpectedToken c, (trim s).pos, 0⟩
    | none => .ok ⟨root, findVars root []⟩
  | .err e _ => .err e
  | .panic p => .panic p
  | .fuel => .fuel

/-- `HashSet::difference` in iteration order. -/
def diffVars (o : Oracle) (vars given : List Bytes) : List Bytes :=
  (o.ord vars).filter fun v => !decide (v ∈ given)

/-- `Parser::parse` (`parser.rs:85-106`) -/
def parse (cfg : Cfg) (w : World) (o : Oracle) (ctx : Context) (input : Bytes) : PRes :=
  match parseImpl cfg w ctx input with
  | .ok x =>
    match ctx.getExpected with
    | some expected =>
      match (diffVars o x.vars expected).head? with
      | some v => .err ⟨.variableNotDeclared v (o.ord expected), 0, input.length⟩
      | none => .ok x
    | none => .ok x
  | r => r

/-- The number mentioned by `Diagnostic::help` for the two argument-count errors
(`parser.rs:486-499`): a `usize` subtraction, which panics on underflow with overflow
checks (`none`: the text contains no number). -/
def helpCount (cfg : Cfg) (e : PErr) : PM (Option Nat) :=
  let sub (a b : Nat) : PM (Option Nat) :=
    if b ≤ a then .ok (some (a - b))
    else if cfg.overflowChecks then .error .overflow else .ok (some (2 ^ cfg.usize.bits + a - b))
  match e.kind with
  | .tooMany expected got => sub got expected
  | .tooFew expected got => sub expected got
  | _ => .ok none

end Xprs
