import Verif.Parser
/-
`/repo/src/parser.rs` once more, closer to the machine: the parser is the whole text and a
cursor, a `usize` of the size the target has; every access is `input.get(..)` or a slice `input[a..b]`, every
sum and difference on `usize` may overflow (a panic with overflow checks, else it wraps
around), a slice out of range panics, and `str::from_utf8_unchecked` on anything but ASCII
is undefined behaviour.  `Parser.lean` keeps the remaining bytes instead and does none of
these checks.

Simplifications: loops and recursion are bounded by `fuel` as in `Parser.lean`; slices of a
valid text that are not ASCII could be valid UTF-8, but count as undefined behaviour here.
-/
namespace Xprs

/-- Outcome of a parsing function, with the cursor it leaves. -/
inductive CR (α : Type) where
  | ok (a : α) (cur : Nat)
  | err (e : PErr) (cur : Nat)
  | panic (p : Panic)
  | fuel

/-- Sequencing (`?` and plain statements). -/
def CR.bind {α β : Type} (x : CR α) (f : α → Nat → CR β) : CR β :=
  match x with
  | .ok a c => f a c
  | .err e c => .err e c
  | .panic p => .panic p
  | .fuel => .fuel

/-- A computation that does not move the cursor. -/
def CR.ofPM {α : Type} (x : PM α) (cur : Nat) : CR α :=
  match x with
  | .ok a => .ok a cur
  | .error p => .panic p

/-! ### `usize`, slices, unchecked texts -/

/-- `a + b` on `usize` -/
def addU (cfg : Cfg) (a b : Nat) : PM Nat :=
  if a + b < 2 ^ cfg.usize.bits then .ok (a + b)
  else if cfg.overflowChecks then .error .overflow else .ok (a + b - 2 ^ cfg.usize.bits)

/-- `a - b` on `usize` -/
def subU (cfg : Cfg) (a b : Nat) : PM Nat :=
  if b ≤ a then .ok (a - b)
  else if cfg.overflowChecks then .error .overflow else .ok (2 ^ cfg.usize.bits + a - b)

/-- `&input[a..b]` -/
def sliceU (input : Bytes) (a b : Nat) : PM Bytes :=
  if a ≤ b ∧ b ≤ input.length then .ok ((input.drop a).take (b - a)) else .error .index

/-- `str::from_utf8_unchecked` -/
def utf8U (t : Bytes) : PM Bytes := if t.all (fun c => decide (c < 128)) then .ok t else .error .ub

/-- `self.cursor += n` -/
def moveU (cfg : Cfg) (cur n : Nat) : CR Unit :=
  match addU cfg cur n with
  | .ok c => .ok () c
  | .error p => .panic p

variable (cfg : Cfg) (input : Bytes)

/-! ### Errors (`parser.rs:561-670`) -/

/-- `new_unexpected_end_of_expression` (`parser.rs:564-572`) -/
def errEndU {α : Type} (cur : Nat) : CR α :=
  (CR.ofPM (subU cfg cur 1) cur).bind fun o _ => .err ⟨.unexpectedEnd, o, 0⟩ cur
/-- `new_unexpected_token` (`parser.rs:576-582`) -/
def errTokU {α : Type} (cur : Nat) (c : UInt8) : CR α := .err ⟨.unexpectedToken c, cur, 0⟩ cur
/-- `new_malformed_number` (`parser.rs:586-593`) -/
def errNumU {α : Type} (cur : Nat) (txt : Bytes) : CR α :=
  (CR.ofPM (subU cfg cur txt.length) cur).bind fun o _ => .err ⟨.malformedNumber txt, o, txt.length⟩ cur
/-- `new_illegal_character` (`parser.rs:597-603`) -/
def errIllegalU {α : Type} (cur : Nat) (c : UInt8) : CR α := .err ⟨.illegalCharacter c, cur, 0⟩ cur
/-- `new_expected_token` (`parser.rs:607-613`) -/
def errExpectedU {α : Type} (cur : Nat) (c : UInt8) : CR α := .err ⟨.expectedToken c, cur, 0⟩ cur
/-- `new_missing_argument` (`parser.rs:664-670`) -/
def errMissingU {α : Type} (cur : Nat) : CR α :=
  (CR.ofPM (subU cfg cur 1) cur).bind fun o _ => .err ⟨.missingArgument, o, 2⟩ cur

/-! ### Reading (`parser.rs:369-403`) -/

/-- `skip_while` (`parser.rs:371-375`) -/
def skipWhileU (p : UInt8 → Bool) : Nat → Nat → CR Unit
  | 0, _ => .fuel
  | k + 1, cur =>
    match input[cur]? with
    | some c => if p c then (moveU cfg cur 1).bind fun _ c' => skipWhileU p k c' else .ok () cur
    | none => .ok () cur

/-- `skip_while` with room for all that is left. -/
def skipU (p : UInt8 → Bool) (cur : Nat) : CR Unit := skipWhileU cfg input p (input.length - cur + 1) cur

/-- `take_while` (`parser.rs:358-366`) -/
def takeWhileU (p : UInt8 → Bool) (cur : Nat) : CR Bytes :=
  (skipU cfg input p cur).bind fun _ c =>
    (CR.ofPM (sliceU input cur c) c).bind fun t _ => CR.ofPM (utf8U t) c

/-- `next_trim` (`parser.rs:390-393`) -/
def nextTrimU (cur : Nat) : CR (Option UInt8) :=
  (skipU cfg input isWs cur).bind fun _ c => .ok input[c]? c

/-- `consume_if_eq` (`parser.rs:378-382`) -/
def consumeIfU (tok : UInt8) (cur : Nat) : CR Bool :=
  (nextTrimU cfg input cur).bind fun n c =>
    (moveU cfg c (decide (n = some tok)).toNat).bind fun _ c' => .ok (decide (n = some tok)) c'

/-- `assert_eq_consume` (`parser.rs:442-447`) -/
def assertConsumeU (tok : UInt8) (cur : Nat) : CR Unit :=
  (consumeIfU cfg input tok cur).bind fun b c => if b then .ok () c else errExpectedU c tok

/-! ### Numbers (`parser.rs:283-311`) -/

/-- `matches!(self.next_at(k), Some(c) if p(c))` -/
def nextIs (p : UInt8 → Bool) (cur k : Nat) : PM Bool :=
  (addU cfg cur k).map fun i =>
    match input[i]? with
    | some c => p c
    | none => false

/-- `a && b` where only the second may panic. -/
def andU (a : Bool) (b : PM Bool) : PM Bool := if a then b else .ok false

/-- `is_exponent_with_sign` (`parser.rs:288-290`) -/
def withSignU (might : Bool) (cur : Nat) : PM Bool :=
  andU might <|
    match nextIs cfg input (fun c => decide (c = c!"+") || decide (c = c!"-")) cur 1 with
    | .error p => .error p
    | .ok b => andU b (nextIs cfg input isDigit cur 2)

/-- `might_be_exponent` (`parser.rs:287`) -/
def mightU (cur : Nat) : Bool :=
  match input[cur]? with
  | some c => decide (c = c!"e" ∨ c = c!"E")
  | none => false

/-- `parse_number` (`parser.rs:283-311`) -/
def parseNumberU (cur : Nat) : CR Elem :=
  (skipU cfg input isNumChar cur).bind fun _ c1 =>
    (CR.ofPM (withSignU cfg input (mightU input c1) c1) c1).bind fun ws _ =>
    (CR.ofPM (andU (mightU input c1) (nextIs cfg input isDigit c1 1)) c1).bind fun plain _ =>
    (moveU cfg c1 (ws.toNat * 2 + plain.toNat)).bind fun _ c2 =>
    (skipU cfg input isDigit c2).bind fun _ c3 =>
    (CR.ofPM (sliceU input cur c3) c3).bind fun t _ =>
    (CR.ofPM (utf8U t) c3).bind fun txt _ =>
      match parseF64 (txt.filter (· ≠ c!"_")) with
      | some x => .ok (.num x) c3
      | none => errNumU cfg c3 txt

/-! ### Recursive descent -/

/-- `argument` (`parser.rs:337-354`) -/
def argumentU (rec : Nat → Nat → CR Elem) (cur : Nat) : CR Elem :=
  match rec noPrec cur with
  | .err e c =>
    match e.kind with
    | .unexpectedToken _ => errMissingU cfg c
    | _ => .err e c
  | r => r

/-- `parse_arguments` (`parser.rs:314-334`) -/
def parseArgsU (rec : Nat → Nat → CR Elem) : Nat → List Elem → Nat → CR (List Elem)
  | 0, _, _ => .fuel
  | fuel + 1, args, cur =>
    (argumentU cfg rec cur).bind fun arg c1 =>
      (nextTrimU cfg input c1).bind fun n c2 =>
        match n with
        | some c =>
          if c = c!"," then (moveU cfg c2 1).bind fun _ c3 => parseArgsU rec fuel (args ++ [arg]) c3
          else if c = c!")" then .ok (args ++ [arg]) c2
          else errTokU c2 c
        | none => errEndU cfg c2

/-- The arity check of `parse_identifier` (`parser.rs:250-272`); a range that ends before it
begins has length 0. -/
def checkArityU (f : Func) (args : List Elem) (start cur : Nat) : CR Elem :=
  match f.nbArgs with
  | some n =>
    if args.length = n then .ok (.call f args) cur
    else if args.length < n then .err ⟨.tooFew n args.length, start, cur - start⟩ cur
    else .err ⟨.tooMany n args.length, start, cur - start⟩ cur
  | none => .ok (.call f args) cur

/-- `parse_identifier` (`parser.rs:228-280`) -/
def parseIdentU (ctx : Context) (rec : Nat → Nat → CR Elem) (cur : Nat) : CR Elem :=
  (takeWhileU cfg input isIdChar cur).bind fun name c1 =>
    match lookup ctx name with
    | .const x => .ok (.num x) c1
    | .var n => .ok (.var n) c1
    | .func f =>
      (consumeIfU cfg input c!"(" c1).bind fun b c2 =>
        if b then
          (parseArgsU cfg input rec (input.length - c2 + 1) [] c2).bind fun args c3 =>
            (assertConsumeU cfg input c!")" c3).bind fun _ c4 => checkArityU f args cur c4
        else errExpectedU c2 c!"("

/-- `atom` (`parser.rs:189-225`) -/
def atomU (ctx : Context) (rec : Nat → Nat → CR Elem) (cur : Nat) : CR Elem :=
  (nextTrimU cfg input cur).bind fun n c1 =>
    match n with
    | none => errEndU cfg c1
    | some c =>
      if isDigit c || decide (c = c!".") then parseNumberU cfg input c1
      else if isIdStart c then parseIdentU cfg input ctx rec c1
      else if c = c!"+" then
        (moveU cfg c1 1).bind fun _ c2 => (rec unopPrec c2).bind fun e c3 => .ok (.un .plus e) c3
      else if c = c!"-" then
        (moveU cfg c1 1).bind fun _ c2 => (rec unopPrec c2).bind fun e c3 => .ok (.un .minus e) c3
      else if c = c!"(" then
        (moveU cfg c1 1).bind fun _ c2 => (rec noPrec c2).bind fun e c3 =>
          (assertConsumeU cfg input c!")" c3).bind fun _ c4 => .ok e c4
      else if c = c!")" then errTokU c1 c
      else errIllegalU c1 c

/-- `get_operator_infos` (`parser.rs:406-438`) -/
def opInfoU (el : Elem) (p cur : Nat) : CR (Option (Op × Nat)) :=
  (nextTrimU cfg input cur).bind fun n c1 =>
    match n with
    | none => .ok none c1
    | some c =>
      match opOfByte c with
      | some op =>
        if precOf op ≤ p then .ok none c1
        else (moveU cfg c1 1).bind fun _ c2 => .ok (some (op, precOf op)) c2
      | none =>
        if implPrec cfg ≤ p then .ok none c1
        else if isLower c || decide (c = c!"(") then .ok (some (.times, implPrec cfg)) c1
        else if isDigit c && !el.isNum then .ok (some (.times, implPrec cfg)) c1
        else .ok none c1

/-- The `while let` loop of `element` (`parser.rs:173-178`) -/
def opLoopU (rec : Nat → Nat → CR Elem) (p : Nat) : Nat → Elem → Nat → CR Elem
  | 0, _, _ => .fuel
  | fuel + 1, el, cur =>
    (opInfoU cfg input el p cur).bind fun i c1 =>
      match i with
      | none => .ok el c1
      | some (op, q) => (rec q c1).bind fun rhs c2 => opLoopU rec p fuel (.bin op el rhs) c2

/-- The body of `element` (`parser.rs:161-186`) -/
def elementFU (w : World) (ctx : Context) (rec : Nat → Nat → CR Elem) (p cur : Nat) : CR Elem :=
  (atomU cfg input ctx rec cur).bind fun a c1 =>
    (consumeIfU cfg input c!"!" c1).bind fun bang c2 =>
      (opLoopU cfg input rec p (input.length - c2 + 1) (if bang then .un .factorial a else a) c2).bind fun el c3 =>
        if cfg.opt then CR.ofPM (simplify cfg w el) c3 else .ok el c3

/-- `element` (`parser.rs:161-186`) -/
def elementU (w : World) (ctx : Context) : Nat → Nat → Nat → CR Elem
  | 0, _, _ => .fuel
  | n + 1, p, cur => elementFU cfg input w ctx (elementU w ctx n) p cur

/-- `ParserImpl::parse` (`parser.rs:134-153`) -/
def parseImplU (w : World) (ctx : Context) : PRes :=
  match (elementU cfg input w ctx (input.length + 1) noPrec 0).bind fun root c =>
      (nextTrimU cfg input c).bind fun n c1 =>
        match n with
        | some tok => errTokU c1 tok
        | none => .ok root c1 with
  | .ok root _ => .ok ⟨root, findVars root []⟩
  | .err e _ => .err e
  | .panic p => .panic p
  | .fuel => .fuel

/-- `Parser::parse` (`parser.rs:85-106`) -/
def parseU (w : World) (o : Oracle) (ctx : Context) : PRes :=
  match parseImplU cfg input w ctx with
  | .ok x =>
    match ctx.getExpected with
    | some expected =>
      match (diffVars o x.vars expected).head? with
      | some v => .err ⟨.variableNotDeclared v (o.ord expected), 0, input.length⟩
      | none => .ok x
    | none => .ok x
  | r => r

end Xprs
