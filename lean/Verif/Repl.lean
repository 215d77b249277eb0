import Verif.Eval
/-
`/repo/src/bin/repl.rs`: the read-eval-print loop.  `replLine` is one line with answers
that are numbers; `session` is the whole loop on the lines of the standard input.

Not modelled here: what is printed beside the value or the error (see
`Transcript.lean`), and output that fails (`flush()?`, `repl.rs:26`, `58`).
-/
namespace Xprs

/-- `ask_for_variables` (`repl.rs:51-73`): iterates over the set in the order `o`
chooses and stores what the user types for the `k`-th variable asked. -/
def askForVariables (o : Oracle) (vars : List Bytes) (answers : Nat → F64) : HMap F64 :=
  ((o.ord vars).zipIdx).foldl (fun acc vk => acc.insert vk.1 (answers vk.2)) HMap.empty

/-- What one line leads to. -/
inductive ReplRes where
  /-- `println!("Evaluated: …")` -/
  | evaluated (v : F64)
  /-- `println!("{:?}", miette::Report::new(err))` -/
  | reported (e : PErr)
  /-- the `unreachable!()` of `repl.rs:37` -/
  | unreachableBranch
  /-- a panic inside the library -/
  | libPanic (p : Panic)
  deriving DecidableEq

/-- The arm `line => match parser.parse(line)` (`repl.rs:29-42`) for the default
parser. -/
def replLine (cfg : Cfg) (w : World) (o : Oracle) (line : Bytes) (answers : Nat → F64) : ReplRes :=
  match parse cfg w o Context.default line with
  | .ok ast =>
    match ast.eval w (askForVariables o ast.vars answers) with
    | .ok v => .evaluated v
    | .error (.missing _) => .unreachableBranch
    | .error (.panic p) => .libPanic p
  | .err e => .reported e
  | .panic p => .libPanic p
  | .fuel => .libPanic .unreachable -- does not happen: `parseImpl_ne_fuel`

/-! ### The standard library on text -/

/-- The UTF-8 forms of the characters `str::trim` removes (Unicode `White_Space`). -/
def whiteSpace : List Bytes :=
  [[0x09], [0x0A], [0x0B], [0x0C], [0x0D], [0x20], [0xC2, 0x85], [0xC2, 0xA0],
   [0xE1, 0x9A, 0x80], [0xE2, 0x80, 0x80], [0xE2, 0x80, 0x81], [0xE2, 0x80, 0x82],
   [0xE2, 0x80, 0x83], [0xE2, 0x80, 0x84], [0xE2, 0x80, 0x85], [0xE2, 0x80, 0x86],
   [0xE2, 0x80, 0x87], [0xE2, 0x80, 0x88], [0xE2, 0x80, 0x89], [0xE2, 0x80, 0x8A],
   [0xE2, 0x80, 0xA8], [0xE2, 0x80, 0xA9], [0xE2, 0x80, 0xAF], [0xE2, 0x81, 0x9F],
   [0xE3, 0x80, 0x80]]

/-- Removes forms of `ws` from the front, at most `n` of them. -/
def trimFront (ws : List Bytes) : Nat → Bytes → Bytes
  | 0, l => l
  | n + 1, l =>
    match ws.find? (fun p => p.isPrefixOf l) with
    | some p => trimFront ws n (l.drop p.length)
    | none => l

/-- `str::trim` -/
def strTrim (l : Bytes) : Bytes :=
  let t := trimFront whiteSpace l.length l
  (trimFront (whiteSpace.map List.reverse) t.length t.reverse).reverse

/-- `a.eq_ignore_ascii_case(b)` for a text `b` in lower case. -/
def eqIgnoreCase (a b : Bytes) : Bool :=
  a.map (fun c => if isUpper c then c + 32 else c) == b

/-- `str::parse::<f64>` on a text without sign. -/
def unsignedF64 (t : Bytes) : Option F64 :=
  if eqIgnoreCase t b!"inf" || eqIgnoreCase t b!"infinity" then some (.inf false)
  else if eqIgnoreCase t b!"nan" then some .nan
  else parseF64 t

/-- `str::parse::<f64>` -/
def f64FromStr : Bytes → Option F64
  | [] => none
  | c :: t =>
    if c = c!"-" then (unsignedF64 t).map F64.neg
    else if c = c!"+" then unsignedF64 t
    else unsignedF64 (c :: t)

/-! ### The loop -/

/-- What `read_line` finds next: the bytes of a line with its line feed, or `none` when
it fails (a line that is not UTF-8, a device error). -/
abbrev Line := Option Bytes

/-- `read_line`: the next line; at the end of the input the empty text, without an
error. -/
def readLine : List Line → Line × List Line
  | [] => (some [], [])
  | l :: ls => (l, ls)

/-- `input.trim().parse().expect(…)` (`repl.rs:65-70`) for the line just read;
`none`: one of the two `expect` panics. -/
def answerOf (l : Line) : Option F64 := l.bind fun t => f64FromStr (strTrim t)

/-- The `fold` of `ask_for_variables` (`repl.rs:56-72`) over the variables in the order
they come; `none`: it panics. -/
def askLoop : List Bytes → HMap F64 → List Line → Option (HMap F64 × List Line)
  | [], acc, ls => some (acc, ls)
  | v :: vs, acc, ls =>
    match answerOf (readLine ls).1 with
    | some x => askLoop vs (acc.insert v x) (readLine ls).2
    | none => none

/-- What is printed for a line. -/
inductive Reply where
  | evaluated (v : F64)
  | reported (e : PErr)
  deriving DecidableEq

/-- How the program ends. -/
inductive Stop where
  /-- `println!("Bye!"); Ok(())` -/
  | bye
  /-- `io::stdin().read_line(&mut input)?` returned an error -/
  | ioError
  /-- an `expect` in `ask_for_variables` -/
  | badAnswer
  /-- the `unreachable!()` of `repl.rs:37` -/
  | unreachableBranch
  /-- a panic inside the library -/
  | libPanic (p : Panic)
  deriving DecidableEq

/-- One turn of the `loop` (`repl.rs:24-45`). -/
def round (cfg : Cfg) (w : World) (o : Oracle) (ls : List Line) :
    Except Stop (Reply × List Line) :=
  match (readLine ls).1 with
  | none => .error .ioError
  | some line =>
    if strTrim line = b!"exit" then .error .bye
    else
      match parse cfg w o Context.default line with
      | .ok ast =>
        match askLoop (o.ord ast.vars) HMap.empty (readLine ls).2 with
        | none => .error .badAnswer
        | some (m, rest) =>
          match ast.eval w m with
          | .ok v => .ok (.evaluated v, rest)
          | .error (.missing _) => .error .unreachableBranch
          | .error (.panic p) => .error (.libPanic p)
      | .err e => .ok (.reported e, (readLine ls).2)
      | .panic p => .error (.libPanic p)
      | .fuel => .error (.libPanic .unreachable) -- does not happen: `parseImpl_ne_fuel`

/-- The first `n` turns of the loop (`repl.rs:24-48`): the replies printed and, if it
has ended, how.  Every set of variables has a hasher of its own: `os k` is the order of
the one in turn `k`. -/
def session (cfg : Cfg) (w : World) (os : Nat → Oracle) : Nat → List Line →
    List Reply × Option Stop
  | 0, _ => ([], none)
  | n + 1, ls =>
    match round cfg w (os 0) ls with
    | .error s => ([], some s)
    | .ok (r, rest) =>
      let (rs, s) := session cfg w (fun k => os (k + 1)) n rest
      (r :: rs, s)

end Xprs
