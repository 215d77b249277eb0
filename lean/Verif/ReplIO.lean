import Verif.Transcript
/-
`/repo/src/bin/repl.rs` operation by operation: what it prints, when it flushes and when it
reads, and a standard output that may fail at any time.

`Transcript.lean` says what is printed altogether; here it is split at the calls of
`print!`, `println!`, `flush` and `read_line`.  The standard output of std is a line
buffer: what has been printed is handed on at the latest when a line is complete or on `flush`
(how much earlier is left open).
-/
namespace Xprs

/-- The calls of `repl.rs` that concern the terminal. -/
inductive IOp where
  /-- `print!`, `println!` (with the line feed): panics if the output fails -/
  | print (t : Bytes)
  /-- `flush()?` (`repl.rs:26`) -/
  | flush
  /-- `flush().expect(…)` (`repl.rs:58`) -/
  | flushExpect
  /-- `read_line` -/
  | read
  deriving DecidableEq

/-- `repl.rs:56-72` -/
def askOps : List Bytes → List Line → List IOp
  | [], _ => []
  | v :: vs, ls =>
    [.print (v ++ b!": "), .flushExpect, .read] ++
      match answerOf (readLine ls).1 with
      | some _ => askOps vs (readLine ls).2
      | none => []

/-- `repl.rs:30-40`, `51-54` -/
def astOps (w : World) (o : Oracle) (ast : Xpr) (ls : List Line) : List IOp :=
  [.print (b!"Interpreted as: " ++ ast.show fmtF64 ++ b!"\n"),
   .print (ast.pretty o ++ b!"\n"),
   .print (b!"Variables: " ++ setDebug (o.ord ast.vars) ++ b!"\n")] ++
  (if ast.vars = [] then [] else [.print b!"Please enter the following variables:\n"]) ++
  askOps (o.ord ast.vars) ls ++
  match askLoop (o.ord ast.vars) HMap.empty ls with
  | some (m, _) =>
    match ast.eval w m with
    | .ok v => [.print (b!"Evaluated: " ++ debugF64 v ++ b!"\n")]
    | .error _ => []
  | none => []

/-- One turn of the loop (`repl.rs:24-45`), with the farewell (`repl.rs:47`). -/
def turnOps (cfg : Cfg) (w : World) (o : Oracle) (report : PErr → Bytes) (ls : List Line) : List IOp :=
  [.print b!">> ", .flush, .read] ++
    match (readLine ls).1 with
    | none => []
    | some line =>
      if strTrim line = b!"exit" then [.print b!"Bye!\n"]
      else
        match parse cfg w o Context.default line with
        | .ok ast => astOps w o ast (readLine ls).2
        | .err e => [.print (report e ++ b!"\n")]
        | .panic _ => []
        | .fuel => [] -- does not happen: `parseImpl_ne_fuel`

/-- The first `n` turns, as in `session`. -/
def turnsOps (cfg : Cfg) (w : World) (report : PErr → Bytes) (os : Nat → Oracle) : Nat → List Line → List IOp
  | 0, _ => []
  | n + 1, ls =>
    turnOps cfg w (os 0) report ls ++
      match round cfg w (os 0) ls with
      | .error _ => []
      | .ok (_, rest) => turnsOps cfg w report (fun k => os (k + 1)) n rest

/-- The program (`repl.rs:17-49`), up to `n` turns. -/
def replOps (cfg : Cfg) (w : World) (report : PErr → Bytes) (os : Nat → Oracle) (n : Nat) (ls : List Line) : List IOp :=
  [.print b!"Welcome to the XPRS REPL!\n",
   .print b!"Feel free to type in expressions and see the AST.\n"] ++ turnsOps cfg w report os n ls

/-- The standard output: what has been handed on to the terminal or file, and what is still held back. -/
structure Screen where
  shown : Bytes
  held : Bytes

/-- How the program ends. -/
inductive Exit where
  /-- `main` returns `Ok` -/
  | success
  /-- `main` returns `Err` -/
  | failure
  /-- a panic -/
  | panic
  deriving DecidableEq

/-- A call that succeeds. -/
inductive Serves1 : Screen → IOp → Screen → Prop
  | print {s s' : Screen} {t more : Bytes} : s'.shown = s.shown ++ more → more ++ s'.held = s.held ++ t →
      c!"\n" ∉ s'.held → Serves1 s (.print t) s'
  | flush {s : Screen} : Serves1 s .flush ⟨s.shown ++ s.held, []⟩
  | flushExpect {s : Screen} : Serves1 s .flushExpect ⟨s.shown ++ s.held, []⟩
  | read {s : Screen} : Serves1 s .read s

/-- Calls that succeed, one after the other. -/
inductive Serves : Screen → List IOp → Screen → Prop
  | nil {s} : Serves s [] s
  | cons {s s' s'' o os} : Serves1 s o s' → Serves s' os s'' → Serves s (o :: os) s''

/-- The output fails during a call: a part of what was held back and printed may have been handed on, and
the program ends. -/
inductive Cuts : Screen → IOp → Bytes → Exit → Prop
  | print {s : Screen} {t more rest : Bytes} : more ++ rest = s.held ++ t → Cuts s (.print t) (s.shown ++ more) .panic
  | flush {s : Screen} {more rest : Bytes} : more ++ rest = s.held → Cuts s .flush (s.shown ++ more) .failure
  | flushExpect {s : Screen} {more rest : Bytes} : more ++ rest = s.held →
      Cuts s .flushExpect (s.shown ++ more) .panic

end Xprs
