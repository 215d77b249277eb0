import Verif.Repl
import Verif.Pretty
/-
What `/repo/src/bin/repl.rs` writes to the standard output.

Simplification: what `miette::Report` prints for an error (`repl.rs:41`) is the parameter `report`;
what the terminal echoes and what a panic or the runtime writes to the standard error is not part
of it.
-/
namespace Xprs

/-- The prompts of `ask_for_variables` (`repl.rs:56-72`), up to the one whose answer is refused. -/
def askOut : List Bytes → List Line → Bytes
  | [], _ => []
  | v :: vs, ls =>
    v ++ b!": " ++
      match answerOf (readLine ls).1 with
      | some _ => askOut vs (readLine ls).2
      | none => []

/-- What is printed for an expression (`repl.rs:30-40`, `51-54`) when the lines `ls` follow; the set
of variables is iterated three times, in the same order. -/
def astOut (w : World) (o : Oracle) (ast : Xpr) (ls : List Line) : Bytes :=
  b!"Interpreted as: " ++ ast.show fmtF64 ++ b!"\n" ++
  ast.pretty o ++ b!"\n" ++
  b!"Variables: " ++ setDebug (o.ord ast.vars) ++ b!"\n" ++
  (if ast.vars = [] then [] else b!"Please enter the following variables:\n") ++
  askOut (o.ord ast.vars) ls ++
  match askLoop (o.ord ast.vars) HMap.empty ls with
  | some (m, _) =>
    match ast.eval w m with
    | .ok v => b!"Evaluated: " ++ debugF64 v ++ b!"\n"
    | .error _ => []
  | none => []

/-- What one turn of the `loop` prints (`repl.rs:24-45`), with the farewell (`repl.rs:47`). -/
def turnOut (cfg : Cfg) (w : World) (o : Oracle) (report : PErr → Bytes) (ls : List Line) : Bytes :=
  b!">> " ++
    match (readLine ls).1 with
    | none => []
    | some line =>
      if strTrim line = b!"exit" then b!"Bye!\n"
      else
        match parse cfg w o Context.default line with
        | .ok ast => astOut w o ast (readLine ls).2
        | .err e => report e ++ b!"\n"
        | .panic _ => []
        | .fuel => [] -- does not happen: `parseImpl_ne_fuel`

/-- What the first `n` turns print; the turns are those of `session`. -/
def turnsOut (cfg : Cfg) (w : World) (report : PErr → Bytes) (os : Nat → Oracle) : Nat → List Line → Bytes
  | 0, _ => []
  | n + 1, ls =>
    turnOut cfg w (os 0) report ls ++
      match round cfg w (os 0) ls with
      | .error _ => []
      | .ok (_, rest) => turnsOut cfg w report (fun k => os (k + 1)) n rest

/-- `repl.rs:21-22` -/
def greeting : Bytes :=
  b!"Welcome to the XPRS REPL!\nFeel free to type in expressions and see the AST.\n"

/-- What the program has printed after at most `n` turns. -/
def output (cfg : Cfg) (w : World) (report : PErr → Bytes) (os : Nat → Oracle) (n : Nat) (ls : List Line) : Bytes :=
  greeting ++ turnsOut cfg w report os n ls

end Xprs
