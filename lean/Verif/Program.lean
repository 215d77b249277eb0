import Verif.HeapParser
/-
A program that uses the library: it holds expressions, and parses, copies, simplifies,
evaluates and drops them in any order.  What it holds is in memory (`Heap.lean`,
`HeapParser.lean`).

`Clone` is derived for `Element` (`element/mod.rs:20`), `BinOp` (`element/binop.rs:7`),
`UnOp` (`element/unop.rs:7`), `FunctionCall` (`element/function_call.rs:7`) and `Xprs`
(`xprs.rs:18`): every box is copied into a new one; so is it for `Function`
(`token/function.rs:8`), whose `Arc` gets one more reference.
-/
namespace Xprs

mutual
/-- `Element::clone` (`element/mod.rs:20`) -/
def cloneH (m : Mem) : HElem → HElem × Mem
  | .num x => (.num x, m)
  | .var n => (.var n, m)
  | .bin _ op l r =>
    match cloneH m l with
    | (l', m1) =>
      match cloneH m1 r with
      | (r', m2) => (.bin m2.next op l' r', { m2 with next := m2.next + 1 })
  | .un _ op e =>
    match cloneH m e with
    | (e', m1) => (.un m1.next op e', { m1 with next := m1.next + 1 })
  | .call _ f args =>
    match cloneHL m args with
    | (args', m1) => (.call m1.next f args', { m1.share f with next := m1.next + 1 })
def cloneHL (m : Mem) : List HElem → List HElem × Mem
  | [] => ([], m)
  | a :: as =>
    match cloneH m a with
    | (a', m1) =>
      match cloneHL m1 as with
      | (as', m2) => (a' :: as', m2)
end

/-- `Xprs::clone` (`xprs.rs:18`) -/
def HXpr.clone (m : Mem) (e : HXpr) : HXpr × Mem :=
  match cloneH m e.root with
  | (t, m') => (⟨t, e.vars⟩, m')

/-- What a program can do; expressions are numbered in the order in which they came. -/
inductive Cmd where
  /-- `Parser::parse` (`parser.rs:86-105`) -/
  | parse (o : Oracle) (ctx : Context) (input : Bytes)
  /-- `Clone::clone` -/
  | clone (i : Nat)
  /-- the end of the life of a variable -/
  | drop (i : Nat)
  /-- `eval` (`xprs.rs:75-80`) -/
  | eval (i : Nat) (vars : HMap F64)
  /-- `simplify_for_in_place` (`xprs.rs:143-148`) -/
  | fix (i : Nat) (x : Bytes) (v : F64)
  /-- `simplify_for_multiple_in_place` (`xprs.rs:219-227`) -/
  | fixAll (i : Nat) (l : List (Bytes × F64))
  /-- `simplify_for` (`xprs.rs:194-197`), the result takes the place of the argument -/
  | into (i : Nat) (x : Bytes) (v : F64)
  /-- `simplify_for_multiple` (`xprs.rs:250-253`) -/
  | intoAll (i : Nat) (l : List (Bytes × F64))

/-- What the program sees. -/
inductive Obs where
  | done
  | parsed (r : PRes)
  | value (r : Except EvErr F64)
  | panic (p : Panic)

/-- The memory and the expressions a program holds. -/
structure Store where
  mem : Mem
  owned : List HXpr

/-- After a method with `&mut self`, also when it has panicked and the panic was caught. -/
def afterFix (es : List HXpr) (i : Nat) (r : InPlace) : Obs × Store :=
  match r.panic with
  | some p => (.panic p, ⟨r.mem, es.set i r.self⟩)
  | none => (.done, ⟨r.mem, es.set i r.self⟩)

/-- After a method with `self`, which is gone if it has panicked. -/
def afterInto (es : List HXpr) (i : Nat) (r : Run HXpr) : Obs × Store :=
  match r with
  | (.error p, m) => (.panic p, ⟨m, es.eraseIdx i⟩)
  | (.ok e, m) => (.done, ⟨m, es.set i e⟩)

/-- One command. -/
inductive Does (cfg : Cfg) (w : World) : Store → Cmd → Obs → Store → Prop
  | parse {m es o ctx input} : Does cfg w ⟨m, es⟩ (.parse o ctx input)
      (.parsed (parseH cfg w o ctx m input).1.erase)
      ⟨(parseH cfg w o ctx m input).2, es ++ (parseH cfg w o ctx m input).1.kept⟩
  | clone {m es i e} : es[i]? = some e →
      Does cfg w ⟨m, es⟩ (.clone i) .done ⟨(e.clone m).2, es ++ [(e.clone m).1]⟩
  | drop {m es i e} : es[i]? = some e →
      Does cfg w ⟨m, es⟩ (.drop i) .done ⟨m.dropX e, es.eraseIdx i⟩
  | eval {m es i e vars} : es[i]? = some e →
      Does cfg w ⟨m, es⟩ (.eval i vars) (.value (e.erase.eval w vars)) ⟨m, es⟩
  | fix {m es i e x v} : es[i]? = some e →
      Does cfg w ⟨m, es⟩ (.fix i x v) (afterFix es i (e.simplifyForInPlace cfg w m x v)).1
        (afterFix es i (e.simplifyForInPlace cfg w m x v)).2
  | fixAll {m es i e l} : es[i]? = some e →
      Does cfg w ⟨m, es⟩ (.fixAll i l) (afterFix es i (e.simplifyForMultipleInPlace cfg w m l)).1
        (afterFix es i (e.simplifyForMultipleInPlace cfg w m l)).2
  | into {m es i e x v} : es[i]? = some e →
      Does cfg w ⟨m, es⟩ (.into i x v) (afterInto es i (byValue (e.simplifyForInPlace cfg w m x v))).1
        (afterInto es i (byValue (e.simplifyForInPlace cfg w m x v))).2
  | intoAll {m es i e l} : es[i]? = some e →
      Does cfg w ⟨m, es⟩ (.intoAll i l) (afterInto es i (byValue (e.simplifyForMultipleInPlace cfg w m l))).1
        (afterInto es i (byValue (e.simplifyForMultipleInPlace cfg w m l))).2

/-- A program: commands, what was seen, and the store afterwards. -/
inductive Execution (cfg : Cfg) (w : World) (s : Store) : List (Cmd × Obs) → Store → Prop
  | start : Execution cfg w s [] s
  | next {tr t c ob u} : Execution cfg w s tr t → Does cfg w t c ob u → Execution cfg w s (tr ++ [(c, ob)]) u

end Xprs
