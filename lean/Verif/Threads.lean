import Verif.Effects
/-
Evaluations in several threads.

`Xprs::eval` takes `&self` and `&HashMap`, writes to nothing that is shared and waits for
nothing: the only points where threads can influence each other are the calls of user
functions (`/repo/src/element/function_call.rs:29-32`; the pointers are `Send + Sync`,
`/repo/src/token/function.rs:43-54`).  Here an evaluation is cut at these points, and a
schedule says which thread makes the next call.

Simplification: a call of a user function is one step.  A function whose calls can
interleave in the middle has to synchronise itself (`Sync`); what it then does is one of
the behaviours of `Stateful`.
-/
namespace Xprs

/-- What is left to do of an evaluation: nothing, or a call of a user function and how to
go on with its answer (`none`: it panicked). -/
inductive Task where
  | done (r : Except EvErr F64)
  | ask (p : FnPtr) (args : List F64) (k : Option F64 → Task)

/-- Go on with a value, or stop at a panic. -/
def Task.ofPM (x : PM F64) (k : F64 → Task) : Task :=
  match x with
  | .ok v => k v
  | .error p => .done (.error (.panic p))

mutual
/-- `eval_element` (`xprs.rs:272-317`), followed by `k`. -/
def evalK (w : World) (m : HMap F64) : Elem → (F64 → Task) → Task
  | .num x, k => k x
  | .var n, k =>
    match m.get n with
    | some x => k x
    | none => .done (.error (.missing n))
  | .un op e, k => evalK w m e fun v => .ofPM (unF op v) k
  | .bin op l r, k => evalK w m l fun a => evalK w m r fun b => .ofPM (binF w op a b) k
  | .call f args, k => evalKL w m args fun vs =>
      match f.func with
      | .builtin b => .ofPM (b.run w vs) k
      | p => .ask p vs fun
        | some v => k v
        | none => .done (.error (.panic .user))
/-- `map(..).collect::<Result<Vec<_>, _>>()` (`xprs.rs:307-311`), followed by `k`. -/
def evalKL (w : World) (m : HMap F64) : List Elem → (List F64 → Task) → Task
  | [], k => k []
  | a :: as, k => evalK w m a fun v => evalKL w m as fun vs => k (v :: vs)
end

/-- `Xprs::eval` (`xprs.rs:75-80`) up to its first call of a user function. -/
def Xpr.task (w : World) (e : Xpr) (m : HMap F64) : Task := evalK w m e.root fun v => .done (.ok v)

/-- A call, and the thread that made it. -/
structure Event where
  thread : Nat
  fn : FnPtr
  args : List F64
  res : Option F64

variable {σ : Type}

/-- The threads, numbered, the memory of the functions, and the calls so far. -/
structure Machine (σ : Type) where
  tasks : Nat → Task
  mem : σ
  log : List Event

/-- Thread `i` gets a turn: it makes its next call and runs until the one after. -/
def Machine.turn (u : Stateful σ) (s : Machine σ) (i : Nat) : Machine σ :=
  match s.tasks i with
  | .done _ => s
  | .ask p args k =>
    { tasks := fun j => if j = i then k (u.call p args s.mem).1 else s.tasks j
      mem := (u.call p args s.mem).2
      log := s.log ++ [⟨i, p, args, (u.call p args s.mem).1⟩] }

/-- The threads get turns as the schedule says. -/
def Machine.run (u : Stateful σ) (s : Machine σ) : List Nat → Machine σ
  | [] => s
  | i :: is => (s.turn u i).run u is

/-- Thread `i` evaluates `es i` with the assignment `ms i`; the expressions may be one and
the same. -/
def Machine.start (w : World) (es : Nat → Xpr) (ms : Nat → HMap F64) (t : σ) : Machine σ :=
  ⟨fun i => (es i).task w (ms i), t, []⟩

/-- A thread alone, until it is done. -/
def Task.alone (u : Stateful σ) : Task → σ → Except EvErr F64 × σ
  | .done r, t => (r, t)
  | .ask p args k, t => (k (u.call p args t).1).alone u (u.call p args t).2

end Xprs
