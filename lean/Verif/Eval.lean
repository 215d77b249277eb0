import Verif.Parser
/-
`/repo/src/xprs.rs`: evaluation, simplification of an `Xprs`, binding.
-/
namespace Xprs

/-- Why an evaluation did not produce a number: `EvalError(name)` (`xprs.rs:369`) or a
panic. -/
inductive EvErr where
  | missing (name : Bytes)
  | panic (p : Panic)
  deriving DecidableEq

/-- A panicking computation inside `eval`. -/
def liftP {α : Type} : PM α → Except EvErr α
  | .ok a => .ok a
  | .error p => .error (.panic p)

mutual
/-- `eval_element` (`xprs.rs:272-317`) -/
def eval (w : World) (m : HMap F64) : Elem → Except EvErr F64
  | .num x => .ok x
  | .var n =>
    match m.get n with
    | some x => .ok x
    | none => .error (.missing n)
  | .un op e =>
    match eval w m e with
    | .error r => .error r
    | .ok v => liftP (unF op v)
  | .bin op l r =>
    match eval w m l with
    | .error r => .error r
    | .ok a =>
      match eval w m r with
      | .error r => .error r
      | .ok b => liftP (binF w op a b)
  | .call f args =>
    match evalL w m args with
    | .error r => .error r
    | .ok vs => liftP (callFn w f vs)
/-- `map(..).collect::<Result<Vec<_>, _>>()` (`xprs.rs:307-311`): stops at the first
error. -/
def evalL (w : World) (m : HMap F64) : List Elem → Except EvErr (List F64)
  | [] => .ok []
  | a :: as =>
    match eval w m a with
    | .error r => .error r
    | .ok v =>
      match evalL w m as with
      | .error r => .error r
      | .ok vs => .ok (v :: vs)
end

mutual
/-- `eval_element_unchecked` (`xprs.rs:320-361`) -/
def evalU (w : World) (m : HMap F64) : Elem → PM F64
  | .num x => .ok x
  | .var n =>
    match m.get n with
    | some x => .ok x
    | none => .error .unwrap
  | .un op e =>
    match evalU w m e with
    | .error r => .error r
    | .ok v =>
      match op with
      | .plus => .ok v
      | .minus => .ok (F64.neg v)
      | .factorial => factorial v
      | .times | .divide | .power | .modulo => .error .unreachable
  | .bin op l r =>
    match evalU w m l with
    | .error r => .error r
    | .ok a =>
      match evalU w m r with
      | .error r => .error r
      | .ok b =>
        match op with
        | .plus => .ok (F64.add a b)
        | .minus => .ok (F64.sub a b)
        | .times => .ok (F64.mul a b)
        | .divide => .ok (F64.div a b)
        | .power => .ok (w.powf a b)
        | .modulo => .ok (F64.rem a b)
        | .factorial => .error .unreachable
  | .call f args =>
    match evalUL w m args with
    | .error r => .error r
    | .ok vs => callFn w f vs
/-- `map(..).collect::<Vec<_>>()` (`xprs.rs:353-357`) -/
def evalUL (w : World) (m : HMap F64) : List Elem → PM (List F64)
  | [] => .ok []
  | a :: as =>
    match evalU w m a with
    | .error r => .error r
    | .ok v =>
      match evalUL w m as with
      | .error r => .error r
      | .ok vs => .ok (v :: vs)
end

namespace Xpr

/-- The derived `==` on `Xprs` (`xprs.rs:18-25`): the fields in order, with `&&`.  Two
`HashSet`s are equal if they have the same size and the second contains every element
of the first. -/
def eqX (a b : Xpr) : PM Bool :=
  andM (eqE a.root b.root)
    (.ok (decide (a.vars.length = b.vars.length) && a.vars.all fun v => decide (v ∈ b.vars)))

/-- `HashSet::remove` -/
def removeVar (vs : List Bytes) (x : Bytes) : List Bytes := vs.filter fun v => !decide (v = x)

/-- `simplify_for_in_place` (`xprs.rs:143-148`) and `simplify_for` (194-197). -/
def simplifyFor (cfg : Cfg) (w : World) (e : Xpr) (x : Bytes) (v : F64) : PM Xpr :=
  match _root_.Xprs.simplifyFor cfg w x v e.root with
  | .error p => .error p
  | .ok root => .ok ⟨root, removeVar e.vars x⟩

/-- The `for` loop of `simplify_for_multiple_in_place` (`xprs.rs:222-225`). -/
def simplifyLoop (cfg : Cfg) (w : World) : List (Bytes × F64) → Elem → List Bytes → PM Xpr
  | [], tmp, vars => .ok ⟨tmp, vars⟩
  | (x, v) :: l, tmp, vars =>
    match _root_.Xprs.simplifyFor cfg w x v tmp with
    | .error p => .error p
    | .ok tmp' => simplifyLoop cfg w l tmp' (removeVar vars x)

/-- `simplify_for_multiple_in_place` (`xprs.rs:219-227`) and `simplify_for_multiple`
(250-253). -/
def simplifyForMultiple (cfg : Cfg) (w : World) (e : Xpr) (l : List (Bytes × F64)) : PM Xpr :=
  simplifyLoop cfg w l e.root e.vars

/-- `Xprs::eval` (`xprs.rs:75-80`) -/
def eval (w : World) (e : Xpr) (m : HMap F64) : Except EvErr F64   := _root_.Xprs.eval w m e.root
/-- `Xprs::eval_unchecked` (`xprs.rs:119-121`) -/
def evalUnchecked (w : World) (e : Xpr) (m : HMap F64) : PM F64   := Xprs.evalU w m e.root
/-- `eval_no_vars` (`xprs.rs:157-159`) -/
def evalNoVars (w : World) (e : Xpr) : Except EvErr F64 := e.eval w HMap.empty
/-- `eval_no_vars_unchecked` (`xprs.rs:169-171`) -/
def evalNoVarsUnchecked (w : World) (e : Xpr) : PM F64 := e.evalUnchecked w HMap.empty

end Xpr

/-- `BindError` (`xprs.rs:736-741`) -/
inductive BindErr where
  | one (s : Bytes)
  | multiple (s : Bytes)
  deriving DecidableEq

/-- `count += 1` on a `u8` (`xprs.rs:753`) -/
def incU8 (cfg : Cfg) (c : Nat) : PM Nat :=
  if c + 1 < 256 then .ok (c + 1)
  else if cfg.overflowChecks then .error .overflow else .ok 0

/-- The loop of `BindError::from_diff` (`xprs.rs:752-758`). -/
def diffLoop (cfg : Cfg) : List Bytes → Nat → Bytes → PM (Nat × Bytes)
  | [], c, s => .ok (c, s)
  | v :: rest, c, s =>
    match incU8 cfg c with
    | .error p => .error p
    | .ok c' => diffLoop cfg rest c' (if rest.isEmpty then s ++ v else (s ++ v) ++ b!", ")

/-- `BindError::from_diff` (`xprs.rs:746-764`) -/
def fromDiff (cfg : Cfg) (missing : List Bytes) : PM (Option BindErr) :=
  match diffLoop cfg missing 0 [] with
  | .error p => .error p
  | .ok (c, s) => .ok (if c = 0 then none else if c = 1 then some (.one s) else some (.multiple s))

/-- The common first part of `bind`, `bind2`, …, `bind9`, `bind_n` and
`bind_n_runtime` (`xprs.rs:400-404` and its copies): `none` when binding succeeds. -/
def bindCheck (cfg : Cfg) (o : Oracle) (e : Xpr) (names : List Bytes) : PM (Option BindErr) :=
  fromDiff cfg (diffVars o e.vars names)

/-- Outcome of a `bind*` call: it may panic, fail with a `BindError`, or return a
closure. -/
inductive BindRes (α : Type) where
  | ok (f : α)
  | err (e : BindErr)
  | panic (p : Panic)

/-- The `if let Some(bind_error) … yeet!` of every variant. -/
def bindWith {α : Type} (cfg : Cfg) (o : Oracle) (e : Xpr) (names : List Bytes) (f : α) :
    BindRes α :=
  match bindCheck cfg o e names with
  | .error p => .panic p
  | .ok (some b) => .err b
  | .ok none => .ok f

/-- `bind` (`xprs.rs:399-406`) -/
def Xpr.bind1 (cfg : Cfg) (w : World) (o : Oracle) (e : Xpr) (n : Bytes) :
    BindRes (F64 → PM F64) :=
  bindWith cfg o e [n] fun v => e.evalUnchecked w (HMap.ofList [(n, v)])
/-- `bind2` (`xprs.rs:430-437`) -/
def Xpr.bind2 (cfg : Cfg) (w : World) (o : Oracle) (e : Xpr) (n1 n2 : Bytes) :
    BindRes (F64 → F64 → PM F64) :=
  bindWith cfg o e [n1, n2] fun v1 v2 =>
    e.evalUnchecked w (HMap.ofList [(n1, v1), (n2, v2)])
/-- `bind3` (`xprs.rs:461-468`) -/
def Xpr.bind3 (cfg : Cfg) (w : World) (o : Oracle) (e : Xpr) (n1 n2 n3 : Bytes) :
    BindRes (F64 → F64 → F64 → PM F64) :=
  bindWith cfg o e [n1, n2, n3] fun v1 v2 v3 =>
    e.evalUnchecked w (HMap.ofList [(n1, v1), (n2, v2), (n3, v3)])
/-- `bind4` (`xprs.rs:492-499`) -/
def Xpr.bind4 (cfg : Cfg) (w : World) (o : Oracle) (e : Xpr)
    (n1 n2 n3 n4 : Bytes) : BindRes (F64 → F64 → F64 → F64 → PM F64) :=
  bindWith cfg o e [n1, n2, n3, n4] fun v1 v2 v3 v4 =>
    e.evalUnchecked w (HMap.ofList
      [(n1, v1), (n2, v2), (n3, v3), (n4, v4)])
/-- `bind5` (`xprs.rs:523-530`) -/
def Xpr.bind5 (cfg : Cfg) (w : World) (o : Oracle) (e : Xpr)
    (n1 n2 n3 n4 n5 : Bytes) : BindRes (F64 → F64 → F64 → F64 → F64 → PM F64) :=
  bindWith cfg o e [n1, n2, n3, n4, n5] fun v1 v2 v3 v4 v5 =>
    e.evalUnchecked w (HMap.ofList
      [(n1, v1), (n2, v2), (n3, v3), (n4, v4), (n5, v5)])
/-- `bind6` (`xprs.rs:554-561`) -/
def Xpr.bind6 (cfg : Cfg) (w : World) (o : Oracle) (e : Xpr)
    (n1 n2 n3 n4 n5 n6 : Bytes) : BindRes (F64 → F64 → F64 → F64 → F64 → F64 → PM F64) :=
  bindWith cfg o e [n1, n2, n3, n4, n5, n6] fun v1 v2 v3 v4 v5 v6 =>
    e.evalUnchecked w (HMap.ofList
      [(n1, v1), (n2, v2), (n3, v3), (n4, v4), (n5, v5), (n6, v6)])
/-- `bind7` (`xprs.rs:585-592`) -/
def Xpr.bind7 (cfg : Cfg) (w : World) (o : Oracle) (e : Xpr)
    (n1 n2 n3 n4 n5 n6 n7 : Bytes) : BindRes (F64 → F64 → F64 → F64 → F64 → F64 → F64 → PM F64) :=
  bindWith cfg o e [n1, n2, n3, n4, n5, n6, n7] fun v1 v2 v3 v4 v5 v6 v7 =>
    e.evalUnchecked w (HMap.ofList
      [(n1, v1), (n2, v2), (n3, v3), (n4, v4), (n5, v5), (n6, v6), (n7, v7)])
/-- `bind8` (`xprs.rs:616-623`) -/
def Xpr.bind8 (cfg : Cfg) (w : World) (o : Oracle) (e : Xpr)
    (n1 n2 n3 n4 n5 n6 n7 n8 : Bytes) : BindRes (F64 → F64 → F64 → F64 → F64 → F64 → F64 → F64 → PM F64) :=
  bindWith cfg o e [n1, n2, n3, n4, n5, n6, n7, n8] fun v1 v2 v3 v4 v5 v6 v7 v8 =>
    e.evalUnchecked w (HMap.ofList
      [(n1, v1), (n2, v2), (n3, v3), (n4, v4), (n5, v5), (n6, v6), (n7, v7), (n8, v8)])
/-- `bind9` (`xprs.rs:647-654`) -/
def Xpr.bind9 (cfg : Cfg) (w : World) (o : Oracle) (e : Xpr)
    (n1 n2 n3 n4 n5 n6 n7 n8 n9 : Bytes) : BindRes (F64 → F64 → F64 → F64 → F64 → F64 → F64 → F64 → F64 → PM F64) :=
  bindWith cfg o e [n1, n2, n3, n4, n5, n6, n7, n8, n9] fun v1 v2 v3 v4 v5 v6 v7 v8 v9 =>
    e.evalUnchecked w (HMap.ofList
      [(n1, v1), (n2, v2), (n3, v3), (n4, v4), (n5, v5), (n6, v6), (n7, v7), (n8, v8), (n9, v9)])
/-- `bind_n` (`xprs.rs:684-691`): the array of names and the array of values have the
same length `T` by typing. -/
def Xpr.bindN (cfg : Cfg) (w : World) (o : Oracle) (e : Xpr) {T : Nat}
    (names : Vector Bytes T) : BindRes (Vector F64 T → PM F64) :=
  bindWith cfg o e names.toList fun values =>
    e.evalUnchecked w (HMap.ofList (names.toList.zip values.toList))
/-- `bind_n_runtime` (`xprs.rs:718-728`): the returned closure uses the checked
`eval`. -/
def Xpr.bindNRuntime (cfg : Cfg) (w : World) (o : Oracle) (e : Xpr) (names : List Bytes) :
    BindRes (List F64 → Except EvErr F64) :=
  bindWith cfg o e names fun values => e.eval w (HMap.ofList (names.zip values))

end Xprs
