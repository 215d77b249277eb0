import Verif.Context
/-
`/repo/src/element/simplify.rs`.
-/
namespace Xprs

/-- The size of `usize`, which depends on the target. -/
inductive Width where
  | w16 | w32 | w64
  deriving DecidableEq

/-- The number of bits. -/
def Width.bits : Width → Nat
  | .w16 => 16
  | .w32 => 32
  | .w64 => 64

/-- Build configuration. -/
structure Cfg where
  /-- feature `compile-time-optimizations` (`Cargo.toml`, `parser.rs:180-183`) -/
  opt : Bool
  /-- feature `pejmdas` instead of `pemdas` (`precedence.rs:11-16`) -/
  pejmdas : Bool
  /-- `cfg(NIGHTLY)` (`build.rs:20-22`) -/
  nightly : Bool
  /-- arithmetic overflow checks (debug builds) -/
  overflowChecks : Bool
  /-- the target -/
  usize : Width := .w64
  deriving DecidableEq

/-- The arithmetic of the two-numbers arm of `BinOp::simplify` (`simplify.rs:227-235`)
and of `eval_element` (`xprs.rs:296-304`), which are the same table. -/
def binF (w : World) : Op → F64 → F64 → PM F64
  | .plus, a, b => .ok (F64.add a b)
  | .minus, a, b => .ok (F64.sub a b)
  | .times, a, b => .ok (F64.mul a b)
  | .divide, a, b => .ok (F64.div a b)
  | .power, a, b => .ok (w.powf a b)
  | .modulo, a, b => .ok (F64.rem a b)
  | .factorial, _, _ => .error .unreachable

/-- The unary operators of `eval_element` (`xprs.rs:282-290`). -/
def unF : Op → F64 → PM F64
  | .plus, a => .ok a
  | .minus, a => .ok (F64.neg a)
  | .factorial, a => factorial a
  | _, _ => .error .unreachable

/-- `Number(0.0)` as matched by the guards. -/
def Elem.is0 (e : Elem) : Bool := e.isNumEq F64.f0
/-- `Number(1.0)` as matched by the guards. -/
def Elem.is1 (e : Elem) : Bool := e.isNumEq F64.f1

/-- The operand of a unary minus, if the element is one (the `box UnOp { op: Minus,
operand }` patterns of the NIGHTLY arms). -/
def Elem.negOf? : Elem → Option Elem
  | .un .minus a => some a
  | _ => none

/-- The last two arms of `BinOp::simplify` (`simplify.rs:221-238`): fold two numbers,
else leave the node. -/
def foldBin (w : World) (op : Op) (l r : Elem) : PM Elem :=
  match l, r with
  | .num a, .num b => (binF w op a b).map .num
  | l, r => .ok (.bin op l r)

/-- A guard `if a == b => res` followed by the remaining arms. -/
def guardEq (a b : Elem) (res : Elem) (rest : PM Elem) : PM Elem :=
  match eqE a b with
  | .error p => .error p
  | .ok true => .ok res
  | .ok false => rest

/-- The `Plus` arms (`simplify.rs:53-72`), then the common tail. -/
def simpPlus (cfg : Cfg) (w : World) (l r : Elem) : PM Elem :=
  if l.is0 then .ok r
  else if r.is0 then .ok l
  else
    let tail := foldBin w .plus l r
    let second :=
      match cfg.nightly, r.negOf? with
      | true, some operand => guardEq l operand (.num F64.f0) tail
      | _, _ => tail
    match cfg.nightly, l.negOf? with
    | true, some operand => guardEq operand r (.num F64.f0) second
    | _, _ => second

/-- The `Minus` arms (`simplify.rs:73-99`), then the common tail. -/
def simpMinus (cfg : Cfg) (w : World) (l r : Elem) : PM Elem :=
  if l.is0 then .ok (.un .minus r)
  else if r.is0 then .ok l
  else
    guardEq l r (.num F64.f0) <|
      match cfg.nightly, r.negOf? with
      | true, some operand => .ok (.bin .plus l operand)
      | _, _ => foldBin w .minus l r

/-- The `Times` arms (`simplify.rs:100-132`), then the common tail. -/
def simpTimes (cfg : Cfg) (w : World) (l r : Elem) : PM Elem :=
  if l.is0 then .ok (.num F64.f0)
  else if r.is0 then .ok (.num F64.f0)
  else if l.is1 then .ok r
  else if r.is1 then .ok l
  else
    match cfg.nightly, l.negOf?, r.negOf? with
    | true, some a, some b => .ok (.bin .times a b)
    | _, _, _ => foldBin w .times l r

/-- The `Divide` arms (`simplify.rs:133-175` and the misplaced arm 186-188, which is
written `op: Divide` below the comment `a ^ 0 => 1`), then the common tail. -/
def simpDivide (cfg : Cfg) (w : World) (l r : Elem) : PM Elem :=
  if l.is0 && r.is0 then .ok (.num .nan)
  else if l.is0 then .ok (.num F64.f0)
  else if r.is0 then .ok (.num (.inf false))
  else if r.is1 then .ok l
  else
    guardEq l r (.num F64.f1) <|
      match cfg.nightly, l.negOf?, r.negOf? with
      | true, some a, some b => .ok (.bin .divide a b)
      | _, _, _ =>
        if r.is0 then .ok (.num F64.f1)
        else foldBin w .divide l r

/-- The `Power` arms (`simplify.rs:176-184, 189-194`), then the common tail. -/
def simpPower (w : World) (l r : Elem) : PM Elem :=
  if l.is0 && r.is0 then .ok (.num F64.f1)
  else if l.is0 then .ok (.num F64.f0)
  else if r.is1 then .ok l
  else foldBin w .power l r

/-- The `Modulo` arms (`simplify.rs:195-219`), then the common tail. -/
def simpModulo (w : World) (l r : Elem) : PM Elem :=
  if l.is0 && r.is0 then .ok (.num .nan)
  else if l.is0 then .ok (.num F64.f0)
  else if r.is0 then .ok (.num .nan)
  else if r.is1 then .ok (.num F64.f0)
  else guardEq l r (.num F64.f0) (foldBin w .modulo l r)

/-- The `match self` of `BinOp::simplify` (`simplify.rs:52-239`), on already simplified
operands.  The arms are grouped by operator; within an operator their order is the
source order (arms of other operators cannot match in between). -/
def simpBin (cfg : Cfg) (w : World) : Op → Elem → Elem → PM Elem
  | .plus => simpPlus cfg w
  | .minus => simpMinus cfg w
  | .times => simpTimes cfg w
  | .divide => simpDivide cfg w
  | .power => simpPower w
  | .modulo => simpModulo w
  | .factorial => foldBin w .factorial

/-- The `match self.op` of `UnOp::simplify` (`simplify.rs:252-272`), on an already
simplified operand. -/
def simpUn (op : Op) (e : Elem) : PM Elem :=
  match op with
  | .plus => .ok e
  | .factorial =>
    match e with
    | .num x => (factorial x).map .num
    | _ => .ok (.un .factorial e)
  | .minus =>
    match e with
    | .num x => .ok (.num (F64.neg x))
    | _ => .ok (.un .minus e)
  | _ => .error .unreachable

/-- The numbers among the arguments (`args_values`, `simplify.rs:290-302`). -/
def numsOf : List Elem → List F64
  | [] => []
  | .num x :: as => x :: numsOf as
  | _ :: as => numsOf as

/-- The tail of `FunctionCall::simplify` (`simplify.rs:304-308`), on already
simplified arguments. -/
def simpCall (w : World) (f : Func) (args : List Elem) : PM Elem :=
  if (numsOf args).length = args.length then (callFn w f (numsOf args)).map .num
  else .ok (.call f args)

mutual
/-- `Element::simplify` (`/repo/src/element/simplify.rs:29-36`), with
`BinOp::simplify` (47-240), `UnOp::simplify` (249-273) and `FunctionCall::simplify`
(286-309) inlined. -/
def simplify (cfg : Cfg) (w : World) : Elem → PM Elem
  | .num x => .ok (.num x)
  | .var n => .ok (.var n)
  | .bin op l r =>
    match simplify cfg w l with
    | .error p => .error p
    | .ok l' =>
      match simplify cfg w r with
      | .error p => .error p
      | .ok r' => simpBin cfg w op l' r'
  | .un op e =>
    match simplify cfg w e with
    | .error p => .error p
    | .ok e' => simpUn op e'
  | .call f args =>
    match simplifyL cfg w args with
    | .error p => .error p
    | .ok args' => simpCall w f args'
/-- The `map` over the arguments in `FunctionCall::simplify` (`simplify.rs:292-302`). -/
def simplifyL (cfg : Cfg) (w : World) : List Elem → PM (List Elem)
  | [] => .ok []
  | a :: as =>
    match simplify cfg w a with
    | .error p => .error p
    | .ok a' =>
      match simplifyL cfg w as with
      | .error p => .error p
      | .ok as' => .ok (a' :: as')
end

mutual
/-- `Element::simplify_for` (`/repo/src/element/simplify.rs:19-27`), with
`BinOp::simplify_for` (40-44), `UnOp::simplify_for` (244-247) and
`FunctionCall::simplify_for` (277-284) inlined: the operands are simplified for the
variable and then the whole node is simplified. -/
def simplifyFor (cfg : Cfg) (w : World) (x : Bytes) (v : F64) : Elem → PM Elem
  | .num a => .ok (.num a)
  | .var n => if n = x then .ok (.num v) else .ok (.var n)
  | .bin op l r =>
    match simplifyFor cfg w x v l with
    | .error p => .error p
    | .ok l' =>
      match simplifyFor cfg w x v r with
      | .error p => .error p
      | .ok r' => simplify cfg w (.bin op l' r')
  | .un op e =>
    match simplifyFor cfg w x v e with
    | .error p => .error p
    | .ok e' => simplify cfg w (.un op e')
  | .call f args =>
    match simplifyForL cfg w x v args with
    | .error p => .error p
    | .ok args' => simplify cfg w (.call f args')
/-- The `map` over the arguments (`simplify.rs:278-282`). -/
def simplifyForL (cfg : Cfg) (w : World) (x : Bytes) (v : F64) : List Elem → PM (List Elem)
  | [] => .ok []
  | a :: as =>
    match simplifyFor cfg w x v a with
    | .error p => .error p
    | .ok a' =>
      match simplifyForL cfg w x v as with
      | .error p => .error p
      | .ok as' => .ok (a' :: as')
end

end Xprs
