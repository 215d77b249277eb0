import Verif.Eval
/-
Ownership of the boxed nodes of an expression during simplification:
`/repo/src/element/simplify.rs` and the `ptr::read`/`ptr::write` pairs of
`/repo/src/xprs.rs:143-148, 194-197, 219-227, 250-253`.

Every `Box` of a tree carries the address it was allocated at.  A computation returns a
value or panics; in both cases it has freed some boxes.  Values that are moved out of a
function's hands are not freed by it, all others are freed when it returns or unwinds:
this is what the Rust compiler does for safe code, and it is written out here arm by
arm.  A call of a dynamic function holds one reference to its `Arc`; clones of an `Arc` make
references, dropping a `Function` releases one.  Simplifications: the order in which boxes are
freed is not modelled, the `Vec` of arguments goes with the box of the call, and moving the
contents out of a box frees the box at once.
-/
namespace Xprs

/-- `Element` with the address of each box. -/
inductive HElem where
  | num (x : F64)
  | var (n : Bytes)
  | bin (a : Nat) (op : Op) (l r : HElem)
  | un (a : Nat) (op : Op) (e : HElem)
  | call (a : Nat) (f : Func) (args : List HElem)

mutual
/-- The tree without addresses. -/
def HElem.erase : HElem → Elem
  | .num x => .num x
  | .var n => .var n
  | .bin _ op l r => .bin op l.erase r.erase
  | .un _ op e => .un op e.erase
  | .call _ f args => .call f (eraseL args)
def eraseL : List HElem → List Elem
  | [] => []
  | a :: as => a.erase :: eraseL as
end

/-- What has to be given back exactly once: a box, or a reference to an `Arc`. -/
inductive Res where
  | box (a : Nat)
  | arc (p : Nat)
  deriving DecidableEq

/-- The `Arc` a `Function` holds (`/repo/src/token/function.rs:43-54`). -/
def Func.arcs (f : Func) : List Nat :=
  match f.func with
  | .dyn p => [p]
  | _ => []

mutual
/-- The boxes and references a tree owns. -/
def HElem.owns : HElem → List Res
  | .num _ => []
  | .var _ => []
  | .bin a _ l r => .box a :: (l.owns ++ r.owns)
  | .un a _ e => .box a :: e.owns
  | .call a f args => .box a :: (f.arcs.map .arc ++ ownsL args)
def ownsL : List HElem → List Res
  | [] => []
  | a :: as => a.owns ++ ownsL as
end

/-- The next fresh address, the clones made of each `Arc`, and all that was given back. -/
structure Mem where
  next : Nat
  made : List Nat
  freed : List Res
  deriving DecidableEq

/-- Deallocation of one box, whose contents have been moved out. -/
def Mem.free (m : Mem) (a : Nat) : Mem := { m with freed := .box a :: m.freed }
/-- `drop` of a tree. -/
def Mem.drop (m : Mem) (e : HElem) : Mem := { m with freed := e.owns ++ m.freed }
def Mem.dropL (m : Mem) (es : List HElem) : Mem := { m with freed := ownsL es ++ m.freed }
/-- `drop` of a `Function`. -/
def Mem.release (m : Mem) (f : Func) : Mem := { m with freed := f.arcs.map .arc ++ m.freed }
/-- `clone` of a `Function`. -/
def Mem.share (m : Mem) (f : Func) : Mem := { m with made := f.arcs ++ m.made }

/-- Outcome and memory afterwards. -/
abbrev Run (α : Type) := Except Panic α × Mem

/-- `Box::new` in `BinOp::new_element` and `From<BinOp>` -/
def newBin (m : Mem) (op : Op) (l r : HElem) : Run HElem :=
  (.ok (.bin m.next op l r), { m with next := m.next + 1 })
/-- `Box::new` in `UnOp::new_element` and `From<UnOp>` -/
def newUn (m : Mem) (op : Op) (e : HElem) : Run HElem :=
  (.ok (.un m.next op e), { m with next := m.next + 1 })
/-- `Box::new` in `From<FunctionCall>` -/
def newCall (m : Mem) (f : Func) (args : List HElem) : Run HElem :=
  (.ok (.call m.next f args), { m with next := m.next + 1 })

/-- An arm returning a number, or panicking: both operands are dropped. -/
def dropBoth (m : Mem) (l r : HElem) (x : PM F64) : Run HElem :=
  (x.map .num, (m.drop l).drop r)
/-- An arm `=> lhs` -/
def keepLeft (m : Mem) (l r : HElem) : Run HElem := (.ok l, m.drop r)
/-- An arm `=> rhs` -/
def keepRight (m : Mem) (l r : HElem) : Run HElem := (.ok r, m.drop l)

def HElem.isNumEq (e : HElem) (x : F64) : Bool := e.erase.isNumEq x
def HElem.is0 (e : HElem) : Bool := e.erase.is0
def HElem.is1 (e : HElem) : Bool := e.erase.is1

/-- The `box UnOp { op: Minus, operand }` patterns -/
def HElem.negOf? : HElem → Option (Nat × HElem)
  | .un a .minus e => some (a, e)
  | _ => none

/-- `simplify.rs:221-238` -/
def foldBinH (w : World) (m : Mem) (op : Op) (l r : HElem) : Run HElem :=
  match l, r with
  | .num a, .num b => dropBoth m l r (binF w op a b)
  | _, _ => newBin m op l r

/-- A guard `if a == b`; when the comparison panics both operands of the node are
dropped. -/
def guardH (m : Mem) (l r : HElem) (a b : Elem) (x : F64) (rest : Run HElem) : Run HElem :=
  match eqE a b with
  | .error p => dropBoth m l r (.error p)
  | .ok true => dropBoth m l r (.ok x)
  | .ok false => rest

/-- `simplify.rs:53-72` -/
def simpPlusH (cfg : Cfg) (w : World) (m : Mem) (l r : HElem) : Run HElem :=
  if l.is0 then keepRight m l r
  else if r.is0 then keepLeft m l r
  else
    let tail := foldBinH w m .plus l r
    let second :=
      match cfg.nightly, r.negOf? with
      | true, some (_, operand) => guardH m l r l.erase operand.erase F64.f0 tail
      | _, _ => tail
    match cfg.nightly, l.negOf? with
    | true, some (_, operand) => guardH m l r operand.erase r.erase F64.f0 second
    | _, _ => second

/-- `simplify.rs:73-99` -/
def simpMinusH (cfg : Cfg) (w : World) (m : Mem) (l r : HElem) : Run HElem :=
  if l.is0 then newUn (m.drop l) .minus r
  else if r.is0 then keepLeft m l r
  else
    guardH m l r l.erase r.erase F64.f0 <|
      match cfg.nightly, r.negOf? with
      | true, some (a, operand) => newBin (m.free a) .plus l operand
      | _, _ => foldBinH w m .minus l r

/-- `simplify.rs:100-132` -/
def simpTimesH (cfg : Cfg) (w : World) (m : Mem) (l r : HElem) : Run HElem :=
  if l.is0 then dropBoth m l r (.ok F64.f0)
  else if r.is0 then dropBoth m l r (.ok F64.f0)
  else if l.is1 then keepRight m l r
  else if r.is1 then keepLeft m l r
  else
    match cfg.nightly, l.negOf?, r.negOf? with
    | true, some (a, x), some (b, y) => newBin ((m.free a).free b) .times x y
    | _, _, _ => foldBinH w m .times l r

/-- `simplify.rs:133-175, 186-188` -/
def simpDivideH (cfg : Cfg) (w : World) (m : Mem) (l r : HElem) : Run HElem :=
  if l.is0 && r.is0 then dropBoth m l r (.ok .nan)
  else if l.is0 then dropBoth m l r (.ok F64.f0)
  else if r.is0 then dropBoth m l r (.ok (.inf false))
  else if r.is1 then keepLeft m l r
  else
    guardH m l r l.erase r.erase F64.f1 <|
      match cfg.nightly, l.negOf?, r.negOf? with
      | true, some (a, x), some (b, y) => newBin ((m.free a).free b) .divide x y
      | _, _, _ =>
        if r.is0 then dropBoth m l r (.ok F64.f1)
        else foldBinH w m .divide l r

/-- `simplify.rs:176-184, 189-194` -/
def simpPowerH (w : World) (m : Mem) (l r : HElem) : Run HElem :=
  if l.is0 && r.is0 then dropBoth m l r (.ok F64.f1)
  else if l.is0 then dropBoth m l r (.ok F64.f0)
  else if r.is1 then keepLeft m l r
  else foldBinH w m .power l r

/-- `simplify.rs:195-219` -/
def simpModuloH (w : World) (m : Mem) (l r : HElem) : Run HElem :=
  if l.is0 && r.is0 then dropBoth m l r (.ok .nan)
  else if l.is0 then dropBoth m l r (.ok F64.f0)
  else if r.is0 then dropBoth m l r (.ok .nan)
  else if r.is1 then dropBoth m l r (.ok F64.f0)
  else guardH m l r l.erase r.erase F64.f0 (foldBinH w m .modulo l r)

/-- The `match self` of `BinOp::simplify` (`simplify.rs:52-239`) -/
def simpBinH (cfg : Cfg) (w : World) (m : Mem) : Op → HElem → HElem → Run HElem
  | .plus => simpPlusH cfg w m
  | .minus => simpMinusH cfg w m
  | .times => simpTimesH cfg w m
  | .divide => simpDivideH cfg w m
  | .power => simpPowerH w m
  | .modulo => simpModuloH w m
  | .factorial => foldBinH w m .factorial

/-- The `match self.op` of `UnOp::simplify` (`simplify.rs:252-272`) -/
def simpUnH (m : Mem) (op : Op) (e : HElem) : Run HElem :=
  match op with
  | .plus => (.ok e, m)
  | .factorial =>
    match e with
    | .num x => ((factorial x).map .num, m)
    | _ => newUn m .factorial e
  | .minus =>
    match e with
    | .num x => (.ok (.num (F64.neg x)), m)
    | _ => newUn m .minus e
  | _ => (.error .unreachable, m.drop e)

/-- The tail of `FunctionCall::simplify` (`simplify.rs:304-308`) -/
def simpCallH (w : World) (m : Mem) (f : Func) (args : List HElem) : Run HElem :=
  if (numsOf (eraseL args)).length = args.length then
    ((callFn w f (numsOf (eraseL args))).map .num, (m.dropL args).release f)
  else newCall m f args

mutual
/-- `Element::simplify` (`simplify.rs:29-36`) and what it calls. -/
def simplifyH (cfg : Cfg) (w : World) (m : Mem) : HElem → Run HElem
  | .num x => (.ok (.num x), m)
  | .var n => (.ok (.var n), m)
  | .bin a op l r =>
    match simplifyH cfg w (m.free a) l with
    | (.error p, m1) => (.error p, m1.drop r)
    | (.ok l', m1) =>
      match simplifyH cfg w m1 r with
      | (.error p, m2) => (.error p, m2.drop l')
      | (.ok r', m2) => simpBinH cfg w m2 op l' r'
  | .un a op e =>
    match simplifyH cfg w (m.free a) e with
    | (.error p, m1) => (.error p, m1)
    | (.ok e', m1) => simpUnH m1 op e'
  | .call a f args =>
    match simplifyHL cfg w (m.free a) args with
    | (.error p, m1) => (.error p, m1.release f)
    | (.ok args', m1) => simpCallH w m1 f args'
/-- The `into_iter().map(..).collect()` (`simplify.rs:292-302`): when an argument panics
the rest of the iterator and the results so far are dropped. -/
def simplifyHL (cfg : Cfg) (w : World) (m : Mem) : List HElem → Run (List HElem)
  | [] => (.ok [], m)
  | a :: as =>
    match simplifyH cfg w m a with
    | (.error p, m1) => (.error p, m1.dropL as)
    | (.ok a', m1) =>
      match simplifyHL cfg w m1 as with
      | (.error p, m2) => (.error p, m2.drop a')
      | (.ok as', m2) => (.ok (a' :: as'), m2)
end

mutual
/-- `Element::simplify_for` (`simplify.rs:19-27`) and what it calls: the node is
simplified with its new operands without being boxed in between. -/
def simplifyForH (cfg : Cfg) (w : World) (x : Bytes) (v : F64) (m : Mem) : HElem → Run HElem
  | .num a => (.ok (.num a), m)
  | .var n => if n = x then (.ok (.num v), m) else (.ok (.var n), m)
  | .bin a op l r =>
    match simplifyForH cfg w x v (m.free a) l with
    | (.error p, m1) => (.error p, m1.drop r)
    | (.ok l', m1) =>
      match simplifyForH cfg w x v m1 r with
      | (.error p, m2) => (.error p, m2.drop l')
      | (.ok r', m2) =>
        match simplifyH cfg w m2 l' with
        | (.error p, m3) => (.error p, m3.drop r')
        | (.ok l2, m3) =>
          match simplifyH cfg w m3 r' with
          | (.error p, m4) => (.error p, m4.drop l2)
          | (.ok r2, m4) => simpBinH cfg w m4 op l2 r2
  | .un a op e =>
    match simplifyForH cfg w x v (m.free a) e with
    | (.error p, m1) => (.error p, m1)
    | (.ok e', m1) =>
      match simplifyH cfg w m1 e' with
      | (.error p, m2) => (.error p, m2)
      | (.ok e2, m2) => simpUnH m2 op e2
  | .call a f args =>
    match simplifyForHL cfg w x v (m.free a) args with
    | (.error p, m1) => (.error p, m1.release f)
    | (.ok args', m1) =>
      match simplifyHL cfg w m1 args' with
      | (.error p, m2) => (.error p, m2.release f)
      | (.ok args2, m2) => simpCallH w m2 f args2
/-- `simplify.rs:278-282` -/
def simplifyForHL (cfg : Cfg) (w : World) (x : Bytes) (v : F64) (m : Mem) :
    List HElem → Run (List HElem)
  | [] => (.ok [], m)
  | a :: as =>
    match simplifyForH cfg w x v m a with
    | (.error p, m1) => (.error p, m1.dropL as)
    | (.ok a', m1) =>
      match simplifyForHL cfg w x v m1 as with
      | (.error p, m2) => (.error p, m2.drop a')
      | (.ok as', m2) => (.ok (a' :: as'), m2)
end

/-- `Xprs` with addresses. -/
structure HXpr where
  root : HElem
  vars : List Bytes

def HXpr.erase (e : HXpr) : Xpr := ⟨e.root.erase, e.vars⟩

/-- `drop` of an `Xprs` -/
def Mem.dropX (m : Mem) (e : HXpr) : Mem := m.drop e.root

/-- What `*self` holds after a method with `&mut self`, and whether it panicked. -/
structure InPlace where
  panic : Option Panic
  self : HXpr
  mem : Mem

/-- `simplify_for_in_place` (`xprs.rs:143-148`).  `ptr::read` makes a second owner of the
tree without taking it out of `self.root`; `ptr::write` overwrites `self.root` without
dropping it.  A panic in between leaves `self.root` as it was. -/
def HXpr.simplifyForInPlace (cfg : Cfg) (w : World) (m : Mem) (self : HXpr) (x : Bytes) (v : F64) :
    InPlace :=
  match simplifyForH cfg w x v m self.root with
  | (.error p, m1) => ⟨some p, self, m1⟩
  | (.ok tmp, m1) => ⟨none, ⟨tmp, Xpr.removeVar self.vars x⟩, m1⟩

/-- The loop of `simplify_for_multiple_in_place` (`xprs.rs:222-225`); `self.vars` is
changed on the way. -/
def simplifyLoopH (cfg : Cfg) (w : World) (root : HElem) : List (Bytes × F64) → HElem →
    List Bytes → Mem → InPlace
  | [], tmp, vars, m => ⟨none, ⟨tmp, vars⟩, m⟩
  | (x, v) :: l, tmp, vars, m =>
    match simplifyForH cfg w x v m tmp with
    | (.error p, m1) => ⟨some p, ⟨root, vars⟩, m1⟩
    | (.ok tmp', m1) => simplifyLoopH cfg w root l tmp' (Xpr.removeVar vars x) m1

/-- `simplify_for_multiple_in_place` (`xprs.rs:219-227`) -/
def HXpr.simplifyForMultipleInPlace (cfg : Cfg) (w : World) (m : Mem) (self : HXpr)
    (l : List (Bytes × F64)) : InPlace :=
  simplifyLoopH cfg w self.root l self.root self.vars m

/-- `simplify_for(mut self)` and `simplify_for_multiple(mut self)` (`xprs.rs:194-197,
250-253`): `self` is dropped when the in-place method unwinds. -/
def byValue (r : InPlace) : Run HXpr :=
  match r.panic with
  | some p => (.error p, r.mem.dropX r.self)
  | none => (.ok r.self, r.mem)

end Xprs
