import Verif.Display
import Verif.Eval
/-
The recursive functions on a stack of limited depth.

Each has room for `n` calls of itself (and of what it calls recursively) inside one another, and
returns what the function without `D` returns, or `none` if a deeper call is made.
-/
namespace Xprs

mutual
/-- `eval_element` (`/repo/src/xprs.rs:272-317`) with room for `n` calls of itself inside one
another; `none`: a deeper call is made. -/
def evalD (w : World) (m : HMap F64) : Nat → Elem → Option (Except EvErr F64)
  | 0, _ => none
  | _ + 1, .num x => some (.ok x)
  | _ + 1, .var n =>
    match m.get n with
    | some x => some (.ok x)
    | none => some (.error (.missing n))
  | n + 1, .un op e =>
    match evalD w m n e with
    | none => none
    | some (.error r) => some (.error r)
    | some (.ok v) => some (liftP (unF op v))
  | n + 1, .bin op l r =>
    match evalD w m n l with
    | none => none
    | some (.error r) => some (.error r)
    | some (.ok a) =>
      match evalD w m n r with
      | none => none
      | some (.error r) => some (.error r)
      | some (.ok b) => some (liftP (binF w op a b))
  | n + 1, .call f args =>
    match evalDL w m n args with
    | none => none
    | some (.error r) => some (.error r)
    | some (.ok vs) => some (liftP (callFn w f vs))
/-- The arguments of a call (`xprs.rs:307-311`), one after the other. -/
def evalDL (w : World) (m : HMap F64) : Nat → List Elem → Option (Except EvErr (List F64))
  | _, [] => some (.ok [])
  | n, a :: as =>
    match evalD w m n a with
    | none => none
    | some (.error r) => some (.error r)
    | some (.ok v) =>
      match evalDL w m n as with
      | none => none
      | some (.error r) => some (.error r)
      | some (.ok vs) => some (.ok (v :: vs))
end

mutual
/-- `find_variables` (`/repo/src/element/mod.rs:76-93`) -/
def findVarsD : Nat → Elem → List Bytes → Option (List Bytes)
  | 0, _, _ => none
  | _ + 1, .num _, vs => some vs
  | _ + 1, .var v, vs => some (if v ∈ vs then vs else vs ++ [v])
  | n + 1, .un _ e, vs => findVarsD n e vs
  | n + 1, .bin _ l r, vs =>
    match findVarsD n l vs with
    | none => none
    | some us => findVarsD n r us
  | n + 1, .call _ args, vs => findVarsDL n args vs
/-- The `for_each` over the arguments (`element/mod.rs:89`). -/
def findVarsDL : Nat → List Elem → List Bytes → Option (List Bytes)
  | _, [], vs => some vs
  | n, a :: as, vs =>
    match findVarsD n a vs with
    | none => none
    | some us => findVarsDL n as us
end

mutual
/-- `Display for Element` (`element/mod.rs:35-46`, `binop.rs:33-37`, `unop.rs:30-34`,
`function_call.rs:35-45`) -/
def showD (fmt : F64 → Bytes) : Nat → Elem → Option Bytes
  | 0, _ => none
  | _ + 1, .num x => some (fmt x)
  | _ + 1, .var v => some v
  | n + 1, .un op e =>
    match showD fmt n e with
    | none => none
    | some t => some (b!"(" ++ opText op ++ t ++ b!")")
  | n + 1, .bin op l r =>
    match showD fmt n l with
    | none => none
    | some t =>
      match showD fmt n r with
      | none => none
      | some u => some (b!"(" ++ t ++ b!" " ++ opText op ++ b!" " ++ u ++ b!")")
  | n + 1, .call f args =>
    match showDL fmt n args with
    | none => none
    | some ts => some (f.name ++ b!"(" ++ joinWith b!", " ts ++ b!")")
/-- the `map` over the arguments (`function_call.rs:37-41`) -/
def showDL (fmt : F64 → Bytes) : Nat → List Elem → Option (List Bytes)
  | _, [] => some []
  | n, a :: as =>
    match showD fmt n a with
    | none => none
    | some t =>
      match showDL fmt n as with
      | none => none
      | some ts => some (t :: ts)
end

mutual
/-- The drop glue of `Element` (which the compiler writes): the boxes of the operands are dropped
one after the other. -/
def dropD : Nat → Elem → Option Unit
  | 0, _ => none
  | _ + 1, .num _ => some ()
  | _ + 1, .var _ => some ()
  | n + 1, .un _ e => dropD n e
  | n + 1, .bin _ l r =>
    match dropD n l with
    | none => none
    | some _ => dropD n r
  | n + 1, .call _ args => dropDL n args
def dropDL : Nat → List Elem → Option Unit
  | _, [] => some ()
  | n, a :: as =>
    match dropD n a with
    | none => none
    | some _ => dropDL n as
end

/-- `&&` -/
def andD (x y : Option (PM Bool)) : Option (PM Bool) :=
  match x with
  | some (.ok true) => y
  | x => x
/-- `||` -/
def orD (x y : Option (PM Bool)) : Option (PM Bool) :=
  match x with
  | some (.ok false) => y
  | x => x

mutual
/-- `==` on `Element` (`binop.rs:39-60`, derived for the others) -/
def eqD : Nat → Elem → Elem → Option (PM Bool)
  | 0, _, _ => none
  | _ + 1, .num a, .num b => some (.ok (F64.beq a b))
  | n + 1, .bin o l r, .bin o' l' r' =>
    if o = o' then
      match o with
      | .divide | .minus | .modulo | .power => andD (eqD n l l') (eqD n r r')
      | .plus | .times => orD (andD (eqD n l l') (eqD n r r')) (andD (eqD n l r') (eqD n r l'))
      | .factorial => some (.error .unreachable)
    else some (.ok false)
  | n + 1, .un o e, .un o' e' => if o = o' then eqD n e e' else some (.ok false)
  | n + 1, .call f as, .call g bs =>
    if f = g then (if as.length = bs.length then eqDL n as bs else some (.ok false)) else some (.ok false)
  | _ + 1, .var a, .var b => some (.ok (decide (a = b)))
  | _ + 1, _, _ => some (.ok false)
/-- The arguments, one after the other. -/
def eqDL : Nat → List Elem → List Elem → Option (PM Bool)
  | n, a :: as, b :: bs => andD (eqD n a b) (eqDL n as bs)
  | _, _, _ => some (.ok true)
end

/-- A guard `if a == b => res` followed by the remaining arms. -/
def guardD (n : Nat) (a b : Elem) (res : Elem) (rest : Option (PM Elem)) : Option (PM Elem) :=
  match eqD n a b with
  | none => none
  | some (.error p) => some (.error p)
  | some (.ok true) => some (.ok res)
  | some (.ok false) => rest

/-- The `match self` of `BinOp::simplify` (`simplify.rs:52-239`), arm by arm as in `simpBin`.  Where
an arm with a literal is taken first, nothing is compared. -/
def simpBinD (cfg : Cfg) (w : World) (n : Nat) (op : Op) (l r : Elem) : Option (PM Elem) :=
  match op with
  | .plus =>
    if l.is0 || r.is0 then some (simpPlus cfg w l r)
    else
      let tail := some (foldBin w .plus l r)
      let second :=
        match cfg.nightly, r.negOf? with
        | true, some operand => guardD n l operand (.num F64.f0) tail
        | _, _ => tail
      match cfg.nightly, l.negOf? with
      | true, some operand => guardD n operand r (.num F64.f0) second
      | _, _ => second
  | .minus =>
    if l.is0 || r.is0 then some (simpMinus cfg w l r)
    else
      guardD n l r (.num F64.f0) <|
        match cfg.nightly, r.negOf? with
        | true, some operand => some (.ok (.bin .plus l operand))
        | _, _ => some (foldBin w .minus l r)
  | .divide =>
    if l.is0 || r.is0 || r.is1 then some (simpDivide cfg w l r)
    else
      guardD n l r (.num F64.f1) <|
        match cfg.nightly, l.negOf?, r.negOf? with
        | true, some a, some b => some (.ok (.bin .divide a b))
        | _, _, _ => some (foldBin w .divide l r)
  | .modulo =>
    if l.is0 || r.is0 || r.is1 then some (simpModulo w l r)
    else guardD n l r (.num F64.f0) (some (foldBin w .modulo l r))
  | .times => some (simpTimes cfg w l r)
  | .power => some (simpPower w l r)
  | .factorial => some (foldBin w .factorial l r)

mutual
/-- `Element::simplify` (`simplify.rs:29-36`) and what it calls. -/
def simplifyD (cfg : Cfg) (w : World) : Nat → Elem → Option (PM Elem)
  | 0, _ => none
  | _ + 1, .num x => some (.ok (.num x))
  | _ + 1, .var v => some (.ok (.var v))
  | n + 1, .bin op l r =>
    match simplifyD cfg w n l with
    | none => none
    | some (.error p) => some (.error p)
    | some (.ok l') =>
      match simplifyD cfg w n r with
      | none => none
      | some (.error p) => some (.error p)
      | some (.ok r') => simpBinD cfg w n op l' r'
  | n + 1, .un op e =>
    match simplifyD cfg w n e with
    | none => none
    | some (.error p) => some (.error p)
    | some (.ok e') => some (simpUn op e')
  | n + 1, .call f args =>
    match simplifyDL cfg w n args with
    | none => none
    | some (.error p) => some (.error p)
    | some (.ok args') => some (simpCall w f args')
def simplifyDL (cfg : Cfg) (w : World) : Nat → List Elem → Option (PM (List Elem))
  | _, [] => some (.ok [])
  | n, a :: as =>
    match simplifyD cfg w n a with
    | none => none
    | some (.error p) => some (.error p)
    | some (.ok a') =>
      match simplifyDL cfg w n as with
      | none => none
      | some (.error p) => some (.error p)
      | some (.ok as') => some (.ok (a' :: as'))
end

mutual
/-- `Element::simplify_for` (`simplify.rs:19-27`) and what it calls. -/
def simplifyForD (cfg : Cfg) (w : World) (x : Bytes) (v : F64) : Nat → Elem → Option (PM Elem)
  | 0, _ => none
  | _ + 1, .num a => some (.ok (.num a))
  | _ + 1, .var m => some (if m = x then .ok (.num v) else .ok (.var m))
  | n + 1, .bin op l r =>
    match simplifyForD cfg w x v n l with
    | none => none
    | some (.error p) => some (.error p)
    | some (.ok l') =>
      match simplifyForD cfg w x v n r with
      | none => none
      | some (.error p) => some (.error p)
      | some (.ok r') => simplifyD cfg w n (.bin op l' r')
  | n + 1, .un op e =>
    match simplifyForD cfg w x v n e with
    | none => none
    | some (.error p) => some (.error p)
    | some (.ok e') => simplifyD cfg w n (.un op e')
  | n + 1, .call f args =>
    match simplifyForDL cfg w x v n args with
    | none => none
    | some (.error p) => some (.error p)
    | some (.ok args') => simplifyD cfg w n (.call f args')
def simplifyForDL (cfg : Cfg) (w : World) (x : Bytes) (v : F64) : Nat → List Elem → Option (PM (List Elem))
  | _, [] => some (.ok [])
  | n, a :: as =>
    match simplifyForD cfg w x v n a with
    | none => none
    | some (.error p) => some (.error p)
    | some (.ok a') =>
      match simplifyForDL cfg w x v n as with
      | none => none
      | some (.error p) => some (.error p)
      | some (.ok as') => some (.ok (a' :: as'))
end

/-- The compile time optimisation at the end of `element` (`parser.rs:180-183`). -/
def finishD (cfg : Cfg) (w : World) (n : Nat) (el : Elem) (s : St) : R Elem :=
  if cfg.opt then
    match simplifyD cfg w n el with
    | none => .fuel
    | some (.ok e) => .ok e s
    | some (.error p) => .panic p
  else .ok el s

/-- `element` (`parser.rs:161-186`); `fuel`: a deeper call is made. -/
def elementD (cfg : Cfg) (w : World) (ctx : Context) : Nat → Nat → St → R Elem
  | 0, _, _ => .fuel
  | n + 1, p, s =>
    (atom cfg ctx (elementD cfg w ctx n) s).bind fun a s1 =>
      let el := if (consumeIf c!"!" s1).1 then .un .factorial a else a
      let s2 := (consumeIf c!"!" s1).2
      (opLoop cfg (elementD cfg w ctx n) p (s2.rest.length + 1) el s2).bind fun el' s3 => finishD cfg w n el' s3

/-- `ParserImpl::parse` (`parser.rs:134-153`) -/
def parseImplD (cfg : Cfg) (w : World) (ctx : Context) (n : Nat) (input : Bytes) : Option PRes :=
  match elementD cfg w ctx n noPrec ⟨0, input⟩ with
  | .ok root s =>
    match (trim s).rest.head? with
    | some c => some (.err ⟨.unexpectedToken c, (trim s).pos, 0⟩)
    | none =>
      match findVarsD n root [] with
      | none => none
      | some vs => some (.ok ⟨root, vs⟩)
  | .err e _ => some (.err e)
  | .panic p => some (.panic p)
  | .fuel => none

/-- `Parser::parse` (`parser.rs:85-106`) -/
def parseD (cfg : Cfg) (w : World) (o : Oracle) (ctx : Context) (n : Nat) (input : Bytes) : Option PRes :=
  match parseImplD cfg w ctx n input with
  | none => none
  | some (.ok x) =>
    match ctx.getExpected with
    | some expected =>
      match (diffVars o x.vars expected).head? with
      | some v => some (.err ⟨.variableNotDeclared v (o.ord expected), 0, input.length⟩)
      | none => some (.ok x)
    | none => some (.ok x)
  | some r => some r

end Xprs
