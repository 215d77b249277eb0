import Verif.Simplify
/-
The grammar of expressions, as a specification: concrete syntax trees, the text they
stand for, the trees they denote, and the conditions under which a text is a legal
way to write a tree.  Nothing here refers to the parser.
-/
namespace Xprs
namespace Spec

/-! ### Characters -/

def digit (c : UInt8) : Prop := c ∈ b!"0123456789"
def lower (c : UInt8) : Prop := c ∈ b!"abcdefghijklmnopqrstuvwxyz"
def upper (c : UInt8) : Prop := c ∈ b!"ABCDEFGHIJKLMNOPQRSTUVWXYZ"
/-- ASCII whitespace: space, tab, line feed, form feed, carriage return. -/
def space (c : UInt8) : Prop := c ∈ ([32, 9, 10, 12, 13] : Bytes)
def letter (c : UInt8) : Prop := lower c ∨ upper c
/-- characters of a name after the first -/
def nameChar (c : UInt8) : Prop := letter c ∨ digit c ∨ c = c!"_" ∨ c = c!"'"
/-- characters of the mantissa of a literal -/
def mantChar (c : UInt8) : Prop := digit c ∨ c = c!"." ∨ c = c!"_"

instance : DecidablePred digit := fun _ => inferInstanceAs (Decidable (_ ∈ _))
instance : DecidablePred lower := fun _ => inferInstanceAs (Decidable (_ ∈ _))
instance : DecidablePred upper := fun _ => inferInstanceAs (Decidable (_ ∈ _))
instance : DecidablePred space := fun _ => inferInstanceAs (Decidable (_ ∈ _))
instance : DecidablePred letter := fun _ => inferInstanceAs (Decidable (_ ∨ _))
instance : DecidablePred nameChar := fun _ => inferInstanceAs (Decidable (_ ∨ _))
instance : DecidablePred mantChar := fun _ => inferInstanceAs (Decidable (_ ∨ _))

def spaces (l : Bytes) : Prop := ∀ c ∈ l, space c
instance (l : Bytes) : Decidable (spaces l) := inferInstanceAs (Decidable (∀ c ∈ l, space c))

/-- The text does not begin with a character of the class. -/
def notHead (p : UInt8 → Prop) (l : Bytes) : Prop := ∀ c, l.head? = some c → ¬ p c

/-- The first character of the text that is not whitespace. -/
def firstTok : Bytes → Option UInt8
  | [] => none
  | c :: l => if space c then firstTok l else some c

/-! ### Operators -/

/-- The character of an operator. -/
def opChar : Op → UInt8
  | .plus => c!"+" | .minus => c!"-" | .times => c!"*" | .divide => c!"/"
  | .power => c!"^" | .modulo => c!"%" | .factorial => c!"!"

/-- The documented precedence levels: `+ -` below `* / %` below a sign (level 3)
below `^`.  (`!` is not a binary operator of the documented grammar; its level only
matters for the texts with `!!` that the parser accepts by accident.) -/
def level : Op → Nat
  | .plus => 1 | .minus => 1
  | .times => 2 | .divide => 2 | .modulo => 2
  | .power => 4
  | .factorial => 5

/-- Level of a unary sign. -/
def signLevel : Nat := 3

/-- Level of implicit multiplication: that of `*` under PEMDAS, just above `*` (and
not above a sign) under PEJMDAS. -/
def implLevel (cfg : Cfg) : Nat := if cfg.pejmdas then 3 else 2

/-! ### Literals -/

/-- Value of a digit string. -/
def decVal : Bytes → Nat
  | [] => 0
  | c :: l => (c.toNat - 48) * 10 ^ l.length + decVal l

/-- `mant` (with its underscores removed) is `ip` or `ip.` or `ip.fp`, with at least
one digit. -/
def MantShape (mant ip fp : Bytes) : Prop :=
  (∀ c ∈ ip, digit c) ∧ (∀ c ∈ fp, digit c) ∧ ip ++ fp ≠ [] ∧
  (mant.filter (fun c => decide (c ≠ c!"_")) = ip ++ [c!"."] ++ fp ∨
    (fp = [] ∧ mant.filter (fun c => decide (c ≠ c!"_")) = ip))

/-- The text begins with an exponent: `e` or `E`, an optional sign, a digit. -/
def expStart (l : Bytes) : Prop :=
  ∃ e sg d t, (e = c!"e" ∨ e = c!"E") ∧ (sg = [] ∨ sg = [c!"+"] ∨ sg = [c!"-"]) ∧
    digit d ∧ l = e :: sg ++ d :: t

/-- `txt`, followed by `rest`, is a whole number literal with value `v`. -/
def Literal (txt rest : Bytes) (v : F64) : Prop :=
  ∃ mant ip fp,
    (∃ c, mant.head? = some c ∧ (digit c ∨ c = c!".")) ∧
    (∀ c ∈ mant, mantChar c) ∧ MantShape mant ip fp ∧
    ((txt = mant ∧ notHead mantChar rest ∧ ¬ expStart rest ∧
        v = F64.ofDecimal (decVal (ip ++ fp)) (-(fp.length : Int))) ∨
     (∃ e sg ds, (e = c!"e" ∨ e = c!"E") ∧ ds ≠ [] ∧ (∀ c ∈ ds, digit c) ∧
        txt = mant ++ e :: (sg ++ ds) ∧ notHead digit rest ∧
        (((sg = [] ∨ sg = [c!"+"]) ∧
            v = F64.ofDecimal (decVal (ip ++ fp)) ((decVal ds : Int) - fp.length)) ∨
          (sg = [c!"-"] ∧
            v = F64.ofDecimal (decVal (ip ++ fp)) (-(decVal ds : Int) - fp.length)))))

/-- `nm`, followed by `rest`, is a whole name. -/
def Name (nm rest : Bytes) : Prop :=
  (∃ c, nm.head? = some c ∧ letter c) ∧ (∀ c ∈ nm, nameChar c) ∧ notHead nameChar rest

/-! ### Concrete syntax trees -/

mutual
/-- A written expression.  Every token carries the whitespace in front of it. -/
inductive Cst where
  /-- a number literal `txt` of value `v` -/
  | num (ws txt : Bytes) (v : F64)
  /-- a variable or constant -/
  | name (ws nm : Bytes)
  /-- `nm(args)` -/
  | call (ws nm ws2 : Bytes) (as : CArgs)
  /-- `(x)` -/
  | paren (ws : Bytes) (x : Cst) (ws2 : Bytes)
  /-- `+x` or `-x` -/
  | sign (ws : Bytes) (neg : Bool) (x : Cst)
  /-- `x!` -/
  | fact (x : Cst) (ws : Bytes)
  /-- `l op r` -/
  | bin (l : Cst) (ws : Bytes) (op : Op) (r : Cst)
  /-- `l r`, implicit multiplication -/
  | juxt (l r : Cst)
/-- A non-empty argument list; `ws` is the whitespace before the comma or the closing
parenthesis. -/
inductive CArgs where
  | last (x : Cst) (ws : Bytes)
  | more (x : Cst) (ws : Bytes) (as : CArgs)
end

mutual
/-- The text of a tree. -/
def Cst.text : Cst → Bytes
  | .num ws txt _ => ws ++ txt
  | .name ws nm => ws ++ nm
  | .call ws nm ws2 as => ws ++ nm ++ ws2 ++ c!"(" :: as.text ++ [c!")"]
  | .paren ws x ws2 => ws ++ c!"(" :: x.text ++ ws2 ++ [c!")"]
  | .sign ws neg x => ws ++ (if neg then c!"-" else c!"+") :: x.text
  | .fact x ws => x.text ++ ws ++ [c!"!"]
  | .bin l ws op r => l.text ++ ws ++ opChar op :: r.text
  | .juxt l r => l.text ++ r.text
def CArgs.text : CArgs → Bytes
  | .last x ws => x.text ++ ws
  | .more x ws as => x.text ++ ws ++ c!"," :: as.text
end

/-- Number of arguments. -/
def CArgs.count : CArgs → Nat
  | .last _ _ => 1
  | .more _ _ as => as.count + 1

/-! ### Meaning

`fin` is what happens to a completed sub-expression: simplification in a build with
`compile-time-optimizations`, nothing otherwise. -/

/-- `fin` for a configuration. -/
def finOf (cfg : Cfg) (w : World) (e : Elem) : PM Elem :=
  if cfg.opt then simplify cfg w e else .ok e

mutual
/-- The expression a tree denotes, before the final `fin`. -/
def Cst.den (fin : Elem → PM Elem) (ctx : Context) : Cst → PM Elem
  | .num _ _ v => .ok (.num v)
  | .name _ nm =>
    match lookup ctx nm with
    | .const x => .ok (.num x)
    | _ => .ok (.var nm)
  | .call _ nm _ as =>
    match as.den fin ctx with
    | .error p => .error p
    | .ok es =>
      match lookup ctx nm with
      | .func f => .ok (.call f es)
      | _ => .ok (.var nm)
  | .paren _ x _ =>
    match x.den fin ctx with
    | .error p => .error p
    | .ok e => fin e
  | .sign _ neg x =>
    match x.den fin ctx with
    | .error p => .error p
    | .ok e =>
      match fin e with
      | .error p => .error p
      | .ok e' => .ok (.un (if neg then .minus else .plus) e')
  | .fact x _ =>
    match x.den fin ctx with
    | .error p => .error p
    | .ok e => .ok (.un .factorial e)
  | .bin l _ op r =>
    match l.den fin ctx with
    | .error p => .error p
    | .ok a =>
      match r.den fin ctx with
      | .error p => .error p
      | .ok e =>
        match fin e with
        | .error p => .error p
        | .ok b => .ok (.bin op a b)
  | .juxt l r =>
    match l.den fin ctx with
    | .error p => .error p
    | .ok a =>
      match r.den fin ctx with
      | .error p => .error p
      | .ok e =>
        match fin e with
        | .error p => .error p
        | .ok b => .ok (.bin .times a b)
def CArgs.den (fin : Elem → PM Elem) (ctx : Context) : CArgs → PM (List Elem)
  | .last x _ =>
    match x.den fin ctx with
    | .error p => .error p
    | .ok e =>
      match fin e with
      | .error p => .error p
      | .ok e' => .ok [e']
  | .more x _ as =>
    match x.den fin ctx with
    | .error p => .error p
    | .ok e =>
      match fin e with
      | .error p => .error p
      | .ok e' =>
        match as.den fin ctx with
        | .error p => .error p
        | .ok es => .ok (e' :: es)
end

/-- The expression a whole text denotes. -/
def Cst.meaning (fin : Elem → PM Elem) (ctx : Context) (x : Cst) : PM Elem :=
  match x.den fin ctx with
  | .error p => .error p
  | .ok e => fin e

/-- The tree denotes a plain number. -/
def isNumber (fin : Elem → PM Elem) (ctx : Context) (x : Cst) : Prop :=
  ∃ v, x.den fin ctx = .ok (.num v)

/-! ### Legal texts

`Wf x rest`: the text of `x`, when followed by `rest`, is a legal way to write `x`. -/

/-- The lowest level among the operators `x` is a chain of (7 for operands). -/
def Cst.chain (cfg : Cfg) : Cst → Nat
  | .bin l _ op _ => min (level op) (l.chain cfg)
  | .juxt l _ => min (implLevel cfg) (l.chain cfg)
  | _ => 7

/-- The text after an operand at level `q` does not continue it: it is not an operator
or an implicit multiplication of a higher level.  (A digit continues an operand only
if that is not itself a number.) -/
def stops (cfg : Cfg) (q : Nat) (isNum : Prop) (rest : Bytes) : Prop :=
  ∀ c, firstTok rest = some c →
    (∀ op, opChar op = c → level op ≤ q) ∧
    (lower c ∨ c = c!"(" → implLevel cfg ≤ q) ∧
    (digit c → implLevel cfg ≤ q ∨ isNum)

/-- The next token is not `!`. -/
def noBang (rest : Bytes) : Prop := firstTok rest ≠ some c!"!"

/-- None of the operands at the right edge of `x` extends over `rest`. -/
def Cst.closed (cfg : Cfg) (fin : Elem → PM Elem) (ctx : Context) : Cst → Bytes → Prop
  | .num .., rest => noBang rest
  | .name .., rest => noBang rest
  | .call .., rest => noBang rest
  | .paren .., rest => noBang rest
  | .sign _ _ x, rest => stops cfg signLevel (isNumber fin ctx x) rest ∧ x.closed cfg fin ctx rest
  | .fact _ _, _ => True
  | .bin _ _ op r, rest =>
    stops cfg (level op) (isNumber fin ctx r) rest ∧ r.closed cfg fin ctx rest
  | .juxt _ r, rest =>
    stops cfg (implLevel cfg) (isNumber fin ctx r) rest ∧ r.closed cfg fin ctx rest

/-- Operands `!` can follow. -/
def Cst.primary : Cst → Prop
  | .num .. => True
  | .name .. => True
  | .call .. => True
  | .paren .. => True
  | _ => False

mutual
/-- See above. -/
def Cst.wf (cfg : Cfg) (fin : Elem → PM Elem) (ctx : Context) : Cst → Bytes → Prop
  | .num ws txt v, rest => spaces ws ∧ Literal txt rest v
  | .name ws nm, rest => spaces ws ∧ Name nm rest ∧ ∀ f, lookup ctx nm ≠ .func f
  | .call ws nm ws2 as, rest =>
    spaces ws ∧ Name nm [] ∧ spaces ws2 ∧
    (∃ f, lookup ctx nm = .func f ∧ ∀ n, f.nbArgs = some n → as.count = n) ∧
    as.wf cfg fin ctx rest
  | .paren ws x ws2, rest => spaces ws ∧ spaces ws2 ∧ x.wf cfg fin ctx (ws2 ++ c!")" :: rest)
  | .sign ws _ x, rest => spaces ws ∧ x.wf cfg fin ctx rest ∧ signLevel < x.chain cfg
  | .fact x ws, rest => x.primary ∧ spaces ws ∧ x.wf cfg fin ctx (ws ++ c!"!" :: rest)
  | .bin l ws op r, rest =>
    spaces ws ∧ l.wf cfg fin ctx (ws ++ opChar op :: r.text ++ rest) ∧
    l.closed cfg fin ctx (ws ++ opChar op :: r.text ++ rest) ∧
    r.wf cfg fin ctx rest ∧ level op < r.chain cfg
  | .juxt l r, rest =>
    l.wf cfg fin ctx (r.text ++ rest) ∧ l.closed cfg fin ctx (r.text ++ rest) ∧
    r.wf cfg fin ctx rest ∧ implLevel cfg < r.chain cfg ∧
    ∃ c, firstTok (r.text ++ rest) = some c ∧
      (lower c ∨ c = c!"(" ∨ (digit c ∧ ¬ isNumber fin ctx l))
def CArgs.wf (cfg : Cfg) (fin : Elem → PM Elem) (ctx : Context) : CArgs → Bytes → Prop
  | .last x ws, rest => spaces ws ∧ x.wf cfg fin ctx (ws ++ c!")" :: rest)
  | .more x ws as, rest =>
    spaces ws ∧ x.wf cfg fin ctx (ws ++ c!"," :: (as.text ++ c!")" :: rest)) ∧
    as.wf cfg fin ctx rest
end

end Spec
end Xprs
