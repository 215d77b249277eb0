import Lean.Elab.Macro
import Verif.F64
/-
Operators, functions and expression trees.

Models `/repo/src/token/operator.rs`, `/repo/src/token/function.rs`,
`/repo/src/element/{mod,binop,unop,function_call}.rs`.
-/
namespace Xprs

/-- Text is a byte string (`ParserImpl::input : &[u8]`, `/repo/src/parser.rs:116`). -/
abbrev Bytes := List UInt8

open Lean in
/-- `b!"sin"` is the list of the UTF-8 bytes of a string literal (expanded at
elaboration time to numeric literals). -/
macro:max "b!" s:str : term => do
  let ts : Array (TSyntax `term) ←
    (s.getString.toUTF8.toList.toArray).mapM fun b => `(($(quote b.toNat) : UInt8))
  `([$ts,*])

open Lean in
/-- `c!"+"` is the byte of a one-character string literal. -/
macro:max "c!" s:str : term => do
  match s.getString.toUTF8.toList with
  | [b] => `(($(quote b.toNat) : UInt8))
  | _ => Macro.throwError "c! expects a single byte"

/-- The ways the modelled code can panic (or worse). -/
inductive Panic where
  /-- an `unreachable!()` was reached -/
  | unreachable
  /-- `unwrap()` on `None` in `eval_element_unchecked` (`xprs.rs:324`) -/
  | unwrap
  /-- a user supplied function panicked (e.g. `args[0]` out of range in a wrapper
  generated by `xprs_fn!`, `function.rs:165-204`) -/
  | user
  /-- arithmetic overflow with overflow checks enabled -/
  | overflow
  /-- out-of-range table index in `factorial` (`factorial.rs:47`) -/
  | index
  /-- undefined behaviour: `to_int_unchecked` on an unrepresentable value
  (`factorial.rs:44`) -/
  | ub
  deriving DecidableEq, Repr

/-- Computations that may panic. -/
abbrev PM := Except Panic

/-- `/repo/src/token/operator.rs:6-21` -/
inductive Op where
  | plus | minus | times | divide | power | modulo | factorial
  deriving DecidableEq, Repr

/-- One constructor per constant of `/repo/src/utils/built_in_functions.rs:5-109`. -/
inductive Builtin where
  | sin | sinh | asin | asinh
  | cos | cosh | acos | acosh
  | tan | tanh | atan | atan2 | atanh
  | ln | log | logn
  | sqrt | cbrt
  | exp | abs | floor | ceil | round | trunc
  | sum | mean | recip | min | max | hypot | fract
  | factorial | gamma
  deriving DecidableEq, Repr

/-- `FnPointer` (`/repo/src/token/function.rs:71-76`) as an identity.  Its
`PartialEq` (`function.rs:98-112`) compares fn addresses / `Arc` pointers, and
`Static` never equals `Dyn`; here that is structural equality.
Simplification: the built-in functions have their own identities, distinct from
all user functions, and one identity each (rustc does not guarantee that two
uses of one `const` fn pointer have the same address). -/
inductive FnPtr where
  | builtin (b : Builtin)
  | static (addr : Nat)
  | dyn (addr : Nat)
  deriving DecidableEq, Repr

/-- `Function` (`/repo/src/token/function.rs:9-17`).  `nb_args : Option<u8>` is
widened to `Option Nat` (only compared, never computed with). -/
structure Func where
  name : Bytes
  func : FnPtr
  nbArgs : Option Nat
  deriving DecidableEq, Repr

/-- `Element` (`/repo/src/element/mod.rs:22-33`) with `BinOp`
(`binop.rs:8-15`), `UnOp` (`unop.rs:8-13`) and `FunctionCall`
(`function_call.rs:8-13`) inlined; boxes are erased. -/
inductive Elem where
  | num (x : F64)
  | bin (op : Op) (l r : Elem)
  | un (op : Op) (e : Elem)
  | call (f : Func) (args : List Elem)
  | var (name : Bytes)

/-! ### `PartialEq` -/

/-- Short-circuit `&&` on computations that may panic. -/
def andM (x y : PM Bool) : PM Bool :=
  match x with
  | .ok true => y
  | .ok false => .ok false
  | .error p => .error p

/-- Short-circuit `||` on computations that may panic. -/
def orM (x y : PM Bool) : PM Bool :=
  match x with
  | .ok true => .ok true
  | .ok false => y
  | .error p => .error p

mutual
/-- `==` on `Element`: derived (`element/mod.rs:20`) except for `BinOp`, whose
`eq` (`binop.rs:39-60`) is modulo commutativity of `+` and `*` and panics on the
factorial operator; `UnOp`, `FunctionCall`, `Function` derive it
(`unop.rs:7`, `function_call.rs:7`, `function.rs:7`). -/
def eqE : Elem → Elem → PM Bool
  | .num a, .num b => .ok (F64.beq a b)
  | .bin o l r, .bin o' l' r' =>
    if o = o' then
      match o with
      | .divide | .minus | .modulo | .power => andM (eqE l l') (eqE r r')
      | .plus | .times =>
        orM (andM (eqE l l') (eqE r r')) (andM (eqE l r') (eqE r l'))
      | .factorial => .error .unreachable
    else .ok false
  | .un o e, .un o' e' => if o = o' then eqE e e' else .ok false
  | .call f as, .call g bs =>
    if f = g then (if as.length = bs.length then eqEs as bs else .ok false) else .ok false
  | .var a, .var b => .ok (decide (a = b))
  | _, _ => .ok false
/-- Element-wise comparison of two slices (used after the length test). -/
def eqEs : List Elem → List Elem → PM Bool
  | a :: as, b :: bs => andM (eqE a b) (eqEs as bs)
  | _, _ => .ok true
end

/-- Is the element a `Number`? -/
def Elem.isNum : Elem → Bool
  | .num _ => true
  | _ => false

/-- `el == Number(c)` for a literal `c` (never panics: different variants are
unequal). -/
def Elem.isNumEq (e : Elem) (c : F64) : Bool :=
  match e with
  | .num x => F64.beq x c
  | _ => false

/-! ### Free variables -/

mutual
/-- `Element::find_variables` (`/repo/src/element/mod.rs:76-93`).  The `HashSet`
is a duplicate-free list in insertion order. -/
def findVars : Elem → List Bytes → List Bytes
  | .var n, vs => if n ∈ vs then vs else vs ++ [n]
  | .bin _ l r, vs => findVars r (findVars l vs)
  | .un _ e, vs => findVars e vs
  | .call _ args, vs => findVarsL args vs
  | .num _, vs => vs
/-- The `for_each` over the arguments (`element/mod.rs:89`). -/
def findVarsL : List Elem → List Bytes → List Bytes
  | [], vs => vs
  | a :: as, vs => findVarsL as (findVars a vs)
end

/-! ### Decidable equality (structural, for checking concrete examples) -/

mutual
def Elem.beqS : Elem → Elem → Bool
  | .num a, .num b => decide (a = b)
  | .bin o l r, .bin o' l' r' => decide (o = o') && l.beqS l' && r.beqS r'
  | .un o e, .un o' e' => decide (o = o') && e.beqS e'
  | .call f as, .call g bs => decide (f = g) && Elem.beqSL as bs
  | .var a, .var b => decide (a = b)
  | _, _ => false
def Elem.beqSL : List Elem → List Elem → Bool
  | [], [] => true
  | a :: as, b :: bs => a.beqS b && Elem.beqSL as bs
  | _, _ => false
end

mutual
theorem Elem.beqS_iff : ∀ a b : Elem, a.beqS b = true ↔ a = b
  | .num a, b => by cases b <;> simp [Elem.beqS]
  | .bin o l r, b => by
    cases b <;> simp [Elem.beqS]
    rw [Elem.beqS_iff l, Elem.beqS_iff r, and_assoc]
  | .un o e, b => by
    cases b <;> simp [Elem.beqS]
    rw [Elem.beqS_iff e]
    intro _; trivial
  | .call f as, b => by
    cases b <;> simp [Elem.beqS]
    rw [Elem.beqSL_iff as]
    intro _; trivial
  | .var a, b => by cases b <;> simp [Elem.beqS]
theorem Elem.beqSL_iff : ∀ a b : List Elem, Elem.beqSL a b = true ↔ a = b
  | [], b => by cases b <;> simp [Elem.beqSL]
  | a :: as, b => by
    cases b <;> simp [Elem.beqSL]
    rw [Elem.beqS_iff a, Elem.beqSL_iff as]
end

instance : DecidableEq Elem := fun a b => decidable_of_iff _ (Elem.beqS_iff a b)

/-- Structural induction with a usable hypothesis for call arguments. -/
theorem Elem.ind {P : Elem → Prop}
    (num : ∀ x, P (.num x))
    (bin : ∀ op l r, P l → P r → P (.bin op l r))
    (un : ∀ op e, P e → P (.un op e))
    (call : ∀ f args, (∀ a ∈ args, P a) → P (.call f args))
    (var : ∀ n, P (.var n)) : ∀ e, P e := fun e =>
  Elem.rec (motive_1 := P) (motive_2 := fun l => ∀ a ∈ l, P a)
    num bin un call var (by simp) (by
      intro h t hh ht a ha
      rcases List.mem_cons.1 ha with rfl | ha
      · exact hh
      · exact ht a ha) e

end Xprs
