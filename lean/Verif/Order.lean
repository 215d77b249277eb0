import Verif.Syntax
/-
The ordering of elements: the derived `PartialOrd` of `Element`
(`/repo/src/element/mod.rs:20`), `BinOp` (`binop.rs:7`), `UnOp` (`unop.rs:7`),
`FunctionCall` (`function_call.rs:7`) and `Operator` (`/repo/src/token/operator.rs:5`), and the
hand-written one of `Function` (`/repo/src/token/function.rs:56-61`).  `Element` is reachable
through the public field `Xprs::root`.

A derived `partial_cmp` compares the fields in the order of declaration and returns the
first result that is not `Some(Equal)`; values of different variants are compared by the
position of the variant in the declaration.
-/
namespace Xprs

/-- `f64::partial_cmp` -/
def F64.cmp (a b : F64) : Option Ordering :=
  match key a, key b with
  | some x, some y => some (if x < y then .lt else if x = y then .eq else .gt)
  | _, _ => none

/-- The first result that is not `Some(Equal)`. -/
def lexi (a b : Option Ordering) : Option Ordering :=
  match a with
  | some .eq => b
  | r => r

/-- Comparison of naturals. -/
def natCmp (a b : Nat) : Ordering := if a < b then .lt else if a = b then .eq else .gt

/-- Declaration order of `Operator` (`/repo/src/token/operator.rs:6-21`). -/
def Op.index : Op → Nat
  | .plus => 0 | .minus => 1 | .times => 2 | .divide => 3 | .power => 4 | .modulo => 5
  | .factorial => 6

/-- Declaration order of the variants of `Element` (`/repo/src/element/mod.rs:22-33`). -/
def Elem.index : Elem → Nat
  | .num _ => 0 | .bin .. => 1 | .un .. => 2 | .call .. => 3 | .var _ => 4

/-- `str::partial_cmp`: lexicographic on bytes. -/
def strCmp : Bytes → Bytes → Ordering
  | [], [] => .eq
  | [], _ :: _ => .lt
  | _ :: _, [] => .gt
  | a :: as, b :: bs =>
    match natCmp a.toNat b.toNat with
    | .eq => strCmp as bs
    | r => r

mutual
/-- `Element::partial_cmp` with those of `BinOp`, `UnOp`, `FunctionCall` and `Function`
inlined. -/
def cmpE : Elem → Elem → Option Ordering
  | .num x, .num y => F64.cmp x y
  | .bin o l r, .bin o' l' r' =>
    lexi (some (natCmp o.index o'.index)) (lexi (cmpE l l') (cmpE r r'))
  | .un o e, .un o' e' => lexi (some (natCmp o.index o'.index)) (cmpE e e')
  | .call f as, .call g bs => lexi (some (strCmp f.name g.name)) (cmpEs as bs)
  | .var a, .var b => some (strCmp a b)
  | a, b => some (natCmp a.index b.index)
/-- `Vec::partial_cmp`: lexicographic, a proper prefix comes first. -/
def cmpEs : List Elem → List Elem → Option Ordering
  | [], [] => some .eq
  | [], _ :: _ => some .lt
  | _ :: _, [] => some .gt
  | a :: as, b :: bs => lexi (cmpE a b) (cmpEs as bs)
end

end Xprs
