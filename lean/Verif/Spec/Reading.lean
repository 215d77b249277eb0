import Verif.Spec.Doc
/-
Reading a tree from left to right, and how what is read lies over the tokens of a text.
Nothing here refers to the parser.
-/
namespace Xprs
namespace Spec

/-- What one meets when reading a tree from left to right. -/
inductive Item where
  | num (v : F64)
  | var (n : Bytes)
  | fn (f : Func)
  | op (o : Op)

mutual
/-- The tree read from left to right: operators stand between their operands, signs in
front of theirs, `!` behind its, and functions in front of their arguments. -/
def items : Elem → List Item
  | .num v => [.num v]
  | .var n => [.var n]
  | .bin o l r => items l ++ .op o :: items r
  | .un .factorial e => items e ++ [.op .factorial]
  | .un o e => .op o :: items e
  | .call f args => .fn f :: itemsL args
def itemsL : List Elem → List Item
  | [] => []
  | a :: as => items a ++ itemsL as
end

/-- An operand may begin with this token without an operator in front of it. -/
def FactorStart (t : Bytes) : Prop := ∃ c, t.head? = some c ∧ (lower c ∨ c = c!"(" ∨ digit c)

/-- `Covers ctx p ts is`: the items `is` are exactly what the tokens `ts` stand for, in
the same order.  Parentheses and commas stand for nothing.  The only item without a
token of its own is the `*` of an implicit product: it stands between two operands,
and there is one at most.  `p` tells whether an operand has just ended. -/
inductive Covers (ctx : Context) : Bool → List Bytes → List Item → Prop
  | done {p} : Covers ctx p [] []
  | opening {p ts is} : Covers ctx false ts is → Covers ctx p (b!"(" :: ts) is
  | closing {p ts is} : Covers ctx true ts is → Covers ctx p (b!")" :: ts) is
  | comma {p ts is} : Covers ctx false ts is → Covers ctx p (b!"," :: ts) is
  | literal {p t rest v ts is} : Literal t rest v → Covers ctx true ts is →
      Covers ctx p (t :: ts) (.num v :: is)
  | constant {p t v ts is} : IsName t → lookup ctx t = .const v → Covers ctx true ts is →
      Covers ctx p (t :: ts) (.num v :: is)
  | named {p t ts is} : IsName t → lookup ctx t = .var t → Covers ctx true ts is →
      Covers ctx p (t :: ts) (.var t :: is)
  | function {p t f ts is} : IsName t → lookup ctx t = .func f → Covers ctx false (b!"(" :: ts) is →
      Covers ctx p (t :: b!"(" :: ts) (.fn f :: is)
  | bang {p ts is} : Covers ctx true ts is → Covers ctx p (b!"!" :: ts) (.op .factorial :: is)
  | operator {p o ts is} : o ≠ .factorial → Covers ctx false ts is →
      Covers ctx p ([opChar o] :: ts) (.op o :: is)
  /-- an implicit product -/
  | implied {t ts is} : FactorStart t → Covers ctx false (t :: ts) is →
      Covers ctx true (t :: ts) (.op .times :: is)

/-- The token is a variable without a value. -/
def Unset (ctx : Context) (m : HMap F64) (t : Bytes) : Prop :=
  IsName t ∧ lookup ctx t = .var t ∧ m t = none

end Spec
end Xprs
