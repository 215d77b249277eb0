import Verif.Spec.Builds
/-
The language without precedences, on tokens (for C86): an expression is a row of operands with
operators between them, or nothing.
-/
namespace Xprs
namespace Spec

/-- The kinds of token lists.  The Boolean says whether it is nothing but a number (a literal
or a constant, maybe in parentheses), `k` is the number of arguments. -/
inductive Shape
  | operand (num : Bool)
  | signed (num : Bool)
  | row (num : Bool)
  | args (k : Nat)

/-- `Flat ctx sh ts`: the tokens are of that kind. -/
inductive Flat (ctx : Context) : Shape → List Bytes → Prop
  | num {t : Bytes} : Number t → Flat ctx (.operand true) [t]
  | const {t : Bytes} {x : F64} : IsName t → lookup ctx t = .const x → Flat ctx (.operand true) [t]
  | var {t : Bytes} : IsName t → (∀ f, lookup ctx t ≠ .func f) → (∀ x, lookup ctx t ≠ .const x) →
      Flat ctx (.operand false) [t]
  | call {t : Bytes} {f : Func} {k : Nat} {ts : List Bytes} : IsName t → lookup ctx t = .func f →
      Flat ctx (.args k) ts → (∀ n, f.nbArgs = some n → k = n) →
      Flat ctx (.operand false) (t :: b!"(" :: (ts ++ [b!")"]))
  | paren {n : Bool} {ts : List Bytes} : Flat ctx (.row n) ts →
      Flat ctx (.operand n) (b!"(" :: (ts ++ [b!")"]))
  | plain {n : Bool} {ts : List Bytes} : Flat ctx (.operand n) ts → Flat ctx (.signed n) ts
  | bang {n : Bool} {ts : List Bytes} : Flat ctx (.operand n) ts → Flat ctx (.signed false) (ts ++ [b!"!"])
  | sign {n neg : Bool} {ts : List Bytes} : Flat ctx (.signed n) ts →
      Flat ctx (.signed false) ([if neg then c!"-" else c!"+"] :: ts)
  | one {n : Bool} {ts : List Bytes} : Flat ctx (.signed n) ts → Flat ctx (.row n) ts
  /-- an operator between two operands -/
  | oper {n k : Bool} {o : UInt8} {ts us : List Bytes} : Flat ctx (.row n) ts → o ∈ b!"+-*/^%" →
      Flat ctx (.signed k) us → Flat ctx (.row false) (ts ++ [o] :: us)
  /-- a second `!` is taken for an operator -/
  | bangs {n k : Bool} {ts us : List Bytes} : Flat ctx (.row n) ts → ts.getLast? = some b!"!" →
      Flat ctx (.signed k) us → Flat ctx (.row false) (ts ++ b!"!" :: us)
  /-- nothing between two operands: the second begins with a small letter or `(`, or with a
  digit if the first is not just a number -/
  | juxt {n k : Bool} {t : Bytes} {c : UInt8} {ts us : List Bytes} : Flat ctx (.row n) ts →
      Flat ctx (.signed k) us → us.head? = some t → t.head? = some c →
      (lower c ∨ c = c!"(" ∨ (digit c ∧ n = false)) → Flat ctx (.row false) (ts ++ us)
  | last {n : Bool} {ts : List Bytes} : Flat ctx (.row n) ts → Flat ctx (.args 1) ts
  | more {n : Bool} {k : Nat} {ts us : List Bytes} : Flat ctx (.row n) ts → Flat ctx (.args k) us →
      Flat ctx (.args (k + 1)) (ts ++ b!"," :: us)

/-- Two builds that differ in the order of operations only. -/
def SameButOrder (cfg cfg' : Cfg) : Prop :=
  cfg.opt = cfg'.opt ∧ cfg.nightly = cfg'.nightly ∧ cfg.overflowChecks = cfg'.overflowChecks

/-- The token begins with a small letter, a digit or `(`. -/
def startsFactor (t : Bytes) : Prop := ∃ c, t.head? = some c ∧ (lower c ∨ digit c ∨ c = c!"(")

/-- Nothing is multiplied by writing it next to something. -/
def ProductsWritten (ctx : Context) (ts : List Bytes) : Prop :=
  ∀ p a b q, ts = p ++ a :: b :: q → endsOperand a → (IsName a → ∀ f, lookup ctx a ≠ .func f) → ¬ startsFactor b

/-- A text without its parentheses. -/
def bare (s : Bytes) : Bytes := s.filter fun c => c ≠ c!"(" ∧ c ≠ c!")"

mutual
/-- The expression with its implicit products, and what they multiply, in parentheses. -/
def Cst.fence : Cst → Cst
  | .num ws txt v => .num ws txt v
  | .name ws nm => .name ws nm
  | .call ws nm ws2 as => .call ws nm ws2 as.fence
  | .paren ws x ws2 => .paren ws x.fence ws2
  | .sign ws neg x => .sign ws neg x.fence
  | .fact x ws => .fact x.fence ws
  | .bin l ws op r => .bin l.fence ws op r.fence
  | .juxt l r => .paren [] (.juxt (.paren [] l.fence []) (.paren [] r.fence [])) []
def CArgs.fence : CArgs → CArgs
  | .last x ws => .last x.fence ws
  | .more x ws as => .more x.fence ws as.fence
end

end Spec
end Xprs
