import Verif.Spec.Builds
import Verif.Spec.Binding
/-
Renaming (for C73).
-/
namespace Xprs
namespace Spec

/-- A token under a renaming of names. -/
def renamed (σ : Bytes → Bytes) : Bytes → Bytes
  | [] => []
  | c :: t => if letter c then σ (c :: t) else c :: t

/-- Under `σ`, the names among `ts` go to names that mean the same (a constant of the same
value, the same function, a variable). -/
structure Renaming (σ : Bytes → Bytes) (ctx ctx' : Context) (ts : List Bytes) : Prop where
  name : ∀ nm ∈ ts, IsName nm → IsName (σ nm)
  const : ∀ nm ∈ ts, IsName nm → ∀ v, lookup ctx nm = .const v → lookup ctx' (σ nm) = .const v
  func : ∀ nm ∈ ts, IsName nm → ∀ f, lookup ctx nm = .func f → lookup ctx' (σ nm) = .func f
  var : ∀ nm ∈ ts, IsName nm → lookup ctx nm = .var nm → lookup ctx' (σ nm) = .var (σ nm)

/-- Different variables stay different. -/
def Distinct (σ : Bytes → Bytes) (ctx : Context) (ts : List Bytes) : Prop :=
  ∀ a ∈ ts, IsName a → lookup ctx a = .var a → ∀ b ∈ ts, IsName b → lookup ctx b = .var b → σ a = σ b → a = b

/-- Names behind the end of an operand begin with a small letter as before, or with a
capital one as before. -/
def KeepsCase (σ : Bytes → Bytes) (ts : List Bytes) : Prop :=
  ∀ p o nm q, ts = p ++ o :: nm :: q → endsOperand o → IsName nm →
    ∀ c d, nm.head? = some c → (σ nm).head? = some d → (lower c ↔ lower d)

/-- The tree with its variables renamed. -/
def rename (σ : Bytes → Bytes) (e : Elem) : Elem := subst (fun k => .var (σ k)) e

/-- A missing variable, under its new name. -/
def _root_.Xprs.EvErr.rename (σ : Bytes → Bytes) : EvErr → EvErr
  | .missing n => .missing (σ n)
  | .panic p => .panic p

end Spec
end Xprs
