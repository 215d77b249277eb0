import Verif.Heap
/-
How many references to a dynamic function there are (for C101).
-/
namespace Xprs
namespace Spec

mutual
/-- The number of calls of the dynamic function `p` in a tree. -/
def uses (p : Nat) : Elem → Nat
  | .num _ => 0
  | .var _ => 0
  | .bin _ l r => uses p l + uses p r
  | .un _ e => uses p e
  | .call f args => (if f.func = .dyn p then 1 else 0) + usesL p args
def usesL (p : Nat) : List Elem → Nat
  | [] => 0
  | a :: as => uses p a + usesL p as
end

/-- Calls of `p` in all of the expressions. -/
def usesX (p : Nat) (xs : List Xpr) : Nat := usesL p (xs.map Xpr.root)

/-- The strong count of the `Arc` numbered `p` if, besides what the library has made and released,
the program itself has `own` references to it (in contexts and elsewhere).  When it is zero the
function has been deallocated. -/
def strong (own : Nat) (m : Mem) (p : Nat) : Int :=
  own + m.made.count p - m.freed.count (.arc p)

end Spec
end Xprs
