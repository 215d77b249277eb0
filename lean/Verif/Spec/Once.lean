import Verif.Heap
/-
Specification vocabulary for ownership.
-/
namespace Xprs
namespace Spec

/-- How often a resource has to be given back in the end: a box once if it was allocated, a
reference to an `Arc` as often as it was made. -/
def given (m : Mem) : Res → Nat
  | .box a => if a < m.next then 1 else 0
  | .arc p => m.made.count p

/-- Every box allocated so far has been freed exactly once, or is one of `live` and
exactly once in that list; nothing else has been freed.  Every reference made to an `Arc` has
been released or is one of `live`; no others have been released. -/
def Ledger (m : Mem) (live : List Res) : Prop :=
  ∀ r, m.freed.count r + live.count r = given m r

end Spec
end Xprs
