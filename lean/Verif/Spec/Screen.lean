import Verif.ReplIO
/-
What someone at the terminal sees (for C129).
-/
namespace Xprs
namespace Spec

/-- Everything printed by the calls. -/
def said : List IOp → Bytes
  | [] => []
  | .print t :: os => t ++ said os
  | _ :: os => said os

/-- How many lines the calls read. -/
def taken : List IOp → Nat
  | [] => 0
  | .read :: os => taken os + 1
  | _ :: os => taken os

end Spec
end Xprs
