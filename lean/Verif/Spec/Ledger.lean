import Verif.Spec.Decimals
import Verif.Spec.Whole
/-
Amounts with a fixed number of decimal places, added up (for C116).
-/
namespace Xprs
namespace Spec

mutual
/-- `Books m k e N B n`: the numbers and variables of the tree `e` are literals with `k` decimal places, which
are added, subtracted and multiplied by whole numbers; by the rules of decimal arithmetic the
value is `N` units of the last place, the absolute values come to `B` such units, and at most `n` roundings
are made on the way to the root. -/
inductive Books (m : HMap F64) (k : ℕ) : Elem → ℤ → ℕ → ℕ → Prop
  | num {x N} : LiteralAt N k x → Books m k (.num x) N N.natAbs 1
  | var {s x N} : m s = some x → LiteralAt N k x → Books m k (.var s) N N.natAbs 1
  | pos {e N B n} : Books m k e N B n → Books m k (.un .plus e) N B n
  | neg {e N B n} : Books m k e N B n → Books m k (.un .minus e) (-N) B n
  | plus {l r N B i M C j} : Books m k l N B i → Books m k r M C j →
      Books m k (.bin .plus l r) (N + M) (B + C) (max i j + 1)
  | minus {l r N B i M C j} : Books m k l N B i → Books m k r M C j →
      Books m k (.bin .minus l r) (N - M) (B + C) (max i j + 1)
  | times {l r N B n z} : Books m k l N B n → Tallies m r z →
      Books m k (.bin .times l r) (N * z) (B * max 1 z.natAbs) (n + 1)
  | multiple {l r N B n z} : Tallies m l z → Books m k r N B n →
      Books m k (.bin .times l r) (z * N) (B * max 1 z.natAbs) (n + 1)
  | sum {es Ns B n} : es ≠ [] → BooksL m k es Ns B n →
      Books m k (.call Builtin.sum.toFunc es) Ns.sum B (n + es.length)
/-- The same for the arguments of a call. -/
inductive BooksL (m : HMap F64) (k : ℕ) : List Elem → List ℤ → ℕ → ℕ → Prop
  | nil : BooksL m k [] [] 0 0
  | cons {e es N Ns B C i j} : Books m k e N B i → BooksL m k es Ns C j →
      BooksL m k (e :: es) (N :: Ns) (B + C) (max i j)
end

end Spec
end Xprs
