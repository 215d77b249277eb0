import Verif.Eval
import Verif.Spec.Tree
/-
Specification vocabulary for binding: all the `bind*` calls seen alike.
-/
namespace Xprs
namespace Spec

/-- Apply a conversion to the function a `bind*` call returns. -/
def BindRes.conv {α β : Type} (g : α → β) : BindRes α → BindRes β
  | .ok f => .ok (g f)
  | .err e => .err e
  | .panic p => .panic p

/-- The `i`-th value of a list. -/
abbrev at_ (vs : List F64) (i : Nat) : F64 := vs.getD i F64.f0

/-- `BindCall cfg w o e names r`: one of the ten ways to bind `e` to `names` (given in
this order) has the outcome `r`, where the returned function is made to take the list
of its arguments. -/
inductive BindCall (cfg : Cfg) (w : World) (o : Oracle) (e : Xpr) :
    List Bytes → BindRes (List F64 → Except EvErr F64) → Prop
  | b1 (a) : BindCall cfg w o e [a]
      (BindRes.conv (fun f v => liftP (f (at_ v 0))) (e.bind1 cfg w o a))
  | b2 (a b) : BindCall cfg w o e [a, b]
      (BindRes.conv (fun f v => liftP (f (at_ v 0) (at_ v 1))) (e.bind2 cfg w o a b))
  | b3 (a b c) : BindCall cfg w o e [a, b, c]
      (BindRes.conv (fun f v => liftP (f (at_ v 0) (at_ v 1) (at_ v 2))) (e.bind3 cfg w o a b c))
  | b4 (a b c d) : BindCall cfg w o e [a, b, c, d]
      (BindRes.conv (fun f v => liftP (f (at_ v 0) (at_ v 1) (at_ v 2) (at_ v 3)))
        (e.bind4 cfg w o a b c d))
  | b5 (a b c d g) : BindCall cfg w o e [a, b, c, d, g]
      (BindRes.conv (fun f v => liftP (f (at_ v 0) (at_ v 1) (at_ v 2) (at_ v 3) (at_ v 4)))
        (e.bind5 cfg w o a b c d g))
  | b6 (a b c d g h) : BindCall cfg w o e [a, b, c, d, g, h]
      (BindRes.conv (fun f v => liftP (f (at_ v 0) (at_ v 1) (at_ v 2) (at_ v 3) (at_ v 4)
        (at_ v 5))) (e.bind6 cfg w o a b c d g h))
  | b7 (a b c d g h i) : BindCall cfg w o e [a, b, c, d, g, h, i]
      (BindRes.conv (fun f v => liftP (f (at_ v 0) (at_ v 1) (at_ v 2) (at_ v 3) (at_ v 4)
        (at_ v 5) (at_ v 6))) (e.bind7 cfg w o a b c d g h i))
  | b8 (a b c d g h i j) : BindCall cfg w o e [a, b, c, d, g, h, i, j]
      (BindRes.conv (fun f v => liftP (f (at_ v 0) (at_ v 1) (at_ v 2) (at_ v 3) (at_ v 4)
        (at_ v 5) (at_ v 6) (at_ v 7))) (e.bind8 cfg w o a b c d g h i j))
  | b9 (a b c d g h i j k) : BindCall cfg w o e [a, b, c, d, g, h, i, j, k]
      (BindRes.conv (fun f v => liftP (f (at_ v 0) (at_ v 1) (at_ v 2) (at_ v 3) (at_ v 4)
        (at_ v 5) (at_ v 6) (at_ v 7) (at_ v 8))) (e.bind9 cfg w o a b c d g h i j k))
  | n {T : Nat} (names : Vector Bytes T) : BindCall cfg w o e names.toList
      (BindRes.conv (fun f v => liftP (f (Vector.ofFn fun i => at_ v i))) (e.bindN cfg w o names))
  | runtime (names : List Bytes) : BindCall cfg w o e names (e.bindNRuntime cfg w o names)

/-- The variables of the expression that are not among the names, each once. -/
def Missing (e : Xpr) (names l : List Bytes) : Prop :=
  l.Nodup ∧ ∀ v, v ∈ l ↔ v ∈ e.vars ∧ v ∉ names

/-- The map sends each name to the value given for it (the last one, if a name is
given several times). -/
def Assigns (names : List Bytes) (values : List F64) (m : HMap F64) : Prop :=
  ∀ i n v, names[i]? = some n → values[i]? = some v →
    (∀ j, i < j → j < values.length → names[j]? ≠ some n) → m n = some v

mutual
/-- Replace every variable by a tree. -/
def subst (σ : Bytes → Elem) : Elem → Elem
  | .num x => .num x
  | .var n => σ n
  | .bin op l r => .bin op (subst σ l) (subst σ r)
  | .un op e => .un op (subst σ e)
  | .call f args => .call f (substL σ args)
def substL (σ : Bytes → Elem) : List Elem → List Elem
  | [] => []
  | a :: as => subst σ a :: substL σ as
end

/-- The substitution sends each name to the argument given for it (the last one, if a
name is given several times). -/
def AssignsTree (names : List Bytes) (args : List Elem) (σ : Bytes → Elem) : Prop :=
  ∀ i n a, names[i]? = some n → args[i]? = some a →
    (∀ j, i < j → j < args.length → names[j]? ≠ some n) → σ n = a

/-- The world after the user has made the closure `g` a function with the (fresh)
address `addr`; the closure panics where `g` does not return a number. -/
def defineFn (w : World) (addr : Nat) (g : List F64 → Except EvErr F64) : World :=
  { w with user := fun p args =>
      if p = .dyn addr then
        match g args with
        | .ok v => some v
        | .error _ => none
      else w.user p args }

end Spec
end Xprs
