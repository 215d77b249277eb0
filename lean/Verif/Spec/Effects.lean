import Verif.Effects
import Verif.Spec.Names
import Verif.Spec.Grammar
/-
Vocabulary for the calls of user functions.
-/
namespace Xprs
namespace Spec

/-- A call of a user function: which function, with which arguments, with what outcome
(`none`: it panicked). -/
structure Call where
  fn : FnPtr
  args : List F64
  res : Option F64

/-- The same functions, with a record of all calls (the latest call is the last). -/
def recording {σ : Type} (u : Stateful σ) : Stateful (σ × List Call) where
  call p args t := ((u.call p args t.1).1, ((u.call p args t.1).2, t.2 ++ [⟨p, args, (u.call p args t.1).1⟩]))

/-- The functions `u`, called one after the other as the list says with the memory `t` at
first, give the outcomes of the list and leave the memory `t'`. -/
inductive Outcomes {σ : Type} (u : Stateful σ) : σ → List Call → σ → Prop
  | nil {t} : Outcomes u t [] t
  | cons {t p args k t'} : Outcomes u (u.call p args t).2 k t' →
      Outcomes u t (⟨p, args, (u.call p args t).1⟩ :: k) t'

/-- The functions answer as those of `w`, whatever they remember. -/
def Memoryless {σ : Type} (w : World) (u : Stateful σ) : Prop :=
  ∀ p args t, (u.call p args t).1 = w.user p args

mutual
/-- The user functions of a tree, the arguments before the call, from left to right. -/
def userCalls : Elem → List FnPtr
  | .num _ => []
  | .var _ => []
  | .bin _ l r => userCalls l ++ userCalls r
  | .un _ e => userCalls e
  | .call f args =>
    userCallsL args ++ match f.func with
      | .builtin _ => []
      | p => [p]
def userCallsL : List Elem → List FnPtr
  | [] => []
  | a :: as => userCalls a ++ userCallsL as
end

mutual
/-- The value of a tree when the user functions answer as recorded.  The record is used
up from left to right. -/
inductive Evaluates (w : World) (m : HMap F64) : Elem → List Call → F64 → Prop
  | num {x} : Evaluates w m (.num x) [] x
  | var {n x} : m n = some x → Evaluates w m (.var n) [] x
  | plus {l r k k' a b v} : Evaluates w m l k a → Evaluates w m r k' b → Adds a b v →
      Evaluates w m (.bin .plus l r) (k ++ k') v
  | minus {l r k k' a b v} : Evaluates w m l k a → Evaluates w m r k' b → Subs a b v →
      Evaluates w m (.bin .minus l r) (k ++ k') v
  | times {l r k k' a b v} : Evaluates w m l k a → Evaluates w m r k' b → Muls a b v →
      Evaluates w m (.bin .times l r) (k ++ k') v
  | divide {l r k k' a b v} : Evaluates w m l k a → Evaluates w m r k' b → Divs a b v →
      Evaluates w m (.bin .divide l r) (k ++ k') v
  | modulo {l r k k' a b v} : Evaluates w m l k a → Evaluates w m r k' b → Rems a b v →
      Evaluates w m (.bin .modulo l r) (k ++ k') v
  | power {l r k k' a b} : Evaluates w m l k a → Evaluates w m r k' b →
      Evaluates w m (.bin .power l r) (k ++ k') (w.powf a b)
  | pos {e k a} : Evaluates w m e k a → Evaluates w m (.un .plus e) k a
  | neg {e k a} : Evaluates w m e k a → Evaluates w m (.un .minus e) k (F64.neg a)
  | factorial {e k a v} : Evaluates w m e k a → FactorialOf a v → Evaluates w m (.un .factorial e) k v
  | builtin {f b args k vs v} : EvaluatesL w m args k vs → f.func = .builtin b → b.run w vs = .ok v →
      Evaluates w m (.call f args) k v
  | user {f args k vs v} : EvaluatesL w m args k vs → (∀ b, f.func ≠ .builtin b) →
      Evaluates w m (.call f args) (k ++ [⟨f.func, vs, some v⟩]) v
/-- The values of several trees. -/
inductive EvaluatesL (w : World) (m : HMap F64) : List Elem → List Call → List F64 → Prop
  | nil : EvaluatesL w m [] [] []
  | cons {a as k k' v vs} : Evaluates w m a k v → EvaluatesL w m as k' vs →
      EvaluatesL w m (a :: as) (k ++ k') (v :: vs)
end

/-- The text begins with a call of the function `p`: a name of it, whitespace, an opening
parenthesis. -/
def CallsAt (ctx : Context) (p : FnPtr) (text : Bytes) : Prop :=
  ∃ nm ws b f, text = nm ++ (ws ++ c!"(" :: b) ∧ Name nm (ws ++ c!"(" :: b) ∧ spaces ws ∧
    lookup ctx nm = .func f ∧ f.func = p

open Classical in
/-- The number of places in the text where a call of the function `p` begins. -/
noncomputable def callPlaces (ctx : Context) (p : FnPtr) (text : Bytes) : Nat :=
  text.tails.countP fun t => decide (CallsAt ctx p t)

/-- The user function that a token names. -/
def userFn (ctx : Context) (t : Bytes) : Option FnPtr :=
  match t with
  | [] => none
  | c :: _ =>
    if letter c then
      match lookup ctx t with
      | .func f =>
        match f.func with
        | .builtin _ => none
        | p => some p
      | _ => none
    else none

mutual
/-- The user functions called in a concrete syntax tree, the arguments before the call,
from left to right. -/
def Cst.calls (ctx : Context) : Cst → List FnPtr
  | .num .. => []
  | .name .. => []
  | .call _ nm _ as => as.calls ctx ++ (userFn ctx nm).toList
  | .paren _ x _ => x.calls ctx
  | .sign _ _ x => x.calls ctx
  | .fact x _ => x.calls ctx
  | .bin l _ _ r => l.calls ctx ++ r.calls ctx
  | .juxt l r => l.calls ctx ++ r.calls ctx
def CArgs.calls (ctx : Context) : CArgs → List FnPtr
  | .last x _ => x.calls ctx
  | .more x _ as => x.calls ctx ++ as.calls ctx
end

end Spec
end Xprs
