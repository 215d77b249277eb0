import Verif.Eval
/-
The macro `xprs_fn!` (`/repo/src/token/function.rs:121-205`).
-/
namespace Xprs

/-- What is handed to the macro: a function of a fixed number of arguments, from 0 to 9,
or one that takes a slice.  (A function that panics itself is not considered.) -/
inductive Closure where
  | f0 (f : F64)
  | f1 (f : F64 → F64)
  | f2 (f : F64 → F64 → F64)
  | f3 (f : F64 → F64 → F64 → F64)
  | f4 (f : F64 → F64 → F64 → F64 → F64)
  | f5 (f : F64 → F64 → F64 → F64 → F64 → F64)
  | f6 (f : F64 → F64 → F64 → F64 → F64 → F64 → F64)
  | f7 (f : F64 → F64 → F64 → F64 → F64 → F64 → F64 → F64)
  | f8 (f : F64 → F64 → F64 → F64 → F64 → F64 → F64 → F64 → F64)
  | f9 (f : F64 → F64 → F64 → F64 → F64 → F64 → F64 → F64 → F64 → F64)
  | slice (f : List F64 → F64)

/-- `xprs_fn!(wrap f, n)` (`function.rs:165-204`); `none`: an index is out of range and
the closure panics.  A function of a slice is not wrapped (`function.rs:123-134`). -/
def Closure.wrap : Closure → List F64 → Option F64
  | .f0 f, _ => some f
  | .f1 f, args => do some (f (← args[0]?))
  | .f2 f, args => do some (f (← args[0]?) (← args[1]?))
  | .f3 f, args => do some (f (← args[0]?) (← args[1]?) (← args[2]?))
  | .f4 f, args => do some (f (← args[0]?) (← args[1]?) (← args[2]?) (← args[3]?))
  | .f5 f, args => do some (f (← args[0]?) (← args[1]?) (← args[2]?) (← args[3]?) (← args[4]?))
  | .f6 f, args => do
    some (f (← args[0]?) (← args[1]?) (← args[2]?) (← args[3]?) (← args[4]?) (← args[5]?))
  | .f7 f, args => do
    some (f (← args[0]?) (← args[1]?) (← args[2]?) (← args[3]?) (← args[4]?) (← args[5]?)
      (← args[6]?))
  | .f8 f, args => do
    some (f (← args[0]?) (← args[1]?) (← args[2]?) (← args[3]?) (← args[4]?) (← args[5]?)
      (← args[6]?) (← args[7]?))
  | .f9 f, args => do
    some (f (← args[0]?) (← args[1]?) (← args[2]?) (← args[3]?) (← args[4]?) (← args[5]?)
      (← args[6]?) (← args[7]?) (← args[8]?))
  | .slice f, args => some (f args)

/-- The third argument of `new_static` and `new_dyn` in the macro
(`function.rs:123-163`). -/
def Closure.nbArgs : Closure → Option Nat
  | .f0 _ => some 0
  | .f1 _ => some 1
  | .f2 _ => some 2
  | .f3 _ => some 3
  | .f4 _ => some 4
  | .f5 _ => some 5
  | .f6 _ => some 6
  | .f7 _ => some 7
  | .f8 _ => some 8
  | .f9 _ => some 9
  | .slice _ => none

/-- `xprs_fn!(name, f, n)`, `xprs_fn!(name, dyn f, n)` and the forms without `name` or
`n`: the function made of the pointer `p` to the wrapped closure. -/
def xprsFn (name : Bytes) (p : FnPtr) (c : Closure) : Func := ⟨name, p, c.nbArgs⟩

end Xprs
