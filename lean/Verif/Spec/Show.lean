import Verif.Spec.Doc
/-
Specification vocabulary for texts of expressions.
-/
namespace Xprs
namespace Spec

/-- What std documents about printing an `f64` with `{}`: a finite number is printed as
a decimal literal that reads back as the same number, with a minus sign in front if it
is negative (zero included); infinities and NaN are printed as words. -/
structure Prints (fmt : F64 → Bytes) : Prop where
  pos : ∀ n h, Literal (fmt (.fin false n h)) [] (.fin false n h)
  neg : ∀ n h, fmt (.fin true n h) = c!"-" :: fmt (.fin false n h)
  inf : fmt (.inf false) = b!"inf"
  negInf : fmt (.inf true) = b!"-inf"
  nan : fmt .nan = b!"NaN"

/-- A negative number (or the negative zero). -/
def Negative (e : Elem) : Prop := ∃ n h, e = .num (.fin true n h)

/-- Functions are found under the name they carry themselves. -/
def OwnNames (ctx : Context) : Prop := ∀ nm f, IsName nm → lookup ctx nm = .func f →
  IsName f.name ∧ lookup ctx f.name = .func f

/-- The function without what it computes: its name, whether it is a plain function or a closure, and
its number of arguments. -/
def facelessF (f : Func) : Func :=
  ⟨f.name, match f.func with | .dyn _ => .dyn 0 | _ => .static 0, f.nbArgs⟩

mutual
/-- The tree, with what its functions compute left out. -/
def faceless : Elem → Elem
  | .num x => .num x
  | .var n => .var n
  | .un op e => .un op (faceless e)
  | .bin op l r => .bin op (faceless l) (faceless r)
  | .call f args => .call (facelessF f) (facelessL args)
def facelessL : List Elem → List Elem
  | [] => []
  | a :: as => faceless a :: facelessL as
end

/-- The trees whose text can be read back: numbers are finite, and not negative unless
`neg` (and then not the base of a power); names mean variables; functions are found
under their own name; there is no factorial. -/
inductive Legible (ctx : Context) (neg : Bool) : Elem → Prop
  | lit {n : Nat} {h : Rep n} : Legible ctx neg (.num (.fin false n h))
  | minus {n : Nat} {h : Rep n} : neg = true → Legible ctx neg (.num (.fin true n h))
  | var {nm : Bytes} : IsName nm → (∀ f, lookup ctx nm ≠ .func f) → (∀ x, lookup ctx nm ≠ .const x) →
      Legible ctx neg (.var nm)
  | bin {op l r} : op ≠ .factorial → Legible ctx neg l → Legible ctx neg r →
      (op = .power → ¬ Negative l) → Legible ctx neg (.bin op l r)
  | un {op e} : op = .plus ∨ op = .minus → Legible ctx neg e → Legible ctx neg (.un op e)
  | call {f : Func} {args : List Elem} : IsName f.name → lookup ctx f.name = .func f →
      0 < args.length → (∀ n, f.nbArgs = some n → args.length = n) →
      (∀ a ∈ args, Legible ctx neg a) → Legible ctx neg (.call f args)

end Spec
end Xprs
