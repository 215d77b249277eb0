import Verif.Builtins
/-
`/repo/src/context.rs`.
-/
namespace Xprs

/-- `HashMap<&str, α>` as a partial function (finiteness plays no role in the code;
iteration over a map never happens). -/
def HMap (α : Type) := Bytes → Option α

namespace HMap
variable {α : Type}
/-- `HashMap::new` / `default` -/
def empty : HMap α := fun _ => none
/-- `HashMap::get` -/
def get (m : HMap α) (k : Bytes) : Option α := m k
/-- `HashMap::insert` -/
def insert (m : HMap α) (k : Bytes) (v : α) : HMap α :=
  fun k' => if k' = k then some v else m k'
/-- `HashMap::from([(k, v), …])` / `collect()`: inserts in order. -/
def ofList (l : List (Bytes × α)) : HMap α :=
  l.foldl (fun m kv => m.insert kv.1 kv.2) empty
end HMap

/-- `Symbol` (`/repo/src/context.rs:9-14`) -/
inductive Symbol where
  | var (x : F64)
  | func (f : Func)
  deriving DecidableEq

/-- `Context` (`/repo/src/context.rs:54-59`).  A `HashSet` is a list (the order in
which it is iterated is chosen by an `Oracle` at the place of use). -/
structure Context where
  symbols : HMap Symbol
  expectedVars : Option (List Bytes)

namespace Context
/-- `Context::default()` (derived, `/repo/src/context.rs:53`) -/
def default : Context := { symbols := HMap.empty, expectedVars := none }
/-- `set_var` / `with_var` (`/repo/src/context.rs:64-78`; `value.into().into()` is
`Symbol::Variable`, 16-21) -/
def setVar (c : Context) (name : Bytes) (v : F64) : Context :=
  { c with symbols := c.symbols.insert name (.var v) }
/-- `set_fn` / `with_fn` (`/repo/src/context.rs:82-92`) -/
def setFn (c : Context) (f : Func) : Context :=
  { c with symbols := c.symbols.insert f.name (.func f) }
/-- `set_expected_vars` / `with_expected_vars` (`/repo/src/context.rs:96-109`) -/
def setExpected (c : Context) (vs : List Bytes) : Context :=
  { c with expectedVars := some vs }
/-- `with_symbols` (`/repo/src/context.rs:114-120`) -/
def withSymbols (c : Context) (s : HMap Symbol) : Context :=
  { c with symbols := s }
/-- `get` (`/repo/src/context.rs:125-127`) -/
def get (c : Context) (name : Bytes) : Option Symbol := c.symbols.get name
/-- `get_expected_vars` (`/repo/src/context.rs:132-134`) -/
def getExpected (c : Context) : Option (List Bytes) := c.expectedVars
end Context

/-- `From<Symbol> for Identifier` (`/repo/src/token/identifier.rs:86-93`) -/
def Ident.ofSymbol : Symbol → Ident
  | .var x => .const x
  | .func f => .func f

/-- The name lookup of `parse_identifier` (`/repo/src/parser.rs:236-240`): the
context first, then the built-ins, else a variable. -/
def lookup (c : Context) (name : Bytes) : Ident :=
  match c.get name with
  | some s => Ident.ofSymbol s
  | none => Ident.fromStr name

/-- The order in which a `HashSet` is iterated: some permutation, chosen by the
random hasher. -/
structure Oracle where
  ord : List Bytes → List Bytes
  perm : ∀ l, (ord l).Perm l

/-- The identity order. -/
def Oracle.id : Oracle := ⟨fun l => l, fun _ => List.Perm.refl _⟩

end Xprs
