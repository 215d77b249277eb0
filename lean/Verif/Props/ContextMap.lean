import Verif.Context
/-
Property C19: a `Context` is a map with last-write-wins.
-/
namespace Xprs
namespace Props

/-- The operations on a context.  `symbols l` is `with_symbols` of the map given by
the table `l` of distinct names. -/
inductive CtxOp where
  | setVar (name : Bytes) (v : F64)
  | setFn (f : Func)
  | expect (vs : List Bytes)
  | symbols (m : Bytes → Option Symbol)

/-- Running an operation. -/
def CtxOp.run (c : Context) : CtxOp → Context
  | .setVar n v => c.setVar n v
  | .setFn f => c.setFn f
  | .expect vs => c.setExpected vs
  | .symbols m => c.withSymbols m

/-- What an operation says about a name: nothing (`none`), or its new definition. -/
def CtxOp.says (name : Bytes) : CtxOp → Option (Option Symbol)
  | .setVar n v => if n = name then some (some (.var v)) else none
  | .setFn f => if f.name = name then some (some (.func f)) else none
  | .expect _ => none
  | .symbols m => some (m name)

/-- What an operation says about the expected variables. -/
def CtxOp.saysExpected : CtxOp → Option (List Bytes)
  | .expect vs => some vs
  | _ => none

/-- C19: after any sequence of operations on any context, a name means what the last
operation that says something about it said, and the expected variables are the last
ones set; what no operation mentions is as before. -/
theorem C19_last_write (ops : List CtxOp) (c : Context) (name : Bytes) :
    (ops.foldl CtxOp.run c).get name =
      ((ops.reverse.findSome? (CtxOp.says name)).getD (c.get name)) ∧
    (ops.foldl CtxOp.run c).getExpected =
      ((ops.reverse.findSome? CtxOp.saysExpected).or c.getExpected) := by
  induction ops generalizing c with
  | nil => simp
  | cons op ops ih =>
    obtain ⟨h1, h2⟩ := ih (op.run c)
    rw [List.foldl_cons, h1, h2, List.reverse_cons]
    simp only [List.findSome?_append, List.findSome?_cons, List.findSome?_nil]
    constructor
    · cases h : List.findSome? (CtxOp.says name) ops.reverse with
      | some x => simp
      | none =>
        cases op with
        | setVar n v =>
          simp only [CtxOp.run, CtxOp.says, Context.get, Context.setVar, HMap.get, HMap.insert]
          by_cases hn : name = n
          · subst hn; simp
          · rw [if_neg hn, if_neg (fun h => hn h.symm)]; simp
        | setFn f =>
          simp only [CtxOp.run, CtxOp.says, Context.get, Context.setFn, HMap.get, HMap.insert]
          by_cases hn : name = f.name
          · subst hn; simp
          · rw [if_neg hn, if_neg (fun h => hn h.symm)]; simp
        | expect vs => simp [CtxOp.run, CtxOp.says, Context.get, Context.setExpected]
        | symbols m => simp [CtxOp.run, CtxOp.says, Context.get, Context.withSymbols, HMap.get]
    · cases h : List.findSome? CtxOp.saysExpected ops.reverse with
      | some x => simp
      | none => cases op <;> simp [CtxOp.run, CtxOp.saysExpected, Context.getExpected,
          Context.setVar, Context.setFn, Context.setExpected, Context.withSymbols]

/-- A fresh context defines nothing. -/
theorem C19_default (name : Bytes) :
    Context.default.get name = none ∧ Context.default.getExpected = none := ⟨rfl, rfl⟩

/-- A map built from a table of pairs (`HashMap::from([...])`) means the last pair with
that key. -/
theorem C19_table {α : Type} (l : List (Bytes × α)) (name : Bytes) :
    HMap.ofList l name = (l.reverse.find? (fun kv => decide (kv.1 = name))).map (·.2) := by
  have : ∀ (m : HMap α), l.foldl (fun m kv => m.insert kv.1 kv.2) m name =
      ((l.reverse.find? (fun kv => decide (kv.1 = name))).map (·.2)).or (m name) := by
    induction l with
    | nil => simp
    | cons kv l ih =>
      intro m
      rw [List.foldl_cons, ih, List.reverse_cons, List.find?_append]
      cases List.find? (fun kv => decide (kv.1 = name)) l.reverse with
      | some x => simp
      | none =>
        by_cases h : kv.1 = name
        · subst h; simp [HMap.insert]
        · simp [HMap.insert, h]
          intro h'; exact absurd h'.symm h
  rw [HMap.ofList, this]
  simp [HMap.empty]

/-- Redefining a variable as a function and then as a variable again. -/
example : ([CtxOp.setVar b!"f" F64.f0, .setFn ⟨b!"f", .static 1, some 1⟩, .expect [b!"x"],
      .setVar b!"f" F64.f1].foldl CtxOp.run Context.default).get b!"f" = some (.var F64.f1) := by
  decide +kernel
example : ([CtxOp.setVar b!"f" F64.f0, .setVar b!"g" F64.f1, .setFn ⟨b!"f", .static 1, some 1⟩,
      .expect [b!"x"]].foldl CtxOp.run Context.default).get b!"f" =
    some (.func ⟨b!"f", .static 1, some 1⟩) := by decide +kernel

end Props
end Xprs
