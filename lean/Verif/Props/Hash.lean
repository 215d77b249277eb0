import Verif.Spec.Hash
import Verif.Repl
import Verif.Lemmas.Binding
import Verif.Props.Builds
/-
Property C74: the order in which hash sets are iterated shows only in errors.
-/
namespace Xprs
namespace Props
open Spec

theorem diffVars_perm (o o' : Oracle) (vars given : List Bytes) :
    (diffVars o vars given).Perm (diffVars o' vars given) :=
  ((o.perm vars).trans (o'.perm vars).symm).filter _

/-- C74, parsing. -/
theorem C74_parse (cfg : Cfg) (w : World) (o o' : Oracle) (ctx : Context) (input : Bytes) :
    SameParse ctx (parse cfg w o ctx input) (parse cfg w o' ctx input) := by
  unfold parse
  cases h : parseImpl cfg w ctx input with
  | ok x =>
    simp only
    cases he : ctx.getExpected with
    | none => exact .inl rfl
    | some vs =>
      simp only
      have hp := diffVars_perm o o' x.vars vs
      have hm : ∀ (o : Oracle) v, (diffVars o x.vars vs).head? = some v → v ∉ vs := by
        intro o v hv
        have := List.mem_of_head? hv
        unfold diffVars at this
        simpa using (List.mem_filter.1 this).2
      cases h1 : (diffVars o x.vars vs).head? with
      | none =>
        rw [List.head?_eq_none_iff] at h1
        rw [h1, List.nil_perm] at hp
        rw [hp]
        exact .inl rfl
      | some v =>
        cases h2 : (diffVars o' x.vars vs).head? with
        | none =>
          rw [List.head?_eq_none_iff] at h2
          rw [h2, List.perm_nil] at hp
          rw [hp] at h1
          cases h1
        | some v' =>
          exact .inr ⟨vs, v, v', _, _, _, _, he, hm o v h1, hm o' v' h2, o.perm vs, o'.perm vs, rfl, rfl⟩
  | err e => exact .inl rfl
  | panic p => exact .inl rfl
  | fuel => exact .inl rfl

/-- If there is only one undeclared variable, it is named under every order. -/
theorem C74_one (cfg : Cfg) (w : World) (o o' : Oracle) (ctx : Context) (input : Bytes) (x : Xpr)
    (hx : parseImpl cfg w ctx input = .ok x) (vs : List Bytes) (he : ctx.getExpected = some vs) (n : Bytes)
    (hn : n ∈ x.vars) (hu : ∀ k ∈ x.vars, k ∉ vs ↔ k = n) :
    ∃ l l', l.Perm vs ∧ l'.Perm vs ∧
      parse cfg w o ctx input = .err ⟨.variableNotDeclared n l, 0, input.length⟩ ∧
      parse cfg w o' ctx input = .err ⟨.variableNotDeclared n l', 0, input.length⟩ := by
  have key : ∀ o : Oracle, parse cfg w o ctx input = .err ⟨.variableNotDeclared n (o.ord vs), 0, input.length⟩ := by
    intro o
    unfold parse
    rw [hx]
    simp only [he]
    cases h1 : (diffVars o x.vars vs).head? with
    | none =>
      rw [List.head?_eq_none_iff] at h1
      have : n ∈ diffVars o x.vars vs := mem_diffVars.2 ⟨hn, (hu n hn).2 rfl⟩
      rw [h1] at this
      cases this
    | some v =>
      have := mem_diffVars.1 (List.mem_of_head? h1)
      rw [(hu v this.1).1 this.2]
  exact ⟨_, _, o.perm vs, o'.perm vs, key o, key o'⟩

theorem sameBind_with {α : Type} (cfg : Cfg) (o o' : Oracle) (e : Xpr) (names : List Bytes) (f : α) :
    SameBind (bindWith cfg o e names f) (bindWith cfg o' e names f) := by
  have hp := diffVars_perm o o' e.vars names
  have hl := hp.length_eq
  rw [bindWith_spec, bindWith_spec, ← hl]
  split
  · exact .inl rfl
  · split
    · exact .inl rfl
    · split
      · exact .inr ⟨_, _, hp, .inl ⟨rfl, rfl⟩⟩
      · exact .inr ⟨_, _, hp, .inr ⟨rfl, rfl⟩⟩

/-- C74, binding: all variants. -/
theorem C74_bind (cfg : Cfg) (w : World) (o o' : Oracle) (e : Xpr) (a b c d g h i j k : Bytes)
    (names : List Bytes) {T : Nat} (array : Vector Bytes T) :
    SameBind (e.bind1 cfg w o a) (e.bind1 cfg w o' a) ∧
    SameBind (e.bind2 cfg w o a b) (e.bind2 cfg w o' a b) ∧
    SameBind (e.bind3 cfg w o a b c) (e.bind3 cfg w o' a b c) ∧
    SameBind (e.bind4 cfg w o a b c d) (e.bind4 cfg w o' a b c d) ∧
    SameBind (e.bind5 cfg w o a b c d g) (e.bind5 cfg w o' a b c d g) ∧
    SameBind (e.bind6 cfg w o a b c d g h) (e.bind6 cfg w o' a b c d g h) ∧
    SameBind (e.bind7 cfg w o a b c d g h i) (e.bind7 cfg w o' a b c d g h i) ∧
    SameBind (e.bind8 cfg w o a b c d g h i j) (e.bind8 cfg w o' a b c d g h i j) ∧
    SameBind (e.bind9 cfg w o a b c d g h i j k) (e.bind9 cfg w o' a b c d g h i j k) ∧
    SameBind (e.bindN cfg w o array) (e.bindN cfg w o' array) ∧
    SameBind (e.bindNRuntime cfg w o names) (e.bindNRuntime cfg w o' names) :=
  ⟨sameBind_with .., sameBind_with .., sameBind_with .., sameBind_with .., sameBind_with .., sameBind_with ..,
    sameBind_with .., sameBind_with .., sameBind_with .., sameBind_with .., sameBind_with ..⟩

theorem zipIdx_foldl (f : Nat → F64) (g : Bytes → F64) : ∀ (l : List Bytes) (i : Nat) (acc : HMap F64),
    (∀ k v, l[k]? = some v → f (i + k) = g v) →
    (l.zipIdx i).foldl (fun acc vk => acc.insert vk.1 (f vk.2)) acc =
      l.foldl (fun acc v => acc.insert v (g v)) acc
  | [], _, _, _ => rfl
  | a :: l, i, acc, h => by
    rw [List.zipIdx_cons, List.foldl_cons, List.foldl_cons, show f (a, i).2 = g a from h 0 a rfl]
    exact zipIdx_foldl f g l (i + 1) _ fun k v hk => by
      have := h (k + 1) v hk
      rwa [show i + (k + 1) = i + 1 + k by omega] at this

theorem foldl_insert_all (g : Bytes → F64) : ∀ (l : List Bytes) (acc : HMap F64) (n : Bytes),
    (l.foldl (fun acc v => acc.insert v (g v)) acc) n = if n ∈ l then some (g n) else acc n
  | [], acc, n => by simp
  | a :: l, acc, n => by
    rw [List.foldl_cons, foldl_insert_all g l]
    by_cases h : n = a
    · subst h; simp [HMap.insert]
    · simp [HMap.insert, h]

/-- C74, the REPL: if every variable is given the same value, the reply is the same. -/
theorem C74_repl (cfg : Cfg) (w : World) (o o' : Oracle) (line : Bytes) (value : Bytes → F64)
    (answers answers' : Nat → F64)
    (h : ∀ x, parse cfg w o Context.default line = .ok x → ∀ k v, (o.ord x.vars)[k]? = some v → answers k = value v)
    (h' : ∀ x, parse cfg w o Context.default line = .ok x →
      ∀ k v, (o'.ord x.vars)[k]? = some v → answers' k = value v) :
    replLine cfg w o line answers = replLine cfg w o' line answers' := by
  have hp : parse cfg w o Context.default line = parse cfg w o' Context.default line := by
    rcases C74_parse cfg w o o' Context.default line with h | ⟨vs, _, _, _, _, _, _, h, _⟩
    · exact h
    · cases h
  unfold replLine
  rw [← hp]
  cases hx : parse cfg w o Context.default line with
  | ok x =>
    have e : askForVariables o x.vars answers = askForVariables o' x.vars answers' := by
      unfold askForVariables
      rw [zipIdx_foldl answers value _ 0 _ (by simpa using h x hx),
        zipIdx_foldl answers' value _ 0 _ (by simpa using h' x hx)]
      funext n
      rw [foldl_insert_all, foldl_insert_all]
      have : n ∈ o.ord x.vars ↔ n ∈ o'.ord x.vars := by
        rw [(o.perm _).mem_iff, (o'.perm _).mem_iff]
      simp only [this]
    simp only [e]
  | err e => rfl
  | panic p => rfl
  | fuel => rfl

/-- Backwards. -/
def backwards : Oracle := ⟨List.reverse, List.reverse_perm⟩

/-- The order does show: two undeclared variables, either of which may be named; and the names
in the error of `bind`. -/
example : parse cfgPlain w0 Oracle.id (Context.default.setExpected [b!"a", b!"b"]) b!"x + y" =
      .err ⟨.variableNotDeclared b!"x" [b!"a", b!"b"], 0, 5⟩ ∧
    parse cfgPlain w0 backwards (Context.default.setExpected [b!"a", b!"b"]) b!"x + y" =
      .err ⟨.variableNotDeclared b!"y" [b!"b", b!"a"], 0, 5⟩ := by decide +kernel
example : (match parse0 cfgPlain b!"x + y" with
    | .ok x => (match x.bindNRuntime cfgPlain w0 Oracle.id [], x.bindNRuntime cfgPlain w0 backwards [] with
      | .err a, .err b => decide (a = .multiple b!"x, y" ∧ b = .multiple b!"y, x")
      | _, _ => false)
    | _ => false) = true := by decide +kernel
/-- The REPL asks for `x` and `y` in some order: for the same two answers, another value. -/
example : replLine cfgPlain w0 Oracle.id b!"x - y" (fun k => F64.ofNat k) = .evaluated (F64.neg F64.f1) ∧
    replLine cfgPlain w0 backwards b!"x - y" (fun k => F64.ofNat k) = .evaluated F64.f1 := by decide +kernel

end Props
end Xprs
