import Verif.Lemmas.Parts
import Verif.Props.Builds
import Verif.Props.Tokens
import Verif.Props.Parsing
import Verif.Props.Rules
import Verif.Props.Monotone
/-
Property C85: what stands in parentheses in an accepted text is an accepted text, or a list
of accepted texts.
-/
namespace Xprs
namespace Props
open Spec

/-- `a` ends with the name of a function that accepts `k` arguments, and spaces. -/
def FunctionBefore (ctx : Context) (a : Bytes) (f : Func) (k : Nat) : Prop :=
  ∃ a' nm ws, a = a' ++ nm ++ ws ∧ spaces ws ∧ IsName nm ∧ lookup ctx nm = .func f ∧
    ∀ n, f.nbArgs = some n → k = n

theorem occurs_sub {n : Bytes} {e e' : Elem} (h : Sub e e') (hn : Occurs n e) : Occurs n e' := by
  induction h with
  | refl => exact hn
  | left _ ih => exact occurs_bin.2 (.inl ih)
  | right _ ih => exact occurs_bin.2 (.inr ih)
  | operand _ ih => exact occurs_un.2 ih
  | arg ha _ ih => exact occurs_call.2 ⟨_, ha, ih⟩

theorem value_of_arg {w : World} {m : HMap F64} : ∀ {args : List Elem} {vs : List F64},
    evalL w m args = .ok vs → ∀ a ∈ args, ∃ u, eval w m a = .ok u
  | [], _, _, a, ha => by cases ha
  | b :: as, vs, h, a, ha => by
    obtain ⟨u, us, h1, h2, rfl⟩ := evalL_cons.1 h
    rcases List.mem_cons.1 ha with rfl | ha
    · exact ⟨u, h1⟩
    · exact value_of_arg h2 a ha

theorem value_of_sub {w : World} {m : HMap F64} {e e' : Elem} (h : Sub e e') :
    ∀ {v}, eval w m e' = .ok v → ∃ u, eval w m e = .ok u := by
  induction h with
  | refl => exact fun h => ⟨_, h⟩
  | left _ ih =>
    intro v h
    rw [eval] at h
    split at h
    · cases h
    · rename_i a ha; exact ih ha
  | right _ ih =>
    intro v h
    rw [eval] at h
    split at h
    · cases h
    · split at h
      · cases h
      · rename_i b hb; exact ih hb
  | operand _ ih =>
    intro v h
    rw [eval] at h
    split at h
    · cases h
    · rename_i a ha; exact ih ha
  | arg ha _ ih =>
    intro v h
    rw [eval] at h
    split at h
    · cases h
    · rename_i vs hvs
      obtain ⟨u, hu⟩ := value_of_arg hvs _ ha
      exact ih hu

theorem forall2_right {α β : Type} {R : α → β → Prop} {as : List α} {bs : List β} (h : List.Forall₂ R as bs)
    {b : β} (hb : b ∈ bs) : ∃ a, R a b := by
  induction h with
  | nil => cases hb
  | cons h _ ih =>
    rcases List.mem_cons.1 hb with rfl | hb
    · exact ⟨_, h⟩
    · exact ih hb

theorem parse_drop {cfg : Cfg} {w : World} {o : Oracle} {ctx : Context} {s : Bytes} :
    parse cfg w o (dropExpected ctx) s = parseImpl cfg w ctx s := by
  rw [parseImpl_ctx cfg w (c := ctx) (c' := dropExpected ctx) rfl]
  unfold parse dropExpected Context.getExpected
  cases parseImpl cfg w ⟨ctx.symbols, none⟩ s <;> rfl

section
variable (cfg : Cfg) (w : World) (o : Oracle) (ctx : Context)

/-- C85: in every build, what is in parentheses in an accepted text is accepted by itself, or
it is a list of as many accepted texts as the function named before it takes; declarations of
variables aside. -/
theorem C85_parts (a t b : Bytes) (x : Xpr)
    (h : parse cfg w o ctx (a ++ c!"(" :: (t ++ c!")" :: b)) = .ok x) (hb : Balanced t) :
    ∃ parts zs, parts ≠ [] ∧ t = commas parts ∧
      List.Forall₂ (fun p z => parse cfg w o (dropExpected ctx) p = .ok z) parts zs ∧
      (parts = [t] ∨ ∃ f, FunctionBefore ctx a f parts.length) := by
  rcases parseImpl_parts (parse_ok h) ⟨rfl, hb⟩ with
    ⟨z, h1, -⟩ | ⟨a', nm, ws, f, parts, zs, h1, h2, h3, h4, h5, h6, h7, h8, -⟩
  · exact ⟨[t], [z], by simp, rfl, .cons (parse_drop.trans h1) .nil, .inl rfl⟩
  · exact ⟨parts, zs, h6, h7, h8.imp fun _ _ h => parse_drop.trans h, .inr ⟨f, a', nm, ws, h1, h2, h3, h4, h5⟩⟩

/-- Put the other way round: what is not accepted by itself, and has no comma, cannot be put
in parentheses anywhere. -/
theorem C85_reject (a t b : Bytes) (hb : Balanced t) (hc : c!"," ∉ t)
    (h : ∀ z, parse cfg w o (dropExpected ctx) t ≠ .ok z) (x : Xpr) :
    parse cfg w o ctx (a ++ c!"(" :: (t ++ c!")" :: b)) ≠ .ok x := by
  intro hx
  obtain ⟨parts, zs, h1, h2, h3, -⟩ := C85_parts cfg w o ctx a t b x hx hb
  cases h3 with
  | nil => exact h1 rfl
  | cons k1 k2 =>
    cases k2 with
    | nil => exact h _ (by rw [h2]; exact k1)
    | cons _ _ => exact hc (by rw [h2]; simp [commas])

/-- In a build without compile-time optimisations the parts are accepted under the same
declarations, and their trees are found in the tree of the whole: as a part of it, or as
the arguments of a call that is a part of it. -/
theorem C85_plain (ho : cfg.opt = false) (a t b : Bytes) (x : Xpr)
    (h : parse cfg w o ctx (a ++ c!"(" :: (t ++ c!")" :: b)) = .ok x) (hb : Balanced t) :
    (∃ z, parse cfg w o ctx t = .ok z ∧ Sub z.root x.root) ∨
    ∃ f parts zs, FunctionBefore ctx a f parts.length ∧ parts ≠ [] ∧ t = commas parts ∧
      List.Forall₂ (fun p z => parse cfg w o ctx p = .ok z) parts zs ∧
      Sub (.call f (zs.map (·.root))) x.root := by
  have hx : ∀ n, Occurs n x.root → ∀ vs, ctx.getExpected = some vs → n ∈ vs := fun n hn vs hvs =>
    parse_expected h hvs (((C05_vars cfg w o ctx _ x h).2 n).2 hn)
  have up : ∀ {p : Bytes} {z : Xpr}, parseImpl cfg w ctx p = .ok z →
      (∀ n, Occurs n z.root → Occurs n x.root) → parse cfg w o ctx p = .ok z := by
    intro p z hp hs
    refine parse_of_impl hp fun vs hvs n hn => hx n (hs n ?_) vs hvs
    exact ((C05_vars cfg w o (dropExpected ctx) p z (parse_drop.trans hp)).2 n).1 hn
  rcases parseImpl_parts (parse_ok h) ⟨rfl, hb⟩ with
    ⟨z, h1, h2⟩ | ⟨a', nm, ws, f, parts, zs, h1, h2, h3, h4, h5, h6, h7, h8, h9⟩
  · exact .inl ⟨z, up h1 fun n hn => occurs_sub (h2 ho) hn, h2 ho⟩
  · refine .inr ⟨f, parts, zs, ⟨a', nm, ws, h1, h2, h3, h4, h5⟩, h6, h7, ?_, h9 ho⟩
    have hs : ∀ z ∈ zs, ∀ n, Occurs n z.root → Occurs n x.root := fun z hz n hn =>
      occurs_sub (h9 ho) (occurs_call.2 ⟨_, List.mem_map.2 ⟨z, hz, rfl⟩, hn⟩)
    clear h5 h6 h7 h9
    induction h8 with
    | nil => exact .nil
    | cons k1 _ ih =>
      exact .cons (up k1 (hs _ (by simp))) (ih fun z hz => hs z (List.mem_cons_of_mem _ hz))

/-- So a part has no variable that the whole has not, and it has a value whenever the whole
has one. -/
theorem C85_value (ho : cfg.opt = false) (a t b : Bytes) (x : Xpr)
    (h : parse cfg w o ctx (a ++ c!"(" :: (t ++ c!")" :: b)) = .ok x) (hb : Balanced t) :
    ∃ parts zs, parts ≠ [] ∧ t = commas parts ∧
      List.Forall₂ (fun p z => parse cfg w o ctx p = .ok z) parts zs ∧
      ∀ z ∈ zs, (∀ n ∈ z.vars, n ∈ x.vars) ∧ ∀ m v, x.eval w m = .ok v → ∃ u, z.eval w m = .ok u := by
  have one : ∀ {p : Bytes} {z : Xpr}, parse cfg w o ctx p = .ok z → Sub z.root x.root →
      (∀ n ∈ z.vars, n ∈ x.vars) ∧ ∀ m v, x.eval w m = .ok v → ∃ u, z.eval w m = .ok u := by
    intro p z hp hs
    refine ⟨fun n hn => ?_, fun m v hv => value_of_sub hs hv⟩
    exact ((C05_vars cfg w o ctx _ x h).2 n).2
      (occurs_sub hs (((C05_vars cfg w o ctx p z hp).2 n).1 hn))
  rcases C85_plain cfg w o ctx ho a t b x h hb with ⟨z, h1, h2⟩ | ⟨f, parts, zs, -, h1, h2, h3, h4⟩
  · refine ⟨[t], [z], by simp, rfl, .cons h1 .nil, fun z' hz => ?_⟩
    rw [List.mem_singleton.1 hz]
    exact one h1 h2
  · refine ⟨parts, zs, h1, h2, h3, fun z hz => ?_⟩
    obtain ⟨p, hp⟩ := forall2_right h3 hz
    exact one hp (sub_trans (.arg (List.mem_map.2 ⟨z, hz, rfl⟩) .refl) h4)

end

/-- The declarations matter in optimizing builds: `0*(x)` is accepted where no variable is
declared (it has none), `x` is not. -/
theorem C85_declared : ∃ (ctx : Context) (x : Xpr), parse cfgOpt w0 Oracle.id ctx b!"0*(x)" = .ok x ∧
    ∀ z, parse cfgOpt w0 Oracle.id ctx b!"x" ≠ .ok z := by
  refine ⟨{ Context.default with expectedVars := some [] }, ⟨.num F64.f0, []⟩, by decide +kernel, ?_⟩
  have : parse cfgOpt w0 Oracle.id { Context.default with expectedVars := some [] } b!"x" =
      .err ⟨.variableNotDeclared b!"x" [], 0, 1⟩ := by decide +kernel
  rw [this]
  exact nofun

/-! ### Examples -/

/-- The arguments of `hypot` in `2hypot (x, (y))+1`. -/
example : ∃ x, parse cfgOpt w0 Oracle.id Context.default
    (b!"2hypot " ++ c!"(" :: (b!"x, (y)" ++ c!")" :: b!"+1")) = .ok x ∧ Balanced b!"x, (y)" :=
  ⟨⟨.bin .plus (.bin .times (.num (F64.ofDecimal 2 0)) (.call ⟨b!"hypot", .builtin .hypot, some 2⟩ [.var b!"x", .var b!"y"]))
    (.num F64.f1), [b!"x", b!"y"]⟩, by decide +kernel,
    balanced_append (a := b!"x, ") (balanced_plain (by decide))
      (balanced_wrap (a := b!"y") (balanced_plain (by decide)))⟩


example : ∃ x, parse cfgPlain w0 Oracle.id Context.default
    (b!"2hypot " ++ c!"(" :: (b!"x, (y)" ++ c!")" :: b!"+1")) = .ok x :=
  ⟨⟨.bin .plus (.bin .times (.num (F64.ofDecimal 2 0))
    (.call ⟨b!"hypot", .builtin .hypot, some 2⟩ [.var b!"x", .var b!"y"])) (.num F64.f1), [b!"x", b!"y"]⟩,
    by decide +kernel⟩

/-- `2+` cannot be put in parentheses anywhere. -/
example (a b : Bytes) (x : Xpr) :
    parse cfgOpt w0 Oracle.id Context.default (a ++ c!"(" :: (b!"2+" ++ c!")" :: b)) ≠ .ok x := by
  refine C85_reject cfgOpt w0 Oracle.id Context.default a b!"2+" b (balanced_plain (by decide)) (by decide) ?_ x
  have : (match parse cfgOpt w0 Oracle.id (dropExpected Context.default) b!"2+" with
    | .ok _ => true | _ => false) = false := by decide +kernel
  intro z h
  rw [h] at this
  cases this

end Props
end Xprs
