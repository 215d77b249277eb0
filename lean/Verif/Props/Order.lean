import Verif.Lemmas.Order
import Verif.Props.Equality
/-
Property C59: the ordering of expressions.
-/
namespace Xprs
namespace Props
open Spec

/-! ### C59 -/

/-- C59 as stated, first part: for trees of parsed expressions, `partial_cmp` says `Equal`
exactly if `==` holds (as the documentation of `PartialOrd` demands). -/
def C59_equal_claim : Prop := ∀ (cfg : Cfg) (w : World) (o : Oracle) (ctx : Context) (s t : Bytes)
  (x y : Xpr), CtxTotal w ctx → parse cfg w o ctx s = .ok x → parse cfg w o ctx t = .ok y →
  (cmpE x.root y.root = some .eq ↔ eqE x.root y.root = .ok true)

/-- `x+y == y+x`, but `x+y < y+x`. -/
theorem C59_equal_refuted : ¬ C59_equal_claim := by
  intro h
  have := (h cfgOpt w0 Oracle.id Context.default b!"x+y" b!"y+x"
    ⟨.bin .plus vx (.var b!"y"), [b!"x", b!"y"]⟩ ⟨.bin .plus (.var b!"y") vx, [b!"y", b!"x"]⟩
    (ctxTotal_default w0) (by decide +kernel) (by decide +kernel)).2 (by decide +kernel)
  revert this; decide +kernel

/-- The other direction fails too: `invert` is a built-in whose name is `recip`; in a
context with a function `recip` of its own, `invert(x)` and `recip(x)` compare as `Equal`
without being equal. -/
theorem C59_equal_refuted_names : ∃ (cfg : Cfg) (w : World) (o : Oracle) (ctx : Context) (s t : Bytes)
    (x y : Xpr), CtxTotal w ctx ∧ parse cfg w o ctx s = .ok x ∧ parse cfg w o ctx t = .ok y ∧
    cmpE x.root y.root = some .eq ∧ eqE x.root y.root = .ok false := by
  refine ⟨cfgOpt, { w0 with user := fun _ _ => some F64.f0 }, Oracle.id,
    Context.default.setFn ⟨b!"recip", .dyn 1, some 1⟩, b!"invert(x)", b!"recip(x)", 
    ⟨.call Builtin.recip.toFunc [vx], [b!"x"]⟩, ⟨.call ⟨b!"recip", .dyn 1, some 1⟩ [vx], [b!"x"]⟩,
    ?_, by decide +kernel, by decide +kernel, by decide +kernel, by decide +kernel⟩
  intro nm f hf
  simp only [Context.get, Context.setFn, HMap.get, HMap.insert] at hf
  split at hf
  · cases hf; intro args _; exact ⟨F64.f0, rfl⟩
  · exact ctxTotal_default _ nm f hf

/-- C59, second part: `a == b` and `b < c` do not imply `a < c`: `y+x == x+y < x+z`, but
`y+x > x+z`. -/
theorem C59_mixed_refuted : ∃ a b c : Elem, eqE a b = .ok true ∧ cmpE b c = some .lt ∧
    cmpE a c = some .gt ∧
    parse0 cfgOpt b!"y+x" = .ok ⟨a, [b!"y", b!"x"]⟩ ∧
    parse0 cfgOpt b!"x+y" = .ok ⟨b, [b!"x", b!"y"]⟩ ∧
    parse0 cfgOpt b!"x+z" = .ok ⟨c, [b!"x", b!"z"]⟩ := by
  refine ⟨.bin .plus (.var b!"y") vx, .bin .plus vx (.var b!"y"), .bin .plus vx (.var b!"z"),
    ?_, ?_, ?_, ?_, ?_, ?_⟩ <;> decide +kernel

/-- C59, what does hold, for all trees whatsoever: `partial_cmp` orders trees by kind,
operator, number and name and then by the first operand that differs (`Before`), and says
`Equal` if there is no such difference (`Level`). -/
theorem C59_lexicographic (a b : Elem) :
    (cmpE a b = some .lt ↔ Before a b) ∧ (cmpE a b = some .gt ↔ Before b a) ∧
    (cmpE a b = some .eq ↔ Level a b) := by
  refine ⟨cmpE_lt, ?_, cmpE_eq⟩
  rw [← cmpE_lt, cmpE_swap a b]
  cases cmpE a b with
  | none => simp
  | some o => cases o <;> simp

/-- C59: the laws of a partial order: `a < b` iff `b > a`; `<` is irreflexive and
transitive; a tree that compares as `Equal` can be exchanged in any comparison. -/
theorem C59_laws (a b c : Elem) :
    (cmpE a b = some .lt ↔ cmpE b a = some .gt) ∧ cmpE a a ≠ some .lt ∧
    (cmpE a b = some .lt → cmpE b c = some .lt → cmpE a c = some .lt) ∧
    (cmpE a b = some .eq → cmpE a c = cmpE b c ∧ cmpE c a = cmpE c b) := by
  refine ⟨?_, ?_, cmpE_trans, fun h => ⟨cmpE_congr h c, ?_⟩⟩
  · rw [cmpE_swap a b]
    cases cmpE a b with
    | none => simp
    | some o => cases o <;> simp
  · intro h
    have := cmpE_swap a a
    rw [h] at this; simp at this
  · have h' : cmpE b a = some .eq := by rw [cmpE_swap a b, h]; rfl
    exact cmpE_congr' h' c

/-- C59: trees without NaN are always comparable, and compare as `Equal` to themselves. -/
theorem C59_total (a b : Elem) (ha : Literals (· ≠ .nan) a) (hb : Literals (· ≠ .nan) b) :
    (Before a b ∨ Level a b ∨ Before b a) ∧ Level a a := by
  have key : ∀ a b, Literals (· ≠ .nan) a → Literals (· ≠ .nan) b →
      Before a b ∨ Level a b ∨ Before b a := by
    intro a b ha hb
    cases h : cmpE a b with
    | none => exact absurd h (cmpE_total ha hb)
    | some o =>
      cases o with
      | lt => exact .inl (cmpE_lt.1 h)
      | eq => exact .inr (.inl (cmpE_eq.1 h))
      | gt => exact .inr (.inr ((C59_lexicographic a b).2.1.1 h))
  refine ⟨key a b ha hb, ?_⟩
  rcases key a a ha ha with h | h | h
  · exact absurd (cmpE_lt.2 h) (C59_laws a a a).2.1
  · exact h
  · exact absurd (cmpE_lt.2 h) (C59_laws a a a).2.1

mutual
theorem level_alike : ∀ {a b : Elem}, (∀ f g as bs, Sub (.call f as) a → Sub (.call g bs) b →
    f.name = g.name → f = g) → Level a b → Alike NumEq a b
  | .num _, _, _, h => by cases h; exact .num (by assumption)
  | .var _, _, _, h => by cases h; exact .var
  | .un _ e, _, hn, h => by
    cases h with
    | un h => exact .un (level_alike (a := e) (fun f g as bs h1 h2 => hn f g as bs (.operand h1) (.operand h2)) h)
  | .bin _ l r, _, hn, h => by
    cases h with
    | bin h h' =>
      exact .bin (level_alike (a := l) (fun f g as bs h1 h2 => hn f g as bs (.left h1) (.left h2)) h)
        (level_alike (a := r) (fun f g as bs h1 h2 => hn f g as bs (.right h1) (.right h2)) h')
  | .call f as, _, hn, h => by
    cases h with
    | call hf h =>
      cases hn _ _ _ _ .refl .refl hf
      exact .call (levelL_alike (as := as)
        (fun f g as bs a b ha hb h1 h2 => hn f g as bs (.arg ha h1) (.arg hb h2)) h)
theorem levelL_alike : ∀ {as bs : List Elem}, (∀ f g cs ds, ∀ a b, a ∈ as → b ∈ bs →
    Sub (.call f cs) a → Sub (.call g ds) b → f.name = g.name → f = g) → LevelL as bs →
    AlikeL NumEq as bs
  | [], _, _, h => by cases h; exact .nil
  | a :: as, _, hn, h => by
    cases h with
    | cons h h' =>
      exact .cons (level_alike (a := a) (fun f g cs ds => hn f g cs ds _ _ (by simp) (by simp)) h)
        (levelL_alike (as := as) (fun f g cs ds a b ha hb => hn f g cs ds a b (by simp [ha]) (by simp [hb])) h')
end

mutual
theorem alike_level : ∀ {a b : Elem}, (∀ l r, ¬ Sub (.bin .plus l r) a ∧ ¬ Sub (.bin .times l r) a) →
    Alike NumEq a b → Level a b
  | .num _, _, _, h => by cases h; exact .num (by assumption)
  | .var _, _, _, h => by cases h; exact .var
  | .un _ e, _, hn, h => by
    cases h with
    | un h =>
      exact .un (alike_level (a := e) (fun l r =>
        ⟨fun h => (hn l r).1 (.operand h), fun h => (hn l r).2 (.operand h)⟩) h)
  | .bin _ l r, _, hn, h => by
    cases h with
    | bin h h' =>
      exact .bin (alike_level (a := l) (fun c d =>
          ⟨fun h => (hn c d).1 (.left h), fun h => (hn c d).2 (.left h)⟩) h)
        (alike_level (a := r) (fun c d =>
          ⟨fun h => (hn c d).1 (.right h), fun h => (hn c d).2 (.right h)⟩) h')
    | comm ho _ _ =>
      rcases ho with rfl | rfl
      · exact absurd .refl (hn l r).1
      · exact absurd .refl (hn l r).2
  | .call f as, _, hn, h => by
    cases h with
    | call h =>
      exact .call rfl (alikeL_level (as := as) (fun a ha l r =>
        ⟨fun h => (hn l r).1 (.arg ha h), fun h => (hn l r).2 (.arg ha h)⟩) h)
theorem alikeL_level : ∀ {as bs : List Elem}, (∀ a ∈ as, ∀ l r, ¬ Sub (.bin .plus l r) a ∧
    ¬ Sub (.bin .times l r) a) → AlikeL NumEq as bs → LevelL as bs
  | [], _, _, h => by cases h; exact .nil
  | a :: as, _, hn, h => by
    cases h with
    | cons h h' =>
      exact .cons (alike_level (a := a) (hn a (by simp)) h)
        (alikeL_level (as := as) (fun b hb => hn b (by simp [hb])) h')
end

/-- C59, first part, as far as it holds.  What is missing: `==` trees that differ by the
order of the operands of a sum or product do not compare as `Equal`, and trees that compare
as `Equal` may call different functions of the same name. -/
theorem C59_equal_partial {P : Func → Prop} (a b : Elem) (ha : Proper P a) :
    ((∀ f g as bs, Sub (.call f as) a → Sub (.call g bs) b → f.name = g.name → f = g) →
      cmpE a b = some .eq → eqE a b = .ok true) ∧
    ((∀ l r, ¬ Sub (.bin .plus l r) a ∧ ¬ Sub (.bin .times l r) a) →
      eqE a b = .ok true → cmpE a b = some .eq) := by
  rw [eqE_alike a b ha, cmpE_eq]
  exact ⟨level_alike, alike_level⟩

/-- `1 < x/y`, `x/y < -x`, `-x < sin(x)`, `sin(x) < x` and `-1/x < 0/x`. -/
example : Before (.num F64.f1) (.bin .divide vx (.var b!"y")) :=
  cmpE_lt.1 (by decide +kernel)
example : cmpE (.bin .divide vx (.var b!"y")) (.un .minus vx) = some .lt := by decide +kernel
example : cmpE (.un .minus vx) (.call Builtin.sin.toFunc [vx]) = some .lt := by decide +kernel
example : cmpE (.call Builtin.sin.toFunc [vx]) vx = some .lt := by decide +kernel
example : cmpE (.bin .divide (.num (F64.neg F64.f1)) vx) (.bin .divide (.num F64.f0) vx) = some .lt := by
  decide +kernel
/-- The hypotheses of `C59_equal_partial` hold for `x/y`. -/
example : Proper (fun _ => True) (.bin .divide vx (.var b!"y")) := .bin (by decide) (.var _) (.var _)
example : ∀ l r, ¬ Sub (.bin .plus l r) (.bin .divide vx (.var b!"y")) ∧
    ¬ Sub (.bin .times l r) (.bin .divide vx (.var b!"y")) := by
  intro l r
  constructor <;> (intro h; cases h with | left h => cases h | right h => cases h)

end Props
end Xprs
