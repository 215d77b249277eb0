import Verif.Props.Extent
import Verif.Lemmas.CostParse
/-
Property C65: how much work the library does.
-/
namespace Xprs
namespace Props
open Spec

/-! ### C65 -/

/-- C65, what is counted: the functions with a count of their steps return what those
without return.  Every build, world, context, text and expression. -/
theorem C65_same (cfg : Cfg) (w : World) :
    (∀ a b, (eqC a b).1 = eqE a b) ∧ (∀ e, (simplifyC cfg w e).1 = simplify cfg w e) ∧
    (∀ x v e, (simplifyForC cfg w x v e).1 = simplifyFor cfg w x v e) ∧
    (∀ m e, (evalC w m e).1 = eval w m e) ∧
    (∀ o ctx input, (parseC cfg w o ctx input).1 = parse cfg w o ctx input) :=
  ⟨eqC_fst, simplifyC_fst cfg w, fun x v e => simplifyForC_fst cfg w x v e,
    fun m e => evalC_fst w m e, fun o ctx input => parseC_fst cfg w o ctx input⟩

/-- C65: comparing two expressions takes at most as many steps as the product of their
numbers of nodes, though sums and products are compared in both orders. -/
theorem C65_eq (a b : Elem) : (eqC a b).2 ≤ size a * size b := eqC_le a b

/-- C65: simplifying takes at most quadratically many steps. -/
theorem C65_simplify (cfg : Cfg) (w : World) (e : Elem) :
    (simplifyC cfg w e).2 ≤ size e * size e + 9 * size e := simplifyC_le cfg w e

/-- C65: simplifying for a variable takes at most cubically many steps. -/
theorem C65_simplify_for (cfg : Cfg) (w : World) (x : Bytes) (v : F64) (e : Elem) :
    (simplifyForC cfg w x v e).2 ≤ size e * (size e * size e + 9 * size e + 1) :=
  simplifyForC_le cfg w x v _ e (Nat.le_refl _)

/-- C65: evaluating takes less than two steps for every node, one for the node and one if
it is an argument. -/
theorem C65_eval (w : World) (m : HMap F64) (e : Elem) : (evalC w m e).2 < 2 * size e :=
  evalC_le w m e

/-- C65: a build without optimization parses in a linear number of steps.  Every text,
context and outcome, errors and panics included. -/
theorem C65_parse_plain (cfg : Cfg) (w : World) (o : Oracle) (ctx : Context) (input : Bytes)
    (h : cfg.opt = false) : (parseC cfg w o ctx input).2 ≤
      26 * input.length + 22 + (ctx.getExpected.getD []).length := by
  have := parseC_le (cfg := cfg) (w := w) (o := o) (ctx := ctx) (input := input) (Q := 0)
    (fun e s _ => by simp [finishC, h])
  omega

/-- C65: every build parses in at most cubically many steps. -/
theorem C65_parse (cfg : Cfg) (w : World) (o : Oracle) (ctx : Context) (input : Bytes) :
    (parseC cfg w o ctx input).2 ≤
      (4 * (input.length * input.length) + 18 * input.length) * input.length +
      26 * input.length + 22 + (ctx.getExpected.getD []).length := by
  apply parseC_le
  intro e s he
  unfold finishC
  split
  · have h1 := simplifyC_le cfg w e
    have h2 := simpBound_mono (show size e ≤ 2 * input.length by omega)
    have h3 : simpBound (2 * input.length) =
        4 * (input.length * input.length) + 18 * input.length := by
      unfold simpBound
      rw [Nat.mul_mul_mul_comm]; omega
    generalize simplifyC cfg w e = y at h1 ⊢
    rcases y with ⟨_ | l', n⟩ <;> (dsimp only at h1 ⊢; omega)
  · exact Nat.zero_le _

/-! #### Lower bounds -/

theorem minusTree_size (k : Nat) : size (minusTree k) = k + 1 := by
  induction k with
  | zero => rfl
  | succ k ih => simp only [minusTree, size, ih]

theorem simplifyC_minusTree (cfg : Cfg) (w : World) (k : Nat) :
    simplifyC cfg w (minusTree k) = (.ok (minusTree k), 2 * k + 1) := by
  induction k with
  | zero => simp [minusTree, simplifyC]
  | succ k ih =>
    rw [minusTree, simplifyC, ih]
    cases k with
    | zero => simp [thenC, tick, simpUn, minusTree]
    | succ k => simp only [thenC, tick, simpUn, minusTree]; congr 1; omega

/-- C65, lower bound: on `k` minus signs in front of a variable, simplifying for another
variable takes more than `k²` steps, for a tree with `k + 1` nodes that does not change:
linear it is not. -/
theorem C65_simplify_for_quadratic (cfg : Cfg) (w : World) (y : Bytes) (v : F64) (k : Nat)
    (hy : y ≠ b!"x") : ∃ n, simplifyForC cfg w y v (minusTree k) = (.ok (minusTree k), n) ∧
      size (minusTree k) = k + 1 ∧ k * k < n := by
  induction k with
  | zero =>
    refine ⟨1, ?_, rfl, by omega⟩
    simp [minusTree, simplifyForC, Ne.symm hy]
  | succ k ih =>
    obtain ⟨n, h1, h2, h3⟩ := ih
    refine ⟨1 + (n + (2 * (k + 1) + 1)), ?_, minusTree_size _, ?_⟩
    · rw [minusTree, simplifyForC, h1]
      have := simplifyC_minusTree cfg w (k + 1)
      rw [minusTree] at this
      simp only [thenC, tick, this]
    · simp only [Nat.add_mul, Nat.mul_add]; omega

theorem minuses_head (k : Nat) : ∃ c, (minuses k).head? = some c ∧ isWs c = false ∧
    opOfByte c = (if k = 0 then none else some .minus) := by
  cases k with
  | zero => exact ⟨c!"x", rfl, by decide, by decide⟩
  | succ k => exact ⟨c!"-", rfl, by decide, by simp [opOfByte]⟩

/-- One `element` of the parser on `k` minus signs. -/
theorem elementC_minuses (cfg : Cfg) (w : World) (h : cfg.opt = true) :
    ∀ (k fuel p pos : Nat), k < fuel → ∃ n,
      elementC cfg w Context.default fuel p ⟨pos, minuses k⟩ =
        (.ok (minusTree k) ⟨pos + k + 1, []⟩, n) ∧ k * k ≤ n := by
  have hend : ∀ (rec : Nat → St → R Elem × Nat) (p q : Nat) (el : Elem), ∃ n,
      opLoopC cfg rec p 1 el ⟨q, []⟩ = (.ok el ⟨q, []⟩, n) := by
    intro rec p q el
    exact ⟨_, rfl⟩
  intro k
  induction k with
  | zero =>
    intro fuel p pos hf
    obtain ⟨f, rfl⟩ : ∃ f, fuel = f + 1 := ⟨fuel - 1, by omega⟩
    have ha : ∃ n, atomC cfg Context.default (elementC cfg w Context.default f) ⟨pos, minuses 0⟩ =
        (.ok (.var b!"x") ⟨pos + 1, []⟩, n) := ⟨_, rfl⟩
    obtain ⟨n1, ha⟩ := ha
    have hc : consumeIf c!"!" ⟨pos + 1, []⟩ = (false, ⟨pos + 1, []⟩) := rfl
    obtain ⟨n2, h2⟩ := hend (elementC cfg w Context.default f) p (pos + 1) (.var b!"x")
    refine ⟨1 + (n1 + (gap ⟨pos + 1, []⟩ ⟨pos + 1, []⟩ + (n2 + 1))), ?_, by omega⟩
    rw [elementC, elementFC, ha]
    simp only [R.bindC, hc, List.length_nil, Nat.zero_add, Bool.false_eq_true, if_false, h2, finishC, h,
      if_true, simplifyC, tick, minusTree]
  | succ k ih =>
    intro fuel p pos hf
    obtain ⟨f, rfl⟩ : ∃ f, fuel = f + 1 := ⟨fuel - 1, by omega⟩
    obtain ⟨n, h1, hn⟩ := ih f unopPrec (pos + 1) (by omega)
    have ha : atomC cfg Context.default (elementC cfg w Context.default f) ⟨pos, minuses (k + 1)⟩ =
        (.ok (minusTree (k + 1)) ⟨pos + 1 + k + 1, []⟩, 1 + (n + 1)) := by
      unfold atomC
      have ht : trim ⟨pos, minuses (k + 1)⟩ = ⟨pos, minuses (k + 1)⟩ := by
        apply trim_of_trimmed
        intro c hc; simp [minuses] at hc; subst hc; decide
      simp only [ht, gap]
      have : (minuses (k + 1)).head? = some c!"-" := rfl
      simp only [this]
      have h' : adv ⟨pos, minuses (k + 1)⟩ 1 = ⟨pos + 1, minuses k⟩ := rfl
      rw [if_neg (by decide), if_neg (by decide), if_neg (by decide), if_pos trivial, h', h1]
      simp only [R.bindC, tick, minusTree]
      simp
    have hc : consumeIf c!"!" ⟨pos + 1 + k + 1, []⟩ = (false, ⟨pos + 1 + k + 1, []⟩) := rfl
    obtain ⟨n2, h2⟩ := hend (elementC cfg w Context.default f) p (pos + 1 + k + 1) (minusTree (k + 1))
    refine ⟨1 + (1 + (n + 1) + (gap ⟨pos + 1 + k + 1, []⟩ ⟨pos + 1 + k + 1, []⟩ +
      (n2 + (2 * (k + 1) + 1)))), ?_, ?_⟩
    · rw [elementC, elementFC, ha]
      simp only [R.bindC, hc, List.length_nil, Nat.zero_add, Bool.false_eq_true, if_false, h2, finishC, h,
        if_true, simplifyC_minusTree, tick]
      rw [show pos + 1 + k + 1 = pos + (k + 1) + 1 by omega]
    · simp only [Nat.add_mul, Nat.mul_add]; omega

/-- C65, lower bound: a build with optimization takes at least `k²` steps for `k` minus
signs in front of a variable: every sign simplifies the whole operand again.  So parsing is
not linear there, while it is in the other builds (`C65_parse_plain`). -/
theorem C65_parse_quadratic (cfg : Cfg) (w : World) (o : Oracle) (k : Nat) (h : cfg.opt = true) :
    (minuses k).length = k + 1 ∧ k * k ≤ (parseC cfg w o Context.default (minuses k)).2 := by
  have hlen : (minuses k).length = k + 1 := (C58_deep cfg w o k).1
  refine ⟨hlen, ?_⟩
  obtain ⟨n, h1, h2⟩ := elementC_minuses cfg w h k ((minuses k).length + 1) noPrec 0 (by omega)
  unfold parseC parseImplC
  rw [h1]
  simp only [tick]
  have : (trim ⟨0 + k + 1, []⟩).rest.head? = none := rfl
  simp only [this]
  show k * k ≤ n + _ + _
  omega

/-- A sum of sums: the steps of `==` when the terms are in another order. -/
example : let a := Elem.bin .plus (.bin .plus (.var b!"a") (.var b!"b")) (.bin .plus (.var b!"c") (.var b!"d"))
    let b := Elem.bin .plus (.bin .plus (.var b!"d") (.var b!"c")) (.bin .plus (.var b!"b") (.var b!"a"))
    (eqC a b).2 = 12 ∧ eqE a b = .ok true ∧ size a * size b = 49 := by
  refine ⟨by decide +kernel, by rfl, by decide⟩
/-- The same text takes more steps with optimization than without. -/
example : (parseC cfgOpt w0 Oracle.id Context.default b!"x+sin(x)*2").2 = 83 ∧
    (parseC cfgPlain w0 Oracle.id Context.default b!"x+sin(x)*2").2 = 56 := by decide +kernel

end Props
end Xprs
