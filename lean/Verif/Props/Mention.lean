import Verif.Lemmas.Mention
import Verif.Props.Evaluation
/-
Property C60: definitions that a text does not mention have no effect on it.
-/
namespace Xprs
namespace Props
open Spec

/-- C60: contexts that define the names a text mentions alike and expect the same
variables give the same result for it: the same expression, or the same error, or the
same panic. -/
theorem C60_irrelevant (cfg : Cfg) (w : World) (o : Oracle) (c c' : Context) (input : Bytes)
    (h : ∀ nm, Mentions input nm → c.get nm = c'.get nm) (he : c.getExpected = c'.getExpected) :
    parse cfg w o c input = parse cfg w o c' input := by
  have hc : AgreeCtx input c c' := fun nm hm => by unfold lookup; rw [h nm hm]
  unfold parse
  rw [parseImpl_agree hc, he]

/-- Adding a variable or a function the text does not mention changes nothing. -/
theorem C60_unused (cfg : Cfg) (w : World) (o : Oracle) (c : Context) (input : Bytes) :
    (∀ nm v, ¬ Mentions input nm → parse cfg w o (c.setVar nm v) input = parse cfg w o c input) ∧
    (∀ f : Func, ¬ Mentions input f.name →
      parse cfg w o (c.setFn f) input = parse cfg w o c input) := by
  constructor
  · intro nm v h
    refine C60_irrelevant cfg w o _ _ input (fun nm' h' => ?_) rfl
    have : nm' ≠ nm := fun e => h (e ▸ h')
    simp [Context.get, Context.setVar, HMap.get, HMap.insert, this]
  · intro f h
    refine C60_irrelevant cfg w o _ _ input (fun nm' h' => ?_) rfl
    have : nm' ≠ f.name := fun e => h (e ▸ h')
    simp [Context.get, Context.setFn, HMap.get, HMap.insert, this]

/-- What is not a letter followed by letters, digits, `_` and `'` can be defined, but
never used: the definition changes the result for no text at all. -/
theorem C60_unusable (cfg : Cfg) (w : World) (o : Oracle) (c : Context) (nm : Bytes)
    (h : (∀ b, nm.head? = some b → ¬ letter b) ∨ ∃ b ∈ nm, ¬ nameChar b) (input : Bytes) :
    (∀ v, parse cfg w o (c.setVar nm v) input = parse cfg w o c input) ∧
    (∀ f : Func, f.name = nm → parse cfg w o (c.setFn f) input = parse cfg w o c input) := by
  have hn : ¬ Mentions input nm := by
    rintro ⟨a, b, -, ⟨⟨x, hx, hl⟩, hall, -⟩, -⟩
    rcases h with h | ⟨y, hy, hy'⟩
    · exact h x hx hl
    · exact hy' (hall y hy)
  exact ⟨fun v => (C60_unused cfg w o c input).1 nm v hn,
    fun f hf => (C60_unused cfg w o c input).2 f (hf ▸ hn)⟩

/-- `3xy` mentions `xy`, but neither `x` nor `y`. -/
example : Mentions b!"3xy" b!"xy" ∧ ¬ Mentions b!"3xy" b!"x" ∧ ¬ Mentions b!"3xy" b!"y" := by
  refine ⟨⟨b!"3", [], rfl, ⟨⟨_, rfl, by decide +kernel⟩, by decide +kernel, ?_⟩, ?_⟩, ?_, ?_⟩
  · intro c hc; simp at hc
  · intro c hc; simp at hc; subst hc; decide +kernel
  · rintro ⟨a, b, h, ⟨-, -, hb⟩, -⟩
    match a, h with
    | [], h => simp at h
    | [_], h =>
      simp at h
      exact hb c!"y" (by rw [← h.2]; rfl) (by decide +kernel)
    | [_, _], h => simp at h
    | _ :: _ :: _ :: t, h => simp at h
  · rintro ⟨a, b, h, -, hb⟩
    match a, h with
    | [], h => simp at h
    | [_], h => simp at h
    | [_, x], h =>
      simp at h
      exact hb x rfl (by rw [← h.2.1]; decide +kernel)
    | _ :: _ :: _ :: t, h => simp at h

/-- A definition the text does mention matters. -/
example : parse ⟨false, false, false, true, .w64⟩ w0 Oracle.id Context.default b!"3xy" ≠
    parse ⟨false, false, false, true, .w64⟩ w0 Oracle.id (Context.default.setVar b!"xy" F64.f1) b!"3xy" := by
  decide +kernel

end Props
end Xprs
