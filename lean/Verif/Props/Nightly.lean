import Verif.Lemmas.Nightly
import Verif.Props.Display
import Verif.Props.Builds
/-
Property C75: the compiler channel matters only where there is a minus sign.
-/
namespace Xprs
namespace Props
open Spec

/-- C75, parsing: without the character `-` in the text, a NIGHTLY build gives the same
expression, the same error or the same panic as one by a stable compiler. -/
theorem C75_parse (cfg cfg' : Cfg) (w : World) (o : Oracle) (ctx : Context) (input : Bytes)
    (hc : SameButChannel cfg cfg') (hm : c!"-" ∉ input) :
    parse cfg w o ctx input = parse cfg' w o ctx input :=
  parse_channel hc hm

/-- C75, further simplification: what a program can get hold of is the same in both builds,
and so is what simplifying it further gives, for all values, also negative ones. -/
theorem C75_simplify (cfg cfg' : Cfg) (w : World) (ctx : Context) (input : Bytes)
    (hc : SameButChannel cfg cfg') (hm : c!"-" ∉ input) (e : Xpr) :
    (Reach cfg w ctx input e ↔ Reach cfg' w ctx input e) ∧
    (Reach cfg w ctx input e → (∀ x v, e.simplifyFor cfg w x v = e.simplifyFor cfg' w x v) ∧
      ∀ l, e.simplifyForMultiple cfg w l = e.simplifyForMultiple cfg' w l) := by
  have hc' : SameButChannel cfg' cfg := ⟨hc.1.symm, hc.2.1.symm, hc.2.2.1.symm, hc.2.2.2.symm⟩
  refine ⟨⟨fun h => (reach_channel hc hm h).2, fun h => (reach_channel hc' hm h).2⟩, fun h => ?_⟩
  have hl := (reach_channel hc hm h).1
  exact ⟨fun x v => (xpr_simplifyFor_channel hl).1, fun l => (simplifyLoop_channel l _ _ hl).1⟩

/-- C75, trees: nor does it matter for trees, however they were made, without subtraction
and negation. -/
theorem C75_tree (cfg cfg' : Cfg) (w : World) (e : Elem) (hm : Minusless e) :
    simplify cfg w e = simplify cfg' w e ∧
      ∀ x v, simplifyFor cfg w x v e = simplifyFor cfg' w x v e :=
  ⟨(simplify_channel e hm).1, fun _ _ => (simplifyFor_channel e hm).1⟩

/-- The sign is needed: for `x + -x` the two builds differ, and in the value too. -/
theorem C75_minus_needed : parse0 cfgOpt b!"x + -x" = .ok
      ⟨.bin .plus (.var b!"x") (.un .minus (.var b!"x")), [b!"x"]⟩ ∧
    parse0 { cfgOpt with nightly := true } b!"x + -x" = .ok ⟨.num F64.f0, []⟩ := by
  decide +kernel

/-! ### What this gives for NIGHTLY builds -/

theorem minusless_negLit {e : Elem} (h : Minusless e) : ¬ NegLit e := by
  rintro ⟨c, hs⟩
  exact h.2 _ hs

/-- C36 in all builds, also NIGHTLY ones, for trees without subtraction and negation. -/
theorem C36_minusless_partial (cfg : Cfg) (w : World) (e e' : Elem) (hm : Minusless e)
    (h : simplify cfg w e = .ok e') : simplify cfg w e' = .ok e' := by
  have h1 := simplify_channel (c := cfg) (c' := { cfg with nightly := false }) (w := w) e hm
  have hm' := h1.2 _ h
  rw [(simplify_channel (c := cfg) (c' := { cfg with nightly := false }) (w := w) e' hm').1]
  exact C36_partial _ w e e' rfl (by rw [← h1.1]; exact h) (minusless_negLit hm')

/-- With `compile-time-optimizations`, everything a program can get hold of is the result
of a simplification. -/
theorem reach_result {cfg : Cfg} {w : World} {ctx : Context} {input : Bytes} {e : Xpr}
    (ho : cfg.opt = true) (h : Reach cfg w ctx input e) : ∃ e0, simplify cfg w e0 = .ok e.root := by
  have key : ∀ (l : List (Bytes × F64)) (a : Elem) (vars : List Bytes) (e' : Xpr),
      (∃ e0, simplify cfg w e0 = .ok a) → Xpr.simplifyLoop cfg w l a vars = .ok e' →
      ∃ e0, simplify cfg w e0 = .ok e'.root := by
    intro l
    induction l with
    | nil => intro a vars e' ha h; rw [Xpr.simplifyLoop] at h; cases h; exact ha
    | cons p l ih =>
      obtain ⟨x, v⟩ := p
      intro a vars e' ha h
      rw [Xpr.simplifyLoop] at h
      split at h
      · cases h
      · rename_i r hr
        exact ih _ _ _ (simplifyFor_result hr) h
  induction h with
  | parsed hp =>
    obtain ⟨c, tw, e0, _, _, _, _, h5, _⟩ := parseImpl_den (parse_ok hp)
    unfold finOf at h5
    rw [if_pos ho] at h5
    exact ⟨e0, h5⟩
  | simplified _ hs _ =>
    unfold Xpr.simplifyFor at hs
    split at hs
    · cases hs
    · rename_i r hr; cases hs; exact simplifyFor_result hr
  | multiple _ hs ih => exact key _ _ _ _ ih hs

/-- With `compile-time-optimizations` and without the character `-` in the text, nothing is
left to simplify, in all builds. -/
theorem C35_settled_partial (cfg : Cfg) (w : World) (ctx : Context) (input : Bytes) (e : Xpr)
    (ho : cfg.opt = true) (hm : c!"-" ∉ input) (he : Reach cfg w ctx input e) :
    simplify cfg w e.root = .ok e.root := by
  have hc : SameButChannel cfg { cfg with nightly := false } := ⟨rfl, rfl, rfl, rfl⟩
  obtain ⟨h1, h2⟩ := reach_channel hc hm he
  obtain ⟨e0, h0⟩ := reach_result (cfg := { cfg with nightly := false }) ho h2
  rw [(simplify_channel (c := cfg) (c' := { cfg with nightly := false }) (w := w) e.root h1).1]
  exact simplify_idem rfl e0 _ h0 (minusless_negLit h1)

/-- C35 with `compile-time-optimizations`, in all builds, for texts without the character
`-`: a variable that is not in `vars` can be given any value without any change. -/
theorem C35_text_partial (cfg : Cfg) (w : World) (ctx : Context) (input : Bytes) (e : Xpr)
    (x : Bytes) (v : F64) (ho : cfg.opt = true) (hm : c!"-" ∉ input)
    (he : Reach cfg w ctx input e) (hx : x ∉ e.vars) : e.simplifyFor cfg w x v = .ok e :=
  C35_partial cfg w ctx input e x v he hx (C35_settled_partial cfg w ctx input e ho hm he)

/-- C39 in all builds for texts without the character `-`. -/
theorem C39_text_partial (fmt : F64 → Bytes) (cfg : Cfg) (w : World) (o : Oracle) (ctx : Context)
    (input : Bytes) (e : Xpr) (hf : Prints fmt) (hctx : OwnNames ctx) (hm : c!"-" ∉ input)
    (h : parse cfg w o ctx input = .ok e) (hp : Printable cfg.opt e.root) :
    parse cfg w o ctx (e.show fmt) = .ok e :=
  C39_settled_partial fmt cfg w o ctx input e hf hctx h hp fun ho =>
    C35_settled_partial cfg w ctx input e ho hm (.parsed h)

/-! ### Examples -/

/-- A NIGHTLY build really optimizing a text without `-`. -/
example : parse0 { cfgOpt with nightly := true } b!"0 + x*(2+3)! / sin(0)" =
    parse0 cfgOpt b!"0 + x*(2+3)! / sin(0)" := by decide +kernel
example : parse0 { cfgOpt with nightly := true } b!"y + 1x*(2+3)!" = .ok
    ⟨.bin .plus (.var b!"y") (.bin .times (.var b!"x") (.num (F64.ofNat 120))),
      [b!"y", b!"x"]⟩ := by decide +kernel

end Props
end Xprs
