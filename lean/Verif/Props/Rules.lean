import Verif.Lemmas.Rules
import Verif.Props.Nightly
/-
Properties C79 and C80: simplification and the rules its source documents.
-/
namespace Xprs
namespace Props
open Spec

/-! ### C79: nothing but the rules -/

theorem den_steps {cfg : Cfg} {w : World} {ctx : Context} :
    (∀ (x : Cst) (e e' : Elem), x.den .ok ctx = .ok e → x.den (finOf cfg w) ctx = .ok e' →
      Steps w cfg.nightly e e') ∧
    (∀ (as : CArgs) (es es' : List Elem), as.den .ok ctx = .ok es → as.den (finOf cfg w) ctx = .ok es' →
      StepsL w cfg.nightly es es') := by
  have hf : ∀ {a e e' : Elem}, finOf cfg w e = .ok e' → Steps w cfg.nightly a e → Steps w cfg.nightly a e' := by
    intro a e e' h hs
    unfold finOf at h
    split at h
    · exact steps_trans hs (simplify_steps e h)
    · cases h; exact hs
  refine cst_ind ?_ ?_ ?_ ?_ ?_ ?_ ?_ ?_ ?_ ?_
  · intro ws txt v e e' h h'; cases h; cases h'; exact .none
  · intro ws nm e e' h h'
    rw [Cst.den] at h h'
    rw [h] at h'; cases h'; exact .none
  · intro ws nm ws2 as ih e e' h h'
    rw [Cst.den] at h h'
    cases h1 : as.den .ok ctx with
    | error p => rw [h1] at h; cases h
    | ok es =>
      cases h2 : as.den (finOf cfg w) ctx with
      | error p => rw [h2] at h'; cases h'
      | ok es' =>
        rw [h1] at h; rw [h2] at h'
        simp only at h h'
        cases hl : lookup ctx nm with
        | func f => rw [hl] at h h'; cases h; cases h'; exact steps_call (ih es es' h1 h2)
        | _ => rw [hl] at h h'; cases h; cases h'; exact .none
  · intro ws x ws2 ih e e' h h'
    obtain ⟨a, h1, h2⟩ := den_paren h
    obtain ⟨a', h1', h2'⟩ := den_paren h'
    cases h2
    exact hf h2' (ih _ a' h1 h1')
  · intro ws neg x ih e e' h h'
    obtain ⟨a, b, h1, h2, rfl⟩ := den_sign h
    obtain ⟨a', b', h1', h2', rfl⟩ := den_sign h'
    cases h2
    exact steps_operand (hf h2' (ih a a' h1 h1'))
  · intro x ws ih e e' h h'
    obtain ⟨a, h1, rfl⟩ := den_fact h
    obtain ⟨a', h1', rfl⟩ := den_fact h'
    exact steps_operand (ih a a' h1 h1')
  · intro l ws op r ihl ihr e e' h h'
    obtain ⟨a, b, c, h1, h2, h3, rfl⟩ := den_bin h
    obtain ⟨a', b', c', h1', h2', h3', rfl⟩ := den_bin h'
    cases h3
    exact steps_bin (ihl a a' h1 h1') (hf h3' (ihr b b' h2 h2'))
  · intro l r ihl ihr e e' h h'
    obtain ⟨a, b, c, h1, h2, h3, rfl⟩ := den_juxt h
    obtain ⟨a', b', c', h1', h2', h3', rfl⟩ := den_juxt h'
    cases h3
    exact steps_bin (ihl a a' h1 h1') (hf h3' (ihr b b' h2 h2'))
  · intro x ws ih es es' h h'
    obtain ⟨a, b, h1, h2, rfl⟩ := den_last h
    obtain ⟨a', b', h1', h2', rfl⟩ := den_last h'
    cases h2
    exact .cons (hf h2' (ih a a' h1 h1')) .nil
  · intro x ws as ih ihs es es' h h'
    obtain ⟨a, b, t, h1, h2, h3, rfl⟩ := den_more h
    obtain ⟨a', b', t', h1', h2', h3', rfl⟩ := den_more h'
    cases h2
    exact .cons (hf h2' (ih a a' h1 h1')) (ihs t t' h3 h3')

/-- C79, `simplify_for`: the result is what documented rules, one after the other, make of
the tree with the variable replaced by its value.  Every build. -/
theorem C79_simplify_for (cfg : Cfg) (w : World) (e e' : Xpr) (x : Bytes) (v : F64)
    (h : e.simplifyFor cfg w x v = .ok e') :
    Steps w cfg.nightly (fixVar x v e.root) e'.root := by
  unfold Xpr.simplifyFor at h
  split at h
  · cases h
  · rename_i r hr; cases h; exact simplifyFor_steps _ hr

/-- C79, parsing: if no number follows `)` directly (so that both builds read the
text alike, see C16), the tree of a build with `compile-time-optimizations` is what
documented rules make of the tree of a build without. -/
theorem C79_parse (cfg cfg' : Cfg) (w : World) (o o' : Oracle) (ctx : Context) (input : Bytes)
    (x y : Xpr) (hp : cfg.pejmdas = cfg'.pejmdas) (ho : cfg.opt = false)
    (hn : ∀ ts, Lex input ts → ParensApart ts)
    (h : parse cfg w o ctx input = .ok x) (h' : parse cfg' w o' ctx input = .ok y) :
    Steps w cfg'.nightly x.root y.root := by
  obtain ⟨c, tw, e, rfl, h2, h3, h4, h5, h6, h7⟩ := wf_both hp hn (parse_ok h)
  have ht := parseImpl_text cfg' w ctx c tw h4 h2
  rw [parse_ok h'] at ht
  rw [finOf_plain ho] at h5 h6
  cases h6
  rw [Cst.meaning] at ht
  cases hd : c.den (finOf cfg' w) ctx with
  | error p => rw [hd] at ht; cases ht
  | ok a =>
    rw [hd] at ht
    simp only at ht
    cases hf : finOf cfg' w a with
    | error p => rw [hf] at ht; cases ht
    | ok b =>
      rw [hf] at ht
      cases ht
      have hs := (den_steps (cfg := cfg')).1 c _ _ h5 hd
      unfold finOf at hf
      split at hf
      · exact steps_trans hs (simplify_steps a hf)
      · cases hf; exact hs

/-- The hypotheses hold of `(x-x)*3 + abs(x)`, which becomes `abs(x)`. -/
example : Steps wPow false keptTree (.call (Builtin.abs.toFunc) [vx]) :=
  C79_parse (plainOf cfgOpt) (optOf cfgOpt) wPow Oracle.id Oracle.id Context.default keptInput
    ⟨keptTree, [b!"x"]⟩ ⟨_, [b!"x"]⟩ rfl rfl kept_apart (by decide +kernel) (by decide +kernel)

/-- With numbers that follow `)` the two builds can read different trees:
`2+(1+2)4` is `2+((1+2)*4)` in the one and `(2+3)*4` in the other. -/
theorem C79_apart_needed : ∃ x y, parse0 (plainOf cfgOpt) b!"2+(1+2)4" = .ok x ∧
    parse0 (optOf cfgOpt) b!"2+(1+2)4" = .ok y ∧
    x.root = .bin .plus (.num (F64.ofNat 2)) (.bin .times (.bin .plus (.num F64.f1) (.num (F64.ofNat 2)))
      (.num (F64.ofNat 4))) ∧ y.root = .num (F64.ofNat 20) :=
  ⟨⟨_, []⟩, ⟨_, []⟩, by decide +kernel, by decide +kernel, rfl, rfl⟩

/-! ### C80: no rule left -/

/-- C80 as stated: in an expression from a build with `compile-time-optimizations` there is
nothing a documented rule applies to. -/
def C80_claim : Prop := ∀ (cfg : Cfg) (w : World) (ctx : Context) (input : Bytes) (e : Xpr),
  cfg.opt = true → Reach cfg w ctx input e → ∀ s b, Sub s e.root → ¬ Rule w cfg.nightly s b

/-- It is false: the arm for `a ^ 0 => 1` matches the operator `/` by mistake
(`simplify.rs:185-188`), and `x^0` is kept. -/
theorem C80_refuted : ¬ C80_claim := by
  intro h
  refine h cfgOpt w0 Context.default b!"x^0" ⟨.bin .power (.var b!"x") (.num F64.f0), [b!"x"]⟩ rfl
    (.parsed (o := Oracle.id) (by decide +kernel)) _ _ .refl (.pow_zero ⟨_, rfl, ⟨_, rfl⟩⟩)

/-- The other exception: `0-3` becomes `-(3)` and not the number. -/
theorem C80_negated_refuted : parse0 cfgOpt b!"0-3" = .ok ⟨.un .minus (.num (F64.ofNat 3)), []⟩ ∧
    Rule w0 cfgOpt.nightly (.un .minus (.num (F64.ofNat 3))) (.num (F64.neg (F64.ofNat 3))) :=
  ⟨by decide +kernel, .one_number (by simp only [eval, unF, liftP])⟩

/-- And in NIGHTLY builds what the rules for `-` make is not looked at again: `x - -(-x)`
becomes `x + -x`, which `a + -a => 0` applies to. -/
theorem C80_nightly_refuted : parse0 { cfgOpt with nightly := true } b!"x - -(-x)" =
      .ok ⟨.bin .plus (.var b!"x") (.un .minus (.var b!"x")), [b!"x"]⟩ ∧
    Rule w0 true (.bin .plus (.var b!"x") (.un .minus (.var b!"x"))) (.num F64.f0) :=
  ⟨by decide +kernel, .add_neg rfl .var⟩

/-- C80 for the result of `simplify_for`, in every build, of any expression: what is left are
negated literals, `a ^ 0` and, in NIGHTLY builds, sums, products and quotients. -/
theorem C80_simplify_for_partial (cfg : Cfg) (w : World) (e e' : Xpr) (x : Bytes) (v : F64)
    (h : e.simplifyFor cfg w x v = .ok e') (s b : Elem) (hs : Sub s e'.root)
    (hb : Rule w cfg.nightly s b) : Leftover cfg.nightly s := by
  unfold Xpr.simplifyFor at h
  split at h
  · cases h
  · rename_i r hr; cases h; exact simplifyFor_worked hr s b hs hb

/-- C80, partial: what can be left over with `compile-time-optimizations`, in every build. -/
theorem C80_partial (cfg : Cfg) (w : World) (ctx : Context) (input : Bytes) (e : Xpr)
    (ho : cfg.opt = true) (he : Reach cfg w ctx input e) (s b : Elem) (hs : Sub s e.root)
    (hb : Rule w cfg.nightly s b) : Leftover cfg.nightly s := by
  obtain ⟨e0, h0⟩ := reach_result ho he
  exact simplify_worked e0 h0 s b hs hb

/-- C80, partial, for stable compilers: the two exceptions above are the only ones. -/
theorem C80_stable_partial (cfg : Cfg) (w : World) (ctx : Context) (input : Bytes) (e : Xpr)
    (ho : cfg.opt = true) (hc : cfg.nightly = false) (he : Reach cfg w ctx input e) (s b : Elem)
    (hs : Sub s e.root) (hb : Rule w false s b) :
    (∃ c, s = .un .minus (.num c)) ∨ ∃ a z, s = .bin .power a z ∧ LitZero z := by
  rcases C80_partial cfg w ctx input e ho he s b hs (by rw [hc]; exact hb) with h | h | ⟨h, _⟩
  · exact .inl h
  · exact .inr h
  · rw [hc] at h; cases h

theorem sub_trans {s t e : Elem} (h : Sub s t) (h' : Sub t e) : Sub s e := by
  induction h' with
  | refl => exact h
  | left _ ih => exact .left ih
  | right _ ih => exact .right ih
  | operand _ ih => exact .operand ih
  | arg hm _ ih => exact .arg hm ih

theorem minusless_sub {s e : Elem} (h : Minusless e) (hs : Sub s e) : Minusless s :=
  ⟨fun a b hx => h.1 a b (sub_trans hx hs), fun a hx => h.2 a (sub_trans hx hs)⟩

theorem rule_channel {w : World} {n n' : Bool} {s b : Elem} (hm : Minusless s) (h : Rule w n s b) :
    Rule w n' s b := by
  have no : ∀ {a}, ¬ Sub (.un .minus a) s := fun hx => hm.2 _ hx
  cases h with
  | zero_add h => exact .zero_add h
  | add_zero h => exact .add_zero h
  | neg_add _ _ => exact absurd (.left .refl) no
  | add_neg _ _ => exact absurd (.right .refl) no
  | zero_sub h => exact .zero_sub h
  | sub_zero h => exact .sub_zero h
  | sub_self h => exact .sub_self h
  | sub_neg _ => exact absurd (.right .refl) no
  | zero_mul h => exact .zero_mul h
  | mul_zero h => exact .mul_zero h
  | one_mul h => exact .one_mul h
  | mul_one h => exact .mul_one h
  | neg_mul_neg _ => exact absurd (.right .refl) no
  | zero_div_zero h h' => exact .zero_div_zero h h'
  | zero_div h h' => exact .zero_div h h'
  | div_zero h h' => exact .div_zero h h'
  | div_one h => exact .div_one h
  | div_self h h' => exact .div_self h h'
  | neg_div_neg _ => exact absurd (.right .refl) no
  | zero_pow_zero h h' => exact .zero_pow_zero h h'
  | zero_pow h h' => exact .zero_pow h h'
  | pow_zero h => exact .pow_zero h
  | pow_one h => exact .pow_one h
  | zero_mod_zero h h' => exact .zero_mod_zero h h'
  | zero_mod h h' => exact .zero_mod h h'
  | mod_zero h => exact .mod_zero h
  | mod_one h => exact .mod_one h
  | mod_self h h' => exact .mod_self h h'
  | two_numbers h => exact .two_numbers h
  | positive => exact .positive
  | one_number h => exact .one_number h
  | known_call h => exact .known_call h

/-- C80, partial, for texts without the character `-`, in every build: only `a ^ 0` is left. -/
theorem C80_text_partial (cfg : Cfg) (w : World) (ctx : Context) (input : Bytes) (e : Xpr)
    (ho : cfg.opt = true) (hm : c!"-" ∉ input) (he : Reach cfg w ctx input e) (s b : Elem)
    (hs : Sub s e.root) (hb : Rule w cfg.nightly s b) : ∃ a z, s = .bin .power a z ∧ LitZero z := by
  have hc : SameButChannel cfg { cfg with nightly := false } := ⟨rfl, rfl, rfl, rfl⟩
  obtain ⟨h1, h2⟩ := reach_channel hc hm he
  have h3 := minusless_sub h1 hs
  rcases C80_stable_partial { cfg with nightly := false } w ctx input e ho rfl h2 s b hs
    (rule_channel h3 hb) with ⟨c, rfl⟩ | h
  · exact absurd .refl (h3.2 _)
  · exact h

/-- An expression without any left side: `x*2 + 1`. -/
example : parse0 cfgOpt b!"1*x*2 + (3-2)" = .ok ⟨.bin .plus (.bin .times (.var b!"x")
    (.num (F64.ofNat 2))) (.num F64.f1), [b!"x"]⟩ := by decide +kernel

/-- The rule `a ^ 0 => 1` is never applied unless `a` becomes a number: in every build and
for every operand, the power stays. -/
theorem C80_pow_zero (cfg : Cfg) (w : World) (a a' z : Elem) (hz : LitZero z)
    (h : simplify cfg w a = .ok a') (ha : ∀ c, a' ≠ .num c) :
    simplify cfg w (.bin .power a z) = .ok (.bin .power a' z) := by
  obtain ⟨c, rfl, hc⟩ := hz
  rw [simplify_bin_of h (by rw [simplify])]
  show simpPower w a' (.num c) = _
  unfold simpPower
  have h0 : a'.is0 = false := by
    cases hx : a'.is0 with
    | false => rfl
    | true => obtain ⟨x, hx, _⟩ := is0_iff.1 hx; exact absurd hx (ha x)
  have h1 : (Elem.num c).is1 = false := by
    cases hx : (Elem.num c).is1 with
    | false => rfl
    | true =>
      have := is1_iff.1 hx
      injection this with this
      rw [this] at hc
      exact absurd hc f1_not_zero
  simp only [h0, h1, Bool.false_and]
  cases a' with
  | num x => exact absurd rfl (ha x)
  | _ => rfl

end Props
end Xprs
