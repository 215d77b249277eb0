import Verif.Lemmas.Builds
import Verif.Props.Values
/-
Property C16: the builds with and without `compile-time-optimizations`.
-/
namespace Xprs
namespace Props
open Spec
set_option exponentiation.threshold 4096

/-- The configuration without and with `compile-time-optimizations`. -/
def plainOf (cfg : Cfg) : Cfg := { cfg with opt := false }
def optOf (cfg : Cfg) : Cfg := { cfg with opt := true }

/-- C16 as claimed, first half: both builds accept the same inputs. -/
def C16_accept_claim : Prop := ∀ (cfg : Cfg) (w : World) (o : Oracle) (ctx : Context) (input : Bytes),
  CtxTotal w ctx → PowLaws w →
  ((∃ x, parse (plainOf cfg) w o ctx input = .ok x) ↔ (∃ x, parse (optOf cfg) w o ctx input = .ok x))

/-- C16 as claimed, second half: the results evaluate to the same value. -/
def C16_value_claim : Prop := ∀ (cfg : Cfg) (w : World) (o : Oracle) (ctx : Context) (input : Bytes)
  (x y : Xpr) (m : HMap F64) (v : F64), CtxTotal w ctx → PowLaws w →
  parse (plainOf cfg) w o ctx input = .ok x → parse (optOf cfg) w o ctx input = .ok y →
  x.eval w m = .ok v → ∃ u, y.eval w m = .ok u ∧ Same v u

theorem wPow_total : CtxTotal wPow Context.default := ctxTotal_default wPow

/-- The first half is false: `(3+4)5` is read only by the build without
optimizations, as `(3+4)*5`. -/
theorem C16_accept_refuted : ¬ C16_accept_claim := by
  intro h
  have := (h cfgOpt wPow Oracle.id Context.default b!"(3+4)5" wPow_total wPow_laws).1
    ⟨⟨.bin .times (.bin .plus (.num (F64.ofNat 3)) (.num (F64.ofNat 4))) (.num (F64.ofNat 5)), []⟩,
      by decide +kernel⟩
  obtain ⟨x, hx⟩ := this
  have : (match parse (optOf cfgOpt) wPow Oracle.id Context.default b!"(3+4)5" with
    | .ok _ => true | _ => false) = false := by decide +kernel
  rw [hx] at this
  cases this

/-- It is also false the other way round, when variables are declared: `x-x` is read
only by the optimizing build if no variable is expected. -/
theorem C16_expected_refuted : ∃ x,
    parse (optOf cfgOpt) wPow Oracle.id { Context.default with expectedVars := some [] } b!"x-x" = .ok x ∧
    ∀ y, parse (plainOf cfgOpt) wPow Oracle.id { Context.default with expectedVars := some [] }
      b!"x-x" ≠ .ok y := by
  refine ⟨⟨.num F64.f0, []⟩, by decide +kernel, fun y hy => ?_⟩
  have : (match parse (plainOf cfgOpt) wPow Oracle.id
    { Context.default with expectedVars := some [] } b!"x-x" with
    | .ok _ => true | _ => false) = false := by decide +kernel
  rw [hy] at this
  cases this

/-- The second half is false: `2+(1+2)4` is 14 without optimizations and 20 with them,
and `x%1` at 2.5 is 0.5 without and 0 with them. -/
theorem C16_value_refuted : ¬ C16_value_claim := by
  intro h
  obtain ⟨u, h1, h2⟩ := h cfgOpt wPow Oracle.id Context.default b!"2+(1+2)4"
    ⟨.bin .plus (.num (F64.ofNat 2)) (.bin .times (.bin .plus (.num F64.f1) (.num (F64.ofNat 2)))
      (.num (F64.ofNat 4))), []⟩
    ⟨.num (F64.ofNat 20), []⟩ HMap.empty (F64.ofNat 14) wPow_total wPow_laws
    (by decide +kernel) (by decide +kernel) (by decide +kernel)
  simp only [Xpr.eval, eval] at h1
  cases h1
  rcases h2 with h2 | ⟨⟨s, h2⟩, _⟩
  · revert h2; decide +kernel
  · cases s <;> revert h2 <;> decide +kernel

theorem parse_expected {cfg : Cfg} {w : World} {o : Oracle} {ctx : Context} {input : Bytes} {x : Xpr}
    {vs : List Bytes} (h : parse cfg w o ctx input = .ok x) (hvs : ctx.getExpected = some vs)
    {n : Bytes} (hn : n ∈ x.vars) : n ∈ vs := by
  refine Classical.byContradiction fun hc => ?_
  have hi := parse_ok h
  unfold parse at h
  rw [hi] at h
  simp only [hvs] at h
  cases hd : (diffVars o x.vars vs).head? with
  | some v => rw [hd] at h; cases h
  | none =>
    rw [List.head?_eq_none_iff] at hd
    have := mem_diffVars (o := o).2 ⟨hn, hc⟩
    rw [hd] at this; cases this

theorem wf_both {cfg cfg' : Cfg} {w : World} {ctx : Context} {input : Bytes} {x : Xpr}
    (hp : cfg.pejmdas = cfg'.pejmdas) (hn : ∀ ts, Lex input ts → ParensApart ts)
    (h : parseImpl cfg w ctx input = .ok x) :
    ∃ (c : Cst) (tw : Bytes) (e : Elem), input = c.text ++ tw ∧ spaces tw ∧
      c.wf cfg (finOf cfg w) ctx tw ∧ c.wf cfg' (finOf cfg' w) ctx tw ∧
      c.den (finOf cfg w) ctx = .ok e ∧ finOf cfg w e = .ok x.root ∧ x.vars = findVars x.root [] := by
  obtain ⟨c, tw, e, h1, h2, h3, h4, h5, h6⟩ := parseImpl_den h
  refine ⟨c, tw, e, h1, h2, h3, (wf_fin hp).1 c tw [] h3 (.nil h2) ?_, h4, h5, h6⟩
  refine hn _ ?_
  rw [h1]
  exact lex_text.1 c tw [] h3 (.nil h2)

theorem accepts {cfg cfg' : Cfg} {w : World} {ctx : Context} {input : Bytes} {x : Xpr}
    (hp : cfg.pejmdas = cfg'.pejmdas) (hw : CtxTotal w ctx) (hb : ¬ DoubleBang input)
    (hn : ∀ ts, Lex input ts → ParensApart ts)
    (h : parseImpl cfg w ctx input = .ok x) : ∃ y, parseImpl cfg' w ctx input = .ok y := by
  obtain ⟨c, tw, e, rfl, h2, h3, h4, h5, h6, h7⟩ := wf_both hp hn h
  have := parseImpl_text cfg' w ctx c tw h4 h2
  cases hm : c.meaning (finOf cfg' w) ctx with
  | ok e' => rw [hm] at this; exact ⟨_, this⟩
  | error p =>
    rw [hm] at this
    rcases C02_panics_partial cfg' w Oracle.id ctx _ hw p (parse_panic.2 this) with ⟨h8, _⟩ | ⟨h8, _⟩
    · exact absurd (List.append_eq_nil_iff.1 h8).1 (text_ne_nil c _ h3)
    · exact absurd h8 hb

/-- C16, first half, partial.  Any two builds that agree on `pejmdas` accept the same
inputs.  Missing from the full claim, and refuted above: inputs in which a number
follows a closing parenthesis directly (`(3+4)5`), inputs with two `!` in a row (on which the
optimizing build can panic, C02) and, for the equivalence, contexts with declared
variables. -/
theorem C16_accept_partial (cfg cfg' : Cfg) (w : World) (o o' : Oracle) (ctx : Context) (input : Bytes)
    (hp : cfg.pejmdas = cfg'.pejmdas) (hw : CtxTotal w ctx) (hb : ¬ DoubleBang input)
    (hn : ∀ ts, Lex input ts → ParensApart ts) (he : ctx.getExpected = none) :
    (∃ x, parse cfg w o ctx input = .ok x) ↔ (∃ x, parse cfg' w o' ctx input = .ok x) := by
  constructor
  · rintro ⟨x, hx⟩
    obtain ⟨y, hy⟩ := accepts hp hw hb hn (parse_ok hx)
    exact ⟨y, parse_of_impl hy (by rw [he]; intro vs h; cases h)⟩
  · rintro ⟨x, hx⟩
    obtain ⟨y, hy⟩ := accepts hp.symm hw hb hn (parse_ok hx)
    exact ⟨y, parse_of_impl hy (by rw [he]; intro vs h; cases h)⟩

/-- C16, first half, with declared variables: what a build without optimizations
accepts, every build accepts, and it finds no further variables. -/
theorem C16_expected_partial (cfg cfg' : Cfg) (w : World) (o o' : Oracle) (ctx : Context) (input : Bytes)
    (x : Xpr) (hp : cfg.pejmdas = cfg'.pejmdas) (ho : cfg.opt = false) (hw : CtxTotal w ctx)
    (hb : ¬ DoubleBang input) (hn : ∀ ts, Lex input ts → ParensApart ts)
    (h : parse cfg w o ctx input = .ok x) :
    ∃ y, parse cfg' w o' ctx input = .ok y ∧ ∀ n ∈ y.vars, n ∈ x.vars := by
  obtain ⟨y, hy⟩ := accepts hp hw hb hn (parse_ok h)
  have hsub : ∀ n ∈ y.vars, n ∈ x.vars := by
    obtain ⟨c, tw, e, rfl, h2, h3, h4, h5, h6, h7⟩ := wf_both hp hn (parse_ok h)
    have ht := parseImpl_text cfg' w ctx c tw h4 h2
    rw [hy] at ht
    rw [finOf_plain ho] at h5 h6
    cases h6
    intro n hnm
    rw [Cst.meaning] at ht
    cases hd : c.den (finOf cfg' w) ctx with
    | error p => rw [hd] at ht; cases ht
    | ok a =>
      rw [hd] at ht
      simp only at ht
      cases hf : finOf cfg' w a with
      | error p => rw [hf] at ht; cases ht
      | ok b =>
        rw [hf] at ht
        cases ht
        refine Classical.byContradiction fun hnx => ?_
        have h1 : ¬ Occurs n x.root := by
          intro hc
          exact hnx (by rw [h7]; exact (mem_findVars n x.root []).2 (.inr hc))
        have h8 := (den_plain_occurs n (keeps_occurs cfg' w n)).1 c _ _ h5 hd h1
        have h9 := keeps_occurs cfg' w n _ _ hf h8
        rcases (mem_findVars n b []).1 hnm with h | h
        · cases h
        · exact h9 h
  refine ⟨y, parse_of_impl hy ?_, hsub⟩
  intro vs hvs n hnm
  have hxv := hsub n hnm
  exact parse_expected h hvs hxv

/-- C16, second half, partial.  If a build without optimizations and any other build
that agrees on `pejmdas` accept an input, and the plain result runs under a map with no
doubtful step (`Spec.Runs`), the other result evaluates, under that map, to the same
value up to the sign of zero.  Missing, and refuted above: doubtful steps, numbers that
follow a closing parenthesis directly. -/
theorem C16_value_partial (cfg cfg' : Cfg) (w : World) (o o' : Oracle) (ctx : Context) (input : Bytes)
    (x y : Xpr) (m : HMap F64) (v : F64) (hp : cfg.pejmdas = cfg'.pejmdas) (ho : cfg.opt = false)
    (hw : NoPower x.root ∨ PowLaws w) (hn : ∀ ts, Lex input ts → ParensApart ts)
    (h : parse cfg w o ctx input = .ok x) (h' : parse cfg' w o' ctx input = .ok y)
    (hr : Runs w m x.root v) :
    x.eval w m = .ok v ∧ ∃ u, y.eval w m = .ok u ∧ Same v u := by
  refine ⟨runs_eval _ hr, ?_⟩
  obtain ⟨c, tw, e, rfl, h2, h3, h4, h5, h6, h7⟩ := wf_both hp hn (parse_ok h)
  have ht := parseImpl_text cfg' w ctx c tw h4 h2
  rw [parse_ok h'] at ht
  rw [finOf_plain ho] at h5 h6
  cases h6
  rw [Cst.meaning] at ht
  cases hd : c.den (finOf cfg' w) ctx with
  | error p => rw [hd] at ht; cases ht
  | ok a =>
    rw [hd] at ht
    simp only at ht
    cases hf : finOf cfg' w a with
    | error p => rw [hf] at ht; cases ht
    | ok b =>
      rw [hf] at ht
      cases ht
      obtain ⟨⟨u, r1, s1⟩, hp'⟩ := (den_runs (cfg := cfg')).1 c _ _ v h5 hd hw hr
      unfold finOf at hf
      split at hf
      · obtain ⟨u', r2, s2⟩ := simplify_runs' (hw.imp_left hp') r1 hf
        exact ⟨u', runs_eval _ r2, s1.trans s2⟩
      · cases hf; exact ⟨u, runs_eval _ r1, s1⟩

theorem apart_one (a : Bytes) : ParensApart [a] := by
  intro p y q he
  have := congrArg List.length he
  simp at this
  omega

theorem apart_cons {a b : Bytes} {q : List Bytes} (h : digitTok b → a ≠ b!")")
    (hq : ParensApart (b :: q)) : ParensApart (a :: b :: q) := by
  intro p y r he
  cases p with
  | nil => cases he; exact fun hd => h hd rfl
  | cons c p => exact hq p y r (List.cons.inj he).2

theorem not_digitTok {c : UInt8} {t : Bytes} (h : ¬ digit c) : ¬ digitTok (c :: t) := by
  rintro ⟨d, hd, h'⟩
  cases hd
  exact h h'

/-- The hypotheses of the theorems above hold of this text, at `x = 2`. -/
def keptInput : Bytes := b!"(x-x)*3 + abs(x)"

theorem kept_lex : Lex keptInput
    [b!"(", b!"x", b!"-", b!"x", b!")", b!"*", b!"3", b!"+", b!"abs", b!"(", b!"x", b!")"] := by
  have hn : ∀ {c : UInt8} {rest : Bytes}, ¬ nameChar c → notHead nameChar (c :: rest) := by
    intro c rest h d hd; cases hd; exact h
  have hx : ∀ {c : UInt8} {rest : Bytes}, ¬ nameChar c → Name b!"x" (c :: rest) := fun h =>
    ⟨⟨c!"x", rfl, by decide⟩, by decide, hn h⟩
  refine .sym (ws := []) (by decide) (by decide) (.name (ws := []) (nm := b!"x") (by decide)
    (hx (by decide)) (.sym (ws := []) (by decide) (by decide) (.name (ws := []) (nm := b!"x")
    (by decide) (hx (by decide)) (.sym (ws := []) (by decide) (by decide) (.sym (ws := []) (by decide)
    (by decide) (.num (ws := []) (txt := b!"3") (v := F64.ofDecimal 3 0) (by decide) ?_ (.sym
    (ws := b!" ") (by decide) (by decide) (.name (ws := b!" ") (nm := b!"abs") (by decide)
    ⟨⟨c!"a", rfl, by decide⟩, by decide, hn (by decide)⟩ (.sym (ws := []) (by decide) (by decide)
    (.name (ws := []) (nm := b!"x") (by decide) (hx (by decide)) (.sym (ws := []) (by decide)
    (by decide) (.nil (by decide)))))))))))))
  refine ⟨b!"3", b!"3", [], ⟨c!"3", rfl, by decide⟩, by decide,
    ⟨by decide, by decide, by decide, .inr ⟨rfl, by decide⟩⟩, .inl ⟨rfl, ?_, ?_, by rfl⟩⟩
  · intro c h; cases h; decide
  · rintro ⟨e, sg, d, t, he, _, _, h⟩
    have := (List.cons.inj h).1
    rcases he with rfl | rfl <;> exact absurd this (by decide)

theorem kept_apart : ∀ ts, Lex keptInput ts → ParensApart ts := by
  intro ts h
  rw [lex_unique h kept_lex]
  have nd : ∀ {c : UInt8} {t a : Bytes}, ¬ digit c → digitTok (c :: t) → a ≠ b!")" :=
    fun h h' => absurd h' (not_digitTok h)
  refine apart_cons (nd (by decide)) (apart_cons (nd (by decide)) (apart_cons (nd (by decide))
    (apart_cons (nd (by decide)) (apart_cons (nd (by decide)) (apart_cons ?_ (apart_cons (nd (by decide))
    (apart_cons (nd (by decide)) (apart_cons (nd (by decide)) (apart_cons (nd (by decide))
    (apart_cons (nd (by decide)) (apart_one _)))))))))))
  rintro - h
  cases h

example : ¬ DoubleBang keptInput := by
  rintro ⟨a, ws, b, _, h⟩
  have : c!"!" ∈ keptInput := by rw [h]; simp
  revert this; decide
example : parse (plainOf cfgOpt) wPow Oracle.id Context.default keptInput = .ok ⟨keptTree, [b!"x"]⟩ := by
  decide +kernel
example : parse (optOf cfgOpt) wPow Oracle.id Context.default keptInput =
    .ok ⟨.call (Builtin.abs.toFunc) [vx], [b!"x"]⟩ := by decide +kernel
example : Runs wPow (mx (F64.ofNat 2)) keptTree (F64.ofNat 2) := kept_runs

end Props
end Xprs
