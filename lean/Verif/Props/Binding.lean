import Verif.Props.Histories
import Verif.Lemmas.Binding
/-
Properties C24–C28 and C43: binding.

`BindCall cfg w o e names r` (in `Spec/Binding.lean`) ranges over all ten `bind*`
functions.
-/
namespace Xprs
namespace Props
open Spec

/-! ### A parsed expression with 257 variables -/

def cfgRel : Cfg := { opt := false, pejmdas := false, nightly := false, overflowChecks := false }

/-- Different names `AA`, `AB`, …. -/
def manyNames (k : Nat) : List Bytes :=
  (List.range k).map fun i => [UInt8.ofNat (65 + i / 16), UInt8.ofNat (97 + i % 16)]
/-- `AA+AB+…` -/
def manyInput (k : Nat) : Bytes := List.intercalate b!"+" (manyNames k)

theorem many_parse : ∃ x, parse0 cfgRel (manyInput 257) = .ok x ∧ x.vars = manyNames 257 := by
  have : (match parse0 cfgRel (manyInput 257) with
    | .ok e => decide (e.vars = manyNames 257)
    | _ => false) = true := by decide +kernel
  split at this
  · rename_i x hx; exact ⟨x, hx, by simpa using this⟩
  · cases this

theorem diffVars_id (vars names : List Bytes) :
    diffVars Oracle.id vars names = vars.filter fun v => !decide (v ∈ names) := rfl

/-! ### C24 -/

/-- C24 as stated. -/
def C24_claim : Prop := ∀ (cfg : Cfg) (w : World) (o : Oracle) (ctx : Context) (input : Bytes)
    (e : Xpr) names r, Reach cfg w ctx input e → BindCall cfg w o e names r →
  ((∃ f, r = .ok f) ↔ ∀ v ∈ e.vars, v ∈ names)

/-- The missing variables are counted in a `u8`: of 257 variables one is named, 256
are missing, and binding succeeds. -/
theorem C24_refuted : ¬ C24_claim := by
  intro h
  obtain ⟨x, hx, hv⟩ := many_parse
  have hb : BindCall cfgRel w0 Oracle.id x [b!"Aa"] (x.bindNRuntime cfgRel w0 Oracle.id [b!"Aa"]) :=
    .runtime _
  have := (h cfgRel w0 Oracle.id Context.default _ x _ _ (.parsed (o := Oracle.id) hx) hb).1 (by
    unfold Xpr.bindNRuntime
    rw [bindWith_spec, diffVars_id, hv]
    have : ((manyNames 257).filter fun v => !decide (v ∈ [b!"Aa"])).length = 256 := by decide +kernel
    rw [this, if_neg (by simp [cfgRel]), if_pos (by decide)]
    exact ⟨_, rfl⟩)
  have := this b!"Ab" (by rw [hv]; decide +kernel)
  simp at this

/-- What is missing from C24: expressions of which 256 or more variables are not named.
For fewer, every variant returns `Ok` iff every variable is among the names, and
otherwise `Err`; it does not panic. -/
theorem C24_partial (cfg : Cfg) (w : World) (o : Oracle) (ctx : Context) (input : Bytes) (e : Xpr)
    (names l : List Bytes) (r : BindRes (List F64 → Except EvErr F64))
    (he : Reach cfg w ctx input e) (hl : Missing e names l) (hk : l.length < 256)
    (h : BindCall cfg w o e names r) :
    ((∃ f, r = .ok f) ↔ ∀ v ∈ e.vars, v ∈ names) ∧ (∀ p, r ≠ .panic p) := by
  obtain ⟨c, g, hg, rfl⟩ := bindCall_spec h
  have hm := missing_diffVars (o := o) (reach_vars he).1 names
  have hlen := missing_length hm hl
  rw [bindWith_spec, hlen, if_neg (by omega), Nat.mod_eq_of_lt hk]
  have hall : (∀ v ∈ e.vars, v ∈ names) ↔ l.length = 0 := by
    rw [List.length_eq_zero_iff, List.eq_nil_iff_forall_not_mem]
    constructor
    · intro h v hv; exact ((hl.2 v).1 hv).2 (h v ((hl.2 v).1 hv).1)
    · intro h v hv; exact Classical.byContradiction fun hn => h v ((hl.2 v).2 ⟨hv, hn⟩)
  rw [hall]
  by_cases h0 : l.length = 0
  · rw [if_pos h0]; exact ⟨⟨fun _ => h0, fun _ => ⟨g, rfl⟩⟩, by simp⟩
  · rw [if_neg h0]
    refine ⟨⟨?_, fun h => absurd h h0⟩, ?_⟩
    · split <;> rintro ⟨f, hf⟩ <;> cases hf
    · split <;> intro p hp <;> cases hp

/-- The excluded case in full: with `k` missing variables, a build with overflow checks
panics for `k ≥ 256`, and one without reports what it would report for `k mod 256`. -/
theorem C24_overflow (cfg : Cfg) (w : World) (o : Oracle) (ctx : Context) (input : Bytes) (e : Xpr)
    (names l : List Bytes) (r : BindRes (List F64 → Except EvErr F64))
    (he : Reach cfg w ctx input e) (hl : Missing e names l)
    (h : BindCall cfg w o e names r) :
    (r = .panic .overflow ↔ cfg.overflowChecks = true ∧ 256 ≤ l.length) ∧
    ((∃ f, r = .ok f) ↔ l.length % 256 = 0 ∧ (cfg.overflowChecks = true → l.length = 0)) := by
  obtain ⟨c, g, hg, rfl⟩ := bindCall_spec h
  have hlen := missing_length (missing_diffVars (o := o) (reach_vars he).1 names) hl
  rw [bindWith_spec, hlen]
  by_cases h1 : cfg.overflowChecks = true ∧ 256 ≤ l.length
  · rw [if_pos h1]
    refine ⟨⟨fun _ => h1, fun _ => rfl⟩, ⟨?_, ?_⟩⟩
    · rintro ⟨f, hf⟩; cases hf
    · rintro ⟨_, h⟩; have := h h1.1; omega
  · rw [if_neg h1]
    by_cases h2 : l.length % 256 = 0
    · rw [if_pos h2]
      refine ⟨⟨(fun h => by cases h), fun h => absurd h h1⟩, ⟨fun _ => ⟨h2, fun ho => ?_⟩, fun _ => ⟨g, rfl⟩⟩⟩
      have : ¬ 256 ≤ l.length := fun h => h1 ⟨ho, h⟩
      omega
    · rw [if_neg h2]
      refine ⟨⟨?_, fun h => absurd h h1⟩, ⟨?_, fun h => absurd h.1 h2⟩⟩
      · split <;> intro h <;> cases h
      · split <;> rintro ⟨f, hf⟩ <;> cases hf

/-- A binding with one missing variable. -/
example : Missing ⟨.bin .plus (.var b!"x") (.var b!"y"), [b!"x", b!"y"]⟩ [b!"x", b!"z"] [b!"y"] := by
  refine ⟨by simp, fun v => ?_⟩
  simp only [List.mem_cons, List.not_mem_nil, or_false, not_or]
  constructor
  · rintro rfl; decide
  · rintro ⟨rfl | rfl, h1, h2⟩
    · exact absurd rfl h1
    · rfl

/-! ### C26 -/

/-- C26 as stated. -/
def C26_claim : Prop := ∀ (cfg : Cfg) (w : World) (o : Oracle) (ctx : Context) (input : Bytes)
    (e : Xpr) names b, Reach cfg w ctx input e → BindCall cfg w o e names (.err b) →
  ∃ l, Missing e names l ∧
    b = if l.length = 1 then .one (List.intercalate b!", " l) else .multiple (List.intercalate b!", " l)

/-- With 257 missing variables the error is `OneVariable`. -/
theorem C26_refuted : ¬ C26_claim := by
  intro h
  obtain ⟨x, hx, hv⟩ := many_parse
  have hr : Reach cfgRel w0 Context.default (manyInput 257) x := .parsed (o := Oracle.id) hx
  have hb : BindCall cfgRel w0 Oracle.id x [] (x.bindNRuntime cfgRel w0 Oracle.id []) := .runtime _
  have h257 : (diffVars Oracle.id x.vars []).length = 257 := by
    rw [diffVars_id, hv]; decide +kernel
  have he : x.bindNRuntime cfgRel w0 Oracle.id [] =
      .err (.one (List.intercalate b!", " (diffVars Oracle.id x.vars []))) := by
    unfold Xpr.bindNRuntime
    rw [bindWith_spec, h257, if_neg (by simp [cfgRel]), if_neg (by decide), if_pos (by decide)]
  rw [he] at hb
  obtain ⟨l, hl, hb'⟩ := h cfgRel w0 Oracle.id Context.default _ x _ _ hr hb
  have := missing_length hl (missing_diffVars (o := Oracle.id) (reach_vars hr).1 [])
  rw [h257] at this
  rw [if_neg (by omega)] at hb'
  cases hb'

/-- What is missing from C26: 256 or more missing variables.  Otherwise the error lists
exactly the missing variables, each once, separated by comma and space, and it is
`OneVariable` iff there is exactly one. -/
theorem C26_partial (cfg : Cfg) (w : World) (o : Oracle) (ctx : Context) (input : Bytes) (e : Xpr)
    (names l : List Bytes) (b : BindErr)
    (he : Reach cfg w ctx input e) (hl : Missing e names l) (hk : l.length < 256)
    (h : BindCall cfg w o e names (.err b)) :
    ∃ l, Missing e names l ∧ l ≠ [] ∧
      b = if l.length = 1 then .one (List.intercalate b!", " l)
        else .multiple (List.intercalate b!", " l) := by
  obtain ⟨c, g, hg, hr⟩ := bindCall_spec h
  have hm := missing_diffVars (o := o) (reach_vars he).1 names
  have hlen := missing_length hm hl
  refine ⟨_, hm, ?_⟩
  rw [bindWith_spec, hlen, if_neg (by omega), Nat.mod_eq_of_lt hk] at hr
  split at hr
  · cases hr
  · rename_i h0
    refine ⟨fun h => h0 (by rw [← hlen, h]; rfl), ?_⟩
    rw [hlen]
    split at hr <;> rename_i h1 <;> cases hr
    · rw [if_pos h1]
    · rw [if_neg h1]

/-- The two kinds of error. -/
example : (match parse0 cfgOpt b!"x + y*z" with
    | .ok e => (match e.bind1 cfgOpt w0 Oracle.id b!"y", e.bind2 cfgOpt w0 Oracle.id b!"y" b!"x" with
      | .err a, .err b => decide (a = .multiple b!"x, z" ∧ b = .one b!"z")
      | _, _ => false)
    | _ => false) = true := by decide +kernel

/-! ### C25 -/

/-- C25 as stated. -/
def C25_claim : Prop := ∀ (cfg : Cfg) (w : World) (o : Oracle) (ctx : Context) (input : Bytes)
    (e : Xpr) names f, CtxTotal w ctx → Reach cfg w ctx input e → BindCall cfg w o e names (.ok f) →
  ∀ values m, values.length = names.length → Assigns names values m →
    ∃ v, f values = .ok v ∧ e.eval w m = .ok v

/-- `3!!x`, bound to `x`, panics. -/
theorem C25_refuted : ¬ C25_claim := by
  intro h
  have h1 : parse0 cfgPlain b!"3!!x" =
      .ok ⟨.bin .factorial (.un .factorial (.num (F64.ofNat 3))) (.var b!"x"), [b!"x"]⟩ := by
    decide +kernel
  have hb : BindCall cfgPlain w0 Oracle.id
      ⟨.bin .factorial (.un .factorial (.num (F64.ofNat 3))) (.var b!"x"), [b!"x"]⟩ [b!"x"]
      (.ok fun v => _) := .runtime [b!"x"]
  obtain ⟨v, _, hv⟩ := h cfgPlain w0 Oracle.id Context.default _ _ _ _ (ctxTotal_default w0)
    (.parsed (o := Oracle.id) h1) hb [F64.f1] (HMap.ofList [(b!"x", F64.f1)]) rfl
    (assigns_self [b!"x"] [F64.f1])
  have h2 : Xpr.eval w0 ⟨.bin .factorial (.un .factorial (.num (F64.ofNat 3))) (.var b!"x"), [b!"x"]⟩
    (HMap.ofList [(b!"x", F64.f1)]) = .error (.panic .unreachable) := by decide +kernel
  rw [h2] at hv; cases hv

/-- What is missing from C25: inputs with adjacent `!`, and bindings that wrongly
succeed because 256 variables are missing (C24).  Otherwise the bound function
terminates normally for all values, with the value `eval` gives under any map that
assigns the values to the names. -/
theorem C25_partial (cfg : Cfg) (w : World) (o : Oracle) (ctx : Context) (input : Bytes) (e : Xpr)
    (names l : List Bytes) (f : List F64 → Except EvErr F64)
    (hw : CtxTotal w ctx) (hn : ¬ DoubleBang input) (he : Reach cfg w ctx input e)
    (hl : Missing e names l) (hk : l.length < 256) (h : BindCall cfg w o e names (.ok f))
    (values : List F64) (m : HMap F64) (hv : values.length = names.length)
    (ha : Assigns names values m) :
    ∃ v, f values = .ok v ∧ e.eval w m = .ok v := by
  have hall := (C24_partial cfg w o ctx input e names l _ he hl hk h).1.1 ⟨f, rfl⟩
  obtain ⟨c, g, hg, hr⟩ := bindCall_spec h
  have hfg : f = g := by
    rw [bindWith_spec] at hr
    split at hr
    · cases hr
    · split at hr
      · cases hr; rfl
      · split at hr <;> cases hr
  subst hfg
  have hocc : ∀ n, Occurs n e.root → ∃ v, HMap.ofList (names.zip values) n = some v := by
    intro n hn
    rw [ofList_isSome, zip_keys, hv, List.take_length]
    exact hall n ((reach_vars he).2 n hn)
  obtain ⟨v, hev⟩ := (C20_partial cfg w ctx input e _ hw hn he).1.2 hocc
  refine ⟨v, ?_, ?_⟩
  · rw [hg values hv]
    unfold runClosure
    split
    · exact hev
    · rw [(C21_unchecked w e _).1 v hev]; rfl
  · rw [← hev]
    refine (C22_depends w e _ _ fun n hn => ?_).1
    obtain ⟨u, hu⟩ := hocc n hn
    rw [hu, assigns_ofList ha hu]

/-- `x - y` bound to `x, y, x`: the last value for `x` counts. -/
example : (match parse0 cfgOpt b!"x - y" with
    | .ok e => (match e.bind3 cfgOpt w0 Oracle.id b!"x" b!"y" b!"x" with
      | .ok f => some (f (F64.ofNat 7) (F64.ofNat 2) (F64.ofNat 5))
      | _ => none)
    | _ => none) = some (.ok (F64.ofNat 3)) := by decide +kernel

/-! ### C27 -/

/-- C27 as stated: same names, same number of values, same outcome. -/
def C27_claim : Prop := ∀ (cfg : Cfg) (w : World) (o : Oracle) (ctx : Context) (input : Bytes)
    (e : Xpr) names r r', Reach cfg w ctx input e → BindCall cfg w o e names r →
    BindCall cfg w o e names r' →
  (∀ b, r = .err b ↔ r' = .err b) ∧ (∀ p, r = .panic p ↔ r' = .panic p) ∧
  ((∃ f, r = .ok f) ↔ ∃ f, r' = .ok f) ∧
  ∀ f f', r = .ok f → r' = .ok f' → ∀ values, values.length = names.length → f values = f' values

/-- Holds for all expressions, without exception: the variants succeed and fail
together, with the same errors, and whenever one of the functions returns a number,
so do the others, the same one. -/
theorem C27_agree (cfg : Cfg) (w : World) (o : Oracle) (e : Xpr) (names : List Bytes)
    (r r' : BindRes (List F64 → Except EvErr F64))
    (h : BindCall cfg w o e names r) (h' : BindCall cfg w o e names r') :
    (∀ b, r = .err b ↔ r' = .err b) ∧ (∀ p, r = .panic p ↔ r' = .panic p) ∧
    ((∃ f, r = .ok f) ↔ ∃ f, r' = .ok f) ∧
    ∀ f f', r = .ok f → r' = .ok f' → ∀ values, values.length = names.length →
      (∀ v, f values = .ok v ↔ f' values = .ok v) ∧
      ((∀ n, e.eval w (HMap.ofList (names.zip values)) ≠ .error (.missing n)) →
        f values = f' values) := by
  obtain ⟨c, g, hg, rfl⟩ := bindCall_spec h
  obtain ⟨c', g', hg', rfl⟩ := bindCall_spec h'
  unfold bindWith
  cases bindCheck cfg o e names with
  | error p => simp
  | ok b =>
    cases b with
    | some b => simp
    | none =>
      refine ⟨by simp, by simp, by simp, ?_⟩
      rintro f f' ⟨⟩ ⟨⟩ values hv
      rw [hg values hv, hg' values hv]
      unfold runClosure
      obtain ⟨c1, c2, c3, c4⟩ := C21_unchecked w e (HMap.ofList (names.zip values))
      have key : ∀ v, liftP (e.evalUnchecked w (HMap.ofList (names.zip values))) = .ok v ↔
          e.eval w (HMap.ofList (names.zip values)) = .ok v := by
        intro v
        cases he : e.eval w (HMap.ofList (names.zip values)) with
        | ok u => rw [c1 u he]; rfl
        | error x =>
          cases x with
          | missing n => rw [c3 n he]; simp [liftP]
          | panic p => rw [c4 p he]; simp [liftP]
      have key2 : (∀ n, e.eval w (HMap.ofList (names.zip values)) ≠ .error (.missing n)) →
          liftP (e.evalUnchecked w (HMap.ofList (names.zip values))) =
          e.eval w (HMap.ofList (names.zip values)) := by
        intro hn
        cases he : e.eval w (HMap.ofList (names.zip values)) with
        | ok u => rw [c1 u he]; rfl
        | error x =>
          cases x with
          | missing n => exact absurd he (hn n)
          | panic p => rw [c4 p he]; rfl
      cases c <;> cases c' <;> simp only [if_true, Bool.false_eq_true, if_false]
      · simp
      · exact ⟨key, key2⟩
      · exact ⟨fun v => (key v).symm, fun hn => (key2 hn).symm⟩
      · simp

/-- The exception: after a binding that wrongly succeeded (C24), `bind_n_runtime`'s
function reports the missing variable and the others panic. -/
theorem C27_refuted : ¬ C27_claim := by
  intro h
  obtain ⟨x, hx, hv⟩ := many_parse
  have hr : Reach cfgRel w0 Context.default (manyInput 257) x := .parsed (o := Oracle.id) hx
  have h1 : BindCall cfgRel w0 Oracle.id x [b!"Aa"] _ := .runtime _
  have h2 : BindCall cfgRel w0 Oracle.id x [b!"Aa"] _ := .b1 b!"Aa"
  have h256 : (diffVars Oracle.id x.vars [b!"Aa"]).length = 256 := by
    rw [diffVars_id, hv]; decide +kernel
  have hok : ∀ {α : Type} (g : α), bindWith cfgRel Oracle.id x [b!"Aa"] g = .ok g := by
    intro α g
    rw [bindWith_spec, h256, if_neg (by simp [cfgRel]), if_pos (by decide)]
  have := (h cfgRel w0 Oracle.id Context.default _ x _ _ _ hr h1 h2).2.2.2 _ _ (hok _)
    (by unfold Xpr.bind1; rw [conv_bindWith]; exact hok _) [F64.f1] rfl
  simp only [at_, List.getD_cons_zero] at this
  have hocc : Occurs b!"Ab" x.root := by
    refine ((C05_vars _ _ _ _ _ _ hx).2 _).1 ?_
    rw [hv]; decide +kernel
  obtain ⟨c1, c2, c3, c4⟩ := C21_unchecked w0 x (HMap.ofList [(b!"Aa", F64.f1)])
  have hnone : ∃ n, Occurs n x.root ∧ HMap.ofList [(b!"Aa", F64.f1)] n = none :=
    ⟨b!"Ab", hocc, by decide +kernel⟩
  have hnb : ¬ DoubleBang (manyInput 257) := by
    rintro ⟨a, ws, b, _, h⟩
    have : c!"!" ∈ manyInput 257 := by rw [h]; simp
    revert this; decide +kernel
  obtain ⟨n, _, _, hm, _⟩ := (C20_partial cfgRel w0 Context.default _ x _ (ctxTotal_default w0) hnb hr).2
    hnone
  rw [c3 n hm] at this
  have hz : List.zip [b!"Aa"] [F64.f1] = [(b!"Aa", F64.f1)] := rfl
  rw [hz, hm] at this
  cases this

/-- What is missing from C27: bindings that wrongly succeed (C24).  Otherwise all
variants produce the same function (it may still panic for inputs with adjacent `!`,
then all do). -/
theorem C27_partial (cfg : Cfg) (w : World) (o : Oracle) (ctx : Context) (input : Bytes) (e : Xpr)
    (names l : List Bytes) (f f' : List F64 → Except EvErr F64)
    (he : Reach cfg w ctx input e) (hl : Missing e names l) (hk : l.length < 256)
    (h : BindCall cfg w o e names (.ok f)) (h' : BindCall cfg w o e names (.ok f'))
    (values : List F64) (hv : values.length = names.length) : f values = f' values := by
  refine ((C27_agree cfg w o e names _ _ h h').2.2.2 f f' rfl rfl values hv).2 fun n hm => ?_
  obtain ⟨h1, h2⟩ := C20_missing w e _ n hm
  have hall := (C24_partial cfg w o ctx input e names l _ he hl hk h).1.1 ⟨f, rfl⟩
  have : ∃ v, HMap.ofList (names.zip values) n = some v := by
    rw [ofList_isSome, zip_keys, hv, List.take_length]
    exact hall n ((reach_vars he).2 n h1)
  obtain ⟨v, hv⟩ := this
  rw [h2] at hv; cases hv

/-! ### C28 -/

/-- C28 as stated. -/
def C28_claim : Prop := ∀ (cfg : Cfg) (w : World) (o : Oracle) (ctx : Context) (input : Bytes)
    (e : Xpr) (names : List Bytes) f, CtxTotal w ctx → Reach cfg w ctx input e →
    e.bindNRuntime cfg w o names = .ok f → ∀ values : List F64,
  (∀ p, f values ≠ .error (.panic p)) ∧
  ((∃ v, f values = .ok v) ↔ ∀ n, Occurs n e.root → n ∈ names.take values.length) ∧
  (∀ n, f values = .error (.missing n) → Occurs n e.root ∧ n ∉ names.take values.length) ∧
  (∀ extra, values.length = names.length → f (values ++ extra) = f values)

/-- `3!!x` again. -/
theorem C28_refuted : ¬ C28_claim := by
  intro h
  have h1 : parse0 cfgPlain b!"3!!x" =
      .ok ⟨.bin .factorial (.un .factorial (.num (F64.ofNat 3))) (.var b!"x"), [b!"x"]⟩ := by
    decide +kernel
  exact (h cfgPlain w0 Oracle.id Context.default _ _ [b!"x"] _ (ctxTotal_default w0)
    (.parsed (o := Oracle.id) h1) rfl [F64.f1]).1 .unreachable (by decide +kernel)

/-- What is missing from C28: inputs with adjacent `!`.  Otherwise, for a slice of any
length: no panic; a number iff the names that have a value cover the variables of the
tree; an error names a variable without a value; surplus values are ignored. -/
theorem C28_partial (cfg : Cfg) (w : World) (o : Oracle) (ctx : Context) (input : Bytes) (e : Xpr)
    (names : List Bytes) (f : List F64 → Except EvErr F64)
    (hw : CtxTotal w ctx) (hn : ¬ DoubleBang input) (he : Reach cfg w ctx input e)
    (h : e.bindNRuntime cfg w o names = .ok f) (values : List F64) :
    (∀ p, f values ≠ .error (.panic p)) ∧
    ((∃ v, f values = .ok v) ↔ ∀ n, Occurs n e.root → n ∈ names.take values.length) ∧
    (∀ n, f values = .error (.missing n) → Occurs n e.root ∧ n ∉ names.take values.length) ∧
    (∀ extra, values.length = names.length → f (values ++ extra) = f values) := by
  have hf : f = fun values => e.eval w (HMap.ofList (names.zip values)) := by
    unfold Xpr.bindNRuntime bindWith at h
    split at h <;> cases h
    rfl
  subst hf
  simp only
  refine ⟨(C23_partial cfg w ctx input e _ hw hn he).1, ?_, ?_, ?_⟩
  · rw [(C20_partial cfg w ctx input e _ hw hn he).1]
    refine forall_congr' fun n => ?_
    rw [ofList_isSome, zip_keys]
  · intro n hm
    obtain ⟨h1, h2⟩ := C20_missing w e _ n hm
    refine ⟨h1, fun hc => ?_⟩
    rw [← zip_keys, ← ofList_isSome] at hc
    obtain ⟨v, hv⟩ := hc
    rw [h2] at hv; cases hv
  · intro extra hv
    congr 2
    have : ∀ (a : List Bytes) (b : List F64), b.length = a.length → a.zip (b ++ extra) = a.zip b := by
      intro a
      induction a with
      | nil => intro b _; simp
      | cons x xs ih =>
        intro b hb
        cases b with
        | nil => simp at hb
        | cons y ys => simp [ih ys (by simpa using hb)]
    exact this names values hv

/-- `x + y` with a short and a long slice. -/
example : (match parse0 cfgOpt b!"x + y" with
    | .ok e => (match e.bindNRuntime cfgOpt w0 Oracle.id [b!"x", b!"z", b!"y"] with
      | .ok f => some (f [F64.f1, F64.f1], f [F64.f1, F64.f1, F64.ofNat 2, F64.ofNat 9])
      | _ => none)
    | _ => none) = some (.error (.missing b!"y"), .ok (F64.ofNat 3)) := by decide +kernel

/-! ### C43 -/

/-- The closure wrapped by `xprs_fn!("name", dyn f, n)`. -/
def wrapped (name : Bytes) (addr : Nat) (names : List Bytes) : Func :=
  ⟨name, .dyn addr, some names.length⟩

/-- C43: a parsed expression `e` (adjacent `!` excepted), bound to `names` by any of the
variants, becomes a function at a fresh address.  Evaluating a call of it is evaluating
`e` with the arguments substituted for the names, in every environment in which the
arguments have values. -/
theorem C43_partial (cfg : Cfg) (w : World) (o : Oracle) (ctx : Context) (input : Bytes) (e : Xpr)
    (names l : List Bytes) (g : List F64 → Except EvErr F64)
    (hw : CtxTotal w ctx) (hn : ¬ DoubleBang input) (he : Reach cfg w ctx input e)
    (hl : Missing e names l) (hk : l.length < 256) (hb : BindCall cfg w o e names (.ok g))
    (addr : Nat) (hfresh : ∀ f args, Sub (.call f args) e.root → f.func ≠ .dyn addr)
    (name : Bytes) (args : List Elem) (σ : Bytes → Elem) (m : HMap F64) (vs : List F64)
    (hlen : args.length = names.length) (hσ : AssignsTree names args σ)
    (hargs : evalL (defineFn w addr g) m args = .ok vs) :
    ∃ v, eval (defineFn w addr g) m (.call (wrapped name addr names) args) = .ok v ∧
      eval (defineFn w addr g) m (subst σ e.root) = .ok v ∧
      ∀ m', Assigns names vs m' → e.eval w m' = .ok v := by
  have hvl : vs.length = names.length := by rw [evalL_length _ _ _ hargs, hlen]
  obtain ⟨v, hgv, hev⟩ := C25_partial cfg w o ctx input e names l g hw hn he hl hk hb vs _ hvl
    (assigns_self names vs)
  have hall := (C24_partial cfg w o ctx input e names l _ he hl hk hb).1.1 ⟨g, rfl⟩
  refine ⟨v, ?_, ?_, ?_⟩
  · rw [eval, hargs]
    simp [callFn, wrapped, defineFn, hgv, liftP]
  · rw [eval_subst _ m (HMap.ofList (names.zip vs)) σ, eval_defineFn _ _ _ _ _ hfresh]
    · exact hev
    · intro n hn
      have : ∃ u, HMap.ofList (names.zip vs) n = some u := by
        rw [ofList_isSome, zip_keys, hvl, List.take_length]
        exact hall n ((reach_vars he).2 n hn)
      obtain ⟨u, hu⟩ := this
      refine ⟨u, hu, ?_⟩
      obtain ⟨i, h1, h2⟩ := ofList_some.1 hu
      obtain ⟨h3, h4⟩ := zip_getElem?.1 h1
      have hi : i < args.length := by
        rw [hlen]; exact (List.getElem?_eq_some_iff.1 h3).1
      have ha : args[i]? = some args[i] := List.getElem?_eq_getElem hi
      obtain ⟨u', hu1, hu2⟩ := evalL_getElem hargs i _ ha
      rw [h4] at hu1; cases hu1
      rw [hσ i n args[i] h3 ha ?_]
      · exact hu2
      · intro j hj hjl hnj
        have hjv : j < vs.length := by rw [hvl, ← hlen]; exact hjl
        exact h2 j hj vs[j] (zip_getElem?.2 ⟨hnj, List.getElem?_eq_getElem hjv⟩)
  · intro m' hm'
    obtain ⟨v', h1, h2⟩ := C25_partial cfg w o ctx input e names l g hw hn he hl hk hb vs m' hvl hm'
    rw [hgv] at h1; cases h1
    exact h2

/-- C43 as stated includes inputs with adjacent `!`, for which the call panics. -/
def C43_claim : Prop := ∀ (cfg : Cfg) (w : World) (o : Oracle) (ctx : Context) (input : Bytes)
    (e : Xpr) (names : List Bytes) (g : List F64 → Except EvErr F64) (addr : Nat) (name : Bytes)
    (args : List Elem) (m m' : HMap F64) (vs : List F64),
    CtxTotal w ctx → Reach cfg w ctx input e → BindCall cfg w o e names (.ok g) →
    (∀ f args, Sub (.call f args) e.root → f.func ≠ .dyn addr) →
    args.length = names.length → evalL (defineFn w addr g) m args = .ok vs → Assigns names vs m' →
  ∃ v, eval (defineFn w addr g) m (.call (wrapped name addr names) args) = .ok v ∧
    e.eval w m' = .ok v

theorem C43_refuted : ¬ C43_claim := by
  intro h
  have h1 : parse0 cfgPlain b!"3!!x" =
      .ok ⟨.bin .factorial (.un .factorial (.num (F64.ofNat 3))) (.var b!"x"), [b!"x"]⟩ := by
    decide +kernel
  obtain ⟨v, _, hv⟩ := h cfgPlain w0 Oracle.id Context.default _ _ [b!"x"] _ 5 b!"f"
    [.num F64.f1] HMap.empty (HMap.ofList [(b!"x", F64.f1)]) [F64.f1] (ctxTotal_default w0)
    (.parsed (o := Oracle.id) h1) (.runtime [b!"x"])
    (by intro f args hs; cases hs with
      | left hs => cases hs with | operand hs => cases hs
      | right hs => cases hs)
    rfl rfl (assigns_self [b!"x"] [F64.f1])
  have h2 : Xpr.eval w0 ⟨.bin .factorial (.un .factorial (.num (F64.ofNat 3))) (.var b!"x"), [b!"x"]⟩
    (HMap.ofList [(b!"x", F64.f1)]) = .error (.panic .unreachable) := by decide +kernel
  rw [h2] at hv; cases hv

/-- The example of the documentation: `2x + y` as a function `hof`, and `hof(2, 3)`. -/
example : (match parse0 cfgPlain b!"2x + y" with
    | .ok e => (match e.bind2 cfgPlain w0 Oracle.id b!"x" b!"y" with
      | .ok f =>
        let g : List F64 → Except EvErr F64 := fun v => liftP (f (at_ v 0) (at_ v 1))
        let w' := defineFn w0 5 g
        let ctx := Context.default.setFn (wrapped b!"hof" 5 [b!"x", b!"y"])
        (match parse cfgPlain w' Oracle.id ctx b!"hof(2, 3)" with
        | .ok e' => some (e'.evalNoVars w')
        | _ => none)
      | _ => none)
    | _ => none) = some (.ok (F64.ofNat 7)) := by decide +kernel

end Props
end Xprs
