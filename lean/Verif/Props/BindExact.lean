import Verif.Props.Binding
import Verif.Props.Bang
/-
Property C78: what the `bind*` functions do, in all cases.

C24–C28 say what they are meant to do and hold with fewer than 256 missing variables and
without `!!`.  Here nothing is excluded.
-/
namespace Xprs.Props
open Xprs Xprs.Spec

/-- Where there is a value, all variables of the tree are given. -/
theorem eval_given (w : World) (m : HMap F64) {n : Bytes} : ∀ (e : Elem) {v : F64},
    eval w m e = .ok v → Occurs n e → ∃ u, m n = some u := by
  intro e v h ho
  induction ho generalizing v with
  | here =>
    rw [eval] at h
    split at h
    · rename_i x hx; exact ⟨x, hx⟩
    · cases h
  | left _ ih =>
    rw [eval] at h
    split at h
    · cases h
    · rename_i a ha; exact ih ha
  | right _ ih =>
    rw [eval] at h
    split at h
    · cases h
    · split at h
      · cases h
      · rename_i b hb; exact ih hb
  | operand _ ih =>
    rw [eval] at h
    split at h
    · cases h
    · rename_i b hb; exact ih hb
  | @arg f args a hm _ ih =>
    rw [eval] at h
    split at h
    · cases h
    · rename_i vs hvs
      clear h
      induction args generalizing vs with
      | nil => cases hm
      | cons b bs ihb =>
        rw [evalL] at hvs
        split at hvs
        · cases hvs
        · rename_i u hu
          split at hvs
          · cases hvs
          · rename_i us hus
            rcases List.mem_cons.1 hm with rfl | hm
            · exact ih hu
            · exact ihb hm us hus

/-- The function `bind*` returns, in terms of evaluation. -/
theorem bound_is {cfg : Cfg} {w : World} {o : Oracle} {e : Xpr} {names : List Bytes}
    {f : List F64 → Except EvErr F64} (h : BindCall cfg w o e names (.ok f)) :
    ∃ checked, ∀ values, values.length = names.length → f values = runClosure w e checked names values := by
  obtain ⟨c, g, hg, hr⟩ := bindCall_spec h
  have hfg : f = g := by
    unfold bindWith at hr
    split at hr <;> cases hr
    rfl
  exact ⟨c, hfg ▸ hg⟩

/-- C78, the outcome: let `k` variables of the expression not be named.  With overflow
checks, 256 or more of them are a panic.  Otherwise binding succeeds if 256 divides `k`, and
else fails with an error that lists all `k` variables, each once, and is of the kind "one
variable" if `k` leaves the remainder 1. -/
theorem C78_outcome (cfg : Cfg) (w : World) (o : Oracle) (ctx : Context) (input : Bytes) (e : Xpr)
    (names : List Bytes) (r : BindRes (List F64 → Except EvErr F64))
    (he : Reach cfg w ctx input e) (h : BindCall cfg w o e names r) :
    ∃ l, Missing e names l ∧
      ((cfg.overflowChecks = true ∧ 256 ≤ l.length ∧ r = .panic .overflow) ∨
       (¬ (cfg.overflowChecks = true ∧ 256 ≤ l.length) ∧
        ((256 ∣ l.length ∧ ∃ f, r = .ok f) ∨
         (l.length % 256 = 1 ∧ r = .err (.one (List.intercalate b!", " l))) ∨
         (2 ≤ l.length % 256 ∧ r = .err (.multiple (List.intercalate b!", " l)))))) := by
  obtain ⟨c, g, hg, rfl⟩ := bindCall_spec h
  refine ⟨_, missing_diffVars (o := o) (reach_vars he).1 names, ?_⟩
  rw [bindWith_spec]
  split
  · rename_i h1; exact .inl ⟨h1.1, h1.2, rfl⟩
  · rename_i h1
    refine .inr ⟨h1, ?_⟩
    split
    · rename_i h2; exact .inl ⟨Nat.dvd_of_mod_eq_zero h2, g, rfl⟩
    · rename_i h2
      split
      · rename_i h3; exact .inr (.inl ⟨h3, rfl⟩)
      · rename_i h3; exact .inr (.inr ⟨by omega, rfl⟩)

/-- C78, the function: a number it returns is the one `eval` returns for the same values; and
it returns a number exactly if all variables that occur in the tree are named and no `!` in
the tree is a binary operator.  (`values.length = names.length` is checked by the compiler,
except for `bind_n_runtime`, see C28.) -/
theorem C78_function (cfg : Cfg) (w : World) (o : Oracle) (ctx : Context) (input : Bytes) (e : Xpr)
    (names : List Bytes) (f : List F64 → Except EvErr F64)
    (hw : CtxTotal w ctx) (he : Reach cfg w ctx input e) (h : BindCall cfg w o e names (.ok f))
    (values : List F64) (hv : values.length = names.length) :
    (∀ v, f values = .ok v → ∀ m, Assigns names values m → e.eval w m = .ok v) ∧
    ((∃ v, f values = .ok v) ↔
      (∀ n, Occurs n e.root → n ∈ names) ∧ ∀ l r, ¬ Sub (.bin .factorial l r) e.root) := by
  obtain ⟨c, hf⟩ := bound_is h
  have hex : ∀ v, f values = .ok v ↔ e.eval w (HMap.ofList (names.zip values)) = .ok v := by
    intro v
    rw [hf values hv, runClosure]
    split
    · exact Iff.rfl
    · constructor
      · intro h
        cases hev : e.eval w (HMap.ofList (names.zip values)) with
        | ok u => rw [(C21_unchecked w e _).1 u hev] at h; cases h; rfl
        | error r =>
          obtain ⟨p, hp⟩ := (C21_unchecked w e _).2.1.2 ⟨r, hev⟩
          rw [hp] at h; cases h
      · intro h; rw [(C21_unchecked w e _).1 v h]; rfl
  have hdom : ∀ n, (∃ v, HMap.ofList (names.zip values) n = some v) ↔ n ∈ names := by
    intro n
    rw [ofList_isSome, zip_keys, hv, List.take_length]
  have hnum : ∀ v, e.eval w (HMap.ofList (names.zip values)) = .ok v →
      ∀ n, Occurs n e.root → ∃ u, HMap.ofList (names.zip values) n = some u :=
    fun v h n ho => eval_given w _ e.root h ho
  refine ⟨fun v h m ha => ?_, ⟨?_, ?_⟩⟩
  · have h' := (hex v).1 h
    rw [← h']
    refine (C22_depends w e _ _ fun n hn => ?_).1
    obtain ⟨u, hu⟩ := hnum v h' n hn
    rw [hu, assigns_ofList ha hu]
  · rintro ⟨v, h⟩
    have h' := (hex v).1 h
    exact ⟨fun n hn => (hdom n).1 (hnum v h' n hn),
      fun l r hs => no_value_of_bang e.root hs v h'⟩
  · rintro ⟨h1, h2⟩
    obtain ⟨v, h'⟩ := (C77_tree cfg w ctx input e _ hw he fun n hn => (hdom n).2 (h1 n hn)).1.2 h2
    exact ⟨v, (hex v).2 h'⟩

/-- The same with what the user can see: for an expression as parsed, in a build without
optimizations, the function returns a number for all values or for none, and it does so
exactly if all variables are named and the text has no `!!`. -/
theorem C78_parsed (cfg : Cfg) (w : World) (o o' : Oracle) (ctx : Context) (input : Bytes) (e : Xpr)
    (names : List Bytes) (f : List F64 → Except EvErr F64) (hopt : cfg.opt = false)
    (hw : CtxTotal w ctx) (he : parse cfg w o' ctx input = .ok e)
    (h : BindCall cfg w o e names (.ok f)) (values : List F64) (hv : values.length = names.length) :
    (∃ v, f values = .ok v) ↔ (∀ n ∈ e.vars, n ∈ names) ∧ ¬ DoubleBang input := by
  rw [(C78_function cfg w o ctx input e names f hw (.parsed he) h values hv).2,
    ← C77_text cfg w o' ctx input e hopt he]
  have hvars := (C05_vars cfg w o' ctx input e he).2
  constructor
  · rintro ⟨h1, h2⟩
    exact ⟨fun n hn => h1 n ((hvars n).1 hn), fun ⟨l, r, hs⟩ => h2 l r hs⟩
  · rintro ⟨h1, h2⟩
    exact ⟨fun n hn => h1 n ((hvars n).2 hn), fun l r hs => h2 ⟨l, r, hs⟩⟩

/-- A text with 257 variables: bound with one name, 256 are missing and binding succeeds; with
none, 257 are missing and the error is of the kind "one variable". -/
example : ∃ x, parse0 cfgRel (manyInput 257) = .ok x ∧
    (∃ f, BindCall cfgRel w0 Oracle.id x [b!"Aa"] (.ok f)) ∧
    ∃ t, BindCall cfgRel w0 Oracle.id x [] (.err (.one t)) := by
  obtain ⟨x, hx, hv⟩ := many_parse
  refine ⟨x, hx, ?_, ?_⟩
  · have hb : BindCall cfgRel w0 Oracle.id x [b!"Aa"] (x.bindNRuntime cfgRel w0 Oracle.id [b!"Aa"]) :=
      .runtime _
    have h256 : (diffVars Oracle.id x.vars [b!"Aa"]).length = 256 := by
      rw [diffVars_id, hv]; decide +kernel
    unfold Xpr.bindNRuntime at hb
    rw [bindWith_spec, h256, if_neg (by simp [cfgRel]), if_pos (by decide)] at hb
    exact ⟨_, hb⟩
  · have hb : BindCall cfgRel w0 Oracle.id x [] (x.bindNRuntime cfgRel w0 Oracle.id []) := .runtime _
    have h257 : (diffVars Oracle.id x.vars []).length = 257 := by
      rw [diffVars_id, hv]; decide +kernel
    unfold Xpr.bindNRuntime at hb
    rw [bindWith_spec, h257, if_neg (by simp [cfgRel]), if_neg (by decide), if_pos (by decide)] at hb
    exact ⟨_, hb⟩

end Xprs.Props
