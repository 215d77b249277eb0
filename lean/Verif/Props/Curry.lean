import Verif.Props.BindExact
import Verif.Props.Values
/-
Property C109: fixing some variables with `simplify_for_multiple` and binding the others is
binding all of them.
-/
namespace Xprs.Props
open Xprs Xprs.Spec

theorem no_bang_of_proper {P : Func → Prop} {l r : Elem} : ∀ e : Elem, Sub (.bin .factorial l r) e →
    Proper P e → False := by
  intro e hs
  induction hs with
  | refl => intro hp; cases hp with | bin ho _ _ => exact ho rfl
  | left _ ih => intro hp; cases hp with | bin _ a _ => exact ih a
  | right _ ih => intro hp; cases hp with | bin _ _ a => exact ih a
  | operand _ ih => intro hp; cases hp with | un _ a => exact ih a
  | arg hm _ ih => intro hp; cases hp with | call _ _ a => exact ih (a _ hm)

theorem loop_proper {P : Func → Prop} (cfg : Cfg) (w : World) (hP : ∀ f, P f → FnTotal w f) :
    ∀ (l : List (Bytes × F64)) (t : Elem) (vs : List Bytes), Proper P t →
      ∃ e, Xpr.simplifyLoop cfg w l t vs = .ok e ∧ Proper P e.root
  | [], t, vs, h => ⟨⟨t, vs⟩, by rw [Xpr.simplifyLoop], h⟩
  | (x, v) :: l, t, vs, h => by
    obtain ⟨t', h1, h2⟩ := simplifyFor_proper cfg w hP x v t h
    rw [Xpr.simplifyLoop, h1]
    exact loop_proper cfg w hP l t' _ h2

theorem loop_vars {cfg : Cfg} {w : World} : ∀ {l : List (Bytes × F64)} {t : Elem} {vs : List Bytes} {e : Xpr},
    Xpr.simplifyLoop cfg w l t vs = .ok e → ∀ n ∈ e.vars, n ∈ vs
  | [], t, vs, e, h => by rw [Xpr.simplifyLoop] at h; cases h; exact fun _ h => h
  | (x, v) :: l, t, vs, e, h => by
    rw [Xpr.simplifyLoop] at h
    split at h
    · cases h
    · intro n hn
      exact (List.mem_filter.1 (loop_vars h n hn)).1

/-- Inserting what is there already. -/
theorem insert_there {m : HMap F64} {x : Bytes} {v : F64} (h : m x = some v) : m.insert x v = m := by
  funext n
  unfold HMap.insert
  split
  · rename_i hn; rw [hn, h]
  · rfl

theorem inserts_there {m : HMap F64} : ∀ {l : List (Bytes × F64)}, (∀ xv ∈ l, m xv.1 = some xv.2) →
    l.foldl (fun m kv => m.insert kv.1 kv.2) m = m
  | [], _ => rfl
  | xv :: l, h => by
    rw [List.foldl_cons, insert_there (h xv (by simp))]
    exact inserts_there fun y hy => h y (by simp [hy])

section
variable (cfg : Cfg) (w : World) (o o' : Oracle) (ctx : Context) (input : Bytes) (e e' : Xpr)
  (fixed : List (Bytes × F64)) (rest : List Bytes)

/-- C109, binding: if all variables are among those fixed and those left, what is left can be
bound with each of the `bind*` functions. -/
theorem C109_binds (r : BindRes (List F64 → Except EvErr F64)) (he : Reach cfg w ctx input e)
    (hs : e.simplifyForMultiple cfg w fixed = .ok e')
    (hv : ∀ n ∈ e.vars, n ∈ fixed.map Prod.fst ∨ n ∈ rest) (h : BindCall cfg w o e' rest r) :
    ∃ f, r = .ok f := by
  obtain ⟨l, ⟨-, hl⟩, hr⟩ := C78_outcome cfg w o ctx input e' rest r (.multiple he hs) h
  have h0 : l = [] := by
    refine List.eq_nil_iff_forall_not_mem.2 fun n hn => ?_
    obtain ⟨h1, h2⟩ := (hl n).1 hn
    rcases hv n (loop_vars hs n h1) with h3 | h3
    · obtain ⟨xv, h4, rfl⟩ := List.mem_map.1 h3
      exact ((C31_multiple cfg w e e' fixed hs).1 xv h4).2 h1
    · exact h2 h3
  subst h0
  rcases hr with ⟨-, h1, -⟩ | ⟨-, ⟨-, h1⟩ | ⟨h1, -⟩ | ⟨h1, -⟩⟩
  · simp at h1
  · exact h1
  · simp at h1
  · simp at h1

/-- C109, where there are values: if the function bound to all variables returns a number for
some values, then the variables can be fixed, the others can be bound, and the function
returns a number for all values. -/
theorem C109_works (hw : CtxTotal w ctx) (he : Reach cfg w ctx input e)
    (hv : ∀ n ∈ e.vars, n ∈ fixed.map Prod.fst ∨ n ∈ rest) (g : List F64 → Except EvErr F64)
    (names : List Bytes) (us : List F64) (u : F64) (hg : BindCall cfg w o e names (.ok g))
    (hl : us.length = names.length) (hu : g us = .ok u) :
    ∃ e', e.simplifyForMultiple cfg w fixed = .ok e' ∧
      ∀ r, BindCall cfg w o' e' rest r → ∃ f, r = .ok f ∧
        ∀ values, values.length = rest.length → ∃ v, f values = .ok v := by
  obtain ⟨-, hb⟩ := (C78_function cfg w o ctx input e names g hw he hg us hl).2.1 ⟨u, hu⟩
  have hp := proper_of_no_bang _ (reach_calls he) (reach_unaries he) hb
  obtain ⟨e', hs, hp'⟩ := loop_proper cfg w (fun f => named_total hw) fixed e.root e.vars hp
  refine ⟨e', hs, fun r hr => ?_⟩
  obtain ⟨f, rfl⟩ := C109_binds cfg w o' ctx input e e' fixed rest r he hs hv hr
  refine ⟨f, rfl, fun values hl' => ?_⟩
  refine (C78_function cfg w o' ctx input e' rest f hw (.multiple he hs) hr values hl').2.2
    ⟨fun n hn => ?_, fun l r h => no_bang_of_proper _ h hp'⟩
  obtain ⟨h1, h2⟩ := C31_multiple cfg w e e' fixed hs
  rcases hv n ((reach_vars he).2 n (h2 n hn)) with h3 | h3
  · obtain ⟨xv, h4, rfl⟩ := List.mem_map.1 h3
    exact absurd hn (h1 xv h4).1
  · exact h3

/-- C109, the values: let `m` give the fixed variables their values and `values` to the
others.  If evaluating with `m` takes no doubtful step and gives `v`, then the function of all
variables returns `v`, and the function of the others returns the same up to the sign of zero. -/
theorem C109_value (hw : CtxTotal w ctx) (hp : NoPower e.root ∨ PowLaws w) (he : Reach cfg w ctx input e)
    (hv : ∀ n ∈ e.vars, n ∈ fixed.map Prod.fst ∨ n ∈ rest)
    (hs : e.simplifyForMultiple cfg w fixed = .ok e') (f g : List F64 → Except EvErr F64)
    (hf : BindCall cfg w o e' rest (.ok f)) (hg : BindCall cfg w o' e (fixed.map Prod.fst ++ rest) (.ok g))
    (values : List F64) (hl : values.length = rest.length) (m : HMap F64)
    (hm : ∀ xv ∈ fixed, m xv.1 = some xv.2) (ha : Assigns rest values m) (v : F64)
    (hr : Runs w m e.root v) :
    g (fixed.map Prod.snd ++ values) = .ok v ∧ ∃ v', f values = .ok v' ∧ Same v v' := by
  have hev : e.eval w m = .ok v := runs_eval _ hr
  obtain ⟨h1, h2⟩ := C31_multiple cfg w e e' fixed hs
  constructor
  · have hl' : (fixed.map Prod.snd ++ values).length = (fixed.map Prod.fst ++ rest).length := by
      simp [hl]
    obtain ⟨k1, k2⟩ := C78_function cfg w o' ctx input e _ g hw he hg _ hl'
    obtain ⟨u, hu⟩ := k2.2 ⟨fun n hn => List.mem_append.2 (hv n ((reach_vars he).2 n hn)),
      fun l r h => no_value_of_bang _ h v hev⟩
    have := k1 u hu m (by
      intro i n c hn hc hlast
      by_cases hi : i < fixed.length
      · rw [List.getElem?_append_left (by simpa using hi), List.getElem?_map] at hn hc
        rw [List.getElem?_eq_getElem hi] at hn hc
        cases hn; cases hc
        exact hm _ (List.getElem_mem hi)
      · have hi : fixed.length ≤ i := by omega
        rw [List.getElem?_append_right (by simpa using hi)] at hn hc
        simp only [List.length_map] at hn hc
        refine ha (i - fixed.length) n c hn hc fun j hj hjl hjn => ?_
        refine hlast (fixed.length + j) (by omega) (by simp; omega) ?_
        rw [List.getElem?_append_right (by simp)]
        simpa using hjn)
    rw [hev] at this
    cases this
    exact hu
  · have hr' : Runs w (fixed.reverse.foldl (fun m kv => m.insert kv.1 kv.2) m) e.root v := by
      rw [inserts_there fun xv h => hm xv (List.mem_reverse.1 h)]; exact hr
    obtain ⟨v', hv', hsame⟩ := C29_multiple_partial cfg w m fixed e e' v hp hr' hs
    obtain ⟨k1, k2⟩ := C78_function cfg w o ctx input e' rest f hw (.multiple he hs) hf values hl
    obtain ⟨u, hu⟩ := k2.2 ⟨fun n hn => by
      rcases hv n ((reach_vars he).2 n (h2 n hn)) with h3 | h3
      · obtain ⟨xv, h4, rfl⟩ := List.mem_map.1 h3
        exact absurd hn (h1 xv h4).1
      · exact h3, fun l r h => no_value_of_bang _ h v' hv'⟩
    have := k1 u hu m ha
    rw [hv'] at this
    cases this
    exact ⟨_, hu, hsame⟩

end

/-- `a*x+b`. -/
def lineTree : Elem := .bin .plus (.bin .times (.var b!"a") (.var b!"x")) (.var b!"b")
/-- `a = 2`, `b = 1`, `x = 3`. -/
def lineMap : HMap F64 :=
  ((HMap.empty.insert b!"a" (F64.ofNat 2)).insert b!"b" F64.f1).insert b!"x" (F64.ofNat 3)

theorem line_runs : Runs w0 lineMap lineTree (F64.ofNat 7) := by
  have h1 : BinStep w0 .times (F64.ofNat 2) (F64.ofNat 3) (F64.ofNat 6) := by
    have : F64.ofNat 6 = F64.mul (F64.ofNat 2) (F64.ofNat 3) := by decide +kernel
    rw [this]; exact .times (by decide +kernel)
  have h2 : BinStep w0 .plus (F64.ofNat 6) F64.f1 (F64.ofNat 7) := by
    have : F64.ofNat 7 = F64.add (F64.ofNat 6) F64.f1 := by decide +kernel
    rw [this]; exact .plus (by decide +kernel)
  exact .bin (.bin (.var (by decide +kernel)) (.var (by decide +kernel)) h1) (.var (by decide +kernel)) h2

/-- Not vacuous: `a*x+b` with `a = 2` and `b = 1` fixed is bound to `x` and gives `7` at `3`, as
the function of three variables does. -/
example : parse0 cfgOpt b!"a*x+b" = .ok ⟨lineTree, [b!"a", b!"x", b!"b"]⟩ := by decide +kernel
example : ∃ e' f g, Xpr.simplifyForMultiple cfgOpt w0 ⟨lineTree, [b!"a", b!"x", b!"b"]⟩
      [(b!"a", F64.ofNat 2), (b!"b", F64.f1)] = .ok e' ∧
    e' = ⟨.bin .plus (.bin .times (.num (F64.ofNat 2)) vx) (.num F64.f1), [b!"x"]⟩ ∧
    BindCall cfgOpt w0 Oracle.id e' [b!"x"] (.ok f) ∧
    BindCall cfgOpt w0 Oracle.id ⟨lineTree, [b!"a", b!"x", b!"b"]⟩ [b!"a", b!"b", b!"x"] (.ok g) ∧
    f [F64.ofNat 3] = .ok (F64.ofNat 7) ∧ g [F64.ofNat 2, F64.f1, F64.ofNat 3] = .ok (F64.ofNat 7) := by
  refine ⟨_, _, _, by decide +kernel, rfl, .runtime _, .runtime _, ?_, ?_⟩ <;> decide +kernel
/-- A name fixed twice keeps the first value, a name given twice the last: so `C109_value` asks
that the values agree. -/
example : (Xpr.simplifyForMultiple cfgOpt w0 ⟨vx, [b!"x"]⟩ [(b!"x", F64.f0), (b!"x", F64.f1)]
    = .ok ⟨.num F64.f0, []⟩) := by decide +kernel
/-- A doubtful step: with `y` fixed to `0`, `x % y` is NaN for every `x`, and so is the function
of both; but fixed to `0`, `x` makes it `0` also where `y` is `0`. -/
example : ∃ e f g, Xpr.simplifyForMultiple cfgOpt w0 ⟨.bin .modulo vx (.var b!"y"), [b!"x", b!"y"]⟩
      [(b!"x", F64.f0)] = .ok e ∧ BindCall cfgOpt w0 Oracle.id e [b!"y"] (.ok f) ∧
    BindCall cfgOpt w0 Oracle.id ⟨.bin .modulo vx (.var b!"y"), [b!"x", b!"y"]⟩ [b!"x", b!"y"] (.ok g) ∧
    f [F64.f0] = .ok F64.f0 ∧ g [F64.f0, F64.f0] = .ok .nan := by
  refine ⟨⟨.num F64.f0, [b!"y"]⟩, _, _, by decide +kernel, .runtime _, .runtime _, ?_, ?_⟩ <;> decide +kernel

end Xprs.Props
