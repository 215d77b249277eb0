import Verif.Spec.Library
import Verif.Props.Binding
import Verif.Props.Inline
/-
Property C102: libraries of functions.
-/
namespace Xprs
namespace Props
open Spec

/-- A user builds a library, beginning in the world `w₀` with the context `ctx₀`: again and
again an expression (parsed in the context so far, so that it may call what has been
defined before) is bound to names by any of the `bind` functions, the closure is wrapped by
`xprs_fn!` and put into the context under any name, also one that is taken already. -/
inductive Library (cfg : Cfg) (w₀ : World) (ctx₀ : Context) : List Defn → World → Context → Prop
  | start : Library cfg w₀ ctx₀ [] w₀ ctx₀
  | define {ds : List Defn} {w : World} {ctx : Context} {o : Oracle} {input : Bytes} {e : Xpr}
      {names l : List Bytes} {g : List F64 → Except EvErr F64} {name : Bytes} {addr : Nat} :
      Library cfg w₀ ctx₀ ds w ctx → Reach cfg w ctx input e → ¬ DoubleBang input →
      Missing e names l → l.length < 256 → BindCall cfg w o e names (.ok g) →
      (∀ d ∈ ds, d.addr ≠ addr) →
      (∀ nm f, ctx₀.get nm = some (.func f) → f.func ≠ .dyn addr) →
      Library cfg w₀ ctx₀ (⟨addr, names, e.root⟩ :: ds) (defineFn w addr g)
        (ctx.setFn (wrapped name addr names))

/-- Functions that may be called: those of the first context (and the built-in ones) and
those of the library, with as many arguments as they have names. -/
def InLibrary (ctx₀ : Context) (ds : List Defn) (f : Func) : Prop :=
  Named ctx₀ f ∨ ∃ d ∈ ds, f.func = .dyn d.addr ∧ f.nbArgs = some d.params.length

theorem argFor_assigns : ∀ (ps : List Bytes) (as : List Elem), AssignsTree ps as (argFor ps as)
  | [], _ => by intro i n a h; simp at h
  | p :: ps, [] => by intro i n a _ h; simp at h
  | p :: ps, b :: bs => by
    intro i n a h1 h2 h3
    rw [argFor]
    cases i with
    | zero =>
      simp only [List.getElem?_cons_zero, Option.some.injEq] at h1 h2
      rw [if_neg, if_pos h1.symm, h2]
      intro hm
      obtain ⟨j, hj⟩ := List.mem_iff_getElem?.1 hm
      obtain ⟨hj1, hj2⟩ := List.getElem?_eq_some_iff.1 hj
      have hlt : j < bs.length := by simp at hj1; omega
      refine h3 (j + 1) (by omega) (by simp; omega) ?_
      rw [List.getElem?_cons_succ]
      rw [List.getElem?_take, if_pos hlt] at hj
      exact hj
    | succ i =>
      simp only [List.getElem?_cons_succ] at h1 h2
      have hlt : i < bs.length := (List.getElem?_eq_some_iff.1 h2).1
      rw [if_pos]
      · refine argFor_assigns ps bs i n a h1 h2 fun j hj hjl hn => ?_
        exact h3 (j + 1) (by omega) (by simp; omega) (by rw [List.getElem?_cons_succ]; exact hn)
      · refine List.mem_iff_getElem?.2 ⟨i, ?_⟩
        rw [List.getElem?_take, if_pos hlt]; exact h1

theorem argFor_mem : ∀ (ps : List Bytes) (as : List Elem) (n : Bytes),
    argFor ps as n ∈ as ∨ argFor ps as n = .var n
  | [], _, n => .inr (by simp [argFor])
  | _ :: _, [], n => .inr (by simp [argFor])
  | p :: ps, b :: bs, n => by
    rw [argFor]
    split
    · rcases argFor_mem ps bs n with h | h
      · exact .inl (List.mem_cons_of_mem _ h)
      · exact .inr h
    · split
      · exact .inl (by simp)
      · exact .inr rfl

theorem argFor_given : ∀ (ps : List Bytes) (as : List Elem) (n : Bytes), as.length = ps.length →
    n ∈ ps → argFor ps as n ∈ as
  | [], _, n, _, h => by cases h
  | _ :: _, [], n, h, _ => by cases h
  | p :: ps, b :: bs, n, h, hn => by
    have hl : bs.length = ps.length := by simpa using h
    rw [argFor, hl, List.take_length]
    by_cases hp : n ∈ ps
    · rw [if_pos hp]; exact List.mem_cons_of_mem _ (argFor_given ps bs n hl hp)
    · rw [if_neg hp, if_pos]
      · simp
      · rcases List.mem_cons.1 hn with h | h
        · exact h
        · exact absurd h hp

theorem expandL_length (d : Defn) : ∀ es : List Elem, (expandL d es).length = es.length
  | [] => rfl
  | a :: as => by rw [expandL, List.length_cons, List.length_cons, expandL_length d as]

theorem mem_expandL {d : Defn} {b : Elem} : ∀ {es : List Elem}, b ∈ expandL d es → ∃ a ∈ es, b = expand d a
  | [], h => by simp [expandL] at h
  | a :: as, h => by
    rw [expandL] at h
    rcases List.mem_cons.1 h with rfl | h
    · exact ⟨a, by simp, rfl⟩
    · obtain ⟨c, hc, rfl⟩ := mem_expandL h
      exact ⟨c, by simp [hc], rfl⟩

theorem mem_substL {σ : Bytes → Elem} {b : Elem} : ∀ {es : List Elem}, b ∈ substL σ es → ∃ a ∈ es, b = subst σ a
  | [], h => by simp [substL] at h
  | a :: as, h => by
    rw [substL] at h
    rcases List.mem_cons.1 h with rfl | h
    · exact ⟨a, by simp, rfl⟩
    · obtain ⟨c, hc, rfl⟩ := mem_substL h
      exact ⟨c, by simp [hc], rfl⟩

theorem substL_length' (σ : Bytes → Elem) : ∀ es : List Elem, (substL σ es).length = es.length
  | [] => rfl
  | a :: as => by rw [substL, List.length_cons, List.length_cons, substL_length' σ as]

/-- Substituting proper trees into a proper tree gives one. -/
theorem proper_subst {P : Func → Prop} {σ : Bytes → Elem} (hσ : ∀ n, Proper P (σ n)) :
    ∀ e, Proper P e → Proper P (subst σ e) := by
  intro e
  induction e using Elem.ind with
  | num x => intro _; exact .num x
  | var n => intro _; rw [subst]; exact hσ n
  | bin op l r hl hr =>
    intro h; cases h with | bin h1 h2 h3 => rw [subst]; exact .bin h1 (hl h2) (hr h3)
  | un op e he => intro h; cases h with | un h1 h2 => rw [subst]; exact .un h1 (he h2)
  | call f args ih =>
    intro h
    cases h with
    | call h1 h2 h3 =>
      rw [subst]
      refine .call h1 (by rw [substL_length']; exact h2) fun b hb => ?_
      obtain ⟨a, ha, rfl⟩ := mem_substL hb
      exact ih a ha (h3 a ha)

/-- After a function has been replaced by its text, what is left calls the others only. -/
theorem proper_expand {ctx₀ : Context} {ds : List Defn} {d : Defn}
    (hb : Proper (InLibrary ctx₀ ds) d.body) :
    ∀ e, Proper (InLibrary ctx₀ (d :: ds)) e → Proper (InLibrary ctx₀ ds) (expand d e) := by
  intro e
  induction e using Elem.ind with
  | num x => intro _; exact .num x
  | var n => intro _; exact .var n
  | bin op l r hl hr =>
    intro h; cases h with | bin h1 h2 h3 => rw [expand]; exact .bin h1 (hl h2) (hr h3)
  | un op e he => intro h; cases h with | un h1 h2 => rw [expand]; exact .un h1 (he h2)
  | call f args ih =>
    intro h
    cases h with
    | call h1 h2 h3 =>
      have hargs : ∀ b ∈ expandL d args, Proper (InLibrary ctx₀ ds) b := by
        intro b hb
        obtain ⟨a, ha, rfl⟩ := mem_expandL hb
        exact ih a ha (h3 a ha)
      rw [expand]
      split
      · refine proper_subst (fun n => ?_) _ hb
        rcases argFor_mem d.params (expandL d args) n with h | h
        · exact hargs _ h
        · rw [h]; exact .var n
      · rename_i hne
        refine .call ?_ (by rw [expandL_length]; exact h2) hargs
        rcases h1 with h1 | ⟨d', hd', h1, h1'⟩
        · exact .inl h1
        · rcases List.mem_cons.1 hd' with rfl | hd'
          · exact absurd h1 hne
          · exact .inr ⟨d', hd', h1, h1'⟩

/-- The variables stay the same or become fewer. -/
theorem occurs_expand {P : Func → Prop} {d : Defn} {k : Bytes} (hb : ∀ n, Occurs n d.body → n ∈ d.params)
    (hP : ∀ f, P f → f.func = .dyn d.addr → f.nbArgs = some d.params.length) :
    ∀ e, Proper P e → Occurs k (expand d e) → Occurs k e := by
  intro e
  induction e using Elem.ind with
  | num x => intro _ h; exact h
  | var n => intro _ h; exact h
  | bin op l r hl hr =>
    intro h ho
    cases h with | bin h1 h2 h3 =>
    rw [expand] at ho
    cases ho with
    | left ho => exact .left (hl h2 ho)
    | right ho => exact .right (hr h3 ho)
  | un op e he =>
    intro h ho
    cases h with | un h1 h2 =>
    rw [expand] at ho
    cases ho with | operand ho => exact .operand (he h2 ho)
  | call f args ih =>
    intro h ho
    cases h with | call h1 h2 h3 =>
    rw [expand] at ho
    split at ho
    · rename_i hf
      obtain ⟨n, hn, ho⟩ := (occurs_subst _).1 ho
      have hl : (expandL d args).length = d.params.length := by
        rw [expandL_length]; exact h2.2 _ (hP f h1 hf)
      obtain ⟨a, ha, hae⟩ := mem_expandL (argFor_given _ _ _ hl (hb n hn))
      rw [hae] at ho
      exact .arg ha (ih a ha (h3 a ha) ho)
    · cases ho with
      | arg hm ho =>
        obtain ⟨a, ha, rfl⟩ := mem_expandL hm
        exact .arg ha (ih a ha (h3 a ha) ho)

theorem callFn_defineFn {w : World} {addr : Nat} {g : List F64 → Except EvErr F64} {f : Func}
    (h : f.func ≠ .dyn addr) (vs : List F64) : callFn (defineFn w addr g) f vs = callFn w f vs := by
  unfold callFn
  cases hf : f.func with
  | builtin b => exact run_world rfl rfl rfl b vs
  | static a => simp [defineFn]
  | dyn a => rw [hf] at h; simp [defineFn, h]

/-- One function: where a tree has a value with the closure, it has it without the closure
once the text stands in place of the calls. -/
theorem eval_expand {P : Func → Prop} {w : World} {d : Defn} {g : List F64 → Except EvErr F64} {m : HMap F64}
    (hb : ∀ n, Occurs n d.body → n ∈ d.params)
    (hP : ∀ f, P f → f.func = .dyn d.addr → f.nbArgs = some d.params.length)
    (hg : ∀ vs v, vs.length = d.params.length → g vs = .ok v →
      eval w (HMap.ofList (d.params.zip vs)) d.body = .ok v) :
    ∀ e, Proper P e → ∀ v, eval (defineFn w d.addr g) m e = .ok v → eval w m (expand d e) = .ok v := by
  intro e
  induction e using Elem.ind with
  | num x => intro _ v h; exact h
  | var n => intro _ v h; exact h
  | bin op l r hl hr =>
    intro h v hv
    cases h with | bin h1 h2 h3 =>
    have hbin : binF (defineFn w d.addr g) = binF w := by
      funext op a b; cases op <;> rfl
    rw [expand, eval]
    rw [eval, hbin] at hv
    cases hl' : eval (defineFn w d.addr g) m l with
    | error x => rw [hl'] at hv; cases hv
    | ok a =>
      cases hr' : eval (defineFn w d.addr g) m r with
      | error x => rw [hl', hr'] at hv; cases hv
      | ok b =>
        rw [hl', hr'] at hv
        rw [hl h2 _ hl', hr h3 _ hr']
        exact hv
  | un op e he =>
    intro h v hv
    cases h with | un h1 h2 =>
    rw [expand, eval]
    rw [eval] at hv
    cases he' : eval (defineFn w d.addr g) m e with
    | error x => rw [he'] at hv; cases hv
    | ok a =>
      rw [he'] at hv
      rw [he h2 _ he']
      exact hv
  | call f args ih =>
    intro h v hv
    cases h with | call h1 h2 h3 =>
    rw [eval] at hv
    cases ha : evalL (defineFn w d.addr g) m args with
    | error x => rw [ha] at hv; cases hv
    | ok vs =>
      rw [ha] at hv
      have hL : ∀ (es : List Elem), (∀ a ∈ es, a ∈ args) → ∀ us,
          evalL (defineFn w d.addr g) m es = .ok us → evalL w m (expandL d es) = .ok us := by
        intro es
        induction es with
        | nil => intro _ us h; exact h
        | cons a as iha =>
          intro hm us h
          rw [evalL] at h
          rw [expandL, evalL]
          cases ha' : eval (defineFn w d.addr g) m a with
          | error x => rw [ha'] at h; cases h
          | ok u =>
            cases has : evalL (defineFn w d.addr g) m as with
            | error x => rw [ha', has] at h; cases h
            | ok us' =>
              rw [ha', has] at h
              rw [ih a (hm a (by simp)) (h3 a (hm a (by simp))) _ ha',
                iha (fun b hb => hm b (by simp [hb])) _ has]
              exact h
      have hvs := hL args (fun _ h => h) vs ha
      rw [expand]
      by_cases hf : f.func = .dyn d.addr
      · rw [if_pos hf]
        have hal : args.length = d.params.length := h2.2 _ (hP f h1 hf)
        have hvl : vs.length = d.params.length := by rw [evalL_length _ _ _ ha, hal]
        have hgv : g vs = .ok v := by
          simp only [callFn, hf, defineFn, if_true] at hv
          cases hgv : g vs with
          | error x => rw [hgv] at hv; cases hv
          | ok u =>
            rw [hgv] at hv
            exact hv
        rw [eval_subst w m (HMap.ofList (d.params.zip vs)) _ _ ?_]
        · exact hg vs v hvl hgv
        · intro n hn
          have : ∃ u, HMap.ofList (d.params.zip vs) n = some u := by
            rw [ofList_isSome, zip_keys, hvl, List.take_length]
            exact hb n hn
          obtain ⟨u, hu⟩ := this
          refine ⟨u, hu, ?_⟩
          obtain ⟨i, h1, h2⟩ := ofList_some.1 hu
          obtain ⟨h3, h4⟩ := zip_getElem?.1 h1
          have hi : i < (expandL d args).length := by
            rw [expandL_length, hal]; exact (List.getElem?_eq_some_iff.1 h3).1
          have hai := List.getElem?_eq_getElem hi
          obtain ⟨u', hu1, hu2⟩ := evalL_getElem hvs i _ hai
          rw [h4] at hu1; cases hu1
          rw [argFor_assigns _ _ i n _ h3 hai ?_]
          · exact hu2
          · intro j hj hjl hnj
            have hjv : j < vs.length := by rw [hvl, ← hal, ← expandL_length d]; exact hjl
            exact h2 j hj vs[j] (zip_getElem?.2 ⟨hnj, List.getElem?_eq_getElem hjv⟩)
      · rw [if_neg hf, eval, hvs]
        dsimp only at hv ⊢
        rw [callFn_defineFn hf] at hv
        exact hv

theorem lookup_setFn {ctx : Context} {f h : Func} {nm : Bytes}
    (hl : lookup (ctx.setFn f) nm = .func h) : h = f ∨ lookup ctx nm = .func h := by
  unfold lookup Context.get Context.setFn HMap.get HMap.insert at *
  dsimp only at hl
  by_cases hn : nm = f.name
  · simp [hn, Ident.ofSymbol] at hl; exact .inl hl.symm
  · simp [hn] at hl
    exact .inr hl

theorem get_setFn {ctx : Context} {f h : Func} {nm : Bytes}
    (hl : (ctx.setFn f).get nm = some (.func h)) : h = f ∨ ctx.get nm = some (.func h) := by
  unfold Context.get Context.setFn HMap.get HMap.insert at *
  dsimp only at hl
  by_cases hn : nm = f.name
  · simp [hn] at hl; exact .inl hl.symm
  · simp [hn] at hl
    exact .inr hl

/-- In a library, names stand for functions of the first context or of the library. -/
theorem library_named {cfg : Cfg} {w₀ w : World} {ctx₀ ctx : Context} {ds : List Defn}
    (h : Library cfg w₀ ctx₀ ds w ctx) (f : Func) (hf : Named ctx f) : InLibrary ctx₀ ds f := by
  induction h with
  | start => exact .inl hf
  | @define ds w ctx o input e names l g name addr hL hr hn hm hk hb h1 h2 ih =>
    obtain ⟨nm, hl⟩ := hf
    rcases lookup_setFn hl with rfl | hl
    · exact .inr ⟨⟨addr, names, e.root⟩, by simp, rfl, rfl⟩
    · rcases ih ⟨nm, hl⟩ with h | ⟨d, hd, h, h'⟩
      · exact .inl h
      · exact .inr ⟨d, by simp [hd], h, h'⟩

theorem named_dyn {ctx : Context} {f : Func} {a : Nat} (h : Named ctx f) (hf : f.func = .dyn a) :
    ∃ nm, ctx.get nm = some (.func f) := by
  obtain ⟨nm, hl⟩ := h
  refine ⟨nm, ?_⟩
  unfold lookup at hl
  split at hl
  · rename_i s hs
    cases s with
    | var x => cases hl
    | func g => injection hl with hl; subst hl; exact hs
  · exfalso
    unfold Ident.fromStr at hl
    repeat' split at hl
    all_goals first
      | (injection hl with hl; subst hl; cases hf)
      | cases hl

/-- All functions of the context stay total while a library is built. -/
theorem library_total {cfg : Cfg} {w₀ w : World} {ctx₀ ctx : Context} {ds : List Defn}
    (h : Library cfg w₀ ctx₀ ds w ctx) (hw : CtxTotal w₀ ctx₀) : CtxTotal w ctx := by
  induction h with
  | start => exact hw
  | @define ds w ctx o input e names l g name addr hL hr hn hm hk hb h1 h2 ih =>
    intro nm f hf args ha
    rcases get_setFn hf with rfl | hf
    · obtain ⟨v, hv, _⟩ := C25_partial cfg w o ctx input e names l g ih hn hr hm hk hb args _
        (ha.2 _ rfl) (assigns_self names args)
      exact ⟨v, by simp [callFn, wrapped, defineFn, hv]⟩
    · have hne : f.func ≠ .dyn addr := by
        intro hd
        have hN : Named ctx f := ⟨nm, by unfold lookup; rw [hf]; rfl⟩
        rcases library_named hL f hN with h | ⟨d, hd', h, _⟩
        · obtain ⟨k, hk⟩ := named_dyn h hd
          exact h2 k f hk hd
        · rw [hd] at h; injection h with h
          exact h1 d hd' h.symm
      rw [callFn_defineFn hne]
      exact ih nm f hf args ha

theorem library_expand {cfg : Cfg} {w₀ w : World} {ctx₀ ctx : Context} {ds : List Defn}
    (h : Library cfg w₀ ctx₀ ds w ctx) (hw : CtxTotal w₀ ctx₀) :
    ∀ e, Proper (InLibrary ctx₀ ds) e →
      Proper (Named ctx₀) (expandAll ds e) ∧ (∀ k, Occurs k (expandAll ds e) → Occurs k e) ∧
      ∀ m v, eval w m e = .ok v → eval w₀ m (expandAll ds e) = .ok v := by
  induction h with
  | start =>
    intro e he
    refine ⟨proper_mono (fun f hf => ?_) e he, fun _ h => h, fun _ _ h => h⟩
    rcases hf with h | ⟨d, hd, _⟩
    · exact h
    · cases hd
  | @define ds w ctx o input e names l g name addr hL hr hn hm hk hb h1 h2 ih =>
    intro t ht
    have hbody : Proper (InLibrary ctx₀ ds) e.root :=
      proper_mono (library_named hL) _ (reach_proper hr hn)
    have hall := (C24_partial cfg w o ctx input e names l _ hr hm hk hb).1.1 ⟨g, rfl⟩
    have hvars : ∀ n, Occurs n e.root → n ∈ names := fun n hn => hall n ((reach_vars hr).2 n hn)
    have hP : ∀ f, InLibrary ctx₀ (⟨addr, names, e.root⟩ :: ds) f → f.func = .dyn addr →
        f.nbArgs = some names.length := by
      intro f hf hd
      rcases hf with hf | ⟨d, hd', h, h'⟩
      · obtain ⟨k, hk⟩ := named_dyn hf hd
        exact absurd hd (h2 k f hk)
      · rcases List.mem_cons.1 hd' with rfl | hd'
        · exact h'
        · rw [hd] at h; injection h with h
          exact absurd h.symm (h1 d hd')
    obtain ⟨i1, i2, i3⟩ := ih (expand ⟨addr, names, e.root⟩ t) (proper_expand hbody t ht)
    refine ⟨i1, fun k hk' => occurs_expand hvars hP t ht (i2 k hk'), fun m v hv => ?_⟩
    refine i3 m v (eval_expand hvars hP ?_ t ht v hv)
    intro vs u hl hg
    obtain ⟨u', hu1, hu2⟩ := C25_partial cfg w o ctx input e names l g (library_total hL hw) hn hr hm hk hb
      vs _ hl (assigns_self names vs)
    rw [hg] at hu1; cases hu1
    exact hu2

/-- C102: whatever library a user builds, an expression parsed with it has in every
environment that gives its variables values the value of the tree in which the functions
are replaced by their texts, down to the functions of the first context: nothing of the
library is called in that tree, and it needs no variables that the expression does not
have.  The world in which it is evaluated is the first one, without the closures. -/
theorem C102_partial (cfg : Cfg) (w₀ w : World) (ctx₀ ctx : Context) (ds : List Defn)
    (input : Bytes) (e : Xpr) (h : Library cfg w₀ ctx₀ ds w ctx) (hw : CtxTotal w₀ ctx₀)
    (hn : ¬ DoubleBang input) (he : Reach cfg w ctx input e) :
    Proper (Named ctx₀) (expandAll ds e.root) ∧
    (∀ k, Occurs k (expandAll ds e.root) → Occurs k e.root) ∧
    ∀ m, (∀ n, Occurs n e.root → ∃ v, m n = some v) →
      ∃ v, e.eval w m = .ok v ∧ eval w₀ m (expandAll ds e.root) = .ok v := by
  obtain ⟨h1, h2, h3⟩ := library_expand h hw e.root
    (proper_mono (library_named h) _ (reach_proper he hn))
  refine ⟨h1, h2, fun m hm => ?_⟩
  obtain ⟨v, hv⟩ := (C20_partial cfg w ctx input e m (library_total h hw) hn he).1.2 hm
  exact ⟨v, hv, h3 m v hv⟩

/-- C102 as stated includes texts with adjacent `!`, which may panic. -/
def C102_claim : Prop := ∀ (cfg : Cfg) (w₀ w : World) (ctx₀ ctx : Context) (ds : List Defn)
    (input : Bytes) (e : Xpr), Library cfg w₀ ctx₀ ds w ctx → CtxTotal w₀ ctx₀ →
    Reach cfg w ctx input e →
  ∀ m, (∀ n, Occurs n e.root → ∃ v, m n = some v) →
    ∃ v, e.eval w m = .ok v ∧ eval w₀ m (expandAll ds e.root) = .ok v

/-- The doubling function `2x + 1`. -/
def libX : Xpr := ⟨.bin .plus (.bin .times (.num (F64.ofNat 2)) (.var b!"x")) (.num F64.f1), [b!"x"]⟩
def libF : Func := wrapped b!"f" 5 [b!"x"]
def libG : Func := wrapped b!"g" 6 [b!"y", b!"x"]
def libF2 : Func := wrapped b!"f" 7 [b!"x"]
/-- `x f(f(y))`, with the first `f`. -/
def libY : Xpr := ⟨.bin .times (.var b!"x") (.call libF [.call libF [.var b!"y"]]), [b!"x", b!"y"]⟩
/-- `f(x) + 1`, with the first `f`; it becomes the second `f`. -/
def libZ : Xpr := ⟨.bin .plus (.call libF [.var b!"x"]) (.num F64.f1), [b!"x"]⟩
/-- `g(3, z) - f(z)` with the second `f`. -/
def libE : Xpr := ⟨.bin .minus (.call libG [.num (F64.ofNat 3), .var b!"z"]) (.call libF2 [.var b!"z"]), [b!"z"]⟩

/-- The closures. -/
def libClosure (w : World) (e : Xpr) (names : List Bytes) : List F64 → Except EvErr F64 :=
  match e.bindNRuntime cfgPlain w Oracle.id names with
  | .ok g => g
  | _ => fun _ => .error (.panic .user)
def libW1 : World := defineFn w0 5 (libClosure w0 libX [b!"x"])
def libW2 : World := defineFn libW1 6 (libClosure libW1 libY [b!"y", b!"x"])
def libW3 : World := defineFn libW2 7 (libClosure libW2 libZ [b!"x"])
def libC1 : Context := Context.default.setFn libF
def libC2 : Context := libC1.setFn libG
def libC3 : Context := libC2.setFn libF2
def libDs : List Defn := [⟨7, [b!"x"], libZ.root⟩, ⟨6, [b!"y", b!"x"], libY.root⟩, ⟨5, [b!"x"], libX.root⟩]

theorem noBang {l : Bytes} (h : c!"!" ∉ l) : ¬ DoubleBang l := by
  rintro ⟨a, ws, b, _, rfl⟩
  exact h (by simp)

theorem missing_nil {e : Xpr} {names : List Bytes} (h : ∀ v ∈ e.vars, v ∈ names) : Missing e names [] :=
  ⟨List.nodup_nil, fun v => ⟨fun hv => absurd hv (by simp), fun hv => absurd (h v hv.1) hv.2⟩⟩

/-- A library of three functions, each using the ones before; the last takes the name of
the first. -/
theorem library_three : Library cfgPlain w0 Context.default libDs libW3 libC3 := by
  have hx : parse cfgPlain w0 Oracle.id Context.default b!"2x + 1" = .ok libX := by decide +kernel
  have hy : parse cfgPlain libW1 Oracle.id libC1 b!"x f(f(y))" = .ok libY := by decide +kernel
  have hz : parse cfgPlain libW2 Oracle.id libC2 b!"f(x) + 1" = .ok libZ := by decide +kernel
  have l1 : Library cfgPlain w0 Context.default [⟨5, [b!"x"], libX.root⟩] libW1 libC1 :=
    .define (l := []) (o := Oracle.id) .start (.parsed (o := Oracle.id) hx) (noBang (by decide)) (missing_nil (by decide))
      (by simp) (.runtime [b!"x"]) (by simp) (by intro nm f h; cases h)
  have l2 : Library cfgPlain w0 Context.default [⟨6, [b!"y", b!"x"], libY.root⟩, ⟨5, [b!"x"], libX.root⟩]
      libW2 libC2 :=
    .define (l := []) (o := Oracle.id) l1 (.parsed (o := Oracle.id) hy) (noBang (by decide)) (missing_nil (by decide))
      (by simp) (.runtime [b!"y", b!"x"]) (by simp) (by intro nm f h; cases h)
  exact .define (l := []) (o := Oracle.id) l2 (.parsed (o := Oracle.id) hz) (noBang (by decide)) (missing_nil (by decide))
      (by simp) (.runtime [b!"x"]) (by simp) (by intro nm f h; cases h)

/-- `g(3, z) - f(z)` is `z (2 (2 3 + 1) + 1) - ((2z + 1) + 1)`. -/
example : parse cfgPlain libW3 Oracle.id libC3 b!"g(3, z) - f(z)" = .ok libE ∧
    expandAll libDs libE.root =
      .bin .minus (.bin .times (.var b!"z") (.bin .plus (.bin .times (.num (F64.ofNat 2))
          (.bin .plus (.bin .times (.num (F64.ofNat 2)) (.num (F64.ofNat 3))) (.num F64.f1))) (.num F64.f1)))
        (.bin .plus (.bin .plus (.bin .times (.num (F64.ofNat 2)) (.var b!"z")) (.num F64.f1)) (.num F64.f1)) ∧
    libE.eval libW3 (HMap.ofList [(b!"z", F64.ofNat 2)]) = .ok (F64.ofNat 24) := by
  refine ⟨by decide +kernel, by decide +kernel, by decide +kernel⟩

theorem C102_refuted : ¬ C102_claim := by
  intro h
  have h1 : parse cfgPlain libW3 Oracle.id libC3 b!"3!!z" =
      .ok ⟨.bin .factorial (.un .factorial (.num (F64.ofNat 3))) (.var b!"z"), [b!"z"]⟩ := by
    decide +kernel
  obtain ⟨v, hv, _⟩ := h cfgPlain w0 libW3 Context.default libC3 libDs _ _ library_three (ctxTotal_default w0)
    (.parsed (o := Oracle.id) h1) (fun _ => some F64.f1) (fun _ _ => ⟨_, rfl⟩)
  have h2 : Xpr.eval libW3 ⟨.bin .factorial (.un .factorial (.num (F64.ofNat 3))) (.var b!"z"), [b!"z"]⟩
    (fun _ => some F64.f1) = .error (.panic .unreachable) := by decide +kernel
  rw [h2] at hv; cases hv

end Props
end Xprs
