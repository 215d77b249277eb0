import Verif.Lemmas.Calls
import Verif.Lemmas.Places
import Verif.Props.Parsing
/-
C63: functions with a memory.  `Verif/Effects.lean` is the same code with functions whose
calls read and change a memory; the vocabulary is in `Verif/Spec/Effects.lean`.
-/
namespace Xprs
namespace Props
open Spec

section
variable {σ : Type} {w : World} {u : Stateful σ}

theorem sim_memoryless (h : Memoryless w u) : SimFns (fun _ (_ : Unit) => True) u (forgetful w) :=
  fun p args t _ _ => ⟨h p args t, trivial⟩

/-- Functions without memory: the model with memory is the model without. -/
theorem C63_pure (h : Memoryless w u) (cfg : Cfg) (o : Oracle) (ctx : Context) (t : σ) :
    (∀ input, (parseS cfg w u o ctx input t).1 = parse cfg w o ctx input) ∧
    (∀ (e : Xpr) m, (e.evalS w u m t).1 = e.eval w m) ∧
    ∀ (e : Xpr) x v, (e.simplifyForS cfg w u x v t).1 = e.simplifyFor cfg w x v := by
  have hs := sim_memoryless h
  refine ⟨fun input => ?_, fun e m => ?_, fun e x v => ?_⟩
  · have := (parseS_sim (cfg := cfg) (w := w) (w' := w) o ctx
      (fun el s t t' _ => finishS_sim (w := w) hs cfg el s (t := t) (t' := t') trivial) input (t := t) (t' := ()) trivial).1
    rw [this, parseS_forgetful]
  · have := (evalS_sim (w := w) hs m e.root (t := t) (t' := ()) trivial).1
    show (evalS w u m e.root t).1 = _
    rw [this, evalS_forgetful]
    rfl
  · have := (simplifyForS_sim (w := w) hs cfg x v e.root (t := t) (t' := ()) trivial).1
    rw [simplifyForS_forgetful] at this
    show (Xpr.simplifyForS cfg w u e x v t).1 = _
    unfold Xpr.simplifyForS Xpr.simplifyFor
    revert this
    rcases _root_.Xprs.simplifyForS cfg w u x v e.root t with ⟨p | e', t'⟩ <;> intro this <;>
      have this := this.symm <;> dsimp only at this <;> rw [this]

/-- Keeping a record of the calls has no influence on what happens. -/
theorem C63_observed (cfg : Cfg) (w : World) (u : Stateful σ) (o : Oracle) (ctx : Context) (t : σ)
    (l : List Call) :
    (∀ input, (parseS cfg w (recording u) o ctx input (t, l)).1 = (parseS cfg w u o ctx input t).1 ∧
      (parseS cfg w (recording u) o ctx input (t, l)).2.1 = (parseS cfg w u o ctx input t).2) ∧
    (∀ (e : Xpr) m, (e.evalS w (recording u) m (t, l)).1 = (e.evalS w u m t).1 ∧
      (e.evalS w (recording u) m (t, l)).2.1 = (e.evalS w u m t).2) := by
  have hs : SimFns (fun (a : σ × List Call) b => a.1 = b) (recording u) u := by
    rintro p args ⟨t, l⟩ t' h
    cases h
    exact ⟨rfl, rfl⟩
  refine ⟨fun input => ?_, fun e m => ?_⟩
  · exact parseS_sim (cfg := cfg) (w := w) (w' := w) o ctx
      (fun el s t t' h => finishS_sim (w := w) hs cfg el s t t' h) input (t := (t, l)) (t' := t) rfl
  · exact evalS_sim (w := w) hs m e.root (t := (t, l)) (t' := t) rfl

/-- An evaluation calls the functions of the tree in order, arguments first, left before
right, each place once.  The memory goes from call to call.  The value is that of the
operators and the answers received.  A failing evaluation stops somewhere in that order. -/
theorem C63_eval (w : World) (u : Stateful σ) (e : Xpr) (m : HMap F64) (t : σ) (l : List Call) :
    ∃ k, (e.evalS w (recording u) m (t, l)).2.2 = l ++ k ∧
      Outcomes u t k (e.evalS w (recording u) m (t, l)).2.1 ∧
      k.map (·.fn) <+: userCalls e.root ∧
      ∀ v, (e.evalS w (recording u) m (t, l)).1 = .ok v →
        k.map (·.fn) = userCalls e.root ∧ Evaluates w m e.root k v :=
  evalS_trace e.root (t, l)

/-- The unchecked evaluation makes the same calls and yields the same value, whether the
functions have a memory or not. -/
theorem C63_unchecked (w : World) (u : Stateful σ) (e : Xpr) (m : HMap F64) (t : σ) :
    (e.evalS w u m t).2 = (e.evalUncheckedS w u m t).2 ∧
    ∀ v, (e.evalS w u m t).1 = .ok v ↔ (e.evalUncheckedS w u m t).1 = .ok v :=
  evalS_alike u e.root t

/-- Without the feature `compile-time-optimizations` parsing calls no function. -/
theorem C63_silent (cfg : Cfg) (hc : cfg.opt = false) (w : World) (u : Stateful σ) (o : Oracle)
    (ctx : Context) (input : Bytes) (t : σ) : (parseS cfg w u o ctx input t).2 = t := by
  have := parseS_sim (Rel := fun a (_ : σ) => a = t) (u := u) (u' := u) (cfg := cfg) (w := w) (w' := w) o ctx
    (fun el s t1 t2 h => by
      unfold finishS
      rw [hc]
      exact ⟨rfl, h⟩) input (t := t) (t' := t) rfl
  exact this.2

/-- How often the function `p` was called. -/
def called (p : FnPtr) (l : List Call) : Nat := l.countP fun c => decide (c.fn = p)

/-- In every build: the calls of `p` made while parsing and those left in the expression
together are at most the calls of `p` written in the text. -/
theorem C63_budget (cfg : Cfg) (w : World) (u : Stateful σ) (o : Oracle) (ctx : Context) (p : FnPtr)
    (input : Bytes) (t : σ) (l : List Call) :
    called p (parseS cfg w (recording u) o ctx input (t, l)).2.2 ≤ called p l + callPlaces ctx p input ∧
    ∀ x, (parseS cfg w (recording u) o ctx input (t, l)).1 = .ok x →
      called p (parseS cfg w (recording u) o ctx input (t, l)).2.2 + (userCalls x.root).count p ≤
        called p l + callPlaces ctx p input :=
  parseS_paid ctx p cfg w u o input (t, l)

theorem finOf_plain (cfg : Cfg) (hc : cfg.opt = false) (w : World) : finOf cfg w = .ok := by
  funext e; rw [finOf, hc]; rfl

theorem meaning_plain {ctx : Context} {c : Cst} {e : Elem} (h : c.meaning .ok ctx = .ok e) :
    c.den .ok ctx = .ok e := by
  rw [Cst.meaning] at h
  cases hd : c.den .ok ctx with
  | error p => rw [hd] at h; cases h
  | ok e' => rw [hd] at h; exact h

/-- Without the feature the functions have no influence on parsing. -/
theorem C63_plain_parse (cfg : Cfg) (hc : cfg.opt = false) (w : World) (u : Stateful σ) (o : Oracle)
    (ctx : Context) (input : Bytes) (t : σ) : (parseS cfg w u o ctx input t).1 = parse cfg w o ctx input := by
  have := (parseS_sim (Rel := fun _ _ => True) (u := u) (u' := forgetful w) (cfg := cfg) (w := w) (w' := w) o ctx
    (fun el s t1 t2 h => by
      unfold finishS
      rw [hc]
      exact ⟨rfl, h⟩) input (t := t) (t' := ()) trivial).1
  rw [this, parseS_forgetful]

/-- Without the feature, a parsed tree has exactly the calls that are written: one for
each token that names a user function. -/
theorem C63_exact (cfg : Cfg) (hc : cfg.opt = false) (w : World) (u : Stateful σ) (o : Oracle) (ctx : Context)
    (input : Bytes) (ts : List Bytes) (t t' : σ) (x : Xpr) (hl : Lex input ts)
    (h : parseS cfg w u o ctx input t = (.ok x, t')) :
    (userCalls x.root).Perm (ts.filterMap (userFn ctx)) := by
  have h := (C63_plain_parse cfg hc w u o ctx input t).symm.trans (congrArg Prod.fst h)
  obtain ⟨c, tw, rfl, h2, h3, h4, _⟩ := parseImpl_ok (parse_ok h)
  rw [finOf_plain cfg hc w] at h3 h4
  rw [lex_unique hl (lex_text.1 c tw [] h3 (.nil h2)), List.append_nil]
  rw [den_userCalls.1 c tw x.root h3 (meaning_plain h4)]
  exact toks_calls.1 c tw h3

/-- They are called in the order in which they are written, each after its arguments. -/
theorem C63_order (cfg : Cfg) (hc : cfg.opt = false) (w : World) (u : Stateful σ) (o : Oracle) (ctx : Context)
    (input : Bytes) (t t' : σ) (x : Xpr) (h : parseS cfg w u o ctx input t = (.ok x, t')) :
    ∃ (c : Cst) (tw : Bytes), input = c.text ++ tw ∧ spaces tw ∧ c.wf cfg .ok ctx tw ∧
      userCalls x.root = c.calls ctx := by
  have h := (C63_plain_parse cfg hc w u o ctx input t).symm.trans (congrArg Prod.fst h)
  obtain ⟨c, tw, rfl, h2, h3, h4, _⟩ := parseImpl_ok (parse_ok h)
  rw [finOf_plain cfg hc w] at h3 h4
  exact ⟨c, tw, rfl, h2, h3, den_userCalls.1 c tw x.root h3 (meaning_plain h4)⟩

/-- `simplify_for` makes no more calls of `p` than it removes from the expression. -/
theorem C63_simplify_for (cfg : Cfg) (w : World) (u : Stateful σ) (p : FnPtr) (e : Xpr) (x : Bytes) (v : F64)
    (t : σ) (l : List Call) :
    called p (e.simplifyForS cfg w (recording u) x v (t, l)).2.2 ≤ called p l + (userCalls e.root).count p ∧
    ∀ e', (e.simplifyForS cfg w (recording u) x v (t, l)).1 = .ok e' →
      called p (e.simplifyForS cfg w (recording u) x v (t, l)).2.2 + (userCalls e'.root).count p ≤
        called p l + (userCalls e.root).count p := by
  have h := simplifyForS_within p cfg (w := w) (u := u) x v e.root (t, l)
  unfold Xpr.simplifyForS
  revert h
  rcases _root_.Xprs.simplifyForS cfg w (recording u) x v e.root (t, l) with ⟨r | e', t'⟩ <;> intro h
  · exact ⟨h, fun e' he => by cases he⟩
  · have h : called p t'.2 + (userCalls e').count p ≤ called p l + (userCalls e.root).count p := h
    refine ⟨by show called p t'.2 ≤ _; omega, fun e2 he => ?_⟩
    cases he
    exact h

theorem called_append (p : FnPtr) (l k : List Call) : called p (l ++ k) = called p l + (k.map (·.fn)).count p := by
  unfold called
  rw [List.countP_append, List.count, List.countP_map]
  congr 1

/-- The record only grows. -/
theorem simplifyFor_record (cfg : Cfg) (w : World) (u : Stateful σ) (e : Xpr) (x : Bytes) (v : F64)
    (t : σ × List Call) : ∃ k, (e.simplifyForS cfg w (recording u) x v t).2.2 = t.2 ++ k := by
  have hs : SimFns (fun (a b : σ × List Call) => a.1 = b.1 ∧ a.2 = t.2 ++ b.2) (recording u) (recording u) := by
    rintro p args ⟨t1, l⟩ ⟨t', l'⟩ ⟨h1, h2⟩
    cases h1
    cases h2
    exact ⟨rfl, rfl, by simp [recording]⟩
  have := (simplifyForS_sim (w := w) hs cfg x v e.root (t := t) (t' := (t.1, [])) ⟨rfl, by simp⟩).2.2
  refine ⟨_, Eq.trans ?_ this⟩
  unfold Xpr.simplifyForS
  rcases _root_.Xprs.simplifyForS cfg w (recording u) x v e.root t with ⟨r | e', t'⟩ <;> rfl

/-- What can be done with an expression. -/
inductive Act where
  | eval (m : HMap F64)
  | simplifyFor (x : Bytes) (v : F64)

/-- Doing it all in a row, and going on with the expression as it is left. -/
def acts (cfg : Cfg) (w : World) (u : Stateful σ) : List Act → Xpr → σ → σ
  | [], _, t => t
  | .eval m :: as, e, t => acts cfg w u as e (e.evalS w u m t).2
  | .simplifyFor x v :: as, e, t =>
    match e.simplifyForS cfg w u x v t with
    | (.ok e', t') => acts cfg w u as e' t'
    | (.error _, t') => t'

/-- The number of evaluations. -/
def evals : List Act → Nat
  | [] => 0
  | .eval _ :: as => evals as + 1
  | .simplifyFor _ _ :: as => evals as

theorem acts_called (cfg : Cfg) (w : World) (u : Stateful σ) (p : FnPtr) : ∀ (as : List Act) (e : Xpr)
    (t : σ × List Call), called p (acts cfg w (recording u) as e t).2 ≤
      called p t.2 + (evals as + 1) * (userCalls e.root).count p
  | [], e, t => by simp [acts]
  | .eval m :: as, e, t => by
    obtain ⟨k, h1, _, h2, _⟩ := C63_eval w u e m t.1 t.2
    have ih := acts_called cfg w u p as e (e.evalS w (recording u) m t).2
    rw [acts]
    have h1 : (e.evalS w (recording u) m t).2.2 = t.2 ++ k := h1
    rw [h1, called_append] at ih
    have := h2.sublist.count_le p
    refine Nat.le_trans ih ?_
    rw [evals]
    nlinarith
  | .simplifyFor x v :: as, e, t => by
    obtain ⟨h1, h2⟩ := C63_simplify_for cfg w u p e x v t.1 t.2
    rw [acts, evals]
    obtain ⟨k, h4⟩ := simplifyFor_record cfg w u e x v t
    revert h1 h2 h4
    show called p (e.simplifyForS cfg w (recording u) x v t).2.2 ≤ _ → (∀ e',
      (e.simplifyForS cfg w (recording u) x v t).1 = .ok e' → _) → _ → _
    rcases e.simplifyForS cfg w (recording u) x v t with ⟨r | e', t'⟩ <;> intro h1 h2 h4
    · dsimp only at h1 ⊢
      nlinarith
    · have ih := acts_called cfg w u p as e' t'
      have h2 : called p t'.2 + (userCalls e'.root).count p ≤ called p t.2 + (userCalls e.root).count p := h2 e' rfl
      have h1 : called p t'.2 ≤ called p t.2 + (userCalls e.root).count p := h1
      refine Nat.le_trans ih ?_
      have h4 : t'.2 = t.2 ++ k := h4
      have h5 := called_append p t.2 k
      rw [← h4] at h5
      have h6 : (userCalls e'.root).count p ≤ (userCalls e.root).count p := by omega
      have h7 := Nat.mul_le_mul_left (evals as) h6
      rw [Nat.add_mul, Nat.add_mul]
      omega

/-- The whole life of an expression, in every build: parsing it, and then evaluating it
and simplifying it for variables in any order, calls the function `p` at most once for
each place in the text where it is written and each evaluation, and once more for each
place. -/
theorem C63_life (cfg : Cfg) (w : World) (u : Stateful σ) (o : Oracle) (ctx : Context) (p : FnPtr)
    (input : Bytes) (t t' : σ × List Call) (x : Xpr)
    (h : parseS cfg w (recording u) o ctx input t = (.ok x, t')) (as : List Act) :
    called p (acts cfg w (recording u) as x t').2 ≤ called p t.2 + (evals as + 1) * callPlaces ctx p input := by
  obtain ⟨h1, h2⟩ := C63_budget cfg w u o ctx p input t.1 t.2
  have h2 := h2 x (by show (parseS cfg w (recording u) o ctx input t).1 = _; rw [h])
  have h2 : called p (parseS cfg w (recording u) o ctx input t).2.2 + (userCalls x.root).count p ≤ _ := h2
  rw [h] at h2
  have h2 : called p t'.2 + (userCalls x.root).count p ≤ called p t.2 + callPlaces ctx p input := h2
  have h3 := acts_called cfg w u p as x t'
  have h4 : ∃ k, t'.2 = t.2 ++ k := by
    have hs : SimFns (fun (a b : σ × List Call) => a.1 = b.1 ∧ a.2 = t.2 ++ b.2) (recording u) (recording u) := by
      rintro p args ⟨t1, l⟩ ⟨t', l'⟩ ⟨h1, h2⟩
      cases h1
      cases h2
      exact ⟨rfl, rfl, by simp [recording]⟩
    have := (parseS_sim (cfg := cfg) (w := w) (w' := w) o ctx
      (fun el s t t' h => finishS_sim (w := w) hs cfg el s t t' h) input (t := t) (t' := (t.1, []))
      ⟨rfl, by simp⟩).2.2
    rw [h] at this
    exact ⟨_, this⟩
  obtain ⟨k, h4⟩ := h4
  have h5 := called_append p t.2 k
  rw [← h4] at h5
  have h6 : (userCalls x.root).count p ≤ callPlaces ctx p input := by omega
  have h7 := Nat.mul_le_mul_left (evals as) h6
  rw [Nat.add_mul] at h3 ⊢
  omega

end

/-- The claim that parsing calls no function. -/
def C63_silent_claim : Prop :=
  ∀ (σ : Type) (cfg : Cfg) (w : World) (u : Stateful σ) (o : Oracle) (ctx : Context) (input : Bytes) (t : σ),
    (parseS cfg w u o ctx input t).2 = t

/-- The claim that a call written at the beginning of the text is made while parsing or
is there to be made by evaluations. -/
def C63_every_claim : Prop :=
  ∀ (σ : Type) (cfg : Cfg) (w : World) (u : Stateful σ) (o : Oracle) (ctx : Context) (p : FnPtr) (input : Bytes)
    (t t' : σ) (x : Xpr), parseS cfg w (recording u) o ctx input (t, []) = (.ok x, t', []) →
    CallsAt ctx p input → p ∈ userCalls x.root

/-- A function that counts its calls and answers with the number of calls so far. -/
def counter : Stateful Nat := ⟨fun _ _ n => (some (F64.ofNat n), n + 1)⟩
/-- The default context and the function `f` of one argument. -/
def ctxCount : Context := Context.default.setFn ⟨b!"f", .dyn 1, some 1⟩

/-- It is false: the optimising build calls the function while it parses `f(1)`. -/
theorem C63_silent_refuted : ¬ C63_silent_claim := by
  intro h
  have e : (parseS cfgOpt w0 counter Oracle.id ctxCount b!"f(1)" 5).2 = 6 := by decide +kernel
  rw [h] at e
  cases e

theorem callsAt_count (b : Bytes) : CallsAt ctxCount (.dyn 1) (c!"f" :: c!"(" :: b) :=
  ⟨b!"f", [], b, ⟨b!"f", .dyn 1, some 1⟩, rfl,
    ⟨⟨c!"f", rfl, by decide⟩, by decide, fun c hc => by cases hc; decide⟩, by decide, rfl, rfl⟩

/-- It is false: `f(x)-f(x)` is 0 for the optimising build. -/
theorem C63_every_refuted : ¬ C63_every_claim := by
  intro h
  have e : parseS cfgOpt w0 (recording counter) Oracle.id ctxCount b!"f(x)-f(x)" (5, []) =
      (.ok ⟨.num F64.f0, []⟩, 5, []) := rfl
  have := h Nat cfgOpt w0 counter Oracle.id ctxCount (.dyn 1) b!"f(x)-f(x)" 5 5 _ e (callsAt_count _)
  cases this

/-- In the optimising build `f(1)` calls `f` once, and later evaluations do not call it
again: the value is frozen.  It is also called if the text is then rejected. -/
example : parseS cfgOpt w0 counter Oracle.id ctxCount b!"f(1)+x" 5 =
      (.ok ⟨.bin .plus (.num (F64.ofNat 5)) (.var b!"x"), [b!"x"]⟩, 6) ∧
    (parseS cfgOpt w0 counter Oracle.id ctxCount b!"f(1) )" 5).2 = 6 ∧
    parseS cfgPlain w0 counter Oracle.id ctxCount b!"f(1) )" 5 = (.err ⟨.unexpectedToken c!")", 5, 0⟩, 5) := by
  decide +kernel
/-- `f(x)-f(x)` calls nothing in the optimising build and is 0; in the plain build the
function is called twice, and the difference of the two answers is -1. -/
example : parseS cfgOpt w0 counter Oracle.id ctxCount b!"f(x)-f(x)" 5 = (.ok ⟨.num F64.f0, []⟩, 5) ∧
    (match parseS cfgPlain w0 counter Oracle.id ctxCount b!"f(x)-f(x)" 5 with
      | (.ok x, t) => x.evalS w0 counter (fun _ => some F64.f1) t
      | _ => (.ok F64.f0, 0)) = (.ok (F64.neg F64.f1), 7) := by decide +kernel
/-- The order of the calls: in `f(f(x))-f(2)` the inner one is the first and `f(2)` the
last: 6 - 7. -/
example : (match parseS cfgPlain w0 counter Oracle.id ctxCount b!"f(f(x))-f(2)" 5 with
      | (.ok x, t) => x.evalS w0 counter (fun _ => some F64.f1) t
      | _ => (.ok F64.f0, 0)) = (.ok (F64.neg F64.f1), 8) := by decide +kernel
/-- An evaluation that fails half way: `f(1)+y` without a value for `y`. -/
example : (match parseS cfgPlain w0 counter Oracle.id ctxCount b!"f(1)+y" 5 with
      | (.ok x, t) => x.evalS w0 counter (fun _ => none) t
      | _ => (.ok F64.f0, 0)) = (.error (.missing b!"y"), 6) := by decide +kernel
/-- The tokens of `f(f(x))-f(2)`: three name `f`. -/
example : b!"f(f(x))-f(2)" = [c!"f", c!"(", c!"f", c!"(", c!"x", c!")", c!")", c!"-", c!"f", c!"(", c!"2", c!")"] ∧
    [b!"f", b!"(", b!"f", b!"(", b!"x", b!")", b!")", b!"-", b!"f", b!"(", b!"2", b!")"].filterMap (userFn ctxCount) =
      [.dyn 1, .dyn 1, .dyn 1] := by decide +kernel
/-- The functions of `w0` as functions of a memory that they ignore. -/
example : Memoryless w0 (⟨fun p args n => (w0.user p args, n + 1)⟩ : Stateful Nat) := fun _ _ _ => rfl
/-- One place in `f(1)`, so that no more than one call is made: it is made while parsing. -/
example : (parseS cfgOpt w0 counter Oracle.id ctxCount b!"f(1)" 0).2 = 1 ∧ 1 ≤ callPlaces ctxCount (.dyn 1) b!"f(1)" :=
  ⟨by decide +kernel,
    Nat.le_trans (Nat.le_add_left _ _) ((callPlaces_cons ctxCount (.dyn 1) _ _).2 (callsAt_count _))⟩

end Props
end Xprs
