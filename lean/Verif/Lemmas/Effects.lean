import Verif.Spec.Effects
import Verif.Lemmas.Lexer
import Verif.Lemmas.Simplify
/-
Functions with memory: simulation between two memories, and counting calls.
-/
namespace Xprs
open Spec
set_option linter.unusedSimpArgs false

variable {σ τ : Type}

/-! ### Simulation -/

/-- The same result, and related memories. -/
def Sim {α : Type} (Rel : σ → τ → Prop) (x : α × σ) (y : α × τ) : Prop := x.1 = y.1 ∧ Rel x.2 y.2

section
variable {Rel : σ → τ → Prop} {u : Stateful σ} {u' : Stateful τ} {w : World}

/-- Functions that answer alike in related memories, and keep them related. -/
def SimFns (Rel : σ → τ → Prop) (u : Stateful σ) (u' : Stateful τ) : Prop :=
  ∀ p args t t', Rel t t' → Sim Rel (u.call p args t) (u'.call p args t')

theorem callS_sim (hu : SimFns Rel u u') (f : Func) (args : List F64) {t : σ} {t' : τ} (h : Rel t t') :
    Sim Rel (callS w u f args t) (callS w u' f args t') := by
  unfold callS
  have key : ∀ p, Sim Rel
      (match u.call p args t with | (some v, t') => (Except.ok v, t') | (none, t') => (Except.error Panic.user, t'))
      (match u'.call p args t' with | (some v, t') => (Except.ok v, t') | (none, t') => (Except.error Panic.user, t')) := by
    intro p
    have := hu p args t t' h
    rcases h1 : u.call p args t with ⟨a, b⟩
    rcases h2 : u'.call p args t' with ⟨a', b'⟩
    rw [h1, h2] at this
    obtain ⟨k1, k2⟩ := this
    cases a with
    | none => cases (show none = a' from k1); exact ⟨rfl, k2⟩
    | some v => cases (show some v = a' from k1); exact ⟨rfl, k2⟩
  cases f.func with
  | builtin b => exact ⟨rfl, h⟩
  | static a => exact key _
  | dyn a => exact key _

/-- Two runs that agree so far: either both have failed, or both go on. -/
theorem Sim.elim {α ε : Type} {x : Except ε α × σ} {y : Except ε α × τ} (h : Sim Rel x y) :
    (∃ r t t', x = (.error r, t) ∧ y = (.error r, t') ∧ Rel t t') ∨
    ∃ a t t', x = (.ok a, t) ∧ y = (.ok a, t') ∧ Rel t t' := by
  rcases x with ⟨r | a, t⟩ <;> rcases y with ⟨r' | a', t'⟩ <;> obtain ⟨h1, h2⟩ := h <;> cases h1
  · exact .inl ⟨_, _, _, rfl, rfl, h2⟩
  · exact .inr ⟨_, _, _, rfl, rfl, h2⟩

mutual
theorem evalS_sim (hu : SimFns Rel u u') (m : HMap F64) : ∀ (e : Elem) {t : σ} {t' : τ}, Rel t t' →
    Sim Rel (evalS w u m e t) (evalS w u' m e t')
  | .num x, t, t', h => ⟨rfl, h⟩
  | .var n, t, t', h => by
    rw [evalS, evalS]
    cases m.get n <;> exact ⟨rfl, h⟩
  | .un op e, t, t', h => by
    rw [evalS, evalS]
    rcases (evalS_sim hu m e h).elim with ⟨r, k, k', h1, h2, h3⟩ | ⟨r, k, k', h1, h2, h3⟩ <;>
      rw [h1, h2] <;> exact ⟨rfl, h3⟩
  | .bin op l r, t, t', h => by
    rw [evalS, evalS]
    rcases (evalS_sim hu m l h).elim with ⟨r, k, k', h1, h2, h3⟩ | ⟨r, k, k', h1, h2, h3⟩ <;>
      rw [h1, h2]
    · exact ⟨rfl, h3⟩
    · dsimp only
      rcases (evalS_sim hu m _ h3).elim with ⟨r, k, k', h1, h2, h3⟩ | ⟨r, k, k', h1, h2, h3⟩ <;>
        rw [h1, h2] <;> exact ⟨rfl, h3⟩
  | .call f args, t, t', h => by
    rw [evalS, evalS]
    rcases (evalSL_sim hu m args h).elim with ⟨r, k, k', h1, h2, h3⟩ | ⟨r, k, k', h1, h2, h3⟩ <;>
      rw [h1, h2]
    · exact ⟨rfl, h3⟩
    · have := callS_sim (w := w) hu f r h3
      exact ⟨congrArg liftP this.1, this.2⟩
theorem evalSL_sim (hu : SimFns Rel u u') (m : HMap F64) : ∀ (l : List Elem) {t : σ} {t' : τ}, Rel t t' →
    Sim Rel (evalSL w u m l t) (evalSL w u' m l t')
  | [], t, t', h => ⟨rfl, h⟩
  | a :: as, t, t', h => by
    rw [evalSL, evalSL]
    rcases (evalS_sim hu m a h).elim with ⟨r, k, k', h1, h2, h3⟩ | ⟨r, k, k', h1, h2, h3⟩ <;>
      rw [h1, h2]
    · exact ⟨rfl, h3⟩
    · dsimp only
      rcases (evalSL_sim hu m as h3).elim with ⟨r, k, k', h1, h2, h3⟩ | ⟨r, k, k', h1, h2, h3⟩ <;>
        rw [h1, h2] <;> exact ⟨rfl, h3⟩
end

theorem simpCallS_sim (hu : SimFns Rel u u') (f : Func) (args : List Elem) {t : σ} {t' : τ} (h : Rel t t') :
    Sim Rel (simpCallS w u f args t) (simpCallS w u' f args t') := by
  unfold simpCallS
  have := callS_sim (w := w) hu f (numsOf args) h
  split
  · exact ⟨congrArg (Except.map Elem.num) this.1, this.2⟩
  · exact ⟨rfl, h⟩

mutual
theorem simplifyS_sim (hu : SimFns Rel u u') (cfg : Cfg) : ∀ (e : Elem) {t : σ} {t' : τ}, Rel t t' →
    Sim Rel (simplifyS cfg w u e t) (simplifyS cfg w u' e t')
  | .num x, t, t', h => ⟨rfl, h⟩
  | .var n, t, t', h => ⟨rfl, h⟩
  | .un op e, t, t', h => by
    rw [simplifyS, simplifyS]
    rcases (simplifyS_sim hu cfg e h).elim with ⟨r, k, k', h1, h2, h3⟩ | ⟨r, k, k', h1, h2, h3⟩ <;>
      rw [h1, h2] <;> exact ⟨rfl, h3⟩
  | .bin op l r, t, t', h => by
    rw [simplifyS, simplifyS]
    rcases (simplifyS_sim hu cfg l h).elim with ⟨r, k, k', h1, h2, h3⟩ | ⟨r, k, k', h1, h2, h3⟩ <;>
      rw [h1, h2]
    · exact ⟨rfl, h3⟩
    · dsimp only
      rcases (simplifyS_sim hu cfg _ h3).elim with ⟨r, k, k', h1, h2, h3⟩ | ⟨r, k, k', h1, h2, h3⟩ <;>
        rw [h1, h2] <;> exact ⟨rfl, h3⟩
  | .call f args, t, t', h => by
    rw [simplifyS, simplifyS]
    rcases (simplifySL_sim hu cfg args h).elim with ⟨r, k, k', h1, h2, h3⟩ | ⟨r, k, k', h1, h2, h3⟩ <;>
      rw [h1, h2]
    · exact ⟨rfl, h3⟩
    · exact simpCallS_sim hu f r h3
theorem simplifySL_sim (hu : SimFns Rel u u') (cfg : Cfg) : ∀ (l : List Elem) {t : σ} {t' : τ}, Rel t t' →
    Sim Rel (simplifySL cfg w u l t) (simplifySL cfg w u' l t')
  | [], t, t', h => ⟨rfl, h⟩
  | a :: as, t, t', h => by
    rw [simplifySL, simplifySL]
    rcases (simplifyS_sim hu cfg a h).elim with ⟨r, k, k', h1, h2, h3⟩ | ⟨r, k, k', h1, h2, h3⟩ <;>
      rw [h1, h2]
    · exact ⟨rfl, h3⟩
    · dsimp only
      rcases (simplifySL_sim hu cfg as h3).elim with ⟨r, k, k', h1, h2, h3⟩ | ⟨r, k, k', h1, h2, h3⟩ <;>
        rw [h1, h2] <;> exact ⟨rfl, h3⟩
end

mutual
theorem simplifyForS_sim (hu : SimFns Rel u u') (cfg : Cfg) (x : Bytes) (v : F64) :
    ∀ (e : Elem) {t : σ} {t' : τ}, Rel t t' →
    Sim Rel (simplifyForS cfg w u x v e t) (simplifyForS cfg w u' x v e t')
  | .num x, t, t', h => ⟨rfl, h⟩
  | .var n, t, t', h => by
    rw [simplifyForS, simplifyForS]
    split <;> exact ⟨rfl, h⟩
  | .un op e, t, t', h => by
    rw [simplifyForS, simplifyForS]
    rcases (simplifyForS_sim hu cfg x v e h).elim with ⟨r, k, k', h1, h2, h3⟩ | ⟨r, k, k', h1, h2, h3⟩ <;>
      rw [h1, h2]
    · exact ⟨rfl, h3⟩
    · exact simplifyS_sim hu cfg _ h3
  | .bin op l r, t, t', h => by
    rw [simplifyForS, simplifyForS]
    rcases (simplifyForS_sim hu cfg x v l h).elim with ⟨r, k, k', h1, h2, h3⟩ | ⟨r, k, k', h1, h2, h3⟩ <;>
      rw [h1, h2]
    · exact ⟨rfl, h3⟩
    · dsimp only
      rcases (simplifyForS_sim hu cfg x v _ h3).elim with ⟨r, k, k', h1, h2, h3⟩ | ⟨r, k, k', h1, h2, h3⟩ <;>
        rw [h1, h2]
      · exact ⟨rfl, h3⟩
      · exact simplifyS_sim hu cfg _ h3
  | .call f args, t, t', h => by
    rw [simplifyForS, simplifyForS]
    rcases (simplifyForSL_sim hu cfg x v args h).elim with ⟨r, k, k', h1, h2, h3⟩ | ⟨r, k, k', h1, h2, h3⟩ <;>
      rw [h1, h2]
    · exact ⟨rfl, h3⟩
    · exact simplifyS_sim hu cfg _ h3
theorem simplifyForSL_sim (hu : SimFns Rel u u') (cfg : Cfg) (x : Bytes) (v : F64) :
    ∀ (l : List Elem) {t : σ} {t' : τ}, Rel t t' →
    Sim Rel (simplifyForSL cfg w u x v l t) (simplifyForSL cfg w u' x v l t')
  | [], t, t', h => ⟨rfl, h⟩
  | a :: as, t, t', h => by
    rw [simplifyForSL, simplifyForSL]
    rcases (simplifyForS_sim hu cfg x v a h).elim with ⟨r, k, k', h1, h2, h3⟩ | ⟨r, k, k', h1, h2, h3⟩ <;>
      rw [h1, h2]
    · exact ⟨rfl, h3⟩
    · dsimp only
      rcases (simplifyForSL_sim hu cfg x v as h3).elim with ⟨r, k, k', h1, h2, h3⟩ | ⟨r, k, k', h1, h2, h3⟩ <;>
        rw [h1, h2] <;> exact ⟨rfl, h3⟩
end

/-! ### Simulation for the parser -/

theorem bindS_sim {α β : Type} {x : R α × σ} {y : R α × τ} {f : α → St → σ → R β × σ}
    {g : α → St → τ → R β × τ} (h : Sim Rel x y)
    (hf : ∀ a s t t', Rel t t' → Sim Rel (f a s t) (g a s t')) : Sim Rel (R.bindS x f) (R.bindS y g) := by
  rcases x with ⟨x, t⟩
  rcases y with ⟨y, t'⟩
  obtain ⟨h1, h2⟩ := h
  cases (show x = y from h1)
  cases x with
  | ok a s => exact hf a s t t' h2
  | err e s => exact ⟨rfl, h2⟩
  | panic p => exact ⟨rfl, h2⟩
  | fuel => exact ⟨rfl, h2⟩

/-- Recursive calls that simulate each other. -/
def SimRec (Rel : σ → τ → Prop) (rec : Nat → St → σ → R Elem × σ) (rec' : Nat → St → τ → R Elem × τ) :
    Prop := ∀ p s t t', Rel t t' → Sim Rel (rec p s t) (rec' p s t')

variable {rec : Nat → St → σ → R Elem × σ} {rec' : Nat → St → τ → R Elem × τ}

theorem argumentS_sim (cfg : Cfg) (hr : SimRec Rel rec rec') (s : St) {t : σ} {t' : τ} (h : Rel t t') :
    Sim Rel (argumentS cfg rec s t) (argumentS cfg rec' s t') := by
  unfold argumentS
  have := hr noPrec s t t' h
  rcases e1 : rec noPrec s t with ⟨x, t1⟩
  rcases e2 : rec' noPrec s t' with ⟨y, t1'⟩
  rw [e1, e2] at this
  obtain ⟨h1, h2⟩ := this
  cases (show x = y from h1)
  cases x with
  | ok a s => exact ⟨rfl, h2⟩
  | err e s => dsimp only; split <;> exact ⟨rfl, h2⟩
  | panic p => exact ⟨rfl, h2⟩
  | fuel => exact ⟨rfl, h2⟩

theorem parseArgsS_sim (cfg : Cfg) (hr : SimRec Rel rec rec') : ∀ (fuel : Nat) (args : List Elem) (s : St)
    {t : σ} {t' : τ}, Rel t t' →
    Sim Rel (parseArgsS cfg rec fuel args s t) (parseArgsS cfg rec' fuel args s t')
  | 0, _, _, _, _, h => ⟨rfl, h⟩
  | fuel + 1, args, s, t, t', h => by
    unfold parseArgsS
    refine bindS_sim (argumentS_sim cfg hr s h) fun a s1 t1 t1' h1 => ?_
    dsimp only
    split
    · split
      · exact parseArgsS_sim cfg hr fuel _ _ h1
      · split <;> exact ⟨rfl, h1⟩
    · exact ⟨rfl, h1⟩

theorem parseIdentS_sim (cfg : Cfg) (ctx : Context) (hr : SimRec Rel rec rec') (s : St) {t : σ} {t' : τ}
    (h : Rel t t') : Sim Rel (parseIdentS cfg ctx rec s t) (parseIdentS cfg ctx rec' s t') := by
  unfold parseIdentS
  dsimp only
  split
  · exact ⟨rfl, h⟩
  · exact ⟨rfl, h⟩
  · split
    · refine bindS_sim (parseArgsS_sim cfg hr _ _ _ h) fun a s1 t1 t1' h1 => ?_
      refine bindS_sim (α := Unit) ⟨rfl, h1⟩ fun a s1 t1 t1' h1 => ?_
      exact ⟨rfl, h1⟩
    · exact ⟨rfl, h⟩

theorem atomS_sim (cfg : Cfg) (ctx : Context) (hr : SimRec Rel rec rec') (s : St) {t : σ} {t' : τ}
    (h : Rel t t') : Sim Rel (atomS cfg ctx rec s t) (atomS cfg ctx rec' s t') := by
  unfold atomS
  dsimp only
  split
  · exact ⟨rfl, h⟩
  · split
    · exact ⟨rfl, h⟩
    split
    · exact parseIdentS_sim cfg ctx hr _ h
    split
    · exact bindS_sim (hr _ _ _ _ h) fun a s1 t1 t1' h1 => ⟨rfl, h1⟩
    split
    · exact bindS_sim (hr _ _ _ _ h) fun a s1 t1 t1' h1 => ⟨rfl, h1⟩
    split
    · refine bindS_sim (hr _ _ _ _ h) fun a s1 t1 t1' h1 => ?_
      exact bindS_sim (α := Unit) ⟨rfl, h1⟩ fun a s1 t1 t1' h1 => ⟨rfl, h1⟩
    split <;> exact ⟨rfl, h⟩

theorem opLoopS_sim (cfg : Cfg) (hr : SimRec Rel rec rec') (p : Nat) : ∀ (fuel : Nat) (el : Elem) (s : St)
    {t : σ} {t' : τ}, Rel t t' →
    Sim Rel (opLoopS cfg rec p fuel el s t) (opLoopS cfg rec' p fuel el s t')
  | 0, _, _, _, _, h => ⟨rfl, h⟩
  | fuel + 1, el, s, t, t', h => by
    unfold opLoopS
    dsimp only
    split
    · exact ⟨rfl, h⟩
    · exact bindS_sim (hr _ _ _ _ h) fun a s1 t1 t1' h1 => opLoopS_sim cfg hr p fuel _ _ h1

/-- Simulation of the parser from that of the optimisation at the end of `element`. -/
theorem elementS_sim {cfg : Cfg} {w w' : World} (ctx : Context)
    (hf : ∀ el s t t', Rel t t' → Sim Rel (finishS cfg w u el s t) (finishS cfg w' u' el s t')) :
    ∀ n, SimRec Rel (elementS cfg w u ctx n) (elementS cfg w' u' ctx n)
  | 0, _, _, _, _, h => ⟨rfl, h⟩
  | n + 1, p, s, t, t', h => by
    have hr := elementS_sim ctx hf n
    rw [elementS, elementS]
    unfold elementFS
    refine bindS_sim (atomS_sim cfg ctx hr s h) fun a s1 t1 t1' h1 => ?_
    exact bindS_sim (opLoopS_sim cfg hr p _ _ _ h1) fun a s1 t1 t1' h1 => hf _ _ _ _ h1

theorem finishS_sim (hu : SimFns Rel u u') (cfg : Cfg) (el : Elem) (s : St) (t : σ) (t' : τ) (h : Rel t t') :
    Sim Rel (finishS cfg w u el s t) (finishS cfg w u' el s t') := by
  unfold finishS
  split
  · rcases (simplifyS_sim (w := w) hu cfg el h).elim with ⟨r, k, k', h1, h2, h3⟩ | ⟨r, k, k', h1, h2, h3⟩ <;>
      rw [h1, h2] <;> exact ⟨rfl, h3⟩
  · exact ⟨rfl, h⟩

theorem parseS_sim {cfg : Cfg} {w w' : World} (o : Oracle) (ctx : Context)
    (hf : ∀ el s t t', Rel t t' → Sim Rel (finishS cfg w u el s t) (finishS cfg w' u' el s t'))
    (input : Bytes) {t : σ} {t' : τ} (h : Rel t t') :
    Sim Rel (parseS cfg w u o ctx input t) (parseS cfg w' u' o ctx input t') := by
  have key : Sim Rel (parseImplS cfg w u ctx input t) (parseImplS cfg w' u' ctx input t') := by
    unfold parseImplS
    have := elementS_sim ctx hf (input.length + 1) noPrec ⟨0, input⟩ t t' h
    rcases e1 : elementS cfg w u ctx (input.length + 1) noPrec ⟨0, input⟩ t with ⟨x, t1⟩
    rcases e2 : elementS cfg w' u' ctx (input.length + 1) noPrec ⟨0, input⟩ t' with ⟨y, t1'⟩
    rw [e1, e2] at this
    obtain ⟨h1, h2⟩ := this
    cases (show x = y from h1)
    cases x with
    | ok a s => dsimp only; split <;> exact ⟨rfl, h2⟩
    | err e s => exact ⟨rfl, h2⟩
    | panic p => exact ⟨rfl, h2⟩
    | fuel => exact ⟨rfl, h2⟩
  unfold parseS
  rcases e1 : parseImplS cfg w u ctx input t with ⟨x, t1⟩
  rcases e2 : parseImplS cfg w' u' ctx input t' with ⟨y, t1'⟩
  rw [e1, e2] at key
  obtain ⟨h1, h2⟩ := key
  cases (show x = y from h1)
  cases x with
  | ok x =>
    dsimp only
    split
    · split <;> exact ⟨rfl, h2⟩
    · exact ⟨rfl, h2⟩
  | err e => exact ⟨rfl, h2⟩
  | panic p => exact ⟨rfl, h2⟩
  | fuel => exact ⟨rfl, h2⟩

end

/-! ### Functions without memory -/

/-- The functions of `w` as functions with a memory they do not use. -/
def forgetful (w : World) : Stateful Unit := ⟨fun p args _ => (w.user p args, ())⟩

theorem callS_forgetful (w : World) (f : Func) (args : List F64) :
    callS w (forgetful w) f args () = (callFn w f args, ()) := by
  unfold callS callFn
  cases f.func with
  | builtin b => rfl
  | static a => simp only [forgetful]; cases w.user (.static a) args <;> rfl
  | dyn a => simp only [forgetful]; cases w.user (.dyn a) args <;> rfl

mutual
theorem evalS_forgetful (w : World) (m : HMap F64) : ∀ e : Elem,
    evalS w (forgetful w) m e () = (eval w m e, ())
  | .num x => rfl
  | .var n => by
    rw [evalS, eval]
    cases m.get n <;> rfl
  | .un op e => by
    rw [evalS, eval, evalS_forgetful w m e]
    cases eval w m e <;> rfl
  | .bin op l r => by
    rw [evalS, eval, evalS_forgetful w m l]
    cases eval w m l with
    | error r => rfl
    | ok a =>
      dsimp only
      rw [evalS_forgetful w m r]
      cases eval w m r <;> rfl
  | .call f args => by
    rw [evalS, eval, evalSL_forgetful w m args]
    cases evalL w m args with
    | error r => rfl
    | ok a => dsimp only; rw [callS_forgetful]
theorem evalSL_forgetful (w : World) (m : HMap F64) : ∀ l : List Elem,
    evalSL w (forgetful w) m l () = (evalL w m l, ())
  | [] => rfl
  | a :: as => by
    rw [evalSL, evalL, evalS_forgetful w m a]
    cases eval w m a with
    | error r => rfl
    | ok a =>
      dsimp only
      rw [evalSL_forgetful w m as]
      cases evalL w m as <;> rfl
end

mutual
theorem simplifyS_forgetful (cfg : Cfg) (w : World) : ∀ e : Elem,
    simplifyS cfg w (forgetful w) e () = (simplify cfg w e, ())
  | .num x => rfl
  | .var n => rfl
  | .un op e => by
    rw [simplifyS, simplify, simplifyS_forgetful cfg w e]
    cases simplify cfg w e <;> rfl
  | .bin op l r => by
    rw [simplifyS, simplify, simplifyS_forgetful cfg w l]
    cases simplify cfg w l with
    | error r => rfl
    | ok a =>
      dsimp only
      rw [simplifyS_forgetful cfg w r]
      cases simplify cfg w r <;> rfl
  | .call f args => by
    rw [simplifyS, simplify, simplifySL_forgetful cfg w args]
    cases simplifyL cfg w args with
    | error r => rfl
    | ok a =>
      dsimp only
      unfold simpCallS simpCall
      rw [callS_forgetful]
      split <;> rfl
theorem simplifySL_forgetful (cfg : Cfg) (w : World) : ∀ l : List Elem,
    simplifySL cfg w (forgetful w) l () = (simplifyL cfg w l, ())
  | [] => rfl
  | a :: as => by
    rw [simplifySL, simplifyL, simplifyS_forgetful cfg w a]
    cases simplify cfg w a with
    | error r => rfl
    | ok a =>
      dsimp only
      rw [simplifySL_forgetful cfg w as]
      cases simplifyL cfg w as <;> rfl
end

mutual
theorem simplifyForS_forgetful (cfg : Cfg) (w : World) (x : Bytes) (v : F64) : ∀ e : Elem,
    simplifyForS cfg w (forgetful w) x v e () = (simplifyFor cfg w x v e, ())
  | .num x => rfl
  | .var n => by
    rw [simplifyForS, simplifyFor]
    split <;> rfl
  | .un op e => by
    rw [simplifyForS, simplifyFor, simplifyForS_forgetful cfg w x v e]
    cases simplifyFor cfg w x v e with
    | error r => rfl
    | ok a => exact simplifyS_forgetful cfg w _
  | .bin op l r => by
    rw [simplifyForS, simplifyFor, simplifyForS_forgetful cfg w x v l]
    cases simplifyFor cfg w x v l with
    | error r => rfl
    | ok a =>
      dsimp only
      rw [simplifyForS_forgetful cfg w x v r]
      cases simplifyFor cfg w x v r with
      | error r => rfl
      | ok a => exact simplifyS_forgetful cfg w _
  | .call f args => by
    rw [simplifyForS, simplifyFor, simplifyForSL_forgetful cfg w x v args]
    cases simplifyForL cfg w x v args with
    | error r => rfl
    | ok a => exact simplifyS_forgetful cfg w _
theorem simplifyForSL_forgetful (cfg : Cfg) (w : World) (x : Bytes) (v : F64) : ∀ l : List Elem,
    simplifyForSL cfg w (forgetful w) x v l () = (simplifyForL cfg w x v l, ())
  | [] => rfl
  | a :: as => by
    rw [simplifyForSL, simplifyForL, simplifyForS_forgetful cfg w x v a]
    cases simplifyFor cfg w x v a with
    | error r => rfl
    | ok a =>
      dsimp only
      rw [simplifyForSL_forgetful cfg w x v as]
      cases simplifyForL cfg w x v as <;> rfl
end

section
variable {rec : Nat → St → R Elem}

/-- A parser without memory, with one. -/
def liftRec (rec : Nat → St → R Elem) : Nat → St → Unit → R Elem × Unit := fun p s _ => (rec p s, ())

theorem bindS_lift {α β : Type} (x : R α) (f : α → St → R β) (g : α → St → Unit → R β × Unit)
    (h : ∀ a s, g a s () = (f a s, ())) : R.bindS (x, ()) g = (x.bind f, ()) := by
  cases x with
  | ok a s => exact h a s
  | err e s => rfl
  | panic p => rfl
  | fuel => rfl

theorem argumentS_lift (cfg : Cfg) (s : St) :
    argumentS cfg (liftRec rec) s () = (argument cfg rec s, ()) := by
  unfold argumentS argument liftRec
  cases rec noPrec s with
  | err e s => dsimp only; cases e.kind <;> rfl
  | _ => rfl

theorem parseArgsS_lift (cfg : Cfg) : ∀ (fuel : Nat) (args : List Elem) (s : St),
    parseArgsS cfg (liftRec rec) fuel args s () = (parseArgs cfg rec fuel args s, ())
  | 0, _, _ => rfl
  | fuel + 1, args, s => by
    unfold parseArgsS parseArgs
    rw [argumentS_lift]
    refine bindS_lift _ _ _ fun a s => ?_
    dsimp only
    cases (trim s).rest.head? with
    | none => rfl
    | some c =>
      dsimp only
      by_cases h1 : c = c!","
      · rw [if_pos h1, if_pos h1]; exact parseArgsS_lift cfg fuel _ _
      · rw [if_neg h1, if_neg h1]
        by_cases h2 : c = c!")"
        · rw [if_pos h2, if_pos h2]
        · rw [if_neg h2, if_neg h2]

theorem parseIdentS_lift (cfg : Cfg) (ctx : Context) (s : St) :
    parseIdentS cfg ctx (liftRec rec) s () = (parseIdent cfg ctx rec s, ()) := by
  unfold parseIdentS parseIdent
  dsimp only
  cases lookup ctx (List.takeWhile isIdChar s.rest) with
  | const x => rfl
  | var n => rfl
  | func f =>
    dsimp only
    by_cases h : (consumeIf c!"(" (skipWhile isIdChar s)).1 = true
    · rw [if_pos h, if_pos h, parseArgsS_lift]
      refine bindS_lift _ _ _ fun a s => ?_
      exact bindS_lift _ _ _ fun a s => rfl
    · rw [if_neg h, if_neg h]

theorem atomS_lift (cfg : Cfg) (ctx : Context) (s : St) :
    atomS cfg ctx (liftRec rec) s () = (atom cfg ctx rec s, ()) := by
  unfold atomS atom
  dsimp only
  cases (trim s).rest.head? with
  | none => rfl
  | some c =>
    dsimp only
    by_cases h1 : (isDigit c || decide (c = c!".")) = true
    · rw [if_pos h1, if_pos h1]
    rw [if_neg h1, if_neg h1]
    by_cases h2 : isIdStart c = true
    · rw [if_pos h2, if_pos h2]; exact parseIdentS_lift cfg ctx _
    rw [if_neg h2, if_neg h2]
    by_cases h3 : c = c!"+"
    · rw [if_pos h3, if_pos h3]; exact bindS_lift _ _ _ fun a s => rfl
    rw [if_neg h3, if_neg h3]
    by_cases h4 : c = c!"-"
    · rw [if_pos h4, if_pos h4]; exact bindS_lift _ _ _ fun a s => rfl
    rw [if_neg h4, if_neg h4]
    by_cases h5 : c = c!"("
    · rw [if_pos h5, if_pos h5]
      refine bindS_lift _ _ _ fun a s => ?_
      exact bindS_lift _ _ _ fun a s => rfl
    rw [if_neg h5, if_neg h5]
    by_cases h6 : c = c!")"
    · rw [if_pos h6, if_pos h6]
    · rw [if_neg h6, if_neg h6]

theorem opLoopS_lift (cfg : Cfg) (p : Nat) : ∀ (fuel : Nat) (el : Elem) (s : St),
    opLoopS cfg (liftRec rec) p fuel el s () = (opLoop cfg rec p fuel el s, ())
  | 0, _, _ => rfl
  | fuel + 1, el, s => by
    unfold opLoopS opLoop
    dsimp only
    cases opInfo cfg el p (trim s) with
    | none => rfl
    | some k => exact bindS_lift _ _ _ fun a s => opLoopS_lift cfg p fuel _ _

theorem finishS_forgetful (cfg : Cfg) (w : World) (el : Elem) (s : St) :
    finishS cfg w (forgetful w) el s () = (finish cfg w el s, ()) := by
  unfold finishS finish
  rw [simplifyS_forgetful]
  cases simplify cfg w el <;> split <;> rfl

theorem elementS_forgetful (cfg : Cfg) (w : World) (ctx : Context) : ∀ n,
    elementS cfg w (forgetful w) ctx n = liftRec (element cfg w ctx n)
  | 0 => rfl
  | n + 1 => by
    funext p s t
    rw [elementS, elementS_forgetful cfg w ctx n]
    show _ = (elementF cfg w ctx (element cfg w ctx n) p s, ())
    unfold elementFS elementF
    rw [atomS_lift]
    refine bindS_lift _ _ _ fun a s => ?_
    dsimp only
    rw [opLoopS_lift]
    exact bindS_lift _ _ _ fun a s => finishS_forgetful cfg w _ _

theorem parseS_forgetful (cfg : Cfg) (w : World) (o : Oracle) (ctx : Context) (input : Bytes) :
    parseS cfg w (forgetful w) o ctx input () = (parse cfg w o ctx input, ()) := by
  have key : parseImplS cfg w (forgetful w) ctx input () = (parseImpl cfg w ctx input, ()) := by
    unfold parseImplS parseImpl
    rw [elementS_forgetful]
    unfold liftRec
    cases element cfg w ctx (input.length + 1) noPrec ⟨0, input⟩ with
    | ok a s => dsimp only; cases (trim s).rest.head? <;> rfl
    | _ => rfl
  unfold parseS parse
  rw [key]
  cases parseImpl cfg w ctx input with
  | ok x =>
    dsimp only
    cases ctx.getExpected with
    | none => rfl
    | some vs => dsimp only; cases (diffVars o x.vars vs).head? <;> rfl
  | _ => rfl

end

/-! ### Counting calls -/

section
variable (p : FnPtr)

/-- How often the function stands in a tree. -/
def cnt (e : Elem) : Nat := (userCalls e).count p
def cntL (l : List Elem) : Nat := (userCallsL l).count p

theorem cnt_num (x : F64) : cnt p (.num x) = 0 := rfl
theorem cnt_var (x : Bytes) : cnt p (.var x) = 0 := rfl
theorem cnt_bin (op : Op) (l r : Elem) : cnt p (.bin op l r) = cnt p l + cnt p r := by
  simp [cnt, userCalls, List.count_append]
theorem cnt_un (op : Op) (e : Elem) : cnt p (.un op e) = cnt p e := by simp [cnt, userCalls]
theorem cntL_nil : cntL p [] = 0 := rfl
theorem cntL_cons (a : Elem) (as : List Elem) : cntL p (a :: as) = cnt p a + cntL p as := by
  simp [cnt, cntL, userCallsL, List.count_append]
theorem cntL_append : ∀ (l l' : List Elem), cntL p (l ++ l') = cntL p l + cntL p l'
  | [], l' => by simp [cntL_nil]
  | a :: l, l' => by
    rw [List.cons_append, cntL_cons, cntL_cons, cntL_append l l', Nat.add_assoc]

/-- A user function is counted, a built-in is not. -/
def isFn (f : Func) : Nat :=
  (match f.func with
    | .builtin _ => []
    | q => [q] : List FnPtr).count p

theorem cnt_call (f : Func) (args : List Elem) : cnt p (.call f args) = cntL p args + isFn p f := by
  unfold cnt cntL isFn
  rw [userCalls, List.count_append]
  cases f.func <;> rfl

/-- At most `n` calls are left. -/
def Left (n : Nat) (x : PM Elem) : Prop := ∀ e, x = .ok e → cnt p e ≤ n

theorem left_ok {n : Nat} {e : Elem} (h : cnt p e ≤ n) : Left p n (.ok e) := by
  intro e' he; cases he; exact h
theorem left_err {n : Nat} {q : Panic} : Left p n (.error q) := by intro e he; cases he
theorem left_num {n : Nat} {x : PM F64} : Left p n (x.map .num) := by
  intro e he
  cases x with
  | error q => cases he
  | ok v => cases he; exact Nat.zero_le _

theorem foldBin_left (w : World) (op : Op) (l r : Elem) : Left p (cnt p l + cnt p r) (foldBin w op l r) := by
  unfold foldBin; split
  · exact left_num p
  · exact left_ok p (by rw [cnt_bin])

theorem guardEq_left {a b : Elem} {x : F64} {rest : PM Elem} {n : Nat} (h : Left p n rest) :
    Left p n (guardEq a b (.num x) rest) := by
  unfold guardEq; split
  · exact left_err p
  · exact left_ok p (by rw [cnt_num]; exact Nat.zero_le _)
  · exact h

theorem negOf_cnt {e a : Elem} (h : e.negOf? = some a) : cnt p a = cnt p e := by
  unfold Elem.negOf? at h
  split at h
  · cases h; rw [cnt_un]
  · cases h

theorem simpBin_left (cfg : Cfg) (w : World) (op : Op) (l r : Elem) :
    Left p (cnt p l + cnt p r) (simpBin cfg w op l r) := by
  have hz : ∀ x, Left p (cnt p l + cnt p r) (.ok (.num x)) := fun x =>
    left_ok p (by rw [cnt_num]; exact Nat.zero_le _)
  have hl : Left p (cnt p l + cnt p r) (.ok l) := left_ok p (by omega)
  have hr : Left p (cnt p l + cnt p r) (.ok r) := left_ok p (by omega)
  have hm : Left p (cnt p l + cnt p r) (.ok (.un .minus r)) := left_ok p (by rw [cnt_un]; omega)
  cases op <;>
    simp only [simpBin, simpPlus, simpMinus, simpTimes, simpDivide, simpPower, simpModulo] <;>
    repeat' first
      | exact hz _
      | exact hl
      | exact hr
      | exact hm
      | exact foldBin_left p w _ _ _
      | apply guardEq_left
      | split
  all_goals
    apply left_ok
    simp only [cnt_bin]
    first
      | (rename_i h1 h2
         have := negOf_cnt p h1
         have := negOf_cnt p h2
         omega)
      | (rename_i h1
         have := negOf_cnt p h1
         omega)

theorem simpUn_left (op : Op) (e : Elem) : Left p (cnt p e) (simpUn op e) := by
  unfold simpUn
  repeat' split
  all_goals first
    | exact left_err p
    | exact left_num p
    | exact left_ok p (by simp [cnt_un, cnt_num])

/-- The calls recorded so far. -/
def tally {σ : Type} (t : σ × List Call) : Nat := t.2.countP fun c => decide (c.fn = p)

/-- The calls made and those left are at most `n`. -/
def Within' {σ : Type} (n : Nat) (x : PM Elem × (σ × List Call)) : Prop :=
  match x with
  | (.ok e, t) => tally p t + cnt p e ≤ n
  | (.error _, t) => tally p t ≤ n
def WithinL {σ : Type} (n : Nat) (x : PM (List Elem) × (σ × List Call)) : Prop :=
  match x with
  | (.ok e, t) => tally p t + cntL p e ≤ n
  | (.error _, t) => tally p t ≤ n

theorem Within'.of_left {σ : Type} {n k : Nat} {x : PM Elem} {t : σ × List Call} (h : Left p k x)
    (hk : tally p t + k ≤ n) : Within' p n (x, t) := by
  cases x with
  | error q => exact Nat.le_trans (Nat.le_add_right _ _) hk
  | ok e => exact Nat.le_trans (Nat.add_le_add_left (h e rfl) _) hk

omit p in
/-- A call of a user function, and a call of a built-in. -/
theorem callS_user {w : World} {u : Stateful σ} {f : Func} (args : List F64) (t : σ)
    (hf : ∀ b, f.func ≠ .builtin b) : callS w u f args t =
      ((match (u.call f.func args t).1 with
        | some v => .ok v
        | none => .error .user), (u.call f.func args t).2) := by
  unfold callS
  cases h : f.func with
  | builtin b => exact absurd h (hf b)
  | static a => dsimp only; rcases u.call (.static a) args t with ⟨_ | v, t'⟩ <;> rfl
  | dyn a => dsimp only; rcases u.call (.dyn a) args t with ⟨_ | v, t'⟩ <;> rfl
omit p in
theorem callS_builtin {w : World} {u : Stateful σ} {f : Func} {b : Builtin} (args : List F64) (t : σ)
    (hf : f.func = .builtin b) : callS w u f args t = (b.run w args, t) := by
  unfold callS
  rw [hf]

omit p in
theorem fn_cases (f : Func) : (∃ b, f.func = .builtin b) ∨ ∀ b, f.func ≠ .builtin b := by
  cases f.func with
  | builtin b => exact .inl ⟨b, rfl⟩
  | static a => exact .inr (by intro b; simp)
  | dyn a => exact .inr (by intro b; simp)

theorem callS_tally {w : World} {u : Stateful σ} (f : Func) (args : List F64) (t : σ × List Call) :
    tally p (callS w (recording u) f args t).2 = tally p t + isFn p f := by
  rcases fn_cases f with ⟨b, hb⟩ | hf
  · rw [callS_builtin _ _ hb, isFn, hb]; rfl
  · rw [callS_user _ _ hf]
    have : isFn p f = [f.func].count p := by
      unfold isFn
      cases h : f.func with
      | builtin b => exact absurd h (hf b)
      | _ => rfl
    rw [this]
    simp [tally, recording, List.countP_append, List.countP_cons, List.count_cons]

theorem simpCallS_within {w : World} {u : Stateful σ} (f : Func) (args : List Elem) (t : σ × List Call) :
    Within' p (tally p t + cntL p args + isFn p f) (simpCallS w (recording u) f args t) := by
  unfold simpCallS
  split
  · refine Within'.of_left p (left_num p (n := 0)) ?_
    rw [callS_tally]; omega
  · show _ ≤ _
    rw [cnt_call]; omega

mutual
theorem simplifyS_within (cfg : Cfg) {w : World} {u : Stateful σ} : ∀ (e : Elem) (t : σ × List Call),
    Within' p (tally p t + cnt p e) (simplifyS cfg w (recording u) e t)
  | .num x, t => Nat.le_refl _
  | .var n, t => Nat.le_refl _
  | .un op e, t => by
    have h := simplifyS_within cfg (w := w) (u := u) e t
    rw [simplifyS, cnt_un]
    revert h
    rcases simplifyS cfg w (recording u) e t with ⟨q | e', t1⟩ <;> intro h
    · exact h
    · exact Within'.of_left p (simpUn_left p op e') h
  | .bin op l r, t => by
    have h := simplifyS_within cfg (w := w) (u := u) l t
    rw [simplifyS, cnt_bin]
    revert h
    rcases simplifyS cfg w (recording u) l t with ⟨q | l', t1⟩ <;> intro h
    · exact Nat.le_trans h (by omega)
    · have h2 := simplifyS_within cfg (w := w) (u := u) r t1
      dsimp only
      have h : tally p t1 + cnt p l' ≤ tally p t + cnt p l := h
      revert h2
      rcases simplifyS cfg w (recording u) r t1 with ⟨q | r', t2⟩ <;> intro h2
      · exact Nat.le_trans h2 (by omega)
      · have h2 : tally p t2 + cnt p r' ≤ tally p t1 + cnt p r := h2
        exact Within'.of_left p (simpBin_left p cfg w op l' r') (by omega)
  | .call f args, t => by
    have h := simplifySL_within cfg (w := w) (u := u) args t
    rw [simplifyS, cnt_call]
    revert h
    rcases simplifySL cfg w (recording u) args t with ⟨q | as, t1⟩ <;> intro h
    · exact Nat.le_trans h (by omega)
    · have h2 := simpCallS_within (p := p) (w := w) (u := u) f as t1
      have h : tally p t1 + cntL p as ≤ tally p t + cntL p args := h
      dsimp only
      revert h2
      rcases simpCallS w (recording u) f as t1 with ⟨q | e, t2⟩ <;> intro h2
      · exact Nat.le_trans h2 (by omega)
      · exact Nat.le_trans h2 (by omega)
theorem simplifySL_within (cfg : Cfg) {w : World} {u : Stateful σ} : ∀ (l : List Elem) (t : σ × List Call),
    WithinL p (tally p t + cntL p l) (simplifySL cfg w (recording u) l t)
  | [], t => Nat.le_refl _
  | a :: as, t => by
    have h := simplifyS_within cfg (w := w) (u := u) a t
    rw [simplifySL, cntL_cons]
    revert h
    rcases simplifyS cfg w (recording u) a t with ⟨q | a', t1⟩ <;> intro h
    · exact Nat.le_trans h (by omega)
    · have h2 := simplifySL_within cfg (w := w) (u := u) as t1
      dsimp only
      have h : tally p t1 + cnt p a' ≤ tally p t + cnt p a := h
      revert h2
      rcases simplifySL cfg w (recording u) as t1 with ⟨q | as', t2⟩ <;> intro h2
      · exact Nat.le_trans h2 (by omega)
      · have h2 : tally p t2 + cntL p as' ≤ tally p t1 + cntL p as := h2
        show tally p t2 + cntL p (a' :: as') ≤ _
        rw [cntL_cons]; omega
end

theorem Within'.mono {σ : Type} {n k : Nat} {x : PM Elem × (σ × List Call)} (h : Within' p n x) (hk : n ≤ k) :
    Within' p k x := by
  rcases x with ⟨q | e, t⟩ <;> exact Nat.le_trans h hk

mutual
theorem simplifyForS_within (cfg : Cfg) {w : World} {u : Stateful σ} (x : Bytes) (v : F64) :
    ∀ (e : Elem) (t : σ × List Call),
    Within' p (tally p t + cnt p e) (simplifyForS cfg w (recording u) x v e t)
  | .num x, t => Nat.le_refl _
  | .var n, t => by
    rw [simplifyForS]
    split <;> exact Nat.le_refl _
  | .un op e, t => by
    have h := simplifyForS_within cfg (w := w) (u := u) x v e t
    rw [simplifyForS, cnt_un]
    revert h
    rcases simplifyForS cfg w (recording u) x v e t with ⟨q | e', t1⟩ <;> intro h
    · exact h
    · exact (simplifyS_within p cfg (.un op e') t1).mono p (by rw [cnt_un]; exact h)
  | .bin op l r, t => by
    have h := simplifyForS_within cfg (w := w) (u := u) x v l t
    rw [simplifyForS, cnt_bin]
    revert h
    rcases simplifyForS cfg w (recording u) x v l t with ⟨q | l', t1⟩ <;> intro h
    · exact Nat.le_trans h (by omega)
    · have h2 := simplifyForS_within cfg (w := w) (u := u) x v r t1
      dsimp only
      have h : tally p t1 + cnt p l' ≤ tally p t + cnt p l := h
      revert h2
      rcases simplifyForS cfg w (recording u) x v r t1 with ⟨q | r', t2⟩ <;> intro h2
      · exact Nat.le_trans h2 (by omega)
      · have h2 : tally p t2 + cnt p r' ≤ tally p t1 + cnt p r := h2
        exact (simplifyS_within p cfg (.bin op l' r') t2).mono p (by rw [cnt_bin]; omega)
  | .call f args, t => by
    have h := simplifyForSL_within cfg (w := w) (u := u) x v args t
    rw [simplifyForS, cnt_call]
    revert h
    rcases simplifyForSL cfg w (recording u) x v args t with ⟨q | as, t1⟩ <;> intro h
    · exact Nat.le_trans h (by omega)
    · have h : tally p t1 + cntL p as ≤ tally p t + cntL p args := h
      exact (simplifyS_within p cfg (.call f as) t1).mono p (by rw [cnt_call]; omega)
theorem simplifyForSL_within (cfg : Cfg) {w : World} {u : Stateful σ} (x : Bytes) (v : F64) :
    ∀ (l : List Elem) (t : σ × List Call),
    WithinL p (tally p t + cntL p l) (simplifyForSL cfg w (recording u) x v l t)
  | [], t => Nat.le_refl _
  | a :: as, t => by
    have h := simplifyForS_within cfg (w := w) (u := u) x v a t
    rw [simplifyForSL, cntL_cons]
    revert h
    rcases simplifyForS cfg w (recording u) x v a t with ⟨q | a', t1⟩ <;> intro h
    · exact Nat.le_trans h (by omega)
    · have h2 := simplifyForSL_within cfg (w := w) (u := u) x v as t1
      dsimp only
      have h : tally p t1 + cnt p a' ≤ tally p t + cnt p a := h
      revert h2
      rcases simplifyForSL cfg w (recording u) x v as t1 with ⟨q | as', t2⟩ <;> intro h2
      · exact Nat.le_trans h2 (by omega)
      · have h2 : tally p t2 + cntL p as' ≤ tally p t1 + cntL p as := h2
        show tally p t2 + cntL p (a' :: as') ≤ _
        rw [cntL_cons]; omega
end

end

end Xprs
