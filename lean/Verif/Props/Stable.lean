import Verif.Props.Normal
import Verif.Lemmas.Stable
/-
Property C57: repeated simplification comes to an end.
-/
namespace Xprs
namespace Props
open Spec

/-! ### C57 -/

/-- C57, one pass, every build: a tree whose calls have arguments (all trees a program can
get hold of are such) comes out of `simplify` as it went in or strictly smaller. -/
theorem C57_pass (cfg : Cfg) (w : World) (e e' : Elem) (hn : ∀ f, ¬ Sub (.call f []) e)
    (h : simplify cfg w e = .ok e') : e' = e ∨ size e' < size e :=
  simplify_less e hn h

/-- The nightly rule for `x - -y` makes a tree smaller. -/
example : simplify { cfgOpt with nightly := true } w0
      (.bin .minus (.var b!"x") (.un .minus (.var b!"y"))) =
    .ok (.bin .plus (.var b!"x") (.var b!"y")) := rfl

theorem simplifyFor_step {cfg : Cfg} {w : World} {ctx : Context} {input : Bytes} {e e' : Xpr}
    {x : Bytes} {v : F64} (he : Reach cfg w ctx input e)
    (h : e.simplifyFor cfg w x v = .ok e') :
    (e' = e ∧ (x ∉ e.vars → simplify cfg w e.root = .ok e.root)) ∨
      size e'.root + e'.vars.length < size e.root + e.vars.length := by
  unfold Xpr.simplifyFor at h
  split at h
  · cases h
  rename_i root hr
  cases h
  by_cases hx : x ∈ e.vars
  · right
    have h1 := simplifyFor_size e.root hr
    have h2 : (Xpr.removeVar e.vars x).length < e.vars.length := by
      unfold Xpr.removeVar
      exact List.length_filter_lt_length_iff_exists.2 ⟨x, hx, by simp⟩
    simp only; omega
  · simp only [removeVar_absent hx]
    rcases simplifyFor_less e.root (reach_calls he) (fun ho => hx ((reach_vars he).2 x ho)) hr with
      ⟨h1, h2⟩ | h1
    · left; subst h1; exact ⟨rfl, fun _ => h2⟩
    · right; omega

/-- C57, every build and every history: a `simplify_for` call that returns something
different from what it was given has removed a variable from the list or made the tree
smaller, and neither the tree nor the list has grown. -/
theorem C57_progress (cfg : Cfg) (w : World) (ctx : Context) (input : Bytes) (e e' : Xpr)
    (x : Bytes) (v : F64) (he : Reach cfg w ctx input e)
    (h : e.simplifyFor cfg w x v = .ok e') (hne : e' ≠ e) :
    size e'.root ≤ size e.root ∧ e'.vars.length ≤ e.vars.length ∧
      (size e'.root < size e.root ∨ e'.vars.length < e.vars.length) := by
  have h1 := (simplifyFor_step he h).resolve_left fun h => hne h.1
  have h2 : size e'.root ≤ size e.root ∧ e'.vars.length ≤ e.vars.length := by
    unfold Xpr.simplifyFor at h
    split at h
    · cases h
    rename_i root hr
    cases h
    exact ⟨simplifyFor_size e.root hr, List.length_filter_le _ _⟩
  omega

/-- C57: of any number of `simplify_for` calls in a row, with whatever names and values,
fewer return something new than the expression has nodes and variables. -/
theorem C57_bound (cfg : Cfg) (w : World) (ctx : Context) (input : Bytes) (e e' : Xpr) (k : Nat)
    (he : Reach cfg w ctx input e) (h : Trail cfg w e e' k) :
    k < size e.root + e.vars.length := by
  have key : Reach cfg w ctx input e' ∧
      k + (size e'.root + e'.vars.length) ≤ size e.root + e.vars.length := by
    induction h with
    | start => exact ⟨he, by omega⟩
    | idle _ _ ih => exact ih
    | change _ h hne ih =>
      exact ⟨.simplified ih.1 h, by have := C57_progress _ _ _ _ _ _ _ _ ih.1 h hne; omega⟩
  have pos : 0 < size e'.root := by cases e'.root <;> simp [size]
  omega

/-- C57: once a call with a name that is not in `vars` changes nothing, no call with such a
name ever changes anything. -/
theorem C57_stable (cfg : Cfg) (w : World) (ctx : Context) (input : Bytes) (e : Xpr)
    (x y : Bytes) (v u : F64) (he : Reach cfg w ctx input e) (hx : x ∉ e.vars) (hy : y ∉ e.vars)
    (h : e.simplifyFor cfg w x v = .ok e) : e.simplifyFor cfg w y u = .ok e := by
  rcases simplifyFor_step he h with ⟨_, h1⟩ | h1
  · exact C35_partial cfg w ctx input e y u he hy (h1 hx)
  · omega

/-- C57: if no function panics and the text has no `!!`, then calling `simplify_for` with
the same name and value again and again arrives, after at most as many calls as the
expression has nodes and variables, at an expression that no call with a name outside its
`vars` changes.  Every build. -/
theorem C57_settles (cfg : Cfg) (w : World) (ctx : Context) (input : Bytes) (e : Xpr)
    (x : Bytes) (v : F64) (hc : CtxTotal w ctx) (hd : ¬ DoubleBang input)
    (he : Reach cfg w ctx input e) :
    ∃ e' k, k ≤ size e.root + e.vars.length ∧ Repeated cfg w x v e e' k ∧
      ∀ y u, y ∉ e'.vars → e'.simplifyFor cfg w y u = .ok e' := by
  suffices H : ∀ n (b : Xpr) k, Reach cfg w ctx input b → Repeated cfg w x v e b k →
      size b.root + b.vars.length ≤ n → k + n ≤ size e.root + e.vars.length →
      ∃ e' k, k ≤ size e.root + e.vars.length ∧ Repeated cfg w x v e e' k ∧
        ∀ y u, y ∉ e'.vars → e'.simplifyFor cfg w y u = .ok e' from
    H _ e 0 he .none (Nat.le_refl _) (by omega)
  intro n
  induction n with
  | zero =>
    intro b k hb _ hsz _
    have pos : 0 < size b.root := by cases b.root <;> simp [size]
    omega
  | succ n ih =>
    intro b k hb hr hsz hk
    obtain ⟨r, h1, _⟩ := simplifyFor_proper cfg w (fun f hf => named_total hc hf) x v b.root
      (reach_proper hb hd)
    have hs : b.simplifyFor cfg w x v = .ok ⟨r, Xpr.removeVar b.vars x⟩ := by
      unfold Xpr.simplifyFor; rw [h1]
    rcases simplifyFor_step hb hs with ⟨h2, h3⟩ | h2
    · have hxv : x ∉ b.vars := by
        have : Xpr.removeVar b.vars x = b.vars := congrArg Xpr.vars h2
        intro hm
        rw [← this] at hm
        simp [Xpr.removeVar] at hm
      exact ⟨b, k, by omega, hr, fun y u hy => C35_partial cfg w ctx input b y u hb hy (h3 hxv)⟩
    · exact ih _ (k + 1) (.simplified hb hs) (.more hr hs) (by omega) (by omega)

/-- `0-3`, parsed by an optimizing build, has two nodes left; one more call makes it a
number, which stays. -/
example : ∃ e, parse0 cfgOpt b!"0-3" = .ok e ∧ Reach cfgOpt w0 Context.default b!"0-3" e ∧
    Trail cfgOpt w0 e ⟨.num (F64.neg (F64.ofNat 3)), []⟩ 1 := by
  have h1 : parse0 cfgOpt b!"0-3" = .ok ⟨.un .minus (.num (F64.ofNat 3)), []⟩ := by decide +kernel
  refine ⟨_, h1, .parsed (o := Oracle.id) h1, ?_⟩
  have h2 : Xpr.simplifyFor cfgOpt w0 ⟨.un .minus (.num (F64.ofNat 3)), []⟩
    b!"x" F64.f1 = .ok ⟨.num (F64.neg (F64.ofNat 3)), []⟩ := by decide +kernel
  exact .change .start h2 (by intro h; injection h with h; cases h)

end Props
end Xprs
