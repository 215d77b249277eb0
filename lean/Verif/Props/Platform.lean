import Verif.Lemmas.Platform
import Verif.Lemmas.NoPower
import Verif.Spec.History
import Verif.Props.Values
/-
Property C88: the platform matters only where a text asks for it.
-/
namespace Xprs
namespace Props
open Spec

/-- C88: on two platforms that do the same for a text, parsing it has the same outcome: the same
expression, or the same error, or the same panic; in every build. -/
theorem C88_parse (cfg : Cfg) (w w' : World) (o : Oracle) (ctx : Context) (input : Bytes)
    (h : AlikeFor w w' ctx input) : parse cfg w o ctx input = parse cfg w' o ctx input :=
  (parse_alike h o).1

theorem simplifyLoop_both {cfg : Cfg} {w w' : World} : ∀ (l : List (Bytes × F64)) (t : Elem)
    (vs : List Bytes), OnBoth w w' t → Xpr.simplifyLoop cfg w l t vs = Xpr.simplifyLoop cfg w' l t vs ∧
      ∀ x, Xpr.simplifyLoop cfg w l t vs = .ok x → OnBoth w w' x.root
  | [], t, vs, h => ⟨rfl, fun x hx => by cases hx; exact h⟩
  | (n, v) :: l, t, vs, h => by
    obtain ⟨h1, h2⟩ := simplifyFor_both (cfg := cfg) n v t h
    rw [Xpr.simplifyLoop, Xpr.simplifyLoop, ← h1]
    cases h3 : simplifyFor cfg w n v t with
    | error p => exact ⟨rfl, fun x hx => by cases hx⟩
    | ok t' => exact simplifyLoop_both l t' _ (h2 _ h3)

theorem reach_both {cfg : Cfg} {w w' : World} {ctx : Context} {input : Bytes}
    (h : AlikeFor w w' ctx input) {x : Xpr} (hx : Reach cfg w ctx input x) :
    OnBoth w w' x.root ∧ Reach cfg w' ctx input x := by
  induction hx with
  | @parsed o x hp =>
    exact ⟨(parse_alike h o).2 x hp, .parsed (o := o) ((parse_alike h o).1 ▸ hp)⟩
  | @simplified e n v e' _ hs ih =>
    obtain ⟨h1, h2⟩ := simplifyFor_both (cfg := cfg) n v e.root ih.1
    refine ⟨?_, .simplified ih.2 (x := n) (v := v) ?_⟩
    · unfold Xpr.simplifyFor at hs
      split at hs
      · cases hs
      · rename_i r hr; cases hs; exact h2 _ hr
    · unfold Xpr.simplifyFor at hs ⊢
      rw [← h1]; exact hs
  | @multiple e l e' _ hs ih =>
    obtain ⟨h1, h2⟩ := simplifyLoop_both (cfg := cfg) l e.root e.vars ih.1
    exact ⟨h2 _ hs, .multiple ih.2 (l := l) (h1.symm.trans hs)⟩

/-- C88: and so has everything that can be done with the expression afterwards: the same
expressions can be reached by fixing variables, with the same results of the evaluations. -/
theorem C88_expression (cfg : Cfg) (w w' : World) (ctx : Context) (input : Bytes)
    (h : AlikeFor w w' ctx input) (x : Xpr) :
    (Reach cfg w ctx input x ↔ Reach cfg w' ctx input x) ∧
    (Reach cfg w ctx input x →
      (∀ m, x.eval w m = x.eval w' m) ∧ (∀ m, x.evalUnchecked w m = x.evalUnchecked w' m) ∧
      (∀ n v, x.simplifyFor cfg w n v = x.simplifyFor cfg w' n v) ∧
      ∀ l, x.simplifyForMultiple cfg w l = x.simplifyForMultiple cfg w' l) := by
  refine ⟨⟨fun hx => (reach_both h hx).2, fun hx => (reach_both (AlikeFor.symm h) hx).2⟩, fun hx => ?_⟩
  obtain ⟨hb, -⟩ := reach_both h hx
  refine ⟨fun m => (eval_both m x.root hb).1, fun m => (eval_both m x.root hb).2, fun n v => ?_,
    fun l => (simplifyLoop_both l x.root x.vars hb).1⟩
  unfold Xpr.simplifyFor
  rw [(simplifyFor_both n v x.root hb).1]

/-- C88: a text that asks nothing of the platform is treated alike on all platforms: powers,
logarithms, sines, sums and functions of the user may be whatever they like. -/
theorem C88_portable (w w' : World) (ctx : Context) (input : Bytes) (h : SelfContained ctx input) :
    AlikeFor w w' ctx input := by
  refine ⟨fun hc => absurd hc h.1, fun nm f hm hl vs => ?_⟩
  obtain ⟨b, hb, hp⟩ := h.2 nm f hm hl
  unfold callFn
  rw [hb]
  simp only [Portable, List.mem_cons, List.not_mem_nil, or_false] at hp
  rcases hp with rfl | rfl | rfl | rfl | rfl | rfl | rfl | rfl | rfl | rfl | rfl <;> rfl

/-- Two platforms that disagree about everything. -/
def wA : World := { libm1 := fun _ _ => F64.f0, libm2 := fun _ _ _ => F64.f0, powf := fun _ _ => F64.f0,
                    user := fun _ _ => some F64.f0, sumInit := true }
def wB : World := { libm1 := fun _ _ => F64.f1, libm2 := fun _ _ _ => F64.f1, powf := fun _ _ => F64.f1,
                    user := fun _ _ => some F64.f1, sumInit := false }

/-- C88: the list of portable functions is complete: every other built-in function has different
results on two platforms; and so have `^` and the functions of the user. -/
theorem C88_complete :
    (∀ b, Portable b ↔ ∀ w w' vs, callFn w b.toFunc vs = callFn w' b.toFunc vs) ∧
    (∀ f : Func, (∀ w w' vs, callFn w f vs = callFn w' f vs) → ∃ b, f.func = .builtin b ∧ Portable b) ∧
    ∃ m x, parse cfgPlain wA Oracle.id Context.default b!"x^y" = .ok x ∧ x.eval wA m ≠ x.eval wB m := by
  have key : ∀ b, Portable b ↔ ∀ w w' vs, b.run w vs = b.run w' vs := by
    intro b
    constructor
    · intro h w w' vs
      simp only [Portable, List.mem_cons, List.not_mem_nil, or_false] at h
      rcases h with rfl | rfl | rfl | rfl | rfl | rfl | rfl | rfl | rfl | rfl | rfl <;> rfl
    · intro h
      have h1 := h wA wB [F64.zero true, F64.zero true]
      revert h1
      clear h
      cases b <;> decide +kernel
  refine ⟨key, fun f h => ?_, mx F64.f1 |>.insert b!"y" F64.f1, ⟨.bin .power vx (.var b!"y"), [b!"x", b!"y"]⟩,
    by decide +kernel, by decide +kernel⟩
  unfold callFn at h
  cases hf : f.func with
  | builtin b =>
    rw [hf] at h
    exact ⟨b, rfl, (key b).2 h⟩
  | static n =>
    rw [hf] at h
    have h1 : Except.ok (ε := Panic) F64.f0 = .ok F64.f1 := h wA wB []
    exact absurd h1 (by decide +kernel)
  | dyn n =>
    rw [hf] at h
    have h1 : Except.ok (ε := Panic) F64.f0 = .ok F64.f1 := h wA wB []
    exact absurd h1 (by decide +kernel)

/-- C88: a power that is not asked for is not computed: the laws that simplification needs of
`powf` (C29, C30, C16) are needed for texts with a `^` only. -/
theorem C88_powers (cfg : Cfg) (w : World) (ctx : Context) (input : Bytes) (x : Xpr) (h : c!"^" ∉ input)
    (hx : Reach cfg w ctx input x) : NoPower x.root := by
  rw [noPower_iff w]
  refine (reach_both ⟨fun hc => absurd hc h, fun nm f _ _ vs => ?_⟩ hx).1
  exact callFn_otherPow w f vs

theorem pick {c P : Prop} [Decidable c] {b b' : Builtin} {o : Option Builtin}
    (h : (if c then some b' else o) = some b) (h1 : c → b' = b → P) (h2 : o = some b → P) : P := by
  by_cases hc : c
  · rw [if_pos hc] at h; exact h1 hc (Option.some.inj h)
  · rw [if_neg hc] at h; exact h2 h

theorem fromStr_func {nm : Bytes} {f : Func} (h : Ident.fromStr nm = .func f) :
    ∃ b : Builtin, f = b.toFunc ∧ (nm = b.name ∨ b = .recip) := by
  unfold Ident.fromStr at h
  split at h
  · cases h
  split at h
  · cases h
  split at h
  · rename_i b hb
    cases h
    refine ⟨b, rfl, ?_⟩
    unfold builtinByName at hb
    repeat
      refine pick hb (fun h1 h2 => by subst h1 h2; first | exact .inl rfl | exact .inr rfl) fun hb => ?_
    cases hb
  · cases h

/-- A text in which no name of another built-in function occurs asks nothing of the platform. -/
theorem C88_names (input : Bytes) (h : c!"^" ∉ input) (hb : ∀ b : Builtin, ¬ Portable b → ¬ b.name <:+: input) :
    SelfContained Context.default input := by
  refine ⟨h, fun nm f hm hl => ?_⟩
  obtain ⟨b, rfl, rfl | rfl⟩ := fromStr_func (show Ident.fromStr nm = .func f from hl)
  · refine ⟨b, rfl, ?_⟩
    by_cases hp : Portable b
    · exact hp
    · obtain ⟨u, v, h1, -, -⟩ := hm
      exact absurd ⟨u, v, by rw [h1, List.append_assoc]⟩ (hb b hp)
  · exact ⟨_, rfl, by decide⟩

/-- `2 sqrt(x) - max(x, 3!) % 7` asks nothing of the platform, and at 4 it is -2 everywhere. -/
example : SelfContained Context.default b!"2 sqrt(x) - max(x, 3!) % 7" :=
  C88_names _ (by decide +kernel) fun b => by cases b <;> decide +kernel
example (w : World) : ∃ x, parse cfgOpt w Oracle.id Context.default b!"2 sqrt(x) - max(x, 3!) % 7" = .ok x ∧
    x.eval w (mx (F64.ofNat 4)) = .ok (F64.neg (F64.ofNat 2)) := by
  have h : SelfContained Context.default b!"2 sqrt(x) - max(x, 3!) % 7" :=
    C88_names _ (by decide +kernel) fun b => by cases b <;> decide +kernel
  have ha := C88_portable wA w _ _ h
  have h1 : ∃ x, parse cfgOpt wA Oracle.id Context.default b!"2 sqrt(x) - max(x, 3!) % 7" = .ok x ∧
      x.eval wA (mx (F64.ofNat 4)) = .ok (F64.neg (F64.ofNat 2)) := by
    have he : (match parse cfgOpt wA Oracle.id Context.default b!"2 sqrt(x) - max(x, 3!) % 7" with
      | .ok x => some (x.eval wA (mx (F64.ofNat 4)))
      | _ => none) = some (.ok (F64.neg (F64.ofNat 2))) := by decide +kernel
    split at he
    · rename_i x hp; exact ⟨x, hp, Option.some.inj he⟩
    · cases he
  obtain ⟨x, hx, hv⟩ := h1
  refine ⟨x, by rw [← C88_parse _ _ _ _ _ _ ha]; exact hx, ?_⟩
  rw [← ((C88_expression _ _ _ _ _ ha x).2 (.parsed hx)).1]
  exact hv

end Props
end Xprs
