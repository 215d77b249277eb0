import Verif.Lemmas.Equal
import Verif.Props.Values
/-
Property C38: equality of expressions.
-/
namespace Xprs
namespace Props
open Spec
set_option exponentiation.threshold 4096

/-! ### C38 -/

/-- C38 as claimed, for expressions that come from the parser: `==` does not panic, ... -/
def C38_panic_claim : Prop := ∀ (cfg : Cfg) (w : World) (o : Oracle) (ctx : Context) (s t : Bytes)
  (x y : Xpr), CtxTotal w ctx → parse cfg w o ctx s = .ok x → parse cfg w o ctx t = .ok y →
  ∃ b, x.eqX y = .ok b
/-- ... it is reflexive, ... -/
def C38_refl_claim : Prop := ∀ (cfg : Cfg) (w : World) (o : Oracle) (ctx : Context) (s : Bytes)
  (x : Xpr), CtxTotal w ctx → parse cfg w o ctx s = .ok x → x.eqX x = .ok true
/-- ... and equal expressions have equal values. -/
def C38_eval_claim : Prop := ∀ (cfg : Cfg) (w : World) (o : Oracle) (ctx : Context) (s t : Bytes)
  (x y : Xpr), CtxTotal w ctx → PowLaws w → parse cfg w o ctx s = .ok x → parse cfg w o ctx t = .ok y →
  x.eqX y = .ok true → ∀ m v, x.eval w m = .ok v → ∃ u, y.eval w m = .ok u ∧ Same v u

/-- `==` panics on `3!!x` compared with itself, in a build without optimizations. -/
theorem C38_panic_refuted : ¬ C38_panic_claim := by
  intro h
  have h1 : parse cfgPlain w0 Oracle.id Context.default b!"3!!x" =
      .ok ⟨.bin .factorial (.un .factorial (.num (F64.ofNat 3))) vx, [b!"x"]⟩ := by decide +kernel
  obtain ⟨b, hb⟩ := h cfgPlain w0 Oracle.id Context.default _ _ _ _ (ctxTotal_default w0) h1 h1
  revert hb
  cases b <;> decide +kernel

theorem ctxTotal_setVar {w : World} {ctx : Context} {n : Bytes} {v : F64} (h : CtxTotal w ctx) :
    CtxTotal w (ctx.setVar n v) := by
  intro nm f hf
  simp only [Context.get, Context.setVar, HMap.get, HMap.insert] at hf
  split at hf
  · cases hf
  · exact h nm f hf

/-- A context with the constant `n`, not a number. -/
def ctxNaN : Context := Context.default.setVar b!"n" .nan
/-- A context with the constant `z`, minus zero. -/
def ctxNeg0 : Context := Context.default.setVar b!"z" (F64.zero true)

/-- With a constant that is NaN, `n` does not equal itself. -/
theorem C38_refl_refuted : ¬ C38_refl_claim := by
  intro h
  have := h cfgPlain w0 Oracle.id ctxNaN b!"n" ⟨.num .nan, []⟩
    (ctxTotal_setVar (ctxTotal_default w0)) (by decide +kernel)
  revert this
  decide +kernel

/-- With a constant `z` that is minus zero, `1/0` equals `1/z`, but the values are the
two infinities. -/
theorem C38_eval_refuted : ¬ C38_eval_claim := by
  intro h
  obtain ⟨u, h1, h2⟩ := h cfgPlain wPow Oracle.id ctxNeg0 b!"1/0" b!"1/z"
    ⟨.bin .divide (.num F64.f1) (.num F64.f0), []⟩
    ⟨.bin .divide (.num F64.f1) (.num (F64.zero true)), []⟩
    (ctxTotal_setVar (ctxTotal_default wPow)) wPow_laws
    (by decide +kernel) (by decide +kernel) (by decide +kernel) HMap.empty (.inf false)
    (by decide +kernel)
  have h3 : Xpr.eval wPow ⟨.bin .divide (.num F64.f1) (.num (F64.zero true)), []⟩ HMap.empty =
      .ok (.inf true) := by decide +kernel
  rw [h3] at h1
  cases h1
  rcases h2 with h2 | ⟨h2, _⟩
  · cases h2
  · exact not_isZero_inf h2

/-- `==` on proper trees (every tree from a text without `!!`, `C38_parsed_partial`)
returns, and returns `true` exactly for trees that differ only in the order of the
operands of sums and products. -/
theorem C38_decides {P : Func → Prop} (a b : Elem) (ha : Proper P a) :
    (eqE a b = .ok true ∨ eqE a b = .ok false) ∧ (eqE a b = .ok true ↔ Alike NumEq a b) := by
  refine ⟨?_, eqE_alike a b ha⟩
  obtain ⟨c, hc⟩ := eqE_total a b ha
  cases c <;> simp [hc]

/-- On proper trees `==` is symmetric and transitive, and reflexive exactly on the trees
without NaN. -/
theorem C38_equivalence {P : Func → Prop} (a b c : Elem) (ha : Proper P a) (hb : Proper P b) :
    (eqE a b = .ok true → eqE b a = .ok true) ∧
    (eqE a b = .ok true → eqE b c = .ok true → eqE a c = .ok true) ∧
    (eqE a a = .ok true ↔ Literals (· ≠ .nan) a) := by
  rw [eqE_alike a b ha, eqE_alike b a hb, eqE_alike b c hb, eqE_alike a c ha, eqE_alike a a ha]
  refine ⟨alike_symm fun _ _ => numEq_symm, alike_trans (R := NumEq) fun _ _ _ h h' => numEq_trans h h', ?_, ?_⟩
  · intro h x hx
    obtain ⟨y, _, h2⟩ := alike_literal h hx
    exact h2.1
  · exact fun h => alike_refl a fun x hx => ⟨h x hx, .refl _⟩

/-- On proper trees without NaN, `==` is the least congruence that identifies equal
numbers, `a+b` with `b+a` and `a*b` with `b*a`. -/
theorem C38_least {P : Func → Prop} (a b : Elem) (ha : Proper P a) (hn : Literals (· ≠ .nan) a) :
    eqE a b = .ok true ↔ Cong a b := by
  rw [eqE_alike a b ha]
  exact ⟨alike_cong a b, fun h => ((cong_alike h).1 hn).1⟩

/-- In particular, exchanged operands are equal, wherever in a tree they occur. -/
theorem C38_swap {P : Func → Prop} (op : Op) (a b : Elem) (ho : op = .plus ∨ op = .times)
    (ha : Proper P a) (hb : Proper P b) (hna : Literals (· ≠ .nan) a) (hnb : Literals (· ≠ .nan) b) :
    eqE (.bin op a b) (.bin op b a) = .ok true := by
  rw [eqE_alike (P := P) _ _ (.bin (by rcases ho with rfl | rfl <;> decide) ha hb)]
  exact .comm ho (alike_refl a fun x hx => ⟨hna x hx, .refl _⟩) (alike_refl b fun x hx => ⟨hnb x hx, .refl _⟩)

/-- Equal trees have equal values under every map, if the literals of one of them are
not zero.  (The zeros are equal, but dividing by them is not, see `C38_eval_refuted`.)
No condition on the operations that take place. -/
theorem C38_eval_partial {P : Func → Prop} (a b : Elem) (ha : Proper P a)
    (hz : Literals (fun x => ¬ IsZero x) a) (h : eqE a b = .ok true) (w : World) (m : HMap F64)
    (v : F64) : eval w m a = .ok v ↔ eval w m b = .ok v := by
  have h1 := (eqE_alike a b ha).1 h
  have h2 : Alike Eq a b := alike_mono h1 fun x y hx hr => hr.2.of_not_zero (hz x hx)
  exact ⟨alike_eval h2, alike_eval (alike_symm (fun _ _ h => h.symm) h2)⟩

/-- Equal trees, with zeros or not, have the same value up to the sign of zero when both
evaluations take no doubtful step. -/
theorem C38_eval_zero_partial (a b : Elem) (w : World) (m : HMap F64) (u v : F64)
    (hw : (NoPower a ∧ NoPower b) ∨ PowLaws w) (ha : Runs w m a u) (hb : Runs w m b v) (h : eqE a b = .ok true) :
    eval w m a = .ok u ∧ eval w m b = .ok v ∧ Same u v :=
  ⟨runs_eval _ ha, runs_eval _ hb, eqE_same' hw ha hb h⟩

/-- Expressions produced by the library for a text without `!!`: comparing two of them
does not panic, and they are equal exactly if their trees are (the sets of variables
then agree if they are the variables of the trees, as the parser delivers them). -/
theorem C38_parsed_partial (cfg cfg' : Cfg) (w w' : World) (o o' : Oracle) (ctx ctx' : Context)
    (s t : Bytes) (x y : Xpr) (hs : ¬ DoubleBang s)
    (hx : parse cfg w o ctx s = .ok x) (hy : parse cfg' w' o' ctx' t = .ok y) :
    (x.eqX y = .ok true ∨ x.eqX y = .ok false) ∧
    (x.eqX y = .ok true ↔ Alike NumEq x.root y.root) := by
  have hp := parseImpl_proper (parse_ok hx) hs
  have vx : x.vars = findVars x.root [] := by
    obtain ⟨_, _, _, _, _, _, _, _, h⟩ := parseImpl_den (parse_ok hx); exact h
  have vy : y.vars = findVars y.root [] := by
    obtain ⟨_, _, _, _, _, _, _, _, h⟩ := parseImpl_den (parse_ok hy); exact h
  have hd := C38_decides x.root y.root hp
  unfold Xpr.eqX
  refine ⟨?_, ?_⟩
  · rcases hd.1 with h | h
    · rw [h]
      generalize (decide (x.vars.length = y.vars.length) && x.vars.all fun v => decide (v ∈ y.vars)) = b
      cases b <;> simp [andM]
    · rw [h]; simp [andM]
  · rw [andM_iff, hd.2]
    refine ⟨fun h => h.1, fun h => ⟨h, ?_⟩⟩
    have hsub : ∀ n, n ∈ x.vars ↔ n ∈ y.vars := by
      intro n
      rw [vx, vy, mem_findVars, mem_findVars]
      simp only [List.not_mem_nil, false_or]
      exact ⟨alike_occurs h, alike_occurs (alike_symm (fun _ _ => numEq_symm) h)⟩
    have nx : x.vars.Nodup := by rw [vx]; exact nodup_findVars _ _ (by simp)
    have ny : y.vars.Nodup := by rw [vy]; exact nodup_findVars _ _ (by simp)
    have hlen : x.vars.length = y.vars.length :=
      ((List.perm_ext_iff_of_nodup nx ny).2 hsub).length_eq
    simp only [Except.ok.injEq, Bool.and_eq_true, decide_eq_true_eq, List.all_eq_true]
    exact ⟨hlen, fun n hn => (hsub n).1 hn⟩

/-- The theorems apply to `x*(y+2)` and `(2+y)*x`. -/
def eqA : Elem := .bin .times vx (.bin .plus (.var b!"y") (.num (F64.ofNat 2)))
def eqB : Elem := .bin .times (.bin .plus (.num (F64.ofNat 2)) (.var b!"y")) vx
example : parse0 cfgOpt b!"x*(y+2)" = .ok ⟨eqA, [b!"x", b!"y"]⟩ := by decide +kernel
example : parse0 cfgOpt b!"(2+y)*x" = .ok ⟨eqB, [b!"y", b!"x"]⟩ := by decide +kernel
example : Xpr.eqX ⟨eqA, [b!"x", b!"y"]⟩ ⟨eqB, [b!"y", b!"x"]⟩ = .ok true := by decide +kernel
example : Xpr.eqX ⟨eqA, [b!"x", b!"y"]⟩ ⟨.bin .times vx (.var b!"y"), [b!"x", b!"y"]⟩ = .ok false := by
  decide +kernel
example : Proper (fun _ => True) eqA :=
  .bin (by decide) (.var _) (.bin (by decide) (.var _) (.num _))
example : Literals (fun x => ¬ IsZero x) eqA ∧ Literals (· ≠ .nan) eqA := by
  have : ∀ x, Sub (.num x) eqA → x = F64.ofNat 2 := by
    intro x h
    cases h with
    | left h => cases h
    | right h =>
      cases h with
      | left h => cases h
      | right h => cases h; rfl
  constructor
  · rintro x h ⟨s, hs⟩
    rw [this x h] at hs
    cases s <;> revert hs <;> decide +kernel
  · rintro x h rfl
    have := this _ h
    revert this; decide +kernel

end Props
end Xprs
