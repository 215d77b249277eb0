import Verif.Props.Parsing
import Verif.Lemmas.Missing
import Verif.Repl
/-
Properties C20, C23, C31, C32, C33, C48 and C49: what holds of an expression along any
history of simplifications after parsing.
-/
namespace Xprs
namespace Props
open Spec

/-! ### C20 -/

/-- C20 as stated. -/
def C20_claim : Prop := ∀ (cfg : Cfg) (w : World) (ctx : Context) (input : Bytes) (e : Xpr)
    (m : HMap F64), CtxTotal w ctx → Reach cfg w ctx input e →
  ((∃ v, e.eval w m = .ok v) ↔ ∀ n, Occurs n e.root → ∃ v, m n = some v) ∧
  ((∃ n, Occurs n e.root ∧ m n = none) →
    ∃ n pre post, e.eval w m = .error (.missing n) ∧ readVars e.root = pre ++ n :: post ∧
      (∀ k ∈ pre, ∃ v, m k = some v) ∧ m n = none)

/-- `3!!x` parses to a tree in which `!` is a binary operator; evaluating it panics. -/
theorem C20_refuted : ¬ C20_claim := by
  intro h
  have h1 : parse0 cfgPlain b!"3!!x" =
      .ok ⟨.bin .factorial (.un .factorial (.num (F64.ofNat 3))) (.var b!"x"), [b!"x"]⟩ := by
    decide +kernel
  have := (h cfgPlain w0 Context.default b!"3!!x" _ (HMap.ofList [(b!"x", F64.f1)])
    (ctxTotal_default w0) (.parsed (o := Oracle.id) h1)).1.2 (by
      intro n hn
      simp at hn
      subst hn
      exact ⟨F64.f1, by decide +kernel⟩)
  obtain ⟨v, hv⟩ := this
  have h2 : Xpr.eval w0 ⟨.bin .factorial (.un .factorial (.num (F64.ofNat 3))) (.var b!"x"), [b!"x"]⟩
    (HMap.ofList [(b!"x", F64.f1)]) = .error (.panic .unreachable) := by decide +kernel
  rw [h2] at hv; cases hv

/-- What is missing from C20: inputs with two adjacent `!`.  For all others, along any
history of simplifications: `eval` succeeds iff all variables that occur in the tree
have a value, and otherwise it reports the leftmost variable that has none. -/
theorem C20_partial (cfg : Cfg) (w : World) (ctx : Context) (input : Bytes) (e : Xpr) (m : HMap F64)
    (hw : CtxTotal w ctx) (hn : ¬ DoubleBang input) (h : Reach cfg w ctx input e) :
    ((∃ v, e.eval w m = .ok v) ↔ ∀ n, Occurs n e.root → ∃ v, m n = some v) ∧
    ((∃ n, Occurs n e.root ∧ m n = none) →
      ∃ n pre post, e.eval w m = .error (.missing n) ∧ readVars e.root = pre ++ n :: post ∧
        (∀ k ∈ pre, ∃ v, m k = some v) ∧ m n = none) := by
  have hp := proper_mono (fun f => named_total hw) _ (reach_proper h hn)
  have hs := eval_spec w m e.root hp
  unfold Xpr.eval
  have hall : (∀ n, Occurs n e.root → ∃ v, m n = some v) ↔ firstMissing m (readVars e.root) = none := by
    rw [firstMissing_none]
    constructor
    · intro h n hn; exact h n ((mem_readVars n _).1 hn)
    · intro h n hn; exact h n ((mem_readVars n _).2 hn)
  rw [hall]
  cases hf : firstMissing m (readVars e.root) with
  | none =>
    rw [hf] at hs
    refine ⟨⟨fun _ => rfl, fun _ => hs⟩, ?_⟩
    rintro ⟨n, h1, h2⟩
    obtain ⟨v, hv⟩ := hall.2 hf n h1
    rw [h2] at hv; cases hv
  | some n =>
    rw [hf] at hs
    simp only [EvalSpec] at hs
    refine ⟨⟨?_, fun h => by cases h⟩, fun _ => ?_⟩
    · rintro ⟨v, hv⟩; rw [hs] at hv; cases hv
    · obtain ⟨pre, post, h1, h2, h3⟩ := firstMissing_some.1 hf
      exact ⟨n, pre, post, hs, h1, h2, h3⟩

/-- Even with adjacent `!`, for every tree whatsoever: an `EvalError` names a variable
that occurs in the tree and is absent from the map. -/
theorem C20_missing (w : World) (e : Xpr) (m : HMap F64) (n : Bytes)
    (h : e.eval w m = .error (.missing n)) : Occurs n e.root ∧ m n = none :=
  eval_missing w m e.root h

/-- `y + x*z` with only `y` given reports `x`, although `z` is missing too. -/
example : ¬ DoubleBang b!"y + x*z" := by
  rintro ⟨a, ws, b, _, h⟩
  have : c!"!" ∈ b!"y + x*z" := by rw [h]; simp
  revert this; decide
example : (match parse0 cfgOpt b!"y + x*z" with
    | .ok e => some (e.eval w0 (HMap.ofList [(b!"y", F64.f1)]))
    | _ => none) = some (.error (.missing b!"x")) := by decide +kernel

/-! ### C23 -/

/-- C23 as stated. -/
def C23_claim : Prop := ∀ (cfg : Cfg) (w : World) (ctx : Context) (input : Bytes) (e : Xpr)
    (m : HMap F64), CtxTotal w ctx → Reach cfg w ctx input e →
  (∀ p, e.eval w m ≠ .error (.panic p)) ∧
  (∀ p, e.evalUnchecked w m = .error p → p = .unwrap ∧ ∃ n, Occurs n e.root ∧ m n = none)

/-- `3!!x` again. -/
theorem C23_refuted : ¬ C23_claim := by
  intro h
  have h1 : parse0 cfgPlain b!"3!!x" =
      .ok ⟨.bin .factorial (.un .factorial (.num (F64.ofNat 3))) (.var b!"x"), [b!"x"]⟩ := by
    decide +kernel
  exact (h cfgPlain w0 Context.default b!"3!!x" _ (HMap.ofList [(b!"x", F64.f1)])
    (ctxTotal_default w0) (.parsed (o := Oracle.id) h1)).1 .unreachable (by decide +kernel)

/-- What is missing from C23: inputs with two adjacent `!`. -/
theorem C23_partial (cfg : Cfg) (w : World) (ctx : Context) (input : Bytes) (e : Xpr) (m : HMap F64)
    (hw : CtxTotal w ctx) (hn : ¬ DoubleBang input) (h : Reach cfg w ctx input e) :
    (∀ p, e.eval w m ≠ .error (.panic p)) ∧
    (∀ p, e.evalUnchecked w m = .error p → p = .unwrap ∧ ∃ n, Occurs n e.root ∧ m n = none) := by
  obtain ⟨h1, h2⟩ := C20_partial cfg w ctx input e m hw hn h
  have hnp : ∀ p, e.eval w m ≠ .error (.panic p) := by
    intro p hp
    by_cases ha : ∀ n, Occurs n e.root → ∃ v, m n = some v
    · obtain ⟨v, hv⟩ := h1.2 ha; rw [hp] at hv; cases hv
    · rw [Classical.not_forall] at ha
      obtain ⟨n, ha⟩ := ha
      rw [Classical.not_imp] at ha
      obtain ⟨k, _, _, hk, _⟩ := h2 ⟨n, ha.1, by
        cases hm : m n with
        | none => rfl
        | some v => exact absurd ⟨v, hm⟩ ha.2⟩
      rw [hp] at hk; cases hk
  refine ⟨hnp, fun p hp => ?_⟩
  obtain ⟨_, c2, c3, c4⟩ := C21_unchecked w e m
  obtain ⟨r, hr⟩ := c2.1 ⟨p, hp⟩
  cases r with
  | panic q => exact absurd hr (hnp q)
  | missing n =>
    have := c3 n hr
    rw [hp] at this; cases this
    exact ⟨rfl, n, C20_missing w e m n hr⟩

/-- A panic of evaluation is always the same one: for *every* input, also with adjacent
`!`, `eval` can only panic by reaching the `unreachable!()` for a binary `!`. -/
theorem C23_only_unreachable (cfg : Cfg) (w : World) (ctx : Context) (input : Bytes) (e : Xpr)
    (m : HMap F64) (hw : CtxTotal w ctx) (h : Reach cfg w ctx input e) (p : Panic)
    (hp : e.eval w m = .error (.panic p)) : p = .unreachable :=
  eval_unr w m e.root (fun f args hs => ⟨named_total hw (reach_calls h f args hs).1,
    (reach_calls h f args hs).2⟩) hp

/-! ### C31 -/

/-- C31: for every tree (parsed or not), after `simplify_for` the variable does not
occur any more, and no variable occurs that did not occur before. -/
theorem C31_eliminates (cfg : Cfg) (w : World) (e e' : Xpr) (x : Bytes) (v : F64)
    (h : e.simplifyFor cfg w x v = .ok e') :
    ¬ Occurs x e'.root ∧ (∀ n, Occurs n e'.root → Occurs n e.root) ∧ x ∉ e'.vars := by
  unfold Xpr.simplifyFor at h
  split at h
  · cases h
  · rename_i root hr
    cases h
    refine ⟨fun ho => (simplifyFor_occurs _ hr ho).2 rfl, fun n ho => (simplifyFor_occurs _ hr ho).1, ?_⟩
    simp [Xpr.removeVar]

/-- The same for `simplify_for_multiple`: none of the listed variables is left. -/
theorem C31_multiple (cfg : Cfg) (w : World) (e e' : Xpr) (l : List (Bytes × F64))
    (h : e.simplifyForMultiple cfg w l = .ok e') :
    (∀ xv ∈ l, ¬ Occurs xv.1 e'.root ∧ xv.1 ∉ e'.vars) ∧ (∀ n, Occurs n e'.root → Occurs n e.root) := by
  unfold Xpr.simplifyForMultiple at h
  generalize e.root = t at *
  generalize e.vars = vs at *
  induction l generalizing t vs with
  | nil => rw [Xpr.simplifyLoop] at h; cases h; simp
  | cons xv l ih =>
    obtain ⟨x, v⟩ := xv
    rw [Xpr.simplifyLoop] at h
    split at h
    · cases h
    · rename_i t' ht
      obtain ⟨h1, h2⟩ := ih t' _ h
      refine ⟨?_, fun n hn => (simplifyFor_occurs t ht (h2 n hn)).1⟩
      intro yv hy
      rcases List.mem_cons.1 hy with rfl | hy
      · refine ⟨fun ho => (simplifyFor_occurs t ht (h2 _ ho)).2 rfl, ?_⟩
        clear ih h1 h2 ht hy
        have hx : x ∉ Xpr.removeVar vs x := by simp [Xpr.removeVar]
        revert h hx
        generalize Xpr.removeVar vs x = ws
        clear t
        intro h hx
        induction l generalizing t' ws with
        | nil => rw [Xpr.simplifyLoop] at h; cases h; exact hx
        | cons zv l ih =>
          obtain ⟨z, u⟩ := zv
          rw [Xpr.simplifyLoop] at h
          split at h
          · cases h
          · exact ih _ _ h (fun hm => hx (List.mem_filter.1 hm).1)
      · exact h1 yv hy

/-- `x*y` for `x = 2`. -/
example : (match parse0 cfgOpt b!"x*y + x" with
    | .ok e => (match e.simplifyFor cfgOpt w0 b!"x" (F64.ofNat 2) with
      | .ok e' => some (decide (e'.root =
          .bin .plus (.bin .times (.num (F64.ofNat 2)) (.var b!"y")) (.num (F64.ofNat 2))), e'.vars)
      | _ => none)
    | _ => none) = some (true, [b!"y"]) := by decide +kernel

/-! ### C32 -/

/-- C32 as stated. -/
def C32_claim : Prop := ∀ (cfg : Cfg) (w : World) (ctx : Context) (input : Bytes) (e : Xpr),
  CtxTotal w ctx → Reach cfg w ctx input e → ∀ n, n ∈ e.vars ↔ Occurs n e.root

/-- `x*y` for `x = 0` is `0`, but `y` stays in `vars`. -/
theorem C32_refuted : ¬ C32_claim := by
  intro h
  have h1 : parse0 cfgOpt b!"x*y" =
      .ok ⟨.bin .times (.var b!"x") (.var b!"y"), [b!"x", b!"y"]⟩ := by decide +kernel
  have h2 : Xpr.simplifyFor cfgOpt w0 ⟨.bin .times (.var b!"x") (.var b!"y"), [b!"x", b!"y"]⟩
      b!"x" F64.f0 = .ok ⟨.num F64.f0, [b!"y"]⟩ := by decide +kernel
  have := (h cfgOpt w0 Context.default b!"x*y" _ (ctxTotal_default w0)
    (.simplified (.parsed (o := Oracle.id) h1) h2) b!"y").1 (by simp)
  simp at this

/-- What is missing from C32: `vars` can contain variables that simplification removed
from the tree.  Along every history it has no duplicates, contains every variable of
the tree, and contains nothing but variables of the expression first parsed. -/
theorem C32_partial (cfg : Cfg) (w : World) (ctx : Context) (input : Bytes) (e : Xpr)
    (h : Reach cfg w ctx input e) :
    e.vars.Nodup ∧ (∀ n, Occurs n e.root → n ∈ e.vars) ∧
    ∃ o e0, parse cfg w o ctx input = .ok e0 ∧ ∀ n ∈ e.vars, Occurs n e0.root := by
  refine ⟨(reach_vars h).1, (reach_vars h).2, ?_⟩
  have hsub : ∀ {e e' : Xpr} {x v}, e.simplifyFor cfg w x v = .ok e' → ∀ n ∈ e'.vars, n ∈ e.vars := by
    intro e e' x v h n hn
    unfold Xpr.simplifyFor at h
    split at h
    · cases h
    · cases h; exact (List.mem_filter.1 hn).1
  induction h with
  | @parsed o x h =>
    exact ⟨o, x, h, fun n hn => ((C05_vars cfg w o ctx input x h).2 n).1 hn⟩
  | simplified _ h ih =>
    obtain ⟨o, e0, h0, h1⟩ := ih
    exact ⟨o, e0, h0, fun n hn => h1 n (hsub h n hn)⟩
  | @multiple e l e' _ h ih =>
    obtain ⟨o, e0, h0, h1⟩ := ih
    refine ⟨o, e0, h0, fun n hn => h1 n ?_⟩
    unfold Xpr.simplifyForMultiple at h
    revert hn h
    generalize e.root = t
    generalize e.vars = vs
    intro h hn
    clear h1 h0
    induction l generalizing t vs with
    | nil => rw [Xpr.simplifyLoop] at h; cases h; exact hn
    | cons xv l ihl =>
      obtain ⟨x, v⟩ := xv
      rw [Xpr.simplifyLoop] at h
      split at h
      · cases h
      · exact (List.mem_filter.1 (ihl _ _ h)).1

/-- The variables that are left in `vars` after one `simplify_for` are exactly the
others. -/
theorem C32_step (cfg : Cfg) (w : World) (e e' : Xpr) (x : Bytes) (v : F64)
    (h : e.simplifyFor cfg w x v = .ok e') : ∀ n, n ∈ e'.vars ↔ n ∈ e.vars ∧ n ≠ x := by
  unfold Xpr.simplifyFor at h
  split at h
  · cases h
  · cases h; intro n; simp [Xpr.removeVar]

/-! ### C33 -/

/-- C33: `simplify_for_multiple` for a list is `simplify_for` for its entries one after
the other, with the same trees, the same `vars`, and the same panics.  (In the model
the in-place and by-value variants are one function.) -/
theorem C33_multiple (cfg : Cfg) (w : World) (e : Xpr) (l : List (Bytes × F64)) :
    e.simplifyForMultiple cfg w l = l.foldlM (fun e xv => e.simplifyFor cfg w xv.1 xv.2) e := by
  unfold Xpr.simplifyForMultiple
  induction l generalizing e with
  | nil => rfl
  | cons xv l ih =>
    obtain ⟨x, v⟩ := xv
    rw [List.foldlM_cons, Xpr.simplifyLoop]
    unfold Xpr.simplifyFor
    simp only
    cases simplifyFor cfg w x v e.root with
    | error p => rfl
    | ok t => exact ih ⟨t, Xpr.removeVar e.vars x⟩

/-- Splitting the list makes no difference. -/
theorem C33_append (cfg : Cfg) (w : World) (e : Xpr) (l l' : List (Bytes × F64)) :
    e.simplifyForMultiple cfg w (l ++ l') =
      (e.simplifyForMultiple cfg w l).bind fun e' => e'.simplifyForMultiple cfg w l' := by
  simp only [C33_multiple, List.foldlM_append]
  rfl

/-- Two steps on `x*y + z`. -/
example : (match parse0 cfgPlain b!"x*y + z" with
    | .ok e => (match e.simplifyForMultiple cfgPlain w0 [(b!"x", F64.ofNat 2), (b!"y", F64.ofNat 3)] with
      | .ok e' => some (decide (e'.root = .bin .plus (.num (F64.ofNat 6)) (.var b!"z")), e'.vars)
      | _ => none)
    | _ => none) = some (true, [b!"z"]) := by decide +kernel

/-! ### C48 -/

theorem askForVariables_spec (o : Oracle) (vars : List Bytes) (answers : Nat → F64) :
    ∀ n, n ∈ vars ↔ ∃ v, askForVariables o vars answers n = some v := by
  have key : ∀ (l : List (Bytes × Nat)) (m : HMap F64) n,
      (∃ v, l.foldl (fun acc vk => acc.insert vk.1 (answers vk.2)) m n = some v) ↔
        (∃ v, m n = some v) ∨ ∃ k, (n, k) ∈ l := by
    intro l
    induction l with
    | nil => intro m n; simp
    | cons a l ih =>
      intro m n
      rw [List.foldl_cons, ih]
      unfold HMap.insert
      by_cases hn : n = a.1
      · subst hn; simp; exact .inr ⟨a.2, .inl rfl⟩
      · rw [if_neg hn]
        constructor
        · rintro (h | ⟨k, hk⟩)
          · exact .inl h
          · exact .inr ⟨k, by simp [hk]⟩
        · rintro (h | ⟨k, hk⟩)
          · exact .inl h
          · rcases List.mem_cons.1 hk with rfl | hk
            · exact absurd rfl hn
            · exact .inr ⟨k, hk⟩
  intro n
  unfold askForVariables
  rw [key, ← (o.perm vars).mem_iff]
  constructor
  · intro h
    obtain ⟨k, hk, he⟩ := List.mem_iff_getElem.1 h
    exact .inr ⟨k, by rw [List.mem_zipIdx_iff_getElem?]; simp [List.getElem?_eq_getElem hk, he]⟩
  · rintro (⟨v, hv⟩ | ⟨k, hk⟩)
    · cases hv
    · rw [List.mem_zipIdx_iff_getElem?] at hk
      exact List.mem_of_getElem? hk

/-- C48: whatever line is typed, whatever the answers and the iteration order of the
set: the `unreachable!()` of the REPL is not reached. -/
theorem C48_repl (cfg : Cfg) (w : World) (o : Oracle) (line : Bytes) (answers : Nat → F64) :
    replLine cfg w o line answers ≠ .unreachableBranch := by
  unfold replLine
  split
  · rename_i ast h
    split
    · simp
    · rename_i n hn
      obtain ⟨h1, h2⟩ := C20_missing w ast _ n hn
      have := ((C05_vars cfg w o Context.default line ast h).2 n).2 h1
      obtain ⟨v, hv⟩ := (askForVariables_spec o ast.vars answers n).1 this
      rw [h2] at hv; cases hv
    · simp
  all_goals simp

/-- More: a line without adjacent `!` that is not empty is either evaluated or its
error is reported; the library does not panic. -/
theorem C48_no_panic (cfg : Cfg) (w : World) (o : Oracle) (line : Bytes) (answers : Nat → F64)
    (hne : line ≠ []) (hn : ¬ DoubleBang line) :
    (∃ v, replLine cfg w o line answers = .evaluated v) ∨
    (∃ e, replLine cfg w o line answers = .reported e) := by
  have hb := C48_repl cfg w o line answers
  unfold replLine at *
  cases h : parse cfg w o Context.default line with
  | ok ast =>
    simp only [h] at hb ⊢
    left
    cases he : ast.eval w (askForVariables o ast.vars answers) with
    | ok v => exact ⟨v, rfl⟩
    | error r =>
      cases r with
      | missing n => simp [he] at hb
      | panic p =>
        exact absurd he ((C23_partial cfg w Context.default line ast _ (ctxTotal_default w) hn
          (.parsed h)).1 p)
  | err e => exact .inr ⟨e, rfl⟩
  | panic p =>
    rcases C02_partial cfg w o Context.default line (ctxTotal_default w) hne hn with ⟨x, hx⟩ | ⟨e, he⟩
    · rw [h] at hx; cases hx
    · rw [h] at he; cases he
  | fuel => exact absurd h (by
      intro hf
      have := C01_terminates cfg w o Context.default line
      simp [hf] at this)

/-- The REPL evaluating `x + y` with answers 2 and 3. -/
example : replLine cfgOpt w0 Oracle.id b!"x + y\n" (fun k => F64.ofNat (k + 2)) =
    .evaluated (F64.ofNat 5) := by decide +kernel

/-! ### C49 -/

/-- C49: neither simplification pass makes a tree larger, and for every function the
number of its calls does not grow (so no call of a new function appears). -/
theorem C49_size (cfg : Cfg) (w : World) (e e' : Elem)
    (h : simplify cfg w e = .ok e' ∨ ∃ x v, simplifyFor cfg w x v e = .ok e') :
    size e' ≤ size e ∧ ∀ f, callCount f e' ≤ callCount f e := by
  rcases h with h | ⟨x, v, h⟩
  · exact ⟨simplify_size e h, fun f => simplify_callCount f e h⟩
  · exact ⟨simplifyFor_size e h, fun f => simplifyFor_callCount f e h⟩

/-- Along any history the tree never has more nodes than the one parsed. -/
theorem C49_history (cfg : Cfg) (w : World) (ctx : Context) (input : Bytes) (e : Xpr)
    (h : Reach cfg w ctx input e) :
    ∃ o e0, parse cfg w o ctx input = .ok e0 ∧ size e.root ≤ size e0.root ∧
      ∀ f, callCount f e.root ≤ callCount f e0.root := by
  induction h with
  | @parsed o x h => exact ⟨o, x, h, Nat.le_refl _, fun _ => Nat.le_refl _⟩
  | @simplified e x v e' _ h ih =>
    obtain ⟨o, e0, h0, h1, h2⟩ := ih
    unfold Xpr.simplifyFor at h
    split at h
    · cases h
    · rename_i r hr
      cases h
      obtain ⟨a, b⟩ := C49_size cfg w _ _ (.inr ⟨x, v, hr⟩)
      exact ⟨o, e0, h0, Nat.le_trans a h1, fun f => Nat.le_trans (b f) (h2 f)⟩
  | @multiple e l e' _ h ih =>
    obtain ⟨o, e0, h0, h1, h2⟩ := ih
    have := simplifyLoop_ind (Q := fun t _ => size t ≤ size e0.root ∧
        ∀ f, callCount f t ≤ callCount f e0.root) (cfg := cfg) (w := w)
      (fun t t' vs x v hq ht => by
        obtain ⟨a, b⟩ := C49_size cfg w _ _ (.inr ⟨x, v, ht⟩)
        exact ⟨Nat.le_trans a hq.1, fun f => Nat.le_trans (b f) (hq.2 f)⟩) l _ _ _ ⟨h1, h2⟩ h
    exact ⟨o, e0, h0, this⟩

/-- `sin(x) * y + 1*z` loses three nodes. -/
example : (match parse0 cfgPlain b!"sin(x)*y + 1*z" with
    | .ok e => (match e.simplifyFor cfgPlain w0 b!"y" (F64.ofNat 2) with
      | .ok e' => some (size e.root, size e'.root, callCount Builtin.sin.toFunc e'.root)
      | _ => none)
    | _ => none) = some (8, 6, 1) := by decide +kernel

end Props
end Xprs
