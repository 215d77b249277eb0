import Verif.Macro
import Verif.Props.Grammar
import Verif.Props.Compose
import Verif.Lemmas.Places
/-
Property C81: functions made with `xprs_fn!`.
-/
namespace Xprs
namespace Props
open Spec

/-- `f` was made with `xprs_fn!` from `c`, under whatever name. -/
def Made (w : World) (f : Func) (c : Closure) : Prop :=
  (∀ b, f.func ≠ .builtin b) ∧ f = xprsFn f.name f.func c ∧ w.user f.func = c.wrap

/-- Called with the declared number of arguments the made function is the given one. -/
theorem made_call {w : World} {f : Func} {c : Closure} (h : Made w f c) (vs : List F64)
    (hn : ∀ n, f.nbArgs = some n → vs.length = n) :
    ∃ v, Spec.Closure.apply c vs = some v ∧ callFn w f vs = .ok v := by
  obtain ⟨h1, h2, h3⟩ := h
  have h4 : f.nbArgs = c.nbArgs := by rw [h2]; rfl
  obtain ⟨v, hv, hw⟩ := wrap_apply c vs fun n h => hn n (h4.trans h)
  refine ⟨v, hv, ?_⟩
  unfold callFn
  split
  · rename_i b hb; exact absurd hb (h1 b)
  · rw [h3, hw]

/-- C81, calls: wherever an expression calls a function made with `xprs_fn!` from `c`, the call
has the value of `c` for exactly the values of the written arguments, in their order, as many as
`c` takes; it does not panic. -/
theorem C81_call (cfg : Cfg) (w : World) (ctx : Context) (input : Bytes) (e : Xpr)
    (he : Reach cfg w ctx input e) (f : Func) (c : Closure) (args : List Elem)
    (hs : Sub (.call f args) e.root) (hf : Made w f c) (m : HMap F64) (vs : List F64)
    (hv : evalL w m args = .ok vs) :
    vs.length = args.length ∧
      ∃ v, Spec.Closure.apply c vs = some v ∧ eval w m (.call f args) = .ok v := by
  obtain ⟨_, h1, _⟩ := C08_arity cfg w ctx input e he f args hs
  have hl : vs.length = args.length := evalL_length _ _ _ hv
  obtain ⟨v, h2, h3⟩ := made_call hf vs fun n hn => hl.trans (h1 n hn)
  refine ⟨hl, v, h2, ?_⟩
  rw [eval, hv]
  show liftP (callFn w f vs) = _
  rw [h3]
  rfl

/-- C81, panics: if the functions of a context are made with `xprs_fn!`, then they all count as
total; so C02, C08, C20, C23, C25, C77 and C78 apply, and no expression panics because of them. -/
theorem C81_total (w : World) (ctx : Context)
    (h : ∀ nm f, ctx.get nm = some (.func f) → ∃ c, Made w f c) : CtxTotal w ctx := by
  intro nm f hf args ha
  obtain ⟨c, hm⟩ := h nm f hf
  obtain ⟨v, _, hv⟩ := made_call hm args ha.2
  exact ⟨v, hv⟩

theorem count_pos : ∀ as : CArgs, 0 < as.count
  | .last .. => by rw [CArgs.count]; exact Nat.one_pos
  | .more .. => by rw [CArgs.count]; exact Nat.succ_pos _

/-- A token that names a function is followed by arguments. -/
theorem toks_arity {cfg : Cfg} {fin : Elem → PM Elem} {ctx : Context} {nm : Bytes} {f : Func}
    (hn : IsName nm) (hf : lookup ctx nm = .func f) (h0 : f.nbArgs = some 0) :
    (∀ (x : Cst) (rest : Bytes), x.wf cfg fin ctx rest → nm ∉ x.toks) ∧
    (∀ (as : CArgs) (rest : Bytes), as.wf cfg fin ctx rest → nm ∉ as.toks) := by
  obtain ⟨⟨c0, hc0, hl⟩, _⟩ := hn
  have hsym : ∀ {c : UInt8}, ¬ letter c → nm ≠ [c] := by
    rintro c hc rfl; cases hc0; exact hc hl
  have hop : ∀ op, ¬ letter (opChar op) := by intro op; cases op <;> decide
  have hp := hsym (c := c!"(") (by decide)
  have hq := hsym (c := c!")") (by decide)
  have hr := hsym (c := c!"!") (by decide)
  have hs := hsym (c := c!",") (by decide)
  refine cst_ind ?_ ?_ ?_ ?_ ?_ ?_ ?_ ?_ ?_ ?_
  · intro ws txt v rest hw
    rw [Cst.wf] at hw
    obtain ⟨c, hc, hd⟩ := literal_head hw.2
    rw [Cst.toks, List.mem_singleton]
    rintro rfl
    rw [hc0] at hc; cases hc
    exact ((starts c0).1 hd).2.1 hl
  · intro ws nm' rest hw
    rw [Cst.wf] at hw
    rw [Cst.toks, List.mem_singleton]
    rintro rfl
    exact hw.2.2 f hf
  · intro ws nm' ws2 as ih rest hw
    rw [Cst.wf] at hw
    have ih := ih rest hw.2.2.2.2
    rw [Cst.toks]
    simp only [List.mem_cons, List.mem_append, List.not_mem_nil, or_false]
    rintro (rfl | h | h | h)
    · obtain ⟨f', hf', hc⟩ := hw.2.2.2.1
      rw [hf] at hf'; cases hf'
      have := hc 0 h0
      have := count_pos as
      omega
    · exact hp h
    · exact ih h
    · exact hq h
  · intro ws x ws2 ih rest hw
    rw [Cst.wf] at hw
    have ih := ih _ hw.2.2
    rw [Cst.toks]
    simp only [List.mem_cons, List.mem_append, List.not_mem_nil, or_false]
    rintro (h | h | h)
    · exact hp h
    · exact ih h
    · exact hq h
  · intro ws neg x ih rest hw
    rw [Cst.wf] at hw
    have ih := ih _ hw.2.1
    rw [Cst.toks]
    simp only [List.mem_cons]
    rintro (h | h)
    · exact hsym (by cases neg <;> decide) h
    · exact ih h
  · intro x ws ih rest hw
    rw [Cst.wf] at hw
    have ih := ih _ hw.2.2
    rw [Cst.toks]
    simp only [List.mem_append, List.mem_singleton]
    rintro (h | h)
    · exact ih h
    · exact hr h
  · intro l ws op r ih1 ih2 rest hw
    rw [Cst.wf] at hw
    rw [Cst.toks]
    simp only [List.mem_append, List.mem_cons]
    rintro (h | h | h)
    · exact ih1 _ hw.2.1 h
    · exact hsym (hop op) h
    · exact ih2 _ hw.2.2.2.1 h
  · intro l r ih1 ih2 rest hw
    rw [Cst.wf] at hw
    rw [Cst.toks]
    simp only [List.mem_append]
    rintro (h | h)
    · exact ih1 _ hw.1 h
    · exact ih2 _ hw.2.2.1 h
  · intro x ws ih rest hw
    rw [CArgs.wf] at hw
    exact ih _ hw.2
  · intro x ws as ih1 ih2 rest hw
    rw [CArgs.wf] at hw
    rw [CArgs.toks]
    simp only [List.mem_append, List.mem_cons]
    rintro (h | h | h)
    · exact ih1 _ hw.2.1 h
    · exact hs h
    · exact ih2 _ hw.2.2 h

/-- C81, no arguments: a function that is declared without arguments (`xprs_fn!(name, f, 0)`)
cannot be used.  No text with its name as a token is accepted, in any build. -/
theorem C81_zero (cfg : Cfg) (w : World) (o : Oracle) (ctx : Context) (input : Bytes)
    (ts : List Bytes) (hl : Lex input ts) (nm : Bytes) (f : Func) (hn : IsName nm) (hm : nm ∈ ts)
    (hf : lookup ctx nm = .func f) (h0 : f.nbArgs = some 0) (x : Xpr) :
    parse cfg w o ctx input ≠ .ok x := by
  intro h
  obtain ⟨c, tw, rfl, h2, h3, _⟩ := parseImpl_ok (parse_ok h)
  rw [lex_unique hl (lex_text.1 c tw [] h3 (.nil h2)), List.append_nil] at hm
  exact (toks_arity hn hf h0).1 c tw h3 hm

/-- C81, exactly: of the functions a context holds under a name, those can be called whose
name is a name and that are not declared without arguments. -/
theorem C81_usable (cfg : Cfg) (w : World) (ctx : Context) (nm : Bytes) (f : Func)
    (ho : cfg.opt = false) (hf : ctx.get nm = some (.func f)) (hn : IsName nm) :
    (∃ input o x args, parse cfg w o ctx input = .ok x ∧ Sub (.call f args) x.root) ↔
      f.nbArgs ≠ some 0 := by
  constructor
  · rintro ⟨input, o, x, args, h, hs⟩ h0
    obtain ⟨h1, h2, _⟩ := C08_arity cfg w ctx input x (.parsed h) f args hs
    rw [h2 0 h0] at h1
    exact absurd h1 (Nat.lt_irrefl 0)
  · intro h0
    have hlk : lookup ctx nm = .func f := by unfold lookup; rw [hf]; rfl
    obtain ⟨k, hk, hk'⟩ : ∃ k, 0 < k ∧ ∀ n, f.nbArgs = some n → k = n := by
      cases hb : f.nbArgs with
      | none => exact ⟨1, Nat.one_pos, fun n h => by cases h⟩
      | some n =>
        refine ⟨n, Nat.pos_of_ne_zero fun h => h0 (by rw [hb, h]), fun n' h => by cases h; rfl⟩
    have hsay : Sayable ctx (.call f (List.replicate k (.num F64.f0))) := by
      refine .call hn hlk (by rw [List.length_replicate]; exact hk)
        (fun n h => by rw [List.length_replicate]; exact hk' n h) fun a ha => ?_
      rw [List.eq_of_mem_replicate ha]
      exact .lit (n := 0)
    obtain ⟨c, _, _, x, h1, _, h3⟩ := C09_every_tree cfg w ctx _ (fun h => by rw [ho] at h; cases h) hsay
      (by
        intro vs _ n hocc
        exfalso
        revert hocc
        rw [occurs_call]
        rintro ⟨a, ha, hx⟩
        rw [List.eq_of_mem_replicate ha] at hx
        cases hx)
    exact ⟨c.text, Oracle.id, x, _, h1 _, by rw [h3 ho]; exact .refl⟩

/-- C81, exactly, in every build: if some name may stand for a variable, the functions that can
be called are those not declared without arguments. (With compile-time-optimizations and no
variable to pass, calls are evaluated while parsing and leave no trace in the tree.) -/
theorem C81_usable_builds (cfg : Cfg) (w : World) (ctx : Context) (nm : Bytes) (f : Func)
    (hf : ctx.get nm = some (.func f)) (hn : IsName nm) (n : Bytes) (hv : IsName n)
    (hl : lookup ctx n = .var n) (he : ∀ vs, ctx.getExpected = some vs → n ∈ vs) :
    (∃ input o x args, parse cfg w o ctx input = .ok x ∧ Sub (.call f args) x.root) ↔
      f.nbArgs ≠ some 0 := by
  constructor
  · rintro ⟨input, o, x, args, h, hs⟩ h0
    obtain ⟨h1, h2, _⟩ := C08_arity cfg w ctx input x (.parsed h) f args hs
    rw [h2 0 h0] at h1
    exact absurd h1 (Nat.lt_irrefl 0)
  · intro h0
    have hlk : lookup ctx nm = .func f := by unfold lookup; rw [hf]; rfl
    obtain ⟨k, hk, hk'⟩ : ∃ k, 0 < k ∧ ∀ n, f.nbArgs = some n → k = n := by
      cases hb : f.nbArgs with
      | none => exact ⟨1, Nat.one_pos, fun n h => by cases h⟩
      | some n =>
        refine ⟨n, Nat.pos_of_ne_zero fun h => h0 (by rw [hb, h]), fun n' h => by cases h; rfl⟩
    have hp : parse cfg w Oracle.id ctx n = .ok ⟨.var n, [n]⟩ := by
      have := parseImpl_text cfg w ctx (.name [] n) []
        ⟨by simp [spaces], ⟨hv.1, hv.2, by intro c hc; cases hc⟩, by simp [hl]⟩ (by simp [spaces])
      simp only [Cst.text, List.nil_append, List.append_nil] at this
      have hf : finOf cfg w (.var n) = .ok (.var n) := by
        unfold finOf; split
        · rw [simplify]
        · rfl
      simp only [Cst.meaning, Cst.den, hl, hf] at this
      refine parse_of_impl (by rw [this]; rfl) fun vs hvs a ha => ?_
      rw [List.mem_singleton.1 ha]
      exact he vs hvs
    have hfa : ∀ k, List.Forall₂ (fun t x => parse cfg w Oracle.id ctx t = .ok x)
        (List.replicate k n) (List.replicate k ⟨.var n, [n]⟩) := by
      intro k
      induction k with
      | zero => exact .nil
      | succ k ih => exact .cons hp ih
    have hcall := C62_call cfg w Oracle.id ctx nm f (List.replicate k n) (List.replicate k ⟨.var n, [n]⟩) hn hlk
      (by intro h; rw [List.replicate_eq_nil_iff] at h; omega)
      (fun n h => by rw [List.length_replicate]; exact hk' n h) (hfa k)
    have hsl : ∀ k, simplifyL cfg w (List.replicate k (.var n)) = .ok (List.replicate k (.var n)) := by
      intro k
      induction k with
      | zero => rfl
      | succ k ih => rw [List.replicate_succ, simplifyL, simplify, ih]
    have hnum : ∀ k, numsOf (List.replicate k (.var n)) = [] := by
      intro k
      induction k with
      | zero => rfl
      | succ k ih => rw [List.replicate_succ, numsOf, ih]; intro x h; cases h
    have hfin : finOf cfg w (.call f (List.replicate k (.var n))) =
        .ok (.call f (List.replicate k (.var n))) := by
      unfold finOf
      split
      · rw [simplify, hsl]
        simp only [simpCall, hnum, List.length_replicate]
        rw [if_neg (by simp; omega)]
      · rfl
    rw [List.map_replicate, hfin] at hcall
    exact ⟨_, _, _, _, hcall, .refl⟩

/-- `xprs_fn!("f", || 7.0, 0)` and `xprs_fn!("sub", |a, b| a - b, 2)`. -/
def cSeven : Closure := .f0 (F64.ofNat 7)
def cSub : Closure := .f2 F64.sub
def wMacro : World :=
  { w0 with user := fun p => match p with
      | .static 1 => cSeven.wrap
      | _ => cSub.wrap }
def ctxMacro : Context :=
  (Context.default.setFn (xprsFn b!"f" (.static 1) cSeven)).setFn (xprsFn b!"sub" (.static 2) cSub)

/-- `sub(x, 3)` is `x - 3`, and neither `f()` nor `f` nor `f(1)` is accepted. -/
example : parse cfgPlain wMacro Oracle.id ctxMacro b!"sub(x, 3)" =
      .ok ⟨.call (xprsFn b!"sub" (.static 2) cSub) [.var b!"x", .num (F64.ofNat 3)], [b!"x"]⟩ ∧
    Xpr.eval wMacro ⟨.call (xprsFn b!"sub" (.static 2) cSub) [.var b!"x", .num (F64.ofNat 3)],
      [b!"x"]⟩ (HMap.ofList [(b!"x", F64.ofNat 5)]) = .ok (F64.ofNat 2) ∧
    parse cfgPlain wMacro Oracle.id ctxMacro b!"f()" = .err ⟨.missingArgument, 1, 2⟩ ∧
    parse cfgPlain wMacro Oracle.id ctxMacro b!"f" = .err ⟨.expectedToken c!"(", 1, 0⟩ ∧
    parse cfgPlain wMacro Oracle.id ctxMacro b!"f(1)" = .err ⟨.tooMany 0 1, 0, 4⟩ := by
  refine ⟨by decide +kernel, by decide +kernel, by decide +kernel, by decide +kernel, by decide +kernel⟩

/-- An optimizing build, in which `x` may be passed: `sub` can be called, `f` cannot. -/
example : (∃ input o x args, parse cfgOpt wMacro o ctxMacro input = .ok x ∧
      Sub (.call (xprsFn b!"sub" (.static 2) cSub) args) x.root) ∧
    ¬ ∃ input o x args, parse cfgOpt wMacro o ctxMacro input = .ok x ∧
      Sub (.call (xprsFn b!"f" (.static 1) cSeven) args) x.root := by
  have hx : IsName b!"x" := ⟨⟨_, rfl, by decide⟩, by decide⟩
  have hs : IsName b!"sub" := ⟨⟨_, rfl, by decide⟩, by decide⟩
  have hf : IsName b!"f" := ⟨⟨_, rfl, by decide⟩, by decide⟩
  refine ⟨(C81_usable_builds cfgOpt wMacro ctxMacro b!"sub" _ rfl hs b!"x" hx rfl ?_).2 (by decide), ?_⟩
  · intro vs h; cases h
  · rw [C81_usable_builds cfgOpt wMacro ctxMacro b!"f" _ rfl hf b!"x" hx rfl (by intro vs h; cases h)]
    decide

/-- The functions of this context are total. -/
example : CtxTotal wMacro ctxMacro := by
  refine C81_total _ _ fun nm f h => ?_
  have h' : f = xprsFn b!"sub" (.static 2) cSub ∨ f = xprsFn b!"f" (.static 1) cSeven := by
    simp only [ctxMacro, Context.setFn, Context.get, HMap.get, HMap.insert, Context.default,
      HMap.empty] at h
    split at h
    · cases h; exact .inl rfl
    · split at h
      · cases h; exact .inr rfl
      · cases h
  rcases h' with rfl | rfl
  · exact ⟨cSub, fun b => by simp [xprsFn], rfl, rfl⟩
  · exact ⟨cSeven, fun b => by simp [xprsFn], rfl, rfl⟩

end Props
end Xprs
