import Verif.Props.Builds
import Verif.Props.Compose
/-
Property C62 in builds with compile-time optimisations: the value of the whole is that of the
parts put together, up to the sign of zero, where no step is doubtful.
-/
namespace Xprs
namespace Props
open Spec

theorem finOf_proper {P : Func → Prop} {cfg : Cfg} {w : World} (hP : ∀ f, P f → FnTotal w f) {e : Elem}
    (h : Proper P e) : ∃ e', finOf cfg w e = .ok e' ∧ Proper P e' := by
  unfold finOf
  split
  · exact simplify_proper cfg w hP e h
  · exact ⟨e, rfl, h⟩

section
variable (cfg : Cfg) (w : World) (o : Oracle) (ctx : Context)

/-- C62 for any build: `(s) op (t)` is accepted when `s` and `t` are (they have no `!!`, and
functions do not panic), has no further variables, and its value is the operator's of their
values up to the sign of zero, if no step is doubtful. -/
theorem C62_builds_operators_partial (s t : Bytes) (x y : Xpr) (op : Op) (hop : op ≠ .factorial)
    (hc : CtxTotal w ctx) (hbs : ¬ DoubleBang s) (hbt : ¬ DoubleBang t)
    (hs : parse cfg w o ctx s = .ok x) (ht : parse cfg w o ctx t = .ok y) :
    ∃ z, parse cfg w o ctx (inParens s ++ opChar op :: inParens t) = .ok z ∧
      (∀ n ∈ z.vars, n ∈ x.vars ∨ n ∈ y.vars) ∧
      ∀ m a b v, (NoPower (.bin op x.root y.root) ∨ PowLaws w) → Runs w m x.root a → Runs w m y.root b → BinStep w op a b v →
        ∃ u, z.eval w m = .ok u ∧ Same v u := by
  have h := C62_infix cfg w o ctx s t x y op hop hs ht
  have hP : ∀ f, Named ctx f → FnTotal w f := fun f hf => named_total hc hf
  have px := parseImpl_proper (parse_ok hs) hbs
  obtain ⟨b', hb', pb⟩ := finOf_proper (cfg := cfg) hP (parseImpl_proper (parse_ok ht) hbt)
  obtain ⟨e, he, -⟩ := finOf_proper (cfg := cfg) hP (Proper.bin hop px pb)
  rw [hb'] at h
  have h : parse cfg w o ctx (inParens s ++ opChar op :: inParens t) = .ok ⟨e, findVars e []⟩ := by
    rw [h]; show outcome (finOf cfg w _) = _; rw [he]; rfl
  refine ⟨_, h, fun n hn => ?_, fun m a b v hw ra rb st => ?_⟩
  · rw [vars_parsed cfg w o ctx h] at hn
    rw [vars_parsed cfg w o ctx hs, vars_parsed cfg w o ctx ht]
    have := finOf_occurs he hn
    rw [occurs_bin] at this
    exact this.imp_right (finOf_occurs hb')
  · obtain ⟨⟨b1, rb1, sb⟩, hp⟩ := finOf_runs' (hw.imp_left fun h => (noPower_bin.1 h).2.2) rb hb'
    obtain ⟨v1, st1, sv⟩ := st.congr' (hw.imp_left fun h => (noPower_bin.1 h).1) (.refl a) sb
    obtain ⟨⟨u, ru, su⟩, -⟩ := finOf_runs' (hw.imp_left fun h => noPower_bin.2
      ⟨(noPower_bin.1 h).1, (noPower_bin.1 h).2.1, hp (noPower_bin.1 h).2.2⟩) (Runs.bin ra rb1 st1) he
    exact ⟨u, runs_eval _ ru, sv.trans su⟩

/-- C62 for any build: the signs in front and the factorial. -/
theorem C62_builds_unary_partial (s : Bytes) (x : Xpr) (hc : CtxTotal w ctx) (hbs : ¬ DoubleBang s)
    (hs : parse cfg w o ctx s = .ok x) :
    (∃ z, parse cfg w o ctx (c!"-" :: inParens s) = .ok z ∧ (∀ n ∈ z.vars, n ∈ x.vars) ∧
      ∀ m a, (NoPower x.root ∨ PowLaws w) → Runs w m x.root a → ∃ u, z.eval w m = .ok u ∧ Same (F64.neg a) u) ∧
    (∃ z, parse cfg w o ctx (c!"+" :: inParens s) = .ok z ∧ (∀ n ∈ z.vars, n ∈ x.vars) ∧
      ∀ m a, (NoPower x.root ∨ PowLaws w) → Runs w m x.root a → ∃ u, z.eval w m = .ok u ∧ Same a u) ∧
    (∃ z, parse cfg w o ctx (inParens s ++ [c!"!"]) = .ok z ∧ (∀ n ∈ z.vars, n ∈ x.vars) ∧
      ∀ m a, (NoPower x.root ∨ PowLaws w) → Runs w m x.root a →
        ∃ v u, FactorialOf a v ∧ z.eval w m = .ok u ∧ Same v u) := by
  have hP : ∀ f, Named ctx f → FnTotal w f := fun f hf => named_total hc hf
  have px := parseImpl_proper (parse_ok hs) hbs
  obtain ⟨a', ha', pa⟩ := finOf_proper (cfg := cfg) hP px
  have key : ∀ (t : Bytes) (op : Op) (e0 : Elem), Proper (Named ctx) (.un op e0) →
      (∀ n, Occurs n e0 → Occurs n x.root) →
      (∀ m a, (NoPower x.root ∨ PowLaws w) → Runs w m x.root a →
        (∃ b, Runs w m e0 b ∧ Same a b) ∧ (NoPower x.root → NoPower e0)) →
      parse cfg w o ctx t = outcome (finOf cfg w (.un op e0)) →
      ∃ z, parse cfg w o ctx t = .ok z ∧ (∀ n ∈ z.vars, n ∈ x.vars) ∧
        ∀ m a v, (NoPower x.root ∨ PowLaws w) → Runs w m x.root a → UnStep op a v →
          ∃ u, z.eval w m = .ok u ∧ Same v u := by
    intro t op e0 pe ho hr h
    obtain ⟨e, he, -⟩ := finOf_proper (cfg := cfg) hP pe
    rw [he] at h
    have h : parse cfg w o ctx t = .ok ⟨e, findVars e []⟩ := h
    refine ⟨_, h, fun n hn => ?_, fun m a v hw ra st => ?_⟩
    · rw [vars_parsed cfg w o ctx h] at hn
      rw [vars_parsed cfg w o ctx hs]
      have := finOf_occurs he hn
      rw [occurs_un] at this
      exact ho n this
    · obtain ⟨⟨b, rb, sb⟩, hp⟩ := hr m a hw ra
      obtain ⟨v1, st1, sv⟩ := st.congr sb
      obtain ⟨⟨u, ru, su⟩, -⟩ := finOf_runs' (hw.imp_left fun h => noPower_un.2 (hp h)) (Runs.un rb st1) he
      exact ⟨u, runs_eval _ ru, sv.trans su⟩
  have h1 := C62_prefix cfg w o ctx s x true hs
  have h2 := C62_prefix cfg w o ctx s x false hs
  have h3 := C62_postfix cfg w o ctx s x hs
  rw [ha'] at h1 h2
  simp only [if_true, Bool.false_eq_true, if_false] at h1 h2
  have hocc : ∀ n, Occurs n a' → Occurs n x.root := fun n => finOf_occurs ha'
  have hruns : ∀ m a, (NoPower x.root ∨ PowLaws w) → Runs w m x.root a →
      (∃ b, Runs w m a' b ∧ Same a b) ∧ (NoPower x.root → NoPower a') :=
    fun m a hw ra => finOf_runs' hw ra ha'
  refine ⟨?_, ?_, ?_⟩
  · obtain ⟨z, hz, hv, he⟩ := key _ .minus a' (.un (by decide) pa) hocc hruns h1
    exact ⟨z, hz, hv, fun m a hw ra => he m a _ hw ra .minus⟩
  · obtain ⟨z, hz, hv, he⟩ := key _ .plus a' (.un (by decide) pa) hocc hruns h2
    exact ⟨z, hz, hv, fun m a hw ra => he m a _ hw ra .plus⟩
  · obtain ⟨z, hz, hv, he⟩ := key _ .factorial x.root (.un (by decide) px) (fun _ h => h)
      (fun m a _ ra => ⟨⟨a, ra, .refl _⟩, id⟩) h3
    refine ⟨z, hz, hv, fun m a hw ra => ?_⟩
    obtain ⟨v, hv, hf⟩ := factorial_of a
    obtain ⟨u, hu, su⟩ := he m a v hw ra (.factorial hv)
    exact ⟨v, u, hf, hu, su⟩

/-- C62 for any build: calls. -/
theorem C62_builds_call_partial (nm : Bytes) (f : Func) (ts : List Bytes) (xs : List Xpr) (hn : IsName nm)
    (hf : lookup ctx nm = .func f) (hne : ts ≠ []) (ha : ∀ n, f.nbArgs = some n → ts.length = n)
    (hc : CtxTotal w ctx) (hb : ∀ t ∈ ts, ¬ DoubleBang t)
    (hs : List.Forall₂ (fun t x => parse cfg w o ctx t = .ok x) ts xs) :
    ∃ z, parse cfg w o ctx (nm ++ inParens (commas ts)) = .ok z ∧
      (∀ n ∈ z.vars, ∃ x ∈ xs, n ∈ x.vars) ∧
      ∀ m vs v, ((∀ x ∈ xs, NoPower x.root) ∨ PowLaws w) →
        List.Forall₂ (fun x a => Runs w m x.root a) xs vs → CallStep w f vs v →
        ∃ u, z.eval w m = .ok u ∧ Same v u := by
  have hP : ∀ f, Named ctx f → FnTotal w f := fun f hf => named_total hc hf
  have h := C62_call cfg w o ctx nm f ts xs hn hf hne ha hs
  have hx : ∀ x ∈ xs, ∃ t ∈ ts, parse cfg w o ctx t = .ok x := by
    clear * - hs
    intro x hx
    induction hs with
    | nil => cases hx
    | @cons t _ _ _ h1 _ ih =>
      rcases List.mem_cons.1 hx with rfl | hx
      · exact ⟨t, List.mem_cons_self, h1⟩
      · obtain ⟨t, ht, h⟩ := ih hx
        exact ⟨t, List.mem_cons_of_mem _ ht, h⟩
  have hl := hs.length_eq
  have hp : Proper (Named ctx) (.call f (xs.map (·.root))) := by
    refine .call ⟨nm, hf⟩ ⟨?_, fun n hn => ?_⟩ ?_
    · rw [List.length_map, ← hl]
      exact List.length_pos_iff.2 hne
    · rw [List.length_map, ← hl]
      exact ha n hn
    · intro a ha
      obtain ⟨x, hxm, rfl⟩ := List.mem_map.1 ha
      obtain ⟨t, htm, ht⟩ := hx x hxm
      exact parseImpl_proper (parse_ok ht) (hb t htm)
  obtain ⟨e, he, -⟩ := finOf_proper (cfg := cfg) hP hp
  rw [he] at h
  have h : parse cfg w o ctx (nm ++ inParens (commas ts)) = .ok ⟨e, findVars e []⟩ := h
  refine ⟨_, h, fun n hn => ?_, fun m vs v hw rs st => ?_⟩
  · rw [vars_parsed cfg w o ctx h] at hn
    have := finOf_occurs he hn
    rw [occurs_call] at this
    obtain ⟨a, ha, h⟩ := this
    obtain ⟨x, hxm, rfl⟩ := List.mem_map.1 ha
    obtain ⟨t, _, ht⟩ := hx x hxm
    exact ⟨x, hxm, (vars_parsed cfg w o ctx ht n).2 h⟩
  · have hr : RunsL w m (xs.map (·.root)) vs := by
      clear * - rs
      induction rs with
      | nil => exact .nil
      | cons h _ ih => exact .cons h ih
    obtain ⟨⟨u, ru, su⟩, -⟩ := finOf_runs' (hw.imp_left fun h => noPower_call.2 fun a ha => by
      obtain ⟨x, hx, rfl⟩ := List.mem_map.1 ha; exact h x hx) (Runs.call hr st) he
    exact ⟨u, runs_eval _ ru, su⟩

end

/-- The hypotheses hold of `x-1` and `y` with `/`, at `x = 4`, `y = 2`, in an optimizing build. -/
example : ∃ x y v, parse cfgOpt wPow Oracle.id Context.default b!"x-1" = .ok x ∧
    parse cfgOpt wPow Oracle.id Context.default b!"y" = .ok y ∧
    ¬ DoubleBang b!"x-1" ∧ ¬ DoubleBang b!"y" ∧ CtxTotal wPow Context.default ∧ PowLaws wPow ∧
    Runs wPow ((HMap.empty.insert b!"x" (F64.ofNat 4)).insert b!"y" (F64.ofNat 2)) x.root (F64.ofNat 3) ∧
    Runs wPow ((HMap.empty.insert b!"x" (F64.ofNat 4)).insert b!"y" (F64.ofNat 2)) y.root (F64.ofNat 2) ∧
    BinStep wPow .divide (F64.ofNat 3) (F64.ofNat 2) v := by
  have hb : ∀ l : Bytes, c!"!" ∉ l → ¬ DoubleBang l := by
    rintro _ h ⟨a, ws, b, _, rfl⟩
    simp at h
  have h3 : F64.sub (F64.ofNat 4) F64.f1 = F64.ofNat 3 := by decide +kernel
  refine ⟨⟨.bin .minus (.var b!"x") (.num F64.f1), [b!"x"]⟩, ⟨.var b!"y", [b!"y"]⟩, _, by decide +kernel,
    by decide +kernel, hb _ (by decide), hb _ (by decide), ctxTotal_default wPow, wPow_laws, ?_, .var rfl,
    .divide (by decide +kernel) ?_⟩
  · have := BinStep.minus (w := wPow) (a := F64.ofNat 4) (b := F64.f1) (by rw [h3]; decide +kernel)
    rw [h3] at this
    exact .bin (.var rfl) .num this
  · rintro ⟨s, h⟩
    cases s <;> revert h <;> decide +kernel

end Props
end Xprs
