import Verif.Props.Nan
import Verif.Lemmas.Laws
/-
Property C71 for powers and the functions of the platform.
-/
namespace Xprs
namespace Props
open Spec
set_option exponentiation.threshold 4096

/-- C71: on platforms that keep to C99, all built-in functions but `min`, `max` and `hypot` pass
NaN on. -/
theorem C71_platform (w : World) (hw : NanLaws w) (b : Builtin) (hb : b ∉ [.min, .max, .hypot]) :
    PassesNan w b.toFunc := by
  by_cases hk : b ∈ [.abs, .floor, .ceil, .round, .trunc, .fract, .recip, .factorial, .sqrt, .sum, .mean]
  · exact C71_functions w b hk
  intro vs v hv hn h
  have one : b.nbArgs = some 1 → vs = [.nan] := by
    intro hb
    have := hv.2 1 (by simpa [Builtin.toFunc] using hb)
    match vs, this with
    | [x], _ => simpa [eq_comm] using hn
  have two : b.nbArgs = some 2 → ∃ x y, vs = [x, y] ∧ (x = .nan ∨ y = .nan) := by
    intro hb
    have := hv.2 2 (by simpa [Builtin.toFunc] using hb)
    match vs, this with
    | [x, y], _ => exact ⟨x, y, rfl, by simpa [eq_comm] using hn⟩
  simp only [callFn, Builtin.toFunc] at h
  cases b
  all_goals first | exact absurd (by decide) hk | exact absurd (by decide) hb | skip
  case atan2 =>
    obtain ⟨x, y, rfl, hxy⟩ := two rfl
    exact (Except.ok.inj h).symm.trans (hw.two _ _ _ hxy (.inl (by decide)))
  case logn =>
    obtain ⟨x, y, rfl, hxy⟩ := two rfl
    exact (Except.ok.inj h).symm.trans (hw.two _ _ _ hxy (.inl (by decide)))
  all_goals
    rw [one rfl] at h
    exact (Except.ok.inj h).symm.trans (hw.one _)

/-- C71: where a variable that is NaN can be followed to the root of the tree without meeting one
of the exceptions (`min`, `max`, an infinite leg of a hypotenuse, exponent 0, base 1, a user
function that ignores it), the result is NaN. -/
theorem C71_path (w : World) (hw : NanLaws w) (m : HMap F64) (n : Bytes) (hm : m n = some .nan) (e : Elem)
    (ha : ∀ f args, Sub (.call f args) e → ArityOk f args.length) (hp : NanPath w m n e) (v : F64)
    (h : eval w m e = .ok v) : v = .nan := by
  induction hp generalizing v with
  | here => exact (C71_cause w m _ v h).2 (.var hm)
  | operand _ ih =>
    obtain ⟨a, h1, -⟩ := eval_un_ok.1 h
    exact (C71_cause w m _ v h).2 (.operand ((C71_cause w m _ a h1).1 (ih (fun f as hs => ha f as (.operand hs)) a h1)))
  | left ho _ ih =>
    obtain ⟨a, b, h1, -, -⟩ := eval_bin_ok.1 h
    exact (C71_cause w m _ v h).2 (.left ho ((C71_cause w m _ a h1).1 (ih (fun f as hs => ha f as (.left hs)) a h1)))
  | right ho _ ih =>
    obtain ⟨a, b, -, h1, -⟩ := eval_bin_ok.1 h
    exact (C71_cause w m _ v h).2 (.right ho ((C71_cause w m _ b h1).1 (ih (fun f as hs => ha f as (.right hs)) b h1)))
  | base _ hr hb ih =>
    obtain ⟨a, b, h1, h2, h3⟩ := eval_bin_ok.1 h
    rw [hr] at h2
    cases h2
    rw [ih (fun f as hs => ha f as (.left hs)) a h1] at h3
    exact (Except.ok.inj h3).symm.trans (hw.base _ hb)
  | exponent _ hl ha' ih =>
    obtain ⟨a, b, h1, h2, h3⟩ := eval_bin_ok.1 h
    rw [hl] at h1
    cases h1
    rw [ih (fun f as hs => ha f as (.right hs)) b h2] at h3
    exact (Except.ok.inj h3).symm.trans (hw.exponent _ ha')
  | @arg f args a hmem _ hf ih =>
    obtain ⟨vs, hvs, hc⟩ := eval_call_ok.1 h
    obtain ⟨i, hi⟩ := List.getElem?_of_mem hmem
    obtain ⟨u, hu, hau⟩ := evalL_getElem hvs i a hi
    have := ih (fun f as hs => ha f as (.arg hmem hs)) u hau
    subst this
    refine hf vs v ?_ (List.mem_of_getElem? hu) hc
    rw [evalL_length w m args hvs]
    exact ha f args .refl
  | @hypot args a vs hmem _ hvs hi ih =>
    obtain ⟨vs', hvs', hc⟩ := eval_call_ok.1 h
    rw [hvs] at hvs'
    cases hvs'
    obtain ⟨i, hi'⟩ := List.getElem?_of_mem hmem
    obtain ⟨u, hu, hau⟩ := evalL_getElem hvs i a hi'
    have := ih (fun f as hs => ha f as (.arg hmem hs)) u hau
    subst this
    have hu := List.mem_of_getElem? hu
    have hl := (ha _ args .refl).2 2 rfl
    rw [← evalL_length w m args hvs] at hl
    match vs, hl with
    | [x, y], _ =>
      exact (Except.ok.inj hc).symm.trans (hw.two _ _ _ (by simpa [eq_comm] using hu)
        (.inr ⟨hi x (by simp), hi y (by simp)⟩))

/-- C71 with powers: on platforms that keep to C99, in an expression after any history that calls
only functions which pass NaN on, and raises what depends on the variable only to powers that are
numbers other than 0, NaN in the variable makes the result NaN. -/
theorem C71_powers_partial (cfg : Cfg) (w : World) (hw : NanLaws w) (ctx : Context) (input : Bytes) (e : Xpr)
    (he : Reach cfg w ctx input e) (n : Bytes)
    (hp : ∀ l r, Sub (.bin .power l r) e.root → Occurs n (.bin .power l r) → ∃ c, r = .num c ∧ value c ≠ some 0)
    (hf : ∀ f args, Sub (.call f args) e.root → PassesNan w f) (m : HMap F64)
    (ho : Occurs n e.root) (hm : m n = some .nan) (v : F64) (h : e.eval w m = .ok v) : v = .nan := by
  refine C71_path w hw m n hm e.root (fun f args hs => ?_) ?_ v h
  · have := C08_arity cfg w ctx input e he f args hs
    exact ⟨this.1, this.2.1⟩
  · have key : ∀ t, Sub t e.root → Occurs n t → NanPath w m n t := by
      intro t hs ho
      induction ho with
      | here => exact .here
      | @left op l r hl ih =>
        by_cases hop : op = .power
        · subst hop
          obtain ⟨c, rfl, hc⟩ := hp l r hs (.left hl)
          exact .base (ih (sub_within (.left .refl) hs)) rfl hc
        · exact .left hop (ih (sub_within (.left .refl) hs))
      | @right op l r hr ih =>
        by_cases hop : op = .power
        · subst hop
          obtain ⟨c, rfl, hc⟩ := hp l r hs (.right hr)
          cases hr
        · exact .right hop (ih (sub_within (.right .refl) hs))
      | operand _ ih => exact .operand (ih (sub_within (.operand .refl) hs))
      | @arg f args a hmem _ ih => exact .arg hmem (ih (sub_within (.arg hmem .refl) hs)) (hf f args hs)
    exact key e.root .refl ho

/-- A platform that returns NaN for NaN, and 1 otherwise; `hypot` is infinite for an infinite
leg. -/
def wNan : World := { w0 with
  libm1 := fun _ a => if a = .nan then .nan else F64.f1
  libm2 := fun f a b => if f = .hypot ∧ (a.isInf ∨ b.isInf) then .inf false
    else if a = .nan ∨ b = .nan then .nan else F64.f1
  powf := fun a b => if b = F64.zero true ∨ b = F64.f0 ∨ a = F64.f1 then F64.f1
    else if a = .nan ∨ b = .nan then .nan else F64.f1 }

theorem value_f1 : value F64.f1 = some 1 := by
  rw [F64.f1_eq, value, unit64_eq]; push_cast; congr 1; norm_num

theorem wNan_laws : NanLaws wNan where
  one f := rfl
  two f a b h hf := by
    show (if _ then _ else if _ then _ else _) = _
    rw [if_neg, if_pos h]
    rintro ⟨rfl, hi⟩
    rcases hf with hf | ⟨h1, h2⟩
    · exact hf rfl
    · rw [h1, h2] at hi; simp at hi
  base b hb := by
    show (if _ then _ else if _ then _ else _) = _
    rw [if_neg, if_pos (.inl rfl)]
    rintro (rfl | rfl | h)
    · exact hb (by simp [F64.zero, value])
    · exact hb (by simp [F64.f0, F64.zero, value])
    · revert h; decide +kernel
  exponent a ha := by
    show (if _ then _ else if _ then _ else _) = _
    rw [if_neg, if_pos (.inr rfl)]
    rintro (h | h | rfl)
    · cases h
    · cases h
    · exact ha value_f1

/-- The exceptions are real: on a platform that keeps to these laws NaN in `x` is lost by `x^0`,
`1^x` and `hypot(x, 1e999)`. -/
theorem C71_exceptions : ∃ w, NanLaws w ∧ ∀ s ∈ [b!"x^0", b!"1^x", b!"hypot(x, 1e999)"], ∃ x v,
    parse cfgPlain w Oracle.id Context.default s = .ok x ∧ b!"x" ∈ x.vars ∧ x.eval w (mx .nan) = .ok v ∧ v ≠ .nan := by
  refine ⟨wNan, wNan_laws, ?_⟩
  intro s hs
  simp only [List.mem_cons, List.not_mem_nil, or_false] at hs
  rcases hs with rfl | rfl | rfl
  · exact ⟨⟨.bin .power vx (.num F64.f0), [b!"x"]⟩, F64.f1, by decide +kernel, by simp, by decide +kernel, by decide +kernel⟩
  · exact ⟨⟨.bin .power (.num F64.f1) vx, [b!"x"]⟩, F64.f1, by decide +kernel, by simp, by decide +kernel, by decide +kernel⟩
  · exact ⟨⟨.call Builtin.hypot.toFunc [vx, .num (.inf false)], [b!"x"]⟩, .inf false, by decide +kernel, by simp,
      by decide +kernel, by decide +kernel⟩

/-- `sin(x)^2 + 1` meets the conditions of `C71_powers_partial`. -/
example : (∀ l r, Sub (.bin .power l r) (.bin .plus (.bin .power (.call Builtin.sin.toFunc [vx]) (.num (F64.ofNat 2)))
      (.num F64.f1)) → ∃ c, r = .num c ∧ value c ≠ some 0) ∧
    (∀ f args, Sub (.call f args) (.bin .plus (.bin .power (.call Builtin.sin.toFunc [vx]) (.num (F64.ofNat 2)))
      (.num F64.f1)) → PassesNan wNan f) ∧
    parse cfgPlain wNan Oracle.id Context.default b!"sin(x)^2 + 1" = .ok ⟨.bin .plus (.bin .power
      (.call Builtin.sin.toFunc [vx]) (.num (F64.ofNat 2))) (.num F64.f1), [b!"x"]⟩ := by
  refine ⟨fun l r h => ?_, fun f args h => ?_, by decide +kernel⟩
  · cases h with
    | left h => cases h with
      | refl =>
        refine ⟨_, rfl, ?_⟩
        rw [F64.ofNat_eq (rep_nat (by decide)), value, unit64_eq]
        push_cast
        intro h
        have := Option.some.inj h
        norm_num at this
      | left h => cases h with
        | arg hm h => simp only [List.mem_singleton] at hm; subst hm; cases h
      | right h => cases h
    | right h => cases h
  · cases h with
    | left h => cases h with
      | left h => cases h with
        | refl => exact C71_platform wNan wNan_laws .sin (by decide)
        | arg hm h => simp only [List.mem_singleton] at hm; subst hm; cases h
      | right h => cases h
    | right h => cases h

end Props
end Xprs
