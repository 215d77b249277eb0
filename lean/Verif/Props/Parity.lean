import Verif.Lemmas.Parity
import Verif.Props.Builds
/-
Property C96: changing the signs of variables changes the sign of odd expressions and nothing
in even ones.
-/
namespace Xprs
namespace Props
open Spec
set_option exponentiation.threshold 4096

theorem flip_args {w : World} {m m' : HMap F64} {O : Bytes → Bool} {p : Bool} : ∀ {args : List Elem}
    {vs : List F64}, (∀ a ∈ args, ∀ v, Runs w m a v → ∃ v', Runs w m' a v' ∧ Flip p v v') →
    RunsL w m args vs → ∃ us, RunsL w m' args us ∧ SameL (if p then vs.map F64.neg else vs) us
  | [], _, _, .nil => ⟨[], .nil, by cases p <;> exact .nil⟩
  | a :: as, _, h, .cons (v := v) (vs := vs) h1 h2 => by
    obtain ⟨u, k1, k2⟩ := h a List.mem_cons_self v h1
    obtain ⟨us, k3, k4⟩ := flip_args (O := O) (fun b hb => h b (List.mem_cons_of_mem _ hb)) h2
    refine ⟨u :: us, .cons k1 k3, ?_⟩
    cases p
    · exact .cons k2 k4
    · exact .cons k2 k4

/-- C96: let an expression be odd or even in the variables of `O`, by the rules of
school.  If it can be evaluated without a doubtful step, it can be so after the variables of
`O` have changed their signs, and the value has changed its sign (odd) or not at all (even);
the two zeros are not distinguished. -/
theorem C96_parity (w : World) (O : Bytes → Bool) (m m' : HMap F64) (e : Elem) (p : Bool) (v : F64)
    (hw : NoPower e ∨ PowLaws w) (hp : Parity w O e p) (hm : Mirrored O m m') (hr : Runs w m e v) :
    ∃ v', Runs w m' e v' ∧ Flip p v v' := by
  replace hw : ∀ l r, Sub (.bin .power l r) e → PowLaws w := by
    intro l r h
    rcases hw with hw | hw
    · exact absurd h (hw l r)
    · exact hw
  induction hp generalizing v with
  | num => cases hr; exact ⟨_, .num, .refl _⟩
  | zero hz =>
    cases hr
    exact ⟨_, .num, .inr ⟨isZero_neg.2 hz, hz⟩⟩
  | @var n =>
    cases hr with
    | var h =>
      obtain ⟨y, h1, h2⟩ := hm n v h
      exact ⟨y, .var h1, h2⟩
  | pos _ ih =>
    cases hr with
    | un h k =>
      obtain ⟨a', h1, h2⟩ := ih _ h fun l r s => hw l r (.operand s)
      cases k
      exact ⟨a', .un h1 .plus, h2⟩
  | neg _ ih =>
    cases hr with
    | un h k =>
      obtain ⟨a', h1, h2⟩ := ih _ h fun l r s => hw l r (.operand s)
      cases k
      exact ⟨_, .un h1 .minus, flip_neg h2⟩
  | factorial _ ih =>
    cases hr with
    | un h k =>
      obtain ⟨a', h1, h2⟩ := ih _ h fun l r s => hw l r (.operand s)
      cases k with
      | factorial k =>
        rw [factorial_congr (flip_false.1 h2)] at k
        exact ⟨v, .un h1 (.factorial k), .refl v⟩
  | plus _ _ ih1 ih2 =>
    cases hr with
    | bin h k s =>
      obtain ⟨a', h1, h2⟩ := ih1 _ h fun l r s => hw l r (.left s)
      obtain ⟨b', k1, k2⟩ := ih2 _ k fun l r s => hw l r (.right s)
      cases s with
      | plus hn =>
        have := flip_add h2 k2
        exact ⟨_, .bin h1 k1 (.plus fun e => hn ((flip_nan this).2 e)), this⟩
  | minus _ _ ih1 ih2 =>
    cases hr with
    | bin h k s =>
      obtain ⟨a', h1, h2⟩ := ih1 _ h fun l r s => hw l r (.left s)
      obtain ⟨b', k1, k2⟩ := ih2 _ k fun l r s => hw l r (.right s)
      cases s with
      | minus hn =>
        have := flip_sub h2 k2
        exact ⟨_, .bin h1 k1 (.minus fun e => hn ((flip_nan this).2 e)), this⟩
  | times _ _ ih1 ih2 =>
    cases hr with
    | bin h k s =>
      obtain ⟨a', h1, h2⟩ := ih1 _ h fun l r s => hw l r (.left s)
      obtain ⟨b', k1, k2⟩ := ih2 _ k fun l r s => hw l r (.right s)
      cases s with
      | times hn =>
        have := flip_mul h2 k2
        exact ⟨_, .bin h1 k1 (.times fun e => hn ((flip_nan this).2 e)), this⟩
  | divide _ _ ih1 ih2 =>
    cases hr with
    | bin h k s =>
      obtain ⟨a', h1, h2⟩ := ih1 _ h fun l r s => hw l r (.left s)
      obtain ⟨b', k1, k2⟩ := ih2 _ k fun l r s => hw l r (.right s)
      cases s with
      | divide hn hz =>
        have := flip_div h2 k2 hz
        exact ⟨_, .bin h1 k1 (.divide (fun e => hn ((flip_nan this).2 e)) fun e => hz ((flip_zero k2).2 e)), this⟩
  | @modulo l r p _ _ ih1 ih2 =>
    cases hr with
    | bin h k s =>
      obtain ⟨a', h1, h2⟩ := ih1 _ h fun l r s => hw l r (.left s)
      obtain ⟨b', k1, k2⟩ := ih2 _ k fun l r s => hw l r (.right s)
      cases s with
      | modulo hn h3 =>
        have := flip_rem h2 k2
        refine ⟨_, .bin h1 k1 (.modulo (fun e => hn ((flip_nan this).2 e)) fun e => ?_), this⟩
        subst e
        have e := (Spec.Same.symm k2).of_not_zero f1_not_zero
        have h4 := h3 e.symm
        refine whole_same ?_ h2
        cases p
        · exact h4
        · exact whole_neg h4
  | power _ _ ih1 ih2 =>
    have hl := hw _ _ .refl
    cases hr with
    | bin h k s =>
      obtain ⟨a', h1, h2⟩ := ih1 _ h fun l r s => hw l r (.left s)
      obtain ⟨b', k1, k2⟩ := ih2 _ k fun l r s => hw l r (.right s)
      obtain ⟨u, s1, s2⟩ := s.congr hl h2 k2
      exact ⟨u, .bin h1 k1 s1, s2⟩
  | @call f args _ ih =>
    cases hr with
    | call h k =>
      obtain ⟨us, h1, h2⟩ := flip_args (O := O) (p := false)
        (fun a ha v h => ih a ha v h fun l r s => hw l r (.arg ha s)) h
      obtain ⟨u, k1, k2⟩ := k.congr h2
      exact ⟨u, .call h1 k1, k2⟩
  | @fn f args p hf _ ih =>
    cases hr with
    | call h k =>
      obtain ⟨us, h1, h2⟩ := flip_args (O := O) (p := true)
        (fun a ha v h => ih a ha v h fun l r s => hw l r (.arg ha s)) h
      obtain ⟨u, k1, k2⟩ := callStep_neg hf k h2
      exact ⟨u, .call h1 k1, k2⟩

/-- C96 for texts, in every build. -/
theorem C96_builds (cfg cfg' : Cfg) (w : World) (o o' : Oracle) (ctx : Context) (input : Bytes)
    (x y : Xpr) (O : Bytes → Bool) (p : Bool) (m m' : HMap F64) (v : F64)
    (hp : cfg.pejmdas = cfg'.pejmdas) (ho : cfg.opt = false)
    (hw : NoPower x.root ∨ PowLaws w) (hn : ∀ ts, Lex input ts → ParensApart ts)
    (h : parse cfg w o ctx input = .ok x) (h' : parse cfg' w o' ctx input = .ok y)
    (hd : Parity w O x.root p) (hm : Mirrored O m m') (hr : Runs w m x.root v) :
    ∃ u u', y.eval w m = .ok u ∧ y.eval w m' = .ok u' ∧ Flip p u u' := by
  obtain ⟨v', hr', hf⟩ := C96_parity w O m m' x.root p v hw hd hm hr
  obtain ⟨-, u, h2, h3⟩ := C16_value_partial cfg cfg' w o o' ctx input x y m v hp ho hw hn h h' hr
  obtain ⟨-, u', k2, k3⟩ := C16_value_partial cfg cfg' w o o' ctx input x y m' v' hp ho hw hn h h' hr'
  exact ⟨u, u', h2, k2, flip_same hf h3 k3⟩

/-- Which built-in functions are odd and which are even, on every platform. -/
theorem C96_functions (w : World) (f : Func) (b : Builtin) (hf : f.func = .builtin b) :
    (b ∈ [Builtin.round, .trunc, .fract, .recip, .sum, .mean] → FnParity w f true) ∧
    (b = .abs → FnParity w f false) := by
  constructor
  · intro hb
    simp only [List.mem_cons, List.not_mem_nil, or_false] at hb
    rcases hb with rfl | rfl | rfl | rfl | rfl | rfl
    · exact fnParity_wrap1 hf rfl fun x => .inl (neg_round x).symm
    · exact fnParity_wrap1 hf rfl fun x => .inl (neg_trunc x).symm
    · exact fnParity_wrap1 hf rfl neg_fract
    · exact fnParity_wrap1 hf rfl fun x => .inl (neg_div_right ..).symm
    · intro vs v h
      unfold callFn at h ⊢
      rw [hf] at h ⊢
      cases h
      exact ⟨_, rfl, neg_sum w vs⟩
    · intro vs v h
      unfold callFn at h ⊢
      rw [hf] at h ⊢
      cases h
      refine ⟨_, rfl, ?_⟩
      show Same (F64.neg (F64.div (sumF w vs) (F64.ofNat vs.length)))
        (F64.div (sumF w (vs.map F64.neg)) (F64.ofNat (vs.map F64.neg).length))
      rw [List.length_map, ← neg_div_left]
      exact div_congr_left (neg_sum w vs)
  · rintro rfl
    exact fnParity_wrap1 hf rfl fun x => .inl (neg_abs x).symm

/-- What C99 and POSIX say about signs: sine, tangent, their inverses and hyperbolic forms
and the cube root are odd, cosine and hyperbolic cosine are even. -/
structure C99Signs (w : World) : Prop where
  odd : ∀ g ∈ [Std1.sin, .sinh, .asin, .asinh, .tan, .tanh, .atan, .atanh, .cbrt],
    ∀ x, w.libm1 g (F64.neg x) = F64.neg (w.libm1 g x)
  even : ∀ g ∈ [Std1.cos, .cosh], ∀ x, w.libm1 g (F64.neg x) = w.libm1 g x

/-- The functions of such a platform. -/
theorem C96_platform (w : World) (h : C99Signs w) (f : Func) (b : Builtin) (hf : f.func = .builtin b) :
    (b ∈ [Builtin.sin, .sinh, .asin, .asinh, .tan, .tanh, .atan, .atanh, .cbrt] → FnParity w f true) ∧
    (b ∈ [Builtin.cos, .cosh] → FnParity w f false) := by
  constructor
  · intro hb
    simp only [List.mem_cons, List.not_mem_nil, or_false] at hb
    rcases hb with rfl | rfl | rfl | rfl | rfl | rfl | rfl | rfl | rfl
    all_goals exact fnParity_wrap1 hf rfl fun x => .inl (h.odd _ (by simp) x).symm
  · intro hb
    simp only [List.mem_cons, List.not_mem_nil, or_false] at hb
    rcases hb with rfl | rfl
    all_goals exact fnParity_wrap1 hf rfl fun x => .inl (h.even _ (by simp) x).symm

theorem neg_key (a : F64) : F64.key (F64.neg a) = (F64.key a).map Neg.neg := by
  cases a with
  | nan => rfl
  | inf s => exact congrArg some (sv_not s _)
  | fin s n h => exact congrArg some (sv_not s _)

theorem neg_blt (a b : F64) : F64.blt (F64.neg b) (F64.neg a) = F64.blt a b := by
  unfold F64.blt
  rw [neg_key, neg_key]
  cases F64.key a <;> cases F64.key b <;> simp

theorem neg_fmin (a b : F64) : F64.fmin (F64.neg a) (F64.neg b) = F64.neg (F64.fmax a b) := by
  have hn : ∀ x : F64, F64.isNan (F64.neg x) = F64.isNan x := by intro x; cases x <;> rfl
  unfold F64.fmin F64.fmax
  rw [hn, hn, neg_blt]
  split
  · rfl
  · split
    · rfl
    · split <;> rfl

/-- The least of the opposite numbers is the opposite of the greatest. -/
theorem C96_minmax (w : World) (vs : List F64) :
    callFn w Builtin.min.toFunc (vs.map F64.neg) =
      .ok (F64.neg (vs.foldl F64.fmax (.inf true))) ∧
    callFn w Builtin.max.toFunc vs = .ok (vs.foldl F64.fmax (.inf true)) := by
  refine ⟨congrArg Except.ok ?_, rfl⟩
  have key : ∀ (vs : List F64) (a : F64), (vs.map F64.neg).foldl F64.fmin (F64.neg a) =
      F64.neg (vs.foldl F64.fmax a) := by
    intro vs
    induction vs with
    | nil => intro a; rfl
    | cons v vs ih =>
      intro a
      simp only [List.map, List.foldl]
      rw [neg_fmin]
      exact ih _
  exact key vs (.inf true)

/-! ### Cases -/

/-- `x / (x * x + 1)` -/
def eOdd : Elem := .bin .divide vx (.bin .plus (.bin .times vx vx) (.num F64.f1))

theorem eOdd_parity (w : World) : Parity w (fun _ => true) eOdd true :=
  .divide (q := false) .var (.plus (.times .var .var) .num)

theorem mx_flip (v : F64) : Mirrored (fun _ => true) (mx v) (mx (F64.neg v)) := by
  intro n x h
  by_cases hn : n = b!"x"
  · subst hn
    have e : v = x := Option.some.inj h
    subst e
    exact ⟨F64.neg v, rfl, .refl _⟩
  · simp [mx, HMap.insert, HMap.empty, hn] at h

/-- It is `0.3`, rounded, at three and the opposite at minus three. -/
example : ∃ v v', eval w0 (mx (F64.ofNat 3)) eOdd = .ok v ∧
    eval w0 (mx (F64.neg (F64.ofNat 3))) eOdd = .ok v' ∧ Flip true v v' := by
  have hx : Runs w0 (mx (F64.ofNat 3)) vx (F64.ofNat 3) := .var rfl
  have hr : Runs w0 (mx (F64.ofNat 3)) eOdd _ :=
    .bin hx (.bin (.bin hx hx (.times (by decide +kernel))) .num (.plus (by decide +kernel)))
      (.divide (by decide +kernel) (by rintro ⟨s, h⟩; revert h; cases s <;> decide +kernel))
  have hn : NoPower eOdd := by
    intro l r h
    cases h with
    | left h => cases h
    | right h => cases h with
      | right h => cases h
      | left h => cases h with
        | left h => cases h
        | right h => cases h
  obtain ⟨v', h1, h2⟩ := C96_parity w0 _ _ _ eOdd true _ (.inl hn) (eOdd_parity w0) (mx_flip _) hr
  exact ⟨_, v', runs_eval _ hr, runs_eval _ h1, h2⟩

/-- The plain build reads `x / (x * x + 1)` so. -/
example : parse0 cfgPlain b!"x / (x * x + 1)" = .ok ⟨eOdd, [b!"x"]⟩ := by decide +kernel

/-- Division by zero is a doubtful step: `1 / (x - x)` is odd, but infinite with the same
sign at one and minus one. -/
example : Parity w0 (fun _ => true) (.bin .divide (.num F64.f1) (.bin .minus vx vx)) true ∧
    eval w0 (mx F64.f1) (.bin .divide (.num F64.f1) (.bin .minus vx vx)) = .ok (.inf false) ∧
    eval w0 (mx (F64.neg F64.f1)) (.bin .divide (.num F64.f1) (.bin .minus vx vx)) = .ok (.inf false) :=
  ⟨.divide (p := false) .num (.minus .var .var), by decide +kernel, by decide +kernel⟩

/-- `floor` is neither odd nor even. -/
example (p : Bool) : ¬ FnParity w0 Builtin.floor.toFunc p := by
  intro h
  have e1 : callFn w0 Builtin.floor.toFunc [.fin false (2 ^ 1073) (by decide +kernel)] = .ok F64.f0 := by
    decide +kernel
  have e2 : callFn w0 Builtin.floor.toFunc [.fin true (2 ^ 1073) (by decide +kernel)] = .ok (F64.neg F64.f1) := by
    decide +kernel
  obtain ⟨u, h1, h2⟩ := h _ _ e1
  have h1 := e2.symm.trans h1
  cases h1
  rcases h2 with h2 | ⟨-, h2⟩
  · revert h2; cases p <;> decide +kernel
  · exact f1_not_zero (isZero_neg.1 h2)

end Props
end Xprs
