import Verif.Lemmas.Scale
import Verif.Props.Monotone
import Verif.Props.Builds
/-
Property C95: units of measurement.  If an expression makes sense for quantities with units,
changing the units by powers of two changes the result by exactly the power that belongs to it.
-/
namespace Xprs
namespace Props
open Spec
set_option exponentiation.threshold 4096

theorem _root_.Xprs.Spec.Quiet.sub {w : World} {m : HMap F64} {t e : Elem} (h : Quiet w m e)
    (hs : ∀ s, Sub s t → Sub s e) : Quiet w m t :=
  ⟨fun op l r a b v k => h.bin op l r a b v (hs _ k), fun f b args vs v k => h.call f b args vs v (hs _ k)⟩

theorem _root_.Xprs.Spec.Quiet.left {w : World} {m : HMap F64} {op : Op} {l r : Elem} (h : Quiet w m (.bin op l r)) :
    Quiet w m l := Quiet.sub h fun _ k => .left k
theorem _root_.Xprs.Spec.Quiet.right {w : World} {m : HMap F64} {op : Op} {l r : Elem} (h : Quiet w m (.bin op l r)) :
    Quiet w m r := Quiet.sub h fun _ k => .right k
theorem _root_.Xprs.Spec.Quiet.operand {w : World} {m : HMap F64} {op : Op} {e : Elem} (h : Quiet w m (.un op e)) :
    Quiet w m e := Quiet.sub h fun _ k => .operand k
theorem _root_.Xprs.Spec.Quiet.arg {w : World} {m : HMap F64} {f : Func} {args : List Elem} {a : Elem}
    (h : Quiet w m (.call f args)) (ha : a ∈ args) : Quiet w m a := Quiet.sub h fun _ k => .arg ha k

/-- The outcomes of two evaluations belong together. -/
def Matches (j : ℤ) (x y : Except EvErr F64) : Prop :=
  (∃ v v', x = .ok v ∧ y = .ok v' ∧ Scaled j v v') ∨ ∃ r, x = .error r ∧ y = .error r

theorem matches_args {w : World} {m m' : HMap F64} {j : ℤ} : ∀ {args : List Elem},
    (∀ a ∈ args, Matches j (eval w m a) (eval w m' a)) →
    (∃ vs vs', evalL w m args = .ok vs ∧ evalL w m' args = .ok vs' ∧ List.Forall₂ (Scaled j) vs vs') ∨
      ∃ r, evalL w m args = .error r ∧ evalL w m' args = .error r
  | [], _ => .inl ⟨[], [], rfl, rfl, .nil⟩
  | a :: as, h => by
    rw [evalL, evalL]
    rcases h a List.mem_cons_self with ⟨v, v', h1, h2, h3⟩ | ⟨r, h1, h2⟩
    · rw [h1, h2]
      rcases matches_args (args := as) fun b hb => h b (List.mem_cons_of_mem _ hb) with
        ⟨vs, vs', k1, k2, k3⟩ | ⟨r, k1, k2⟩
      · rw [k1, k2]; exact .inl ⟨_, _, rfl, rfl, .cons h3 k3⟩
      · rw [k1, k2]; exact .inr ⟨r, rfl, rfl⟩
    · rw [h1, h2]; exact .inr ⟨r, rfl, rfl⟩

theorem matches_bin {w : World} {m m' : HMap F64} {i j k : ℤ} {op : Op} {l r : Elem}
    {g : F64 → F64 → F64} (hg : ∀ a b, binF w op a b = .ok (g a b))
    (hl : Matches i (eval w m l) (eval w m' l)) (hr : Matches j (eval w m r) (eval w m' r))
    (hq : Quiet w m (.bin op l r)) (hq' : Quiet w m' (.bin op l r))
    (h : ∀ a a' b b', Scaled i a a' → Scaled j b b' → CalmBin op a b (g a b) →
      CalmBin op a' b' (g a' b') → Scaled k (g a b) (g a' b')) :
    Matches k (eval w m (.bin op l r)) (eval w m' (.bin op l r)) := by
  have q := hq.bin op l r
  have q' := hq'.bin op l r
  rw [eval] at q ⊢
  rw [eval] at q' ⊢
  rcases hl with ⟨a, a', h1, h2, h3⟩ | ⟨p, h1, h2⟩
  · rcases hr with ⟨b, b', k1, k2, k3⟩ | ⟨p, k1, k2⟩
    · rw [h1, k1] at q ⊢
      rw [h2, k2] at q' ⊢
      simp only [hg, liftP] at q q' ⊢
      exact .inl ⟨_, _, rfl, rfl, h a a' b b' h3 k3 (q a b _ .refl rfl rfl rfl) (q' a' b' _ .refl rfl rfl rfl)⟩
    · rw [h1, k1, h2, k2]; exact .inr ⟨p, rfl, rfl⟩
  · rw [h1, h2]; exact .inr ⟨p, rfl, rfl⟩

theorem matches_call {w : World} {m m' : HMap F64} {j k : ℤ} {f : Func} {b : Builtin} {args : List Elem}
    (hf : f.func = .builtin b) (h : ∀ a ∈ args, Matches j (eval w m a) (eval w m' a))
    (hq : Quiet w m (.call f args)) (hq' : Quiet w m' (.call f args))
    (hs : ∀ vs vs' v, List.Forall₂ (Scaled j) vs vs' → callFn w f vs = .ok v → CalmCall w b vs v →
      (∀ v', callFn w f vs' = .ok v' → CalmCall w b vs' v') →
      ∃ v', callFn w f vs' = .ok v' ∧ Scaled k v v')
    (he : ∀ vs vs' p, List.Forall₂ (Scaled j) vs vs' → callFn w f vs = .error p → callFn w f vs' = .error p) :
    Matches k (eval w m (.call f args)) (eval w m' (.call f args)) := by
  have q := hq.call f b args
  have q' := hq'.call f b args
  rw [eval] at q ⊢
  rw [eval] at q' ⊢
  rcases matches_args h with ⟨vs, vs', h1, h2, h3⟩ | ⟨r, h1, h2⟩
  · rw [h1] at q ⊢
    rw [h2] at q' ⊢
    simp only at q q' ⊢
    cases hc : callFn w f vs with
    | ok v =>
      rw [hc] at q
      obtain ⟨v', k1, k2⟩ := hs vs vs' v h3 hc (q vs v .refl hf rfl rfl)
        fun v' hv' => q' vs' v' .refl hf rfl (by rw [hv']; rfl)
      rw [k1]
      exact .inl ⟨v, v', rfl, rfl, k2⟩
    | error p =>
      rw [he vs vs' p h3 hc]
      exact .inr ⟨_, rfl, rfl⟩
  · rw [h1, h2]; exact .inr ⟨r, rfl, rfl⟩

theorem wrap1_error {g : F64 → F64} {j : ℤ} {vs vs' : List F64} {p : Panic}
    (h : List.Forall₂ (Scaled j) vs vs') (he : wrap1 (fun x => .ok (g x)) vs = .error p) :
    wrap1 (fun x => .ok (g x)) vs' = .error p := by
  cases h with
  | nil => exact he
  | cons _ _ => cases he

/-- C95: `e` makes sense for quantities with units and is measured in the `d`-th power of
the unit.  Then multiplying every variable by the power of two that belongs to it multiplies
the result by exactly `2^(k · d)`, if nothing over- or underflows in either evaluation.  (If
one evaluation fails, the other fails alike.) -/
theorem C95_scale (w : World) (Γ : Bytes → ℤ) (k : ℤ) (m m' : HMap F64) (e : Elem) (d : ℤ)
    (hd : Dim Γ e d) (hu : NewUnits Γ k m m') (hq : Quiet w m e) (hq' : Quiet w m' e) :
    (∃ v v', eval w m e = .ok v ∧ eval w m' e = .ok v' ∧ Scaled (k * d) v v') ∨
      ∃ r, eval w m e = .error r ∧ eval w m' e = .error r := by
  show Matches (k * d) (eval w m e) (eval w m' e)
  induction hd with
  | num => exact .inl ⟨_, _, rfl, rfl, by rw [Int.mul_zero]; exact scaled_refl _⟩
  | unitless h => exact .inl ⟨_, _, rfl, rfl, scaled_unitless h⟩
  | @var n =>
    rw [eval, eval]
    unfold HMap.get
    rcases hu n with ⟨h1, h2⟩ | ⟨a, b, h1, h2, h3⟩
    · rw [h1, h2]; exact .inr ⟨_, rfl, rfl⟩
    · rw [h1, h2]; exact .inl ⟨a, b, rfl, rfl, h3⟩
  | pos _ ih =>
    rw [eval, eval]
    rcases ih hq.operand hq'.operand with ⟨v, v', h1, h2, h3⟩ | ⟨r, h1, h2⟩
    · rw [h1, h2]; exact .inl ⟨v, v', rfl, rfl, h3⟩
    · rw [h1, h2]; exact .inr ⟨r, rfl, rfl⟩
  | neg _ ih =>
    rw [eval, eval]
    rcases ih hq.operand hq'.operand with ⟨v, v', h1, h2, h3⟩ | ⟨r, h1, h2⟩
    · rw [h1, h2]; exact .inl ⟨_, _, rfl, rfl, scaled_neg h3⟩
    · rw [h1, h2]; exact .inr ⟨r, rfl, rfl⟩
  | factorial _ ih =>
    rw [eval, eval]
    rcases ih hq.operand hq'.operand with ⟨v, v', h1, h2, h3⟩ | ⟨r, h1, h2⟩
    · rw [Int.mul_zero] at h3 ⊢
      obtain rfl := scaled_zero h3
      rw [h1, h2]
      simp only
      cases liftP (unF .factorial v') with
      | ok u => exact .inl ⟨u, u, rfl, rfl, scaled_refl u⟩
      | error r => exact .inr ⟨r, rfl, rfl⟩
    · rw [h1, h2]; exact .inr ⟨r, rfl, rfl⟩
  | plus _ _ ih1 ih2 =>
    exact matches_bin (fun _ _ => rfl) (ih1 hq.left hq'.left) (ih2 hq.right hq'.right) hq hq'
      fun a a' b b' => scaled_add
  | minus _ _ ih1 ih2 =>
    exact matches_bin (fun _ _ => rfl) (ih1 hq.left hq'.left) (ih2 hq.right hq'.right) hq hq'
      fun a a' b b' => scaled_sub
  | modulo _ _ ih1 ih2 =>
    exact matches_bin (fun _ _ => rfl) (ih1 hq.left hq'.left) (ih2 hq.right hq'.right) hq hq'
      fun a a' b b' h1 h2 _ _ => scaled_rem h1 h2
  | times _ _ ih1 ih2 =>
    rw [Int.mul_add]
    exact matches_bin (fun _ _ => rfl) (ih1 hq.left hq'.left) (ih2 hq.right hq'.right) hq hq'
      fun a a' b b' => scaled_mul
  | divide _ _ ih1 ih2 =>
    rw [Int.mul_sub]
    exact matches_bin (fun _ _ => rfl) (ih1 hq.left hq'.left) (ih2 hq.right hq'.right) hq hq'
      fun a a' b b' => scaled_div
  | power _ _ ih1 ih2 =>
    refine matches_bin (fun _ _ => rfl) (ih1 hq.left hq'.left) (ih2 hq.right hq'.right) hq hq' ?_
    intro a a' b b' h1 h2 _ _
    rw [Int.mul_zero] at *
    obtain rfl := scaled_zero h1
    obtain rfl := scaled_zero h2
    exact scaled_refl _
  | @keep f b args d hf hb _ ih =>
    refine matches_call hf (fun a ha => ih a ha (hq.arg ha) (hq'.arg ha)) hq hq'
      (fun vs vs' v h1 h2 h3 h4 => scaled_call_keep hf hb h1 h2 h3 h4) ?_
    intro vs vs' p h1 h2
    unfold callFn at *
    rw [hf] at *
    simp only [List.mem_cons, List.not_mem_nil, or_false] at hb
    rcases hb with rfl | rfl | rfl | rfl | rfl
    · exact wrap1_error h1 h2
    all_goals cases h2
  | @recip f args d hf _ ih =>
    rw [Int.mul_neg]
    refine matches_call hf (fun a ha => ih a ha (hq.arg ha) (hq'.arg ha)) hq hq'
      (fun vs vs' v h1 h2 h3 h4 => scaled_call_recip hf h1 h2 h3 h4) ?_
    intro vs vs' p h1 h2
    unfold callFn at *
    rw [hf] at *
    exact wrap1_error h1 h2
  | @sqrt f args d hf _ ih =>
    refine matches_call (j := 2 * (k * d)) hf (fun a ha => ?_) hq hq'
      (fun vs vs' v h1 h2 _ _ => scaled_call_sqrt hf h1 h2) ?_
    · have := ih a ha (hq.arg ha) (hq'.arg ha)
      rwa [Int.mul_left_comm] at this
    · intro vs vs' p h1 h2
      unfold callFn at *
      rw [hf] at *
      exact wrap1_error h1 h2
  | @call f args _ ih =>
    rw [Int.mul_zero] at *
    rw [eval, eval]
    rcases matches_args fun a ha => ih a ha (hq.arg ha) (hq'.arg ha) with
      ⟨vs, vs', h1, h2, h3⟩ | ⟨r, h1, h2⟩
    · obtain rfl := forall₂_zero h3
      rw [h1, h2]
      simp only
      cases liftP (callFn w f vs') with
      | ok u => exact .inl ⟨u, u, rfl, rfl, scaled_refl u⟩
      | error r => exact .inr ⟨r, rfl, rfl⟩
    · rw [h1, h2]; exact .inr ⟨r, rfl, rfl⟩

/-- C95 for all builds: if the plain build reads a text as a tree that makes sense for
quantities with units, any other build's results change with the units in the same way, up to
the signs of zeros. -/
theorem C95_builds (cfg cfg' : Cfg) (w : World) (o o' : Oracle) (ctx : Context) (input : Bytes)
    (x y : Xpr) (Γ : Bytes → ℤ) (k d : ℤ) (m m' : HMap F64) (v v' : F64)
    (hp : cfg.pejmdas = cfg'.pejmdas) (ho : cfg.opt = false)
    (hw : NoPower x.root ∨ PowLaws w) (hn : ∀ ts, Lex input ts → ParensApart ts)
    (h : parse cfg w o ctx input = .ok x) (h' : parse cfg' w o' ctx input = .ok y)
    (hr : Runs w m x.root v) (hr' : Runs w m' x.root v')
    (hd : Dim Γ x.root d) (hu : NewUnits Γ k m m')
    (hq : Quiet w m x.root) (hq' : Quiet w m' x.root) :
    Scaled (k * d) v v' ∧
      ∃ u u', y.eval w m = .ok u ∧ y.eval w m' = .ok u' ∧ Same v u ∧ Same v' u' := by
  obtain ⟨h1, u, h2, h3⟩ := C16_value_partial cfg cfg' w o o' ctx input x y m v hp ho hw hn h h' hr
  obtain ⟨k1, u', k2, k3⟩ := C16_value_partial cfg cfg' w o o' ctx input x y m' v' hp ho hw hn h h' hr'
  refine ⟨?_, u, u', h2, k2, h3, k3⟩
  unfold Xpr.eval at h1 k1
  rcases C95_scale w Γ k m m' x.root d hd hu hq hq' with ⟨a, b, j1, j2, j3⟩ | ⟨r, j1, _⟩
  · rw [h1] at j1; rw [k1] at j2
    cases j1; cases j2
    exact j3
  · rw [h1] at j1; cases j1

/-! ### When is everything quiet -/

/-- A finite number above the smallest normal one, `2^-1022`. -/
def Sizable (r : F64) : Prop := ∃ q, value r = some q ∧ 1 / 2 ^ 1022 < |q|

theorem calm_of_sizable {p : ℚ} {r : F64} (h : RoundsTo p r) (hr : Sizable r) : Calm p r := by
  obtain ⟨q, hq, hb⟩ := hr
  refine ⟨q, hq, .inr ?_⟩
  obtain ⟨n, h1, h2, _, _⟩ := rounds_mag h hq
  rw [h2, lt_div_iff₀ (by positivity)] at hb
  have e : (1 : ℚ) / 2 ^ 1022 * 2 ^ 1074 = 2 ^ 52 := by
    rw [show (1074 : ℕ) = 1022 + 52 from rfl, pow_add]; field_simp
  rw [e] at hb
  have hn : 2 ^ 52 < n := by exact_mod_cast hb
  by_contra hlt
  have hlt := not_le.1 hlt
  have h0 : |(p : ℝ)| < 1 / 2 ^ 1022 := by
    have : ((|p| : ℚ) : ℝ) < (((1 : ℚ) / 2 ^ 1022 : ℚ) : ℝ) := Rat.cast_lt.2 hlt
    rw [Rat.cast_abs, Rat.cast_div, Rat.cast_pow, Rat.cast_one, Rat.cast_ofNat] at this
    exact this
  have h3 : |(p : ℝ)| * 2 ^ 1074 < 2 ^ 52 := by
    have := mul_lt_mul_of_pos_right h0 (show (0 : ℝ) < 2 ^ 1074 by positivity)
    have e : (1 : ℝ) / 2 ^ 1022 * 2 ^ 1074 = 2 ^ 52 := by
      rw [show (1074 : ℕ) = 1022 + 52 from rfl, pow_add]; field_simp
    rwa [e] at this
  have hg : Grid (2 ^ 52) := ⟨1, 52, by norm_num, by norm_num⟩
  have := h1.closest _ hg
  have hn' : (2 : ℝ) ^ 52 < n := by exact_mod_cast hn
  rw [Nat.cast_pow, Nat.cast_ofNat] at this
  generalize |(p : ℝ)| * 2 ^ 1074 = t at *
  rw [abs_of_pos (a := (n : ℝ) - t) (by linarith), abs_of_pos (a := (2 : ℝ) ^ 52 - t) (by linarith)] at this
  linarith

/-- An operation with a result above the smallest normal number is calm. -/
theorem calmBin_of_sizable {w : World} {op : Op} {a b r : F64} (h : binF w op a b = .ok r)
    (hr : Sizable r) : CalmBin op a b r := by
  intro p q hp hq
  refine ⟨?_, ?_, ?_, ?_⟩
  · rintro rfl; cases h; exact calm_of_sizable (add_rounds hp hq) hr
  · rintro rfl; cases h
    have := add_rounds hp (neg_value hq)
    rw [← sub_eq_add_neg] at this
    exact calm_of_sizable this hr
  · rintro rfl; cases h; exact calm_of_sizable (mul_rounds hp hq) hr
  · rintro rfl h0; cases h; exact calm_of_sizable (div_rounds hp hq h0) hr

/-- C95 in everyday terms: no functions, and every operation has a finite result above the
smallest normal number, in both units. -/
theorem C95_sizable (w : World) (Γ : Bytes → ℤ) (k : ℤ) (m m' : HMap F64) (e : Elem) (d : ℤ) (v : F64)
    (hd : Dim Γ e d) (hu : NewUnits Γ k m m') (hf : ∀ f args, ¬ Sub (.call f args) e)
    (hs : ∀ op l r x, Sub (.bin op l r) e → eval w m (.bin op l r) = .ok x → Sizable x)
    (hs' : ∀ op l r x, Sub (.bin op l r) e → eval w m' (.bin op l r) = .ok x → Sizable x)
    (hv : eval w m e = .ok v) : ∃ v', eval w m' e = .ok v' ∧ Scaled (k * d) v v' := by
  have q : ∀ n : HMap F64, (∀ op l r x, Sub (.bin op l r) e → eval w n (.bin op l r) = .ok x → Sizable x) →
      Quiet w n e := by
    intro n hn
    refine ⟨fun op l r a b v h1 h2 h3 h4 => ?_, fun f b args vs v h1 => absurd h1 (hf f args)⟩
    refine calmBin_of_sizable (w := w) ?_ (hn op l r v h1 h4)
    rw [eval, h2, h3] at h4
    simp only at h4
    cases h : binF w op a b with
    | ok x => rw [h] at h4; cases h4; rfl
    | error p => rw [h] at h4; cases h4
  rcases C95_scale w Γ k m m' e d hd hu (q m hs) (q m' hs') with ⟨a, b, h1, h2, h3⟩ | ⟨r, h1, _⟩
  · rw [hv] at h1; cases h1
    exact ⟨b, h2, h3⟩
  · rw [hv] at h1; cases h1

/-! ### An expression with units: `x * x / y + y`, with lengths `x` and `y` -/

def vy : Elem := .var b!"y"
def eLen : Elem := .bin .plus (.bin .divide (.bin .times vx vx) vy) vy

/-- `x = 3 · 2^j`, `y = 7 · 2^j`. -/
def mLen (j : Nat) : HMap F64 :=
  (HMap.empty.insert b!"x" (F64.ofNat (3 * 2 ^ j))).insert b!"y" (F64.ofNat (7 * 2 ^ j))

theorem eLen_dim : Dim (fun _ => 1) eLen 1 := by
  have h : Dim (fun _ => 1) (.bin .divide (.bin .times vx vx) vy) (1 + 1 - 1) :=
    .divide (.times .var .var) .var
  exact .plus h .var

theorem sizable_of {s : Bool} {n : Nat} {h : Rep n} (hn : 2 ^ 52 < n) : Sizable (.fin s n h) := by
  refine ⟨_, value_fin .., ?_⟩
  rw [abs_div, abs_sv, abs_of_pos unit64_pos_rat, unit64_cast, lt_div_iff₀ (by positivity)]
  have e : (1 : ℚ) / 2 ^ 1022 * 2 ^ 1074 = 2 ^ 52 := by
    rw [show (1074 : ℕ) = 1022 + 52 from rfl, pow_add]; field_simp
  rw [e]
  exact_mod_cast hn

theorem scaled_fin {s : Bool} {n j : Nat} {h : Rep n} {h' : Rep (n * 2 ^ j)} :
    Scaled j (.fin s n h) (.fin s (n * 2 ^ j) h') := by
  refine .inr (.inr ⟨_, value_fin .., ?_, rfl⟩)
  rw [value_fin]
  cases s <;> simp only [F64.sv, if_true, Bool.false_eq_true, if_false, zpow_natCast] <;> push_cast <;>
    congr 1 <;> ring

/-- A check of `Sizable` by computation. -/
def sizableB : F64 → Bool
  | .fin _ n _ => decide (2 ^ 52 < n)
  | _ => false

theorem sizable_check {x : F64} (h : sizableB x = true) : Sizable x := by
  cases x with
  | fin s n hn => exact sizable_of (of_decide_eq_true h)
  | nan => cases h
  | inf s => cases h

/-- Measured in units `2^10` times smaller, both lengths are `2^10` times as large, and so is
`x * x / y + y`, though the division and the addition are rounded. -/
example : ∃ v v', eval w0 (mLen 0) eLen = .ok v ∧ eval w0 (mLen 10) eLen = .ok v' ∧
    Scaled (10 * 1) v v' := by
  have sub : ∀ op l r, Sub (.bin op l r) eLen →
      Elem.bin op l r ∈ [eLen, .bin .divide (.bin .times vx vx) vy, .bin .times vx vx] := by
    intro op l r h
    cases h with
    | refl => simp [eLen]
    | right h => cases h
    | left h => cases h with
      | refl => simp
      | right h => cases h
      | left h => cases h with
        | refl => simp
        | left h => cases h
        | right h => cases h
  have check : ∀ j, j = 0 ∨ j = 10 → ∀ op l r x, Sub (.bin op l r) eLen →
      eval w0 (mLen j) (.bin op l r) = .ok x → Sizable x := by
    intro j hj op l r x h1 h2
    have h3 := sub op l r h1
    simp only [List.mem_cons, List.not_mem_nil, or_false] at h3
    rcases hj with rfl | rfl <;> rcases h3 with h3 | h3 | h3 <;> rw [h3] at h2 <;> cases h2 <;>
      exact sizable_check (by decide +kernel)
  have hf : ∀ f args, ¬ Sub (.call f args) eLen := by
    intro f args h
    cases h with
    | right h => cases h
    | left h => cases h with
      | right h => cases h
      | left h => cases h with
        | left h => cases h
        | right h => cases h
  have hu : NewUnits (fun _ => 1) 10 (mLen 0) (mLen 10) := by
    intro n
    by_cases h1 : n = b!"y"
    · subst h1
      refine .inr ⟨F64.ofNat (7 * 2 ^ 0), F64.ofNat (7 * 2 ^ 10), rfl, rfl, ?_⟩
      have e1 : F64.ofNat (7 * 2 ^ 0) = .fin false (7 * 2 ^ 1074) (by decide +kernel) := by decide +kernel
      have e2 : F64.ofNat (7 * 2 ^ 10) = .fin false (7 * 2 ^ 1074 * 2 ^ 10) (by decide +kernel) := by
        decide +kernel
      rw [e1, e2]
      exact scaled_fin
    · by_cases h2 : n = b!"x"
      · subst h2
        refine .inr ⟨F64.ofNat (3 * 2 ^ 0), F64.ofNat (3 * 2 ^ 10), rfl, rfl, ?_⟩
        have e1 : F64.ofNat (3 * 2 ^ 0) = .fin false (3 * 2 ^ 1074) (by decide +kernel) := by decide +kernel
        have e2 : F64.ofNat (3 * 2 ^ 10) = .fin false (3 * 2 ^ 1074 * 2 ^ 10) (by decide +kernel) := by
          decide +kernel
        rw [e1, e2]
        exact scaled_fin
      · refine .inl ⟨?_, ?_⟩ <;> simp [mLen, HMap.insert, HMap.empty, h1, h2]
  obtain ⟨v', h1, h2⟩ := C95_sizable w0 (fun _ => 1) 10 (mLen 0) (mLen 10) eLen 1 _ eLen_dim hu hf
    (check 0 (.inl rfl)) (check 10 (.inr rfl)) rfl
  exact ⟨_, v', rfl, h1, h2⟩

/-- The tree is what the plain build makes of the text. -/
example : parse0 cfgPlain b!"x * x / y + y" = .ok ⟨eLen, [b!"x", b!"y"]⟩ := by decide +kernel

/-- Without the condition on underflow this is not so: `x * x` is `1` for `x = 1` but zero,
not `2^-1200`, for `x = 2^-600`. -/
example : eval w0 (mx F64.f1) (.bin .times vx vx) = .ok F64.f1 ∧
    eval w0 (mx (.fin false (2 ^ 474) (by decide +kernel))) (.bin .times vx vx) = .ok F64.f0 := by
  constructor <;> rw [eval, eval_vx] <;> decide +kernel

/-- Nor for expressions that make no sense with units: `x + 1`. -/
example (Γ : Bytes → ℤ) (h : Γ b!"x" ≠ 0) (d : ℤ) : ¬ Dim Γ (.bin .plus vx (.num F64.f1)) d := by
  have one : ∀ c, Dim Γ (.num F64.f1) c → c = 0 := by
    intro c k
    cases k with
    | num => rfl
    | unitless k => exact absurd (k 1 one_value) one_ne_zero
  intro k
  cases k with
  | plus k1 k2 =>
    cases k1
    exact h (one _ k2)

end Props
end Xprs
