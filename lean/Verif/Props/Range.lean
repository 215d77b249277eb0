import Verif.Lemmas.Range
import Verif.Props.Builds
/-
Property C98: bounds of an expression from bounds of its variables.
-/
namespace Xprs
namespace Props
open Spec
set_option exponentiation.threshold 4096

section
variable {w : World} {K : Known} {R : Bytes → F64 → F64 → Prop} {m : HMap F64}

mutual
theorem ranges_bounded (hK : Sound w K) : ∀ {e : Elem} {lo hi : F64}, Ranges K R e lo hi → Bounded lo ∧ Bounded hi
  | _, _, _, .num h => ⟨h, h⟩
  | _, _, _, .var _ h h' => ⟨h, h'⟩
  | _, _, _, .wider _ _ _ h h' => ⟨h, h'⟩
  | _, _, _, .pos h => ranges_bounded hK h
  | _, _, _, .neg h => ⟨bounded_neg (ranges_bounded hK h).2, bounded_neg (ranges_bounded hK h).1⟩
  | _, _, _, .add _ _ h h' => ⟨h, h'⟩
  | _, _, _, .sub _ _ h h' => ⟨h, h'⟩
  | _, _, _, .mul _ _ h h' _ => ⟨h, h'⟩
  | _, _, _, .div _ _ h h' _ _ => ⟨h, h'⟩
  | _, _, _, .rem _ _ _ _ h _ => ⟨bounded_f0, h⟩
  | _, _, _, .pow _ _ _ h => ⟨(hK.pow _ _ _ _ _ _ h).1, (hK.pow _ _ _ _ _ _ h).2.1⟩
  | _, _, _, .call _ h => ⟨(hK.fn _ _ _ _ _ h).1, (hK.fn _ _ _ _ _ h).2.1⟩
end

/-- A step of `eval`. -/
theorem eval_bin_of {op : Op} {l r : Elem} {a b v : F64} (h1 : eval w m l = .ok a) (h2 : eval w m r = .ok b)
    (h3 : binF w op a b = .ok v) : eval w m (.bin op l r) = .ok v := by
  rw [eval, h1]; simp only [h2, h3]; rfl

theorem eval_un_of {op : Op} {e : Elem} {a v : F64} (h1 : eval w m e = .ok a) (h3 : unF op a = .ok v) :
    eval w m (.un op e) = .ok v := by
  rw [eval, h1]; simp only [h3]; rfl

theorem eval_call_of {f : Func} {args : List Elem} {vs : List F64} {v : F64} (h1 : evalL w m args = .ok vs)
    (h3 : callFn w f vs = .ok v) : eval w m (.call f args) = .ok v := by
  rw [eval, h1]; simp only [h3]; rfl

mutual
/-- C98: if every variable lies within its bounds, interval arithmetic with the rounded
operations themselves gives bounds for the result: evaluation succeeds, and its value is
finite and lies between them. -/
theorem C98_range (hK : Sound w K) (hm : ∀ n a b, R n a b → ∃ x, m n = some x ∧ Between a x b) :
    ∀ (e : Elem) (lo hi : F64), Ranges K R e lo hi →
      ∃ v, eval w m e = .ok v ∧ Bounded v ∧ Between lo v hi
  | _, _, _, .num h => ⟨_, rfl, h, between_self h⟩
  | _, _, _, .var (n := n) h h1 h2 => by
    obtain ⟨x, h3, h4⟩ := hm _ _ _ h
    refine ⟨x, ?_, between_bounded h4 h1 h2, h4⟩
    rw [eval, show m.get n = some x from h3]
  | _, _, _, .wider h h1 h2 _ _ => by
    obtain ⟨v, h3, h4, h5⟩ := C98_range hK hm _ _ _ h
    exact ⟨v, h3, h4, h5.wider h1 h2⟩
  | _, _, _, .pos h => by
    obtain ⟨v, h3, h4, h5⟩ := C98_range hK hm _ _ _ h
    exact ⟨v, eval_un_of h3 rfl, h4, h5⟩
  | _, _, _, .neg h => by
    obtain ⟨v, h3, h4, h5⟩ := C98_range hK hm _ _ _ h
    exact ⟨_, eval_un_of h3 rfl, bounded_neg h4, h5.neg⟩
  | _, _, _, .add h h' k k' => by
    obtain ⟨v, h3, h4, h5⟩ := C98_range hK hm _ _ _ h
    obtain ⟨u, h6, h7, h8⟩ := C98_range hK hm _ _ _ h'
    obtain ⟨i, j⟩ := ranges_bounded hK h
    obtain ⟨i', j'⟩ := ranges_bounded hK h'
    have hb := between_add i j i' j' h5 h8
    exact ⟨_, eval_bin_of h3 h6 rfl, between_bounded hb k k', hb⟩
  | _, _, _, .sub h h' k k' => by
    obtain ⟨v, h3, h4, h5⟩ := C98_range hK hm _ _ _ h
    obtain ⟨u, h6, h7, h8⟩ := C98_range hK hm _ _ _ h'
    obtain ⟨i, j⟩ := ranges_bounded hK h
    obtain ⟨i', j'⟩ := ranges_bounded hK h'
    have hb := between_sub i j i' j' h5 h8
    exact ⟨_, eval_bin_of h3 h6 rfl, between_bounded hb k k', hb⟩
  | _, _, _, .mul h h' k k' hc => by
    obtain ⟨v, h3, h4, h5⟩ := C98_range hK hm _ _ _ h
    obtain ⟨u, h6, h7, h8⟩ := C98_range hK hm _ _ _ h'
    obtain ⟨i, j⟩ := ranges_bounded hK h
    obtain ⟨i', j'⟩ := ranges_bounded hK h'
    have hb := between_mul i j i' j' h5 h8 hc
    exact ⟨_, eval_bin_of h3 h6 rfl, between_bounded hb k k', hb⟩
  | _, _, _, .div h h' k k' h0 hc => by
    obtain ⟨v, h3, h4, h5⟩ := C98_range hK hm _ _ _ h
    obtain ⟨u, h6, h7, h8⟩ := C98_range hK hm _ _ _ h'
    obtain ⟨i, j⟩ := ranges_bounded hK h
    obtain ⟨i', j'⟩ := ranges_bounded hK h'
    have hb := between_div i j i' j' h5 h8 h0 hc
    exact ⟨_, eval_bin_of h3 h6 rfl, between_bounded hb k k', hb⟩
  | _, _, _, .rem h h' h0 hc k hd => by
    obtain ⟨v, h3, h4, h5⟩ := C98_range hK hm _ _ _ h
    obtain ⟨u, h6, h7, h8⟩ := C98_range hK hm _ _ _ h'
    obtain ⟨i, j⟩ := ranges_bounded hK h
    obtain ⟨i', j'⟩ := ranges_bounded hK h'
    have hb := between_rem i j i' j' h5 h8 h0 hc hd
    exact ⟨_, eval_bin_of h3 h6 rfl, between_bounded hb bounded_f0 k, hb⟩
  | _, _, _, .pow h h' _ hk => by
    obtain ⟨v, h3, h4, h5⟩ := C98_range hK hm _ _ _ h
    obtain ⟨u, h6, h7, h8⟩ := C98_range hK hm _ _ _ h'
    obtain ⟨k, k', hb⟩ := hK.pow _ _ _ _ _ _ hk
    have hb := hb v u h4 h7 h5 h8
    exact ⟨_, eval_bin_of h3 h6 rfl, between_bounded hb k k', hb⟩
  | _, _, _, .call h hk => by
    obtain ⟨vs, h3, h4, h5⟩ := C98_args hK hm _ _ _ h
    obtain ⟨k, k', hb⟩ := hK.fn _ _ _ _ _ hk
    obtain ⟨v, h6, hb⟩ := hb vs h4 h5
    exact ⟨v, eval_call_of h3 h6, between_bounded hb k k', hb⟩
theorem C98_args (hK : Sound w K) (hm : ∀ n a b, R n a b → ∃ x, m n = some x ∧ Between a x b) :
    ∀ (es : List Elem) (los his : List F64), RangesL K R es los his →
      ∃ vs, evalL w m es = .ok vs ∧ (∀ v ∈ vs, Bounded v) ∧ BetweenL los vs his
  | _, _, _, .nil => ⟨[], rfl, by simp, .nil⟩
  | _, _, _, .cons h h' => by
    obtain ⟨v, h3, h4, h5⟩ := C98_range hK hm _ _ _ h
    obtain ⟨vs, h6, h7, h8⟩ := C98_args hK hm _ _ _ h'
    refine ⟨v :: vs, evalL_cons.2 ⟨v, vs, h3, h6, rfl⟩, ?_, .cons h5 h8⟩
    intro u hu
    rcases List.mem_cons.1 hu with rfl | hu
    · exact h4
    · exact h7 u hu
end

mutual
/-- The same evaluation takes no doubtful step. -/
theorem ranges_runs (hK : Sound w K) (hS : Steady w K)
    (hm : ∀ n a b, R n a b → ∃ x, m n = some x ∧ Between a x b) :
    ∀ (e : Elem) (lo hi : F64), Ranges K R e lo hi → NotModOne w m e →
      ∃ v, Runs w m e v ∧ Bounded v ∧ Between lo v hi
  | _, _, _, .num h, _ => ⟨_, .num, h, between_self h⟩
  | _, _, _, .var h h1 h2, _ => by
    obtain ⟨x, h3, h4⟩ := hm _ _ _ h
    exact ⟨x, .var h3, between_bounded h4 h1 h2, h4⟩
  | _, _, _, .wider h h1 h2 _ _, hn => by
    obtain ⟨v, h3, h4, h5⟩ := ranges_runs hK hS hm _ _ _ h hn
    exact ⟨v, h3, h4, h5.wider h1 h2⟩
  | _, _, _, .pos h, hn => by
    obtain ⟨v, h3, h4, h5⟩ := ranges_runs hK hS hm _ _ _ h fun l r hs => hn l r (.operand hs)
    exact ⟨v, .un h3 .plus, h4, h5⟩
  | _, _, _, .neg h, hn => by
    obtain ⟨v, h3, h4, h5⟩ := ranges_runs hK hS hm _ _ _ h fun l r hs => hn l r (.operand hs)
    exact ⟨_, .un h3 .minus, bounded_neg h4, h5.neg⟩
  | _, _, _, .add h h' k k', hn => by
    obtain ⟨v, h3, h4, h5⟩ := ranges_runs hK hS hm _ _ _ h fun l r hs => hn l r (.left hs)
    obtain ⟨u, h6, h7, h8⟩ := ranges_runs hK hS hm _ _ _ h' fun l r hs => hn l r (.right hs)
    obtain ⟨i, j⟩ := ranges_bounded hK h
    obtain ⟨i', j'⟩ := ranges_bounded hK h'
    have hb := between_add i j i' j' h5 h8
    have hB := between_bounded hb k k'
    exact ⟨_, .bin h3 h6 (.plus (bounded_ne_nan hB)), hB, hb⟩
  | _, _, _, .sub h h' k k', hn => by
    obtain ⟨v, h3, h4, h5⟩ := ranges_runs hK hS hm _ _ _ h fun l r hs => hn l r (.left hs)
    obtain ⟨u, h6, h7, h8⟩ := ranges_runs hK hS hm _ _ _ h' fun l r hs => hn l r (.right hs)
    obtain ⟨i, j⟩ := ranges_bounded hK h
    obtain ⟨i', j'⟩ := ranges_bounded hK h'
    have hb := between_sub i j i' j' h5 h8
    have hB := between_bounded hb k k'
    exact ⟨_, .bin h3 h6 (.minus (bounded_ne_nan hB)), hB, hb⟩
  | _, _, _, .mul h h' k k' hc, hn => by
    obtain ⟨v, h3, h4, h5⟩ := ranges_runs hK hS hm _ _ _ h fun l r hs => hn l r (.left hs)
    obtain ⟨u, h6, h7, h8⟩ := ranges_runs hK hS hm _ _ _ h' fun l r hs => hn l r (.right hs)
    obtain ⟨i, j⟩ := ranges_bounded hK h
    obtain ⟨i', j'⟩ := ranges_bounded hK h'
    have hb := between_mul i j i' j' h5 h8 hc
    have hB := between_bounded hb k k'
    exact ⟨_, .bin h3 h6 (.times (bounded_ne_nan hB)), hB, hb⟩
  | _, _, _, .div h h' k k' h0 hc, hn => by
    obtain ⟨v, h3, h4, h5⟩ := ranges_runs hK hS hm _ _ _ h fun l r hs => hn l r (.left hs)
    obtain ⟨u, h6, h7, h8⟩ := ranges_runs hK hS hm _ _ _ h' fun l r hs => hn l r (.right hs)
    obtain ⟨i, j⟩ := ranges_bounded hK h
    obtain ⟨i', j'⟩ := ranges_bounded hK h'
    have hb := between_div i j i' j' h5 h8 h0 hc
    have hB := between_bounded hb k k'
    exact ⟨_, .bin h3 h6 (.divide (bounded_ne_nan hB) (apart_not_zero h0 i' j' h8)), hB, hb⟩
  | _, _, _, .rem (r := r) h h' h0 hc k hd, hn => by
    obtain ⟨v, h3, h4, h5⟩ := ranges_runs hK hS hm _ _ _ h fun l r hs => hn l r (.left hs)
    obtain ⟨u, h6, h7, h8⟩ := ranges_runs hK hS hm _ _ _ h' fun l r hs => hn l r (.right hs)
    obtain ⟨i, j⟩ := ranges_bounded hK h
    obtain ⟨i', j'⟩ := ranges_bounded hK h'
    have hb := between_rem i j i' j' h5 h8 h0 hc hd
    have hB := between_bounded hb bounded_f0 k
    refine ⟨_, .bin h3 h6 (.modulo (bounded_ne_nan hB) fun h1 => ?_), hB, hb⟩
    subst h1
    exact absurd (runs_eval _ h6) (hn _ _ .refl)
  | _, _, _, .pow h h' h0 hk, hn => by
    obtain ⟨v, h3, h4, h5⟩ := ranges_runs hK hS hm _ _ _ h fun l r hs => hn l r (.left hs)
    obtain ⟨u, h6, h7, h8⟩ := ranges_runs hK hS hm _ _ _ h' fun l r hs => hn l r (.right hs)
    obtain ⟨i, j⟩ := ranges_bounded hK h
    obtain ⟨i', j'⟩ := ranges_bounded hK h'
    obtain ⟨k, k', hb⟩ := hK.pow _ _ _ _ _ _ hk
    have hb := hb v u h4 h7 h5 h8
    have hB := between_bounded hb k k'
    refine ⟨_, .bin h3 h6 (.power fun hz => ?_), hB, hb⟩
    rcases h0 with h0 | h0
    · exact absurd hz (apart_not_zero h0 i j h5)
    · exact positive_mono h0 i' h8 h7
  | _, _, _, .call h hk, hn => by
    obtain ⟨vs, h3, h4, h5⟩ := ranges_runsL hK hS hm _ _ _ h fun l r a ha hs => hn l r (.arg ha hs)
    obtain ⟨k, k', hb⟩ := hK.fn _ _ _ _ _ hk
    obtain ⟨v, h6, hb⟩ := hb vs h4 h5
    refine ⟨v, .call h3 ⟨h6, fun us hus => ?_⟩, between_bounded hb k k', hb⟩
    obtain ⟨v', u, h7, h8, h9⟩ := hS _ _ _ _ _ hk vs h4 h5 us hus
    rw [h6] at h7; cases h7
    exact ⟨u, h8, h9⟩
theorem ranges_runsL (hK : Sound w K) (hS : Steady w K)
    (hm : ∀ n a b, R n a b → ∃ x, m n = some x ∧ Between a x b) :
    ∀ (es : List Elem) (los his : List F64), RangesL K R es los his →
      (∀ l r, ∀ a ∈ es, Sub (.bin .modulo l r) a → eval w m r ≠ .ok F64.f1) →
      ∃ vs, RunsL w m es vs ∧ (∀ v ∈ vs, Bounded v) ∧ BetweenL los vs his
  | _, _, _, .nil, _ => ⟨[], .nil, by simp, .nil⟩
  | _, _, _, .cons h h', hn => by
    obtain ⟨v, h3, h4, h5⟩ := ranges_runs hK hS hm _ _ _ h fun l r hs => hn l r _ List.mem_cons_self hs
    obtain ⟨vs, h6, h7, h8⟩ := ranges_runsL hK hS hm _ _ _ h' fun l r a ha hs => hn l r a (List.mem_cons_of_mem _ ha) hs
    refine ⟨v :: vs, .cons h3 h6, ?_, .cons h5 h8⟩
    intro u hu
    rcases List.mem_cons.1 hu with rfl | hu
    · exact h4
    · exact h7 u hu
end
end

/-- C98, other builds: if the tree of the build without optimizations has the bounds, the
results of every build lie between them. -/
theorem C98_builds (cfg cfg' : Cfg) (w : World) (o o' : Oracle) (ctx : Context) (input : Bytes)
    (x y : Xpr) (K : Known) (R : Bytes → F64 → F64 → Prop) (m : HMap F64) (lo hi : F64)
    (hp : cfg.pejmdas = cfg'.pejmdas) (ho : cfg.opt = false)
    (hw : NoPower x.root ∨ PowLaws w) (hn : ∀ ts, Lex input ts → ParensApart ts)
    (h : parse cfg w o ctx input = .ok x) (h' : parse cfg' w o' ctx input = .ok y)
    (hK : Sound w K) (hS : Steady w K) (hm : ∀ n a b, R n a b → ∃ x, m n = some x ∧ Between a x b)
    (he : Ranges K R x.root lo hi) (h1 : NotModOne w m x.root) :
    ∃ v, y.eval w m = .ok v ∧ Bounded v ∧ Between lo v hi := by
  obtain ⟨v, hr, hv, hb⟩ := ranges_runs hK hS hm _ _ _ he h1
  obtain ⟨-, u, h2, h3⟩ := C16_value_partial cfg cfg' w o o' ctx input x y m v hp ho hw hn h h' hr
  exact ⟨u, h2, bounded_same hv h3, hb.same h3⟩

/-- C98, functions: rounding, `sqrt`, `sum`, `mean`, `min`, `max`, `abs` and `recip` have
the bounds that their values at the ends give, on every platform. -/
theorem C98_functions (w : World) : Sound w (natural w) ∧ Steady w (natural w) :=
  ⟨natural_sound w, natural_steady w⟩

theorem leF_check {a b : F64}
    (h : ((F64.key a).bind fun x => (F64.key b).map fun y => decide (x ≤ y)) = some true) : LeF a b := by
  rw [leF_iff]
  cases ha : F64.key a with
  | none => rw [ha] at h; cases h
  | some x =>
    cases hb : F64.key b with
    | none => rw [ha, hb] at h; cases h
    | some y =>
      rw [ha, hb] at h
      exact ⟨x, y, rfl, rfl, of_decide_eq_true (Option.some.inj h)⟩

/-- Bounds for the example: `x` between `0` and `4`, `y` between `-1` and `2`. -/
def box (n : Bytes) (a b : F64) : Prop :=
  (n = b!"x" ∧ a = F64.f0 ∧ b = F64.ofNat 4) ∨ (n = b!"y" ∧ a = F64.neg F64.f1 ∧ b = F64.ofNat 2)

def vy' : Elem := .var b!"y"

def eBox : Elem :=
  .bin .divide (.bin .times (.call Builtin.sqrt.toFunc [vx]) vy') (.bin .plus vx (.num F64.f1))

/-- `sqrt(x) * y / (x + 1)` then lies between `-2` and `4`. -/
theorem box_ranges (w : World) : Ranges (natural w) box eBox (F64.neg (F64.ofNat 2)) (F64.ofNat 4) := by
  have b0 : Bounded F64.f0 := bounded_f0
  have b1 : Bounded F64.f1 := ⟨1, by decide +kernel⟩
  have b2 : Bounded (F64.ofNat 2) := ⟨2, by decide +kernel⟩
  have b4 : Bounded (F64.ofNat 4) := ⟨4, by decide +kernel⟩
  have b5 : Bounded (F64.ofNat 5) := ⟨5, by decide +kernel⟩
  have hx : Ranges (natural w) box vx F64.f0 (F64.ofNat 4) := .var (.inl ⟨rfl, rfl, rfl⟩) b0 b4
  have hy : Ranges (natural w) box vy' (F64.neg F64.f1) (F64.ofNat 2) :=
    .var (.inr ⟨rfl, rfl, rfl⟩) (bounded_neg b1) b2
  have hs : Ranges (natural w) box (.call Builtin.sqrt.toFunc [vx]) F64.f0 (F64.ofNat 2) :=
    .call (.cons hx .nil) (.rises rfl (by simp)
      (show Builtin.sqrt.run w [F64.f0] = .ok F64.f0 by
        rw [show Builtin.sqrt.run w [F64.f0] = .ok (F64.sqrt F64.f0) from rfl]; decide +kernel)
      (show Builtin.sqrt.run w [F64.ofNat 4] = .ok (F64.ofNat 2) by
        rw [show Builtin.sqrt.run w [F64.ofNat 4] = .ok (F64.sqrt (F64.ofNat 4)) from rfl]; decide +kernel) b0 b2)
  have ha : Ranges (natural w) box (.bin .plus vx (.num F64.f1)) F64.f1 (F64.ofNat 5) := by
    have h := Ranges.add hx (.num b1) (show Bounded (F64.add F64.f0 F64.f1) from ⟨1, by decide +kernel⟩)
      (show Bounded (F64.add (F64.ofNat 4) F64.f1) from ⟨5, by decide +kernel⟩)
    rwa [show F64.add F64.f0 F64.f1 = F64.f1 by decide +kernel,
      show F64.add (F64.ofNat 4) F64.f1 = F64.ofNat 5 by decide +kernel] at h
  refine .div (.mul hs hy (lo := F64.neg (F64.ofNat 2)) (hi := F64.ofNat 4) (bounded_neg b2) b4 ?_) ha
    (bounded_neg b2) b4 (.inl ?_) ?_
  · intro x hx y hy
    simp only [List.mem_cons, List.not_mem_nil, or_false] at hx hy
    rcases hx with rfl | rfl <;> rcases hy with rfl | rfl <;>
      exact ⟨leF_check (by decide +kernel), leF_check (by decide +kernel)⟩
  · rw [show F64.f1 = .fin false (2 ^ 1074) (by decide +kernel) by decide +kernel]
    exact .fin (by positivity)
  · intro x hx y hy
    simp only [List.mem_cons, List.not_mem_nil, or_false] at hx hy
    rcases hx with rfl | rfl <;> rcases hy with rfl | rfl <;>
      exact ⟨leF_check (by decide +kernel), leF_check (by decide +kernel)⟩

/-- The plain build makes this tree of the text. -/
example : parse0 cfgPlain b!"sqrt(x) * y / (x + 1)" = .ok ⟨eBox, [b!"x", b!"y"]⟩ := by decide +kernel

/-- So for all numbers `x` and `y` within these bounds, on every platform, it has a value and
the value is a finite number between `-2` and `4`. -/
example (w : World) (m : HMap F64) (hm : ∀ n a b, box n a b → ∃ x, m n = some x ∧ Between a x b) :
    ∃ v, eval w m eBox = .ok v ∧ Bounded v ∧ Between (F64.neg (F64.ofNat 2)) v (F64.ofNat 4) :=
  C98_range (natural_sound w) hm _ _ _ (box_ranges w)

/-- There are such numbers. -/
example : ∀ n a b, box n a b → ∃ x, ((mx F64.f1).insert b!"y" F64.f0) n = some x ∧ Between a x b := by
  rintro n a b (⟨rfl, rfl, rfl⟩ | ⟨rfl, rfl, rfl⟩)
  · exact ⟨F64.f1, rfl, leF_check (by decide +kernel), leF_check (by decide +kernel)⟩
  · exact ⟨F64.f0, rfl, leF_check (by decide +kernel), leF_check (by decide +kernel)⟩

/-- The condition on divisors is needed: `1 / x` is finite at both ends of `[-1, 1]`, and no
number of it is outside of the bounds, but it is infinite at zero. -/
example : Between (F64.neg F64.f1) F64.f0 F64.f1 ∧
    F64.div F64.f1 (F64.neg F64.f1) = F64.neg F64.f1 ∧ F64.div F64.f1 F64.f1 = F64.f1 ∧
    eval w0 (mx F64.f0) (.bin .divide (.num F64.f1) vx) = .ok (.inf false) := by
  refine ⟨⟨leF_check (by decide +kernel), leF_check (by decide +kernel)⟩, by decide +kernel,
    by decide +kernel, ?_⟩
  rw [eval, eval_vx]; decide +kernel

/-- Taken modulo one, other builds do not follow the steps of the plain build: `x % 1` is
simplified to zero. -/
example : parse0 cfgPlain b!"x % 1" = .ok ⟨.bin .modulo vx (.num F64.f1), [b!"x"]⟩ ∧
    parse0 cfgOpt b!"x % 1" = .ok ⟨.num F64.f0, []⟩ := by constructor <;> decide +kernel

end Props
end Xprs
