import Verif.Spec.Bracket
import Verif.Props.Threshold
import Verif.Props.Quotient
/-
Property C122: for which values of `x` a formula in whole steps has a given value.
-/
namespace Xprs
namespace Props
open Spec
set_option exponentiation.threshold 4096

/-- The brackets of the four functions. -/
theorem bracket_all (N : ℤ) :
    Bracket .floor N N true (N + 1) false ∧ Bracket .ceil N (N - 1) false N true ∧
    (0 < N → Bracket .trunc N N true (N + 1) false ∧ Bracket .round N (N - 1 / 2) true (N + 1 / 2) false) ∧
    (N < 0 → Bracket .trunc N (N - 1) false N true ∧ Bracket .round N (N - 1 / 2) false (N + 1 / 2) true) ∧
    (N = 0 → Bracket .trunc N (-1) false 1 false ∧ Bracket .round N (-1 / 2) false (1 / 2) false) := by
  refine ⟨fun r => ?_, fun r => ?_, fun h => ⟨fun r => ?_, fun r => ?_⟩, fun h => ⟨fun r => ?_, fun r => ?_⟩,
    fun h => ⟨fun r => ?_, fun r => ?_⟩⟩
  · simp [Picks]
  · simp [Picks]
  · rw [trunc_iff]
    have : ¬ N < 0 := by omega
    have : N ≠ 0 := by omega
    simp [*]
  · rw [round_iff]
    have : ¬ N < 0 := by omega
    have : N ≠ 0 := by omega
    simp only [true_and, false_and, or_false, Bool.false_eq_true, if_true, if_false, *]
    push_cast
    constructor <;> rintro ⟨h1, h2⟩ <;> exact ⟨by linarith, by linarith⟩
  · rw [trunc_iff]
    have : ¬ 0 < N := by omega
    have : N ≠ 0 := by omega
    simp [*]
  · rw [round_iff]
    have : ¬ 0 < N := by omega
    have : N ≠ 0 := by omega
    simp only [true_and, false_and, false_or, Bool.false_eq_true, if_true, if_false, *]
    push_cast
    constructor <;> rintro ⟨h1, h2⟩ <;> exact ⟨by linarith, by linarith⟩
  · subst h
    rw [trunc_iff]
    simp
  · subst h
    rw [round_iff]
    simp

/-- What the four functions do with values that are not NaN. -/
theorem bracket_step (w : World) {f : Builtin} {N : ℤ} {lo hi : ℚ} {b c : Bool} (hf : f ∈ toWhole)
    (hb : Bracket f N lo b hi c) {v z t : F64} (hv : v ≠ .nan) (hz : value z = some lo) (ht : value t = some hi) :
    ∃ r, CallStep w f.toFunc [v] r ∧ (value r = some (N : ℚ) ↔ Within v z b t c) := by
  rcases fin_cases v with h | ⟨u, rfl⟩ | ⟨q, hq⟩
  · exact absurd h hv
  · refine ⟨.inf u, ⟨?_, fun us hs => ?_⟩, ?_⟩
    · simp only [toWhole, List.mem_cons, List.not_mem_nil, or_false] at hf
      rcases hf with rfl | rfl | rfl | rfl <;> rfl
    · cases hs with
      | cons h h' =>
        cases h'
        rcases h with rfl | ⟨h, -⟩
        · simp only [toWhole, List.mem_cons, List.not_mem_nil, or_false] at hf
          rcases hf with rfl | rfl | rfl | rfl <;> exact ⟨.inf u, rfl, .inl rfl⟩
        · obtain ⟨_, h⟩ := h
          cases h
    · obtain ⟨z1, z2, z3, z4, z5, z6⟩ := inf_sides hz
      obtain ⟨t1, t2, t3, t4, t5, t6⟩ := inf_sides ht
      refine iff_of_false nofun fun h => ?_
      cases u
      · have := h.2
        cases c
        · exact t6 this
        · exact this t2
      · have := h.1
        cases b
        · exact z5 this
        · exact this z1
  · obtain ⟨r, M, -, h2, h3, h4⟩ := whole_step w hf hq
    refine ⟨r, h4, ?_⟩
    have e : value r = some (N : ℚ) ↔ Picks f q N := by
      rw [h2, Option.some_inj]
      constructor
      · intro h
        have : M = N := by exact_mod_cast h
        rwa [← this]
      · intro h
        rw [picks_unique h3 h]
    rw [e, hb]
    unfold Within
    rw [(less_values hq hz).1, (less_values hz hq).1, (less_values ht hq).1, (less_values hq ht).1, not_lt, not_lt]

theorem within_sides {v z t x a b : F64} {c d up : Bool} (h : Sides v z x a up) (k : Sides v t x b up) :
    Within v z c t d ↔ if up then Within x a c b d else Within x b d a c := by
  unfold Within
  cases up
  · simp only [Bool.false_eq_true, if_false]
    rw [h.1, h.2.1, k.1, k.2.1]
    exact and_comm
  · simp only [if_true]
    rw [h.1, h.2.1, k.1, k.2.1]

theorem bracket_core {V : Elem → F64 → Prop} (hV : Steps V) (w : World) {e a : Elem} {lo hi s t : ℚ} {up b c : Bool}
    {f : Builtin} {N : ℤ} (hf : f ∈ toWhole) (hb : Bracket f N lo b hi c) (hs : Passes V e lo up a s)
    (ht : Passes V e hi up a t) {x S T : F64} (hx : V a x) (hn : x ≠ .nan) (hS : value S = some s)
    (hT : value T = some t) (huniq : ∀ {u v}, V e u → V e v → u = v) :
    ∃ v r, V e v ∧ CallStep w f.toFunc [v] r ∧
      (value r = some (N : ℚ) ↔ if up then Within x S b T c else Within x T c S b) := by
  obtain ⟨⟨z, hz⟩, -, v, h1, h2, h3⟩ := passes_sides hV hs hx hn
  obtain ⟨⟨z', hz'⟩, -, v', k1, -, k3⟩ := passes_sides hV ht hx hn
  obtain rfl := huniq h1 k1
  obtain ⟨r, h4, h5⟩ := bracket_step w hf hb h2 hz hz'
  exact ⟨v, r, h1, h4, h5.trans (within_sides (h3 z S hz hS) (k3 z' T hz' hT))⟩

/-! ### C122 -/

/-- C122: if a formula passes the ends of the numbers of which `f` (`floor`, `ceil`, `round` or `trunc`)
makes `N` at the numbers `s` and `t`, then `f` of the computed value is `N` exactly if the value of the
inner expression lies between `s` and `t`, the ends counted as for `f`. -/
theorem C122_bracket (w : World) (m : HMap F64) (f : Builtin) (N : ℤ) (e a : Elem) (lo hi s t : ℚ) (up b c : Bool)
    (x S T : F64) (hf : f ∈ toWhole) (hb : Bracket f N lo b hi c)
    (hs : Passes (fun c y => eval w m c = .ok y) e lo up a s)
    (ht : Passes (fun c y => eval w m c = .ok y) e hi up a t) (hx : eval w m a = .ok x) (hn : x ≠ .nan)
    (hS : value S = some s) (hT : value T = some t) :
    ∃ r, eval w m (app f e) = .ok r ∧ evalU w m (app f e) = .ok r ∧
      (value r = some (N : ℚ) ↔ if up then Within x S b T c else Within x T c S b) := by
  obtain ⟨v, r, h1, h2, h3⟩ := bracket_core (steps_eval w m) w hf hb hs ht hx hn hS hT
    (fun h k => Except.ok.inj (h.symm.trans k))
  have h4 : eval w m (app f e) = .ok r := by
    refine eval_call_ok.2 ⟨[v], ?_, h2.1⟩
    rw [evalL, h1]
    rfl
  exact ⟨r, h4, by rw [evalU_eq, h4]; rfl, h3⟩

theorem bracket_runs {w : World} {m : HMap F64} {f : Builtin} {N : ℤ} {e a : Elem} {lo hi s t : ℚ} {up b c : Bool}
    {x S T : F64} (hf : f ∈ toWhole) (hb : Bracket f N lo b hi c) (hs : Passes (Runs w m) e lo up a s)
    (ht : Passes (Runs w m) e hi up a t) (hx : Runs w m a x) (hn : x ≠ .nan)
    (hS : value S = some s) (hT : value T = some t) :
    ∃ r, Runs w m (app f e) r ∧
      (value r = some (N : ℚ) ↔ if up then Within x S b T c else Within x T c S b) := by
  obtain ⟨v, r, h1, h2, h3⟩ := bracket_core (steps_runs w m) w hf hb hs ht hx hn hS hT
    (fun h k => Except.ok.inj ((runs_eval _ h).symm.trans (runs_eval _ k)))
  exact ⟨r, .call (.cons h1 .nil) h2, h3⟩

theorem value_same_iff {v u : F64} {q : ℚ} (h : Same v u) : value u = some q ↔ value v = some q :=
  ⟨fun k => value_same k h.symm, fun k => value_same k h⟩

/-- C122 after simplification, and for `simplify_for`, where the formula has no doubtful step. -/
theorem C122_simplified (cfg : Cfg) (w : World) (m : HMap F64) (f : Builtin) (N : ℤ) (e a e' : Elem)
    (lo hi s t : ℚ) (up b c : Bool) (x S T : F64) (hw : NoPower (app f e) ∨ PowLaws w) (hf : f ∈ toWhole)
    (hb : Bracket f N lo b hi c) (hs : Passes (Runs w m) e lo up a s) (ht : Passes (Runs w m) e hi up a t)
    (hx : Runs w m a x) (hn : x ≠ .nan) (hS : value S = some s) (hT : value T = some t)
    (he : simplify cfg w (app f e) = .ok e') :
    ∃ r, eval w m e' = .ok r ∧
      (value r = some (N : ℚ) ↔ if up then Within x S b T c else Within x T c S b) := by
  obtain ⟨r, h1, h2⟩ := bracket_runs hf hb hs ht hx hn hS hT
  obtain ⟨u, h3, h4⟩ := simplify_runs' hw h1 he
  exact ⟨u, runs_eval _ h3, (value_same_iff h4).trans h2⟩

/-- C122 for texts, in every build. -/
theorem C122_builds (cfg cfg' : Cfg) (w : World) (o o' : Oracle) (ctx : Context) (input : Bytes)
    (p q : Xpr) (m : HMap F64) (f : Builtin) (N : ℤ) (e a : Elem) (lo hi s t : ℚ) (up b c : Bool) (x S T : F64)
    (hp : cfg.pejmdas = cfg'.pejmdas) (ho : cfg.opt = false) (hw : NoPower p.root ∨ PowLaws w)
    (hl : ∀ ts, Lex input ts → ParensApart ts)
    (h : parse cfg w o ctx input = .ok p) (h' : parse cfg' w o' ctx input = .ok q) (hr : p.root = app f e)
    (hf : f ∈ toWhole) (hb : Bracket f N lo b hi c) (hs : Passes (Runs w m) e lo up a s)
    (ht : Passes (Runs w m) e hi up a t) (hx : Runs w m a x) (hn : x ≠ .nan) (hS : value S = some s)
    (hT : value T = some t) :
    ∃ r, q.eval w m = .ok r ∧
      (value r = some (N : ℚ) ↔ if up then Within x S b T c else Within x T c S b) := by
  obtain ⟨r, h1, h2⟩ := bracket_runs hf hb hs ht hx hn hS hT
  rw [← hr] at h1
  obtain ⟨-, u, hu, su⟩ := C16_value_partial cfg cfg' w o o' ctx input p q m r hp ho hw hl h h' h1
  exact ⟨u, hu, (value_same_iff su).trans h2⟩

/-- Whole centuries since 1900. -/
def centuries : Elem :=
  .bin .divide (.bin .minus vx (.num (F64.ofNat 1900))) (.num (F64.ofNat 100))

theorem centuries_plain : NoPower (app .floor centuries) := by
  have h : ∀ x, NoPower (.num x) := fun x l r h => by cases h
  refine noPower_call.2 fun a ha => ?_
  rw [List.mem_singleton.1 ha]
  exact noPower_bin.2 ⟨by decide, noPower_bin.2 ⟨by decide, (fun l r h => by cases h), h _⟩, h _⟩

theorem centuries_passes {G : Elem → F64 → Prop} (hG : ∀ n, G (.num n) n) :
    Passes G centuries 1 true vx 2000 ∧ Passes G centuries 2 true vx 2100 := by
  have v1 := ofNat_value (n := 1900) (by norm_num)
  have v2 := ofNat_value (n := 100) (by norm_num)
  constructor
  · have h0 : Passes G vx 2000 true vx 2000 := .here (whole_inF64 (n := 2000) (by norm_num) (by norm_num))
    have h1 := h0.sub (hG _) v1 (whole_inF64 (n := 100) (by norm_num) (by norm_num))
      ⟨10, by norm_num, by norm_num, by norm_num⟩
    have h2 := h1.div (hG _) v2 (whole_inF64 (n := 1) (by norm_num) (by norm_num)) (one_normal (by norm_num))
    norm_num at h2
    exact h2
  · have h0 : Passes G vx 2100 true vx 2100 := .here (whole_inF64 (n := 2100) (by norm_num) (by norm_num))
    have h1 := h0.sub (hG _) v1 (whole_inF64 (n := 200) (by norm_num) (by norm_num))
      ⟨10, by norm_num, by norm_num, by norm_num⟩
    have h2 := h1.div (hG _) v2 (whole_inF64 (n := 2) (by norm_num) (by norm_num)) (one_normal (by norm_num))
    norm_num at h2
    exact h2

/-- A case of `C122_bracket`: `floor((x-1900)/100)` is 1 at the numbers from 2000 to less than 2100 and
at no others. -/
example (x : F64) (p : ℚ) (hx : value x = some p) :
    ∃ g r, parse0 cfgPlain b!"floor((x-1900)/100)" = .ok g ∧ g.eval w0 (mx x) = .ok r ∧
      (value r = some 1 ↔ 2000 ≤ p ∧ p < 2100) := by
  obtain ⟨h1, h2⟩ := centuries_passes (G := fun c y => eval w0 (mx x) c = .ok y) fun _ => rfl
  have v1 := ofNat_value (n := 2000) (by norm_num)
  have v2 := ofNat_value (n := 2100) (by norm_num)
  have hb := (bracket_all 1).1
  norm_num at hb
  obtain ⟨r, hr, -, h3⟩ := C122_bracket w0 (mx x) .floor 1 centuries vx 1 2 2000 2100 true true false x
    (F64.ofNat 2000) (F64.ofNat 2100) (by decide) hb h1 h2 rfl (ne_nan_of_value hx) v1 v2
  refine ⟨⟨app .floor centuries, [b!"x"]⟩, r, by decide +kernel, hr, ?_⟩
  simp only [if_true, Within, Bool.false_eq_true, if_false, Int.cast_one] at h3
  rw [h3, (less_values hx v1).1, (less_values hx v2).1, not_lt]
  norm_num

end Props
end Xprs
