import Verif.Spec.Monotone
import Verif.Lemmas.RoundOrder
import Verif.Lemmas.Equal
import Verif.Props.Names
import Verif.Props.Nan
/-
Property C76: expressions that rise or fall with their variables.
-/
namespace Xprs
namespace Props
open Spec
set_option exponentiation.threshold 4096

theorem eval_bin_inv {w : World} {m : HMap F64} {op : Op} {l r : Elem} {v : F64}
    (h : eval w m (.bin op l r) = .ok v) :
    ∃ a b, eval w m l = .ok a ∧ eval w m r = .ok b ∧ binF w op a b = .ok v := by
  rw [eval] at h
  cases hl : eval w m l with
  | error p => rw [hl] at h; cases h
  | ok a =>
    cases hr : eval w m r with
    | error p => rw [hl, hr] at h; cases h
    | ok b =>
      rw [hl, hr] at h
      simp only at h
      cases hb : binF w op a b with
      | error p => rw [hb] at h; cases h
      | ok u => rw [hb] at h; cases h; exact ⟨a, b, rfl, rfl, hb⟩

theorem eval_un_inv {w : World} {m : HMap F64} {op : Op} {e : Elem} {v : F64}
    (h : eval w m (.un op e) = .ok v) : ∃ a, eval w m e = .ok a ∧ unF op a = .ok v := by
  rw [eval] at h
  cases hl : eval w m e with
  | error p => rw [hl] at h; cases h
  | ok a =>
    rw [hl] at h
    simp only at h
    cases hb : unF op a with
    | error p => rw [hb] at h; cases h
    | ok u => rw [hb] at h; cases h; exact ⟨a, rfl, hb⟩

theorem eval_call_inv {w : World} {m : HMap F64} {f : Func} {args : List Elem} {v : F64}
    (h : eval w m (.call f args) = .ok v) :
    ∃ vs, evalL w m args = .ok vs ∧ callFn w f vs = .ok v := by
  rw [eval] at h
  cases hl : evalL w m args with
  | error p => rw [hl] at h; cases h
  | ok vs =>
    rw [hl] at h
    simp only at h
    cases hb : callFn w f vs with
    | error p => rw [hb] at h; cases h
    | ok u => rw [hb] at h; cases h; exact ⟨vs, rfl, hb⟩

theorem evalL_mem {w : World} {m : HMap F64} : ∀ {args : List Elem} {vs : List F64},
    evalL w m args = .ok vs → ∀ v ∈ vs, ∃ a ∈ args, eval w m a = .ok v
  | [], vs, h, v, hv => by cases h; cases hv
  | a :: as, vs, h, v, hv => by
    obtain ⟨u, us, h1, h2, rfl⟩ := evalL_cons.1 h
    rcases List.mem_cons.1 hv with rfl | hv
    · exact ⟨a, List.mem_cons_self, h1⟩
    · obtain ⟨b, h3, h4⟩ := evalL_mem h2 v hv
      exact ⟨b, List.mem_cons_of_mem _ h3, h4⟩

theorem evalL_both {w : World} {m m' : HMap F64} {R : F64 → F64 → Prop} :
    ∀ {args : List Elem} {vs vs' : List F64}, evalL w m args = .ok vs → evalL w m' args = .ok vs' →
      (∀ a ∈ args, ∀ v v', eval w m a = .ok v → eval w m' a = .ok v' → R v v') →
      List.Forall₂ R vs vs'
  | [], vs, vs', h, h', _ => by cases h; cases h'; exact .nil
  | a :: as, vs, vs', h, h', hR => by
    obtain ⟨u, us, h1, h2, rfl⟩ := evalL_cons.1 h
    obtain ⟨u', us', h1', h2', rfl⟩ := evalL_cons.1 h'
    exact .cons (hR a List.mem_cons_self u u' h1 h1')
      (evalL_both h2 h2' fun b hb => hR b (List.mem_cons_of_mem _ hb))

/-! ### The directions -/

theorem Moves.flip {d : Bool} {a b : F64} (h : Moves d a b) : Moves (!d) b a := by
  cases d <;> exact h

theorem moves_flip {d : Bool} {a b : F64} (h : Moves (!d) a b) : Moves d b a := by
  cases d <;> exact h

theorem moves_same {d : Bool} {a a' b b' : F64} (h : Moves d a b) (ha : Same a a')
    (hb : Same b b') : Moves d a' b' := by
  have key : ∀ {a a' b b' : F64}, LeF a b → Same a a' → Same b b' → LeF a' b' := by
    intro a a' b b' h ha hb
    have e : ∀ {x y : F64}, Same x y → x ≠ .nan → LeF x y ∧ LeF y x := by
      intro x y hxy hx
      rcases fin_cases x with rfl | ⟨s, rfl⟩ | ⟨q, hq⟩
      · exact absurd rfl hx
      · rcases hxy with rfl | ⟨⟨_, h⟩, _⟩
        · exact ⟨leF_refl hx, leF_refl hx⟩
        · cases h
      · have hq' := value_same hq hxy
        exact ⟨.fin hq hq' le_rfl, .fin hq' hq le_rfl⟩
    exact leF_trans (e ha (leF_left h)).2 (leF_trans h (e hb (leF_right h)).1)
  cases d
  · exact key h hb ha
  · exact key h ha hb

/-! ### Factorials -/

theorem factorial_sign {x y : F64} (h : factorial x = .ok y) : signBit y = false := by
  obtain ⟨y', h1, h2⟩ := factorial_of x
  rw [h] at h1
  cases h1
  obtain ⟨a1, a2, a3, a4, a5, a6⟩ := h2
  rcases fin_cases x with rfl | ⟨s, rfl⟩ | ⟨q, hq⟩
  · rw [a1 rfl]; rfl
  · cases s
    · rw [a3 rfl]; rfl
    · rw [a2 rfl]; rfl
  · by_cases hk : ∃ k : Nat, q = k
    · obtain ⟨k, rfl⟩ := hk
      by_cases hk : k ≤ 170
      · obtain ⟨p, h1, h2⟩ := a6 k hq hk
        refine (sign_of_value h1).2 ?_
        have hf : (0 : ℚ) < k.factorial := by exact_mod_cast Nat.factorial_pos k
        rcases abs_cases (p - (k.factorial : ℚ)) with ⟨e, _⟩ | ⟨e, _⟩ <;> rw [e] at h2 <;> linarith
      · rw [a5 k hq (by omega)]; rfl
    · rw [a4 q hq (.inr hk)]; rfl

theorem factorial_mono {x x' y y' : F64} (h : LeF x x') (hy : factorial x = .ok y)
    (hy' : factorial x' = .ok y') (hn : y ≠ .nan) (hn' : y' ≠ .nan) : LeF y y' := by
  obtain ⟨u, k1, a1, a2, a3, a4, a5, a6⟩ := factorial_of x
  rw [hy] at k1; cases k1
  obtain ⟨u, k1, b1, b2, b3, b4, b5, b6⟩ := factorial_of x'
  rw [hy'] at k1; cases k1
  by_cases c1 : x' = .inf false
  · rw [b3 c1]; exact .top hn
  by_cases c2 : x = .inf true
  · exact absurd (a2 c2) hn
  obtain ⟨q, q', q1, q2, q3⟩ := leF_fin h c2 c1
  have nat : ∀ {x y : F64} {q : ℚ}, value x = some q →
      (∀ q, value x = some q → (q < 0 ∨ ¬ ∃ k : Nat, q = k) → y = .nan) → y ≠ .nan →
      ∃ k : Nat, q = k := by
    intro x y q h1 h2 h3
    by_contra hc
    exact h3 (h2 q h1 (.inr hc))
  obtain ⟨k, rfl⟩ := nat q1 a4 hn
  obtain ⟨k', rfl⟩ := nat q2 b4 hn'
  have hk : k ≤ k' := by exact_mod_cast q3
  by_cases c3 : 170 < k'
  · rw [b5 k' q2 c3]; exact .top hn
  -- both from the table
  obtain ⟨s, hr, hs, rfl⟩ := value_nat q1
  obtain ⟨s', hr', hs', rfl⟩ := value_nat q2
  obtain ⟨M, E, t1, t2⟩ := C40_factorial.2.2.2.2.2.2 s k hr (by omega) hs
  obtain ⟨M', E', t1', t2'⟩ := C40_factorial.2.2.2.2.2.2 s' k' hr' (by omega) hs'
  rw [hy] at t2; cases t2
  rw [hy'] at t2'; cases t2'
  by_cases c4 : k = k' ∨ (k = 0 ∧ k' = 1)
  · have : factorialLits[k]? = factorialLits[k']? := by
      rcases c4 with rfl | ⟨rfl, rfl⟩ <;> rfl
    rw [t1, t1'] at this
    cases this
    exact leF_refl hn
  · obtain ⟨p, p1, p2⟩ := a6 k q1 (by omega)
    obtain ⟨p', p1', p2'⟩ := b6 k' q2 (by omega)
    refine .fin p1 p1' ?_
    have hf : 2 * k.factorial ≤ k'.factorial := by
      obtain ⟨j, rfl⟩ : ∃ j, k' = j + 1 := ⟨k' - 1, by omega⟩
      rw [Nat.factorial_succ]
      exact Nat.mul_le_mul (by omega) (Nat.factorial_le (by omega))
    have hf' : 2 * (k.factorial : ℚ) ≤ k'.factorial := by exact_mod_cast hf
    have h0 : (0 : ℚ) < k.factorial := by exact_mod_cast Nat.factorial_pos k
    rcases abs_cases (p - (k.factorial : ℚ)) with ⟨e, _⟩ | ⟨e, _⟩ <;>
      rcases abs_cases (p' - (k'.factorial : ℚ)) with ⟨e', _⟩ | ⟨e', _⟩ <;>
      rw [e] at p2 <;> rw [e'] at p2' <;> linarith

/-! ### Functions -/

theorem ofNat_sign (n : Nat) : signBit (F64.ofNat n) = false := by
  unfold F64.ofNat F64.ofMag
  split <;> rfl

theorem wrap1_inv {g : F64 → PM F64} {vs : List F64} {v : F64} (h : wrap1 g vs = .ok v) :
    ∃ a as, vs = a :: as ∧ g a = .ok v := by
  cases vs with
  | nil => cases h
  | cons a as => exact ⟨a, as, rfl, h⟩

theorem wrap1_mono {g : F64 → PM F64} {vs vs' : List F64} {v v' : F64}
    (hg : ∀ x x', LeF x x' → g x = .ok v → g x' = .ok v' → LeF v v')
    (h : List.Forall₂ LeF vs vs') (hv : wrap1 g vs = .ok v) (hv' : wrap1 g vs' = .ok v') :
    LeF v v' := by
  cases h with
  | nil => cases hv
  | cons h1 _ => exact hg _ _ h1 hv hv'

theorem rises_mono {w : World} {b : Builtin} (hb : Rises b) {vs vs' : List F64} {v v' : F64}
    (h : List.Forall₂ LeF vs vs') (hv : b.run w vs = .ok v) (hv' : b.run w vs' = .ok v')
    (hn : v ≠ .nan) (hn' : v' ≠ .nan) : LeF v v' := by
  simp only [Rises, List.mem_cons, List.not_mem_nil, or_false] at hb
  have hs : sumF w vs ≠ .nan → sumF w vs' ≠ .nan → LeF (sumF w vs) (sumF w vs') :=
    fold_add_mono h (leF_refl (by simp [F64.zero]))
  rcases hb with rfl | rfl | rfl | rfl | rfl | rfl | rfl | rfl | rfl | rfl
  · exact wrap1_mono (fun x x' hx h1 h2 => by cases h1; cases h2; exact floor_mono hx) h hv hv'
  · exact wrap1_mono (fun x x' hx h1 h2 => by cases h1; cases h2; exact ceil_mono hx) h hv hv'
  · exact wrap1_mono (fun x x' hx h1 h2 => by cases h1; cases h2; exact round_mono hx) h hv hv'
  · exact wrap1_mono (fun x x' hx h1 h2 => by cases h1; cases h2; exact trunc_mono hx) h hv hv'
  · exact wrap1_mono (fun x x' hx h1 h2 => by cases h1; cases h2; exact sqrt_mono hx hn hn') h hv hv'
  · cases hv; cases hv'; exact hs hn hn'
  · cases hv; cases hv'
    rw [← h.length_eq] at hn' ⊢
    refine div_mono_left (ofNat_sign _) (hs ?_ ?_) hn hn'
    · intro h0; rw [h0] at hn; exact hn rfl
    · intro h0; rw [h0] at hn'; exact hn' rfl
  · cases hv; cases hv'; exact min_mono h
  · cases hv; cases hv'; exact max_mono h
  · exact wrap1_mono (fun x x' hx h1 h2 => factorial_mono hx h1 h2 hn hn') h hv hv'

theorem keeps_sign {w : World} {b : Builtin} (hb : KeepsSign b) {vs : List F64} {v : F64}
    (h : ∀ x ∈ vs, signBit x = false) (hne : vs ≠ []) (hx : ∀ x ∈ vs, x ≠ .nan)
    (hv : b.run w vs = .ok v) : signBit v = false := by
  obtain ⟨a, as, rfl⟩ := List.exists_cons_of_ne_nil hne
  have ha := h a List.mem_cons_self
  have han := hx a List.mem_cons_self
  have hs : signBit (sumF w (a :: as)) = false := by
    unfold sumF
    rw [List.foldl_cons]
    refine fold_add_sign (fun v hv => h v (List.mem_cons_of_mem _ hv)) ?_
    have hm := adds (F64.zero w.sumInit) a
    generalize F64.add (F64.zero w.sumInit) a = r at hm
    cases hm with
    | nanR => exact absurd rfl han
    | infR _ _ => exact ha
    | @finite _ _ _ p q h1 h2 h3 h4 =>
      rw [value_zero] at h1; cases h1
      rw [zero_add] at h3 h4
      obtain ⟨q', h5, h6⟩ := value_of_sign ha han (by rintro rfl; cases h2)
      rw [h2] at h5; cases h5
      rcases lt_or_eq_of_le h6 with h0 | h0
      · exact h3.2.2 h0
      · rw [h4 h0.symm, ha, Bool.and_false]
  have hk : ∀ {r : ℚ → ℤ} {g : F64 → F64},
      (∀ x q, value x = some q → value (g x) = some (r q : ℚ) ∧ signBit (g x) = signBit x) →
      (∀ s, g (.inf s) = .inf s) → signBit (g a) = false := by
    intro r g h1 h2
    rcases fin_cases a with h0 | ⟨s, rfl⟩ | ⟨q, hq⟩
    · exact absurd h0 han
    · rw [h2]; exact ha
    · rw [(h1 a q hq).2]; exact ha
  rcases hb with hb | rfl
  · simp only [Rises, List.mem_cons, List.not_mem_nil, or_false] at hb
    rcases hb with rfl | rfl | rfl | rfl | rfl | rfl | rfl | rfl | rfl | rfl
    · cases hv; exact hk (r := fun q => ⌊q⌋) (fun _ _ h => floor_value h) (fun _ => rfl)
    · cases hv; exact hk (r := fun q => ⌈q⌉) (fun _ _ h => ceil_value h) (fun _ => rfl)
    · cases hv
      exact hk (r := fun q => if 0 ≤ q then ⌊q + 1 / 2⌋ else ⌈q - 1 / 2⌉)
        (fun _ _ h => round_value h) (fun _ => rfl)
    · cases hv; exact hk (r := truncRat) (fun _ _ h => trunc_value h) (fun _ => rfl)
    · cases hv; exact sqrt_sign ha
    · cases hv; exact hs
    · cases hv
      by_cases h0 : F64.div (sumF w (a :: as)) (F64.ofNat (a :: as).length) = .nan
      · rw [h0]; rfl
      · rw [div_sign h0, hs, ofNat_sign]; rfl
    · cases hv
      exact h _ ((min_fold (a :: as)).2 ⟨a, List.mem_cons_self, han⟩).1
    · cases hv
      exact h _ ((max_fold (a :: as)).2 ⟨a, List.mem_cons_self, han⟩).1
    · exact factorial_sign (show factorial a = .ok v from hv)
  · cases hv
    show signBit (F64.div F64.f1 a) = false
    by_cases h0 : F64.div F64.f1 a = .nan
    · rw [h0]; rfl
    · rw [div_sign h0, ha]
      have : signBit F64.f1 = false := ofNat_sign 1
      rw [this]; rfl

/-! ### Trees -/

theorem clean_sub {w : World} {m : HMap F64} {e t : Elem} (h : Clean w m e) (ht : Sub t e) :
    Clean w m t := fun s hs => h s (sub_within hs ht)

theorem clean_ne {w : World} {m : HMap F64} {e : Elem} {v : F64} (h : Clean w m e)
    (hv : eval w m e = .ok v) : v ≠ .nan := by
  rintro rfl
  exact h e .refl hv

theorem call_builtin {w : World} {f : Func} {b : Builtin} (hf : f.func = .builtin b)
    (vs : List F64) : callFn w f vs = b.run w vs := by
  unfold callFn; rw [hf]

theorem nonneg_sign {w : World} {m : HMap F64} {P : Bytes → Prop} {e : Elem}
    (he : Nonneg P e) (hm : ∀ n a, P n → m n = some a → signBit a = false) (hc : Clean w m e) :
    ∀ v, eval w m e = .ok v → signBit v = false := by
  induction he with
  | num h => intro v hv; cases hv; exact h
  | @var n h =>
    intro v hv
    rw [eval] at hv
    cases hg : m.get n with
    | none => rw [hg] at hv; cases hv
    | some a => rw [hg] at hv; cases hv; exact hm n _ h hg
  | pos _ ih =>
    intro v hv
    obtain ⟨a, h1, h2⟩ := eval_un_inv hv
    cases h2
    exact ih (clean_sub hc (.operand .refl)) _ h1
  | add _ _ ih1 ih2 =>
    intro v hv
    obtain ⟨a, b, h1, h2, h3⟩ := eval_bin_inv hv
    cases h3
    exact add_sign (ih1 (clean_sub hc (.left .refl)) _ h1) (ih2 (clean_sub hc (.right .refl)) _ h2)
  | mul _ _ ih1 ih2 =>
    intro v hv
    obtain ⟨a, b, h1, h2, h3⟩ := eval_bin_inv hv
    cases h3
    rw [mul_sign (clean_ne hc hv), ih1 (clean_sub hc (.left .refl)) _ h1, ih2 (clean_sub hc (.right .refl)) _ h2]
    rfl
  | div _ _ ih1 ih2 =>
    intro v hv
    obtain ⟨a, b, h1, h2, h3⟩ := eval_bin_inv hv
    cases h3
    rw [div_sign (clean_ne hc hv), ih1 (clean_sub hc (.left .refl)) _ h1, ih2 (clean_sub hc (.right .refl)) _ h2]
    rfl
  | factorial =>
    intro v hv
    obtain ⟨a, h1, h2⟩ := eval_un_inv hv
    exact factorial_sign h2
  | abs hf =>
    intro v hv
    obtain ⟨vs, h1, h2⟩ := eval_call_inv hv
    rw [call_builtin hf] at h2
    obtain ⟨a, as, rfl, h3⟩ := wrap1_inv h2
    cases h3
    cases a <;> rfl
  | @call f b args hf hb hne _ ih =>
    intro v hv
    obtain ⟨vs, h1, h2⟩ := eval_call_inv hv
    rw [call_builtin hf] at h2
    refine keeps_sign hb (fun x hx => ?_) ?_ (fun x hx => ?_) h2
    · obtain ⟨a, ha, ha'⟩ := evalL_mem h1 x hx
      exact ih a ha (clean_sub hc (.arg ha .refl)) x ha'
    · rintro rfl
      have := evalL_length w m args h1
      exact hne (List.eq_nil_of_length_eq_zero this.symm)
    · obtain ⟨a, ha, ha'⟩ := evalL_mem h1 x hx
      exact clean_ne (clean_sub hc (.arg ha .refl)) ha'

theorem abs_of_sign {a : F64} (h : signBit a = false) : F64.abs a = a := by
  cases a with
  | nan => rfl
  | inf s => cases s; rfl; cases h
  | fin s n k => cases s; rfl; cases h

theorem moves_fn {w : World} {b : Builtin} (hb : Rises b) {d : Bool} {vs vs' : List F64} {v v' : F64}
    (h : List.Forall₂ (Moves d) vs vs') (hv : b.run w vs = .ok v) (hv' : b.run w vs' = .ok v')
    (hn : v ≠ .nan) (hn' : v' ≠ .nan) : Moves d v v' := by
  cases d
  · exact rises_mono hb h.flip hv' hv hn' hn
  · exact rises_mono hb h hv hv' hn hn'

theorem moves_add {d : Bool} {a a' b b' : F64} (ha : Moves d a a') (hb : Moves d b b')
    (h : F64.add a b ≠ .nan) (h' : F64.add a' b' ≠ .nan) :
    Moves d (F64.add a b) (F64.add a' b') := by
  cases d
  · exact add_mono ha hb h' h
  · exact add_mono ha hb h h'

theorem moves_neg {d : Bool} {a a' : F64} (ha : Moves d a a') :
    Moves (!d) (F64.neg a) (F64.neg a') := by
  cases d
  · exact neg_mono ha
  · exact neg_mono ha

theorem moves_mul {d : Bool} {a a' b b' : F64} (sa : signBit a = false) (sb : signBit b = false)
    (sa' : signBit a' = false) (sb' : signBit b' = false) (ha : Moves d a a') (hb : Moves d b b')
    (h : F64.mul a b ≠ .nan) (h' : F64.mul a' b' ≠ .nan) :
    Moves d (F64.mul a b) (F64.mul a' b') := by
  cases d
  · exact mul_mono sa' sb' sa sb ha hb h' h
  · exact mul_mono sa sb sa' sb' ha hb h h'

theorem moves_div {d : Bool} {a a' b b' : F64} (sa : signBit a = false) (sb : signBit b = false)
    (sa' : signBit a' = false) (sb' : signBit b' = false) (ha : Moves d a a') (hb : Moves (!d) b b')
    (h : F64.div a b ≠ .nan) (h' : F64.div a' b' ≠ .nan) :
    Moves d (F64.div a b) (F64.div a' b') := by
  cases d
  · exact div_mono sa sb' sb sa' ha hb h' h
  · exact div_mono sa' sb sb' sa ha hb h h'

theorem moves_times {d : Bool} {c a a' : F64} (ha : Moves (d != signBit c) a a')
    (h : F64.mul c a ≠ .nan) (h' : F64.mul c a' ≠ .nan) :
    Moves d (F64.mul c a) (F64.mul c a') := by
  cases hc : signBit c <;> rw [hc] at ha <;> cases d
  · exact mul_mono_left hc ha h' h
  · exact mul_mono_left hc ha h h'
  · exact mul_anti_left hc ha h h'
  · exact mul_anti_left hc ha h' h

theorem moves_over {d : Bool} {c a a' : F64} (ha : Moves (d != signBit c) a a')
    (h : F64.div a c ≠ .nan) (h' : F64.div a' c ≠ .nan) :
    Moves d (F64.div a c) (F64.div a' c) := by
  cases hc : signBit c <;> rw [hc] at ha <;> cases d
  · exact div_mono_left hc ha h' h
  · exact div_mono_left hc ha h h'
  · exact div_anti_left hc ha h h'
  · exact div_anti_left hc ha h' h

/-! ### C76 -/

/-- C76: a tree that plainly rises (or falls) with its variables does so in floating point,
all roundings included: if no part of it is NaN, its value after a move of the variables is
not below (not above) the one before. -/
theorem C76_tree (w : World) (D : Bytes → Bool → Prop) (P : Bytes → Prop) (m m' : HMap F64)
    (hs : Shift D P m m') (d : Bool) (e : Elem) (he : Goes D P d e) (hc : Clean w m e)
    (hc' : Clean w m' e) (v v' : F64) (hv : eval w m e = .ok v) (hv' : eval w m' e = .ok v') :
    Moves d v v' := by
  have nn : ∀ {t : Elem} {a : F64}, Nonneg P t → Clean w m t → eval w m t = .ok a → signBit a = false :=
    fun ht hk h => nonneg_sign ht (fun n a h1 h2 => hs.2 n a h1 (.inl h2)) hk _ h
  have nn' : ∀ {t : Elem} {a : F64}, Nonneg P t → Clean w m' t → eval w m' t = .ok a →
      signBit a = false :=
    fun ht hk h => nonneg_sign ht (fun n a h1 h2 => hs.2 n a h1 (.inr h2)) hk _ h
  induction he generalizing v v' with
  | num =>
    cases hv; cases hv'
    have := leF_refl (clean_ne hc rfl)
    rename_i d x
    cases d <;> exact this
  | @var d n h =>
    rw [eval] at hv hv'
    cases hg : m.get n with
    | none => rw [hg] at hv; cases hv
    | some a =>
      cases hg' : m'.get n with
      | none => rw [hg'] at hv'; cases hv'
      | some b =>
        rw [hg] at hv; cases hv
        rw [hg'] at hv'; cases hv'
        exact hs.1 n d _ _ h hg hg'
  | pos _ ih =>
    obtain ⟨a, h1, h2⟩ := eval_un_inv hv
    obtain ⟨a', h1', h2'⟩ := eval_un_inv hv'
    cases h2; cases h2'
    exact ih (clean_sub hc (.operand .refl)) (clean_sub hc' (.operand .refl)) _ _ h1 h1'
  | @neg d _ _ ih =>
    obtain ⟨a, h1, h2⟩ := eval_un_inv hv
    obtain ⟨a', h1', h2'⟩ := eval_un_inv hv'
    cases h2; cases h2'
    have := moves_neg (ih (clean_sub hc (.operand .refl)) (clean_sub hc' (.operand .refl)) _ _ h1 h1')
    rwa [Bool.not_not] at this
  | @factorial d _ _ ih =>
    obtain ⟨a, h1, h2⟩ := eval_un_inv hv
    obtain ⟨a', h1', h2'⟩ := eval_un_inv hv'
    have := ih (clean_sub hc (.operand .refl)) (clean_sub hc' (.operand .refl)) _ _ h1 h1'
    cases d
    · exact factorial_mono this h2' h2 (clean_ne hc' hv') (clean_ne hc hv)
    · exact factorial_mono this h2 h2' (clean_ne hc hv) (clean_ne hc' hv')
  | add _ _ ih1 ih2 =>
    obtain ⟨a, b, h1, h2, h3⟩ := eval_bin_inv hv
    obtain ⟨a', b', h1', h2', h3'⟩ := eval_bin_inv hv'
    have n := clean_ne hc hv
    have n' := clean_ne hc' hv'
    cases h3; cases h3'
    exact moves_add (ih1 (clean_sub hc (.left .refl)) (clean_sub hc' (.left .refl)) _ _ h1 h1')
      (ih2 (clean_sub hc (.right .refl)) (clean_sub hc' (.right .refl)) _ _ h2 h2') n n'
  | @sub d _ _ _ _ ih1 ih2 =>
    obtain ⟨a, b, h1, h2, h3⟩ := eval_bin_inv hv
    obtain ⟨a', b', h1', h2', h3'⟩ := eval_bin_inv hv'
    have n := clean_ne hc hv
    have n' := clean_ne hc' hv'
    cases h3; cases h3'
    have := moves_neg (ih2 (clean_sub hc (.right .refl)) (clean_sub hc' (.right .refl)) _ _ h2 h2')
    rw [Bool.not_not] at this
    exact moves_add (ih1 (clean_sub hc (.left .refl)) (clean_sub hc' (.left .refl)) _ _ h1 h1')
      this n n'
  | @mul d l r hl hr _ _ ih1 ih2 =>
    obtain ⟨a, b, h1, h2, h3⟩ := eval_bin_inv hv
    obtain ⟨a', b', h1', h2', h3'⟩ := eval_bin_inv hv'
    have n := clean_ne hc hv
    have n' := clean_ne hc' hv'
    cases h3; cases h3'
    exact moves_mul (nn hl (clean_sub hc (.left .refl)) h1) (nn hr (clean_sub hc (.right .refl)) h2) (nn' hl (clean_sub hc' (.left .refl)) h1')
      (nn' hr (clean_sub hc' (.right .refl)) h2')
      (ih1 (clean_sub hc (.left .refl)) (clean_sub hc' (.left .refl)) _ _ h1 h1')
      (ih2 (clean_sub hc (.right .refl)) (clean_sub hc' (.right .refl)) _ _ h2 h2') n n'
  | @div d l r hl hr _ _ ih1 ih2 =>
    obtain ⟨a, b, h1, h2, h3⟩ := eval_bin_inv hv
    obtain ⟨a', b', h1', h2', h3'⟩ := eval_bin_inv hv'
    have n := clean_ne hc hv
    have n' := clean_ne hc' hv'
    cases h3; cases h3'
    exact moves_div (nn hl (clean_sub hc (.left .refl)) h1) (nn hr (clean_sub hc (.right .refl)) h2) (nn' hl (clean_sub hc' (.left .refl)) h1')
      (nn' hr (clean_sub hc' (.right .refl)) h2')
      (ih1 (clean_sub hc (.left .refl)) (clean_sub hc' (.left .refl)) _ _ h1 h1')
      (ih2 (clean_sub hc (.right .refl)) (clean_sub hc' (.right .refl)) _ _ h2 h2') n n'
  | timesL _ ih =>
    obtain ⟨a, b, h1, h2, h3⟩ := eval_bin_inv hv
    obtain ⟨a', b', h1', h2', h3'⟩ := eval_bin_inv hv'
    have n := clean_ne hc hv
    have n' := clean_ne hc' hv'
    cases h3; cases h3'
    cases h1; cases h1'
    exact moves_times (ih (clean_sub hc (.right .refl)) (clean_sub hc' (.right .refl)) _ _ h2 h2') n n'
  | timesR _ ih =>
    obtain ⟨a, b, h1, h2, h3⟩ := eval_bin_inv hv
    obtain ⟨a', b', h1', h2', h3'⟩ := eval_bin_inv hv'
    have n := clean_ne hc hv
    have n' := clean_ne hc' hv'
    cases h3; cases h3'
    cases h2; cases h2'
    rw [fmul_comm] at n n'
    rw [fmul_comm, fmul_comm a']
    exact moves_times (ih (clean_sub hc (.left .refl)) (clean_sub hc' (.left .refl)) _ _ h1 h1') n n'
  | over _ ih =>
    obtain ⟨a, b, h1, h2, h3⟩ := eval_bin_inv hv
    obtain ⟨a', b', h1', h2', h3'⟩ := eval_bin_inv hv'
    have n := clean_ne hc hv
    have n' := clean_ne hc' hv'
    cases h3; cases h3'
    cases h2; cases h2'
    exact moves_over (ih (clean_sub hc (.left .refl)) (clean_sub hc' (.left .refl)) _ _ h1 h1') n n'
  | call hf hb _ ih =>
    obtain ⟨vs, h1, h2⟩ := eval_call_inv hv
    obtain ⟨vs', h1', h2'⟩ := eval_call_inv hv'
    rw [call_builtin hf] at h2 h2'
    exact moves_fn hb (evalL_both h1 h1' fun a ha u u' hu hu' =>
      ih a ha (clean_sub hc (.arg ha .refl)) (clean_sub hc' (.arg ha .refl)) u u' hu hu') h2 h2'
      (clean_ne hc hv) (clean_ne hc' hv')
  | @abs d f args hf hp _ ih =>
    obtain ⟨vs, h1, h2⟩ := eval_call_inv hv
    obtain ⟨vs', h1', h2'⟩ := eval_call_inv hv'
    rw [call_builtin hf] at h2 h2'
    have := evalL_both (R := fun u u' => Moves d (F64.abs u) (F64.abs u')) h1 h1'
      fun a ha u u' hu hu' => by
        rw [abs_of_sign (nn (hp a ha) (clean_sub hc (.arg ha .refl)) hu), abs_of_sign (nn' (hp a ha) (clean_sub hc' (.arg ha .refl)) hu')]
        exact ih a ha (clean_sub hc (.arg ha .refl)) (clean_sub hc' (.arg ha .refl)) u u' hu hu'
    cases this with
    | nil => cases h2
    | cons h _ => cases h2; cases h2'; exact h
  | @recip d f args hf hp _ ih =>
    obtain ⟨vs, h1, h2⟩ := eval_call_inv hv
    obtain ⟨vs', h1', h2'⟩ := eval_call_inv hv'
    have n := clean_ne hc hv
    have n' := clean_ne hc' hv'
    rw [call_builtin hf] at h2 h2'
    have := evalL_both (R := fun u u' => F64.recip u ≠ .nan → F64.recip u' ≠ .nan →
        Moves d (F64.recip u) (F64.recip u')) h1 h1'
      fun a ha u u' hu hu' k k' =>
        moves_div (ofNat_sign 1) (nn (hp a ha) (clean_sub hc (.arg ha .refl)) hu) (ofNat_sign 1)
          (nn' (hp a ha) (clean_sub hc' (.arg ha .refl)) hu') (by
            have := leF_refl (a := F64.f1) (by decide +kernel)
            cases d <;> exact this)
          (ih a ha (clean_sub hc (.arg ha .refl)) (clean_sub hc' (.arg ha .refl)) u u' hu hu') k k'
    cases this with
    | nil => cases h2
    | cons h _ => cases h2; cases h2'; exact h n n'

/-- `floor(2 * x) - 1 / (y + 1)` rises with `x` and with `y` not negative. -/
example : Goes (fun _ d => d = true) (fun n => n = b!"y") true
    (.bin .minus (.call Builtin.floor.toFunc [.bin .times (.num (F64.ofNat 2)) vx])
      (.bin .divide (.num F64.f1) (.bin .plus (.var b!"y") (.num F64.f1)))) := by
  refine .sub (.call rfl (by simp [Rises]) ?_) (.div (.num (ofNat_sign 1)) (.add (.var rfl) (.num (ofNat_sign 1))) .num ?_)
  · intro a ha
    simp only [List.mem_cons, List.not_mem_nil, or_false] at ha
    subst ha
    exact .timesL (by rw [ofNat_sign]; exact .var rfl)
  · exact .add (.var rfl) .num

/-- C76: NaN has to be excluded: `max(0 * x, -1)` has no variable but one that rises, yet it
is `0` at `1` and `-1` at infinity. -/
theorem C76_nan_needed (w : World) :
    ∃ e, parse0 cfgPlain b!"max(0 * x, -1)" = .ok e ∧
      Goes (fun _ d => d = true) (fun _ => True) true e.root ∧
      e.eval w (mx F64.f1) = .ok F64.f0 ∧
      e.eval w (mx (.inf false)) = .ok (F64.neg F64.f1) ∧
      ¬ Moves true F64.f0 (F64.neg F64.f1) := by
  have e1 : ∀ m, eval w m (.call Builtin.max.toFunc [.bin .times (.num F64.f0) vx,
      .un .minus (.num F64.f1)]) = eval w0 m (.call Builtin.max.toFunc
      [.bin .times (.num F64.f0) vx, .un .minus (.num F64.f1)]) := fun _ => rfl
  refine ⟨⟨.call Builtin.max.toFunc [.bin .times (.num F64.f0) vx, .un .minus (.num F64.f1)], [b!"x"]⟩,
    by decide +kernel, ?_, ?_, ?_, ?_⟩
  · refine .call rfl (by simp [Rises]) ?_
    intro a ha
    simp only [List.mem_cons, List.not_mem_nil, or_false] at ha
    rcases ha with rfl | rfl
    · exact .timesL (.var rfl)
    · exact .neg .num
  · exact (e1 _).trans (by decide +kernel)
  · exact (e1 _).trans (by decide +kernel)
  · intro h
    have h1 : value F64.f0 = some 0 := by decide +kernel
    have h2 : value (F64.neg F64.f1) = some (-1) := by decide +kernel
    have := leF_values h h1 h2
    linarith

/-- If the result is not NaN, no part is, where NaN is passed on. -/
theorem clean_of_result {w : World} {m : HMap F64} {e : Elem} (hp : NoPower e)
    (hf : ∀ f args, Sub (.call f args) e → PassesNan w f ∧ ArityOk f args.length) {v : F64}
    (hv : eval w m e = .ok v) (hn : v ≠ .nan) : Clean w m e := by
  intro t ht hnan
  have key : ∀ s, Sub t s → Sub s e → ∀ v, eval w m s = .ok v → v = .nan := by
    intro s hs
    induction hs with
    | refl => intro _ v h; rw [hnan] at h; exact (Except.ok.inj h).symm
    | @left op l r _ ih =>
      intro hse v h
      obtain ⟨a, b, h1, h2, h3⟩ := eval_bin_inv h
      have hop : op ≠ .power := by rintro rfl; exact hp l r hse
      exact (C71_cause w m _ v h).2
        (.left hop ((C71_cause w m _ a h1).1 (ih (sub_within (.left .refl) hse) a h1)))
    | @right op l r _ ih =>
      intro hse v h
      obtain ⟨a, b, h1, h2, h3⟩ := eval_bin_inv h
      have hop : op ≠ .power := by rintro rfl; exact hp l r hse
      exact (C71_cause w m _ v h).2
        (.right hop ((C71_cause w m _ b h2).1 (ih (sub_within (.right .refl) hse) b h2)))
    | operand _ ih =>
      intro hse v h
      obtain ⟨a, h1, h2⟩ := eval_un_inv h
      exact (C71_cause w m _ v h).2
        (.operand ((C71_cause w m _ a h1).1 (ih (sub_within (.operand .refl) hse) a h1)))
    | @arg f args a hmem _ ih =>
      intro hse v h
      obtain ⟨vs, h1, h2⟩ := eval_call_inv h
      obtain ⟨i, hi⟩ := List.getElem?_of_mem hmem
      obtain ⟨u, hu, hau⟩ := evalL_getElem h1 i a hi
      have := ih (sub_within (.arg hmem .refl) hse) u hau
      subst this
      obtain ⟨k1, k2⟩ := hf f args hse
      refine k1 vs v ?_ (List.mem_of_getElem? hu) h2
      rw [evalL_length w m args h1]
      exact k2
  exact hn (key e ht .refl v hv)

theorem goes_sub {D : Bytes → Bool → Prop} {P : Bytes → Prop} {e t : Elem} (ht : Sub t e) :
    ∀ {d}, Goes D P d e → ∃ d, Goes D P d t := by
  induction ht with
  | refl => exact fun h => ⟨_, h⟩
  | left _ ih => intro d h; cases h <;> first | (apply ih; assumption) | exact ih (d := true) .num
  | right _ ih => intro d h; cases h <;> first | (apply ih; assumption) | exact ih (d := true) .num
  | operand _ ih => intro d h; cases h <;> (apply ih; assumption)
  | arg ha _ ih =>
    intro d h
    cases h with
    | call _ _ h => exact ih (h _ ha)
    | abs _ _ h => exact ih (h _ ha)
    | recip _ _ h => exact ih (h _ ha)

/-- C76 without `min` and `max`: it is enough that the two results are not NaN. -/
theorem C76_result (cfg : Cfg) (w : World) (ctx : Context) (input : Bytes) (e : Xpr)
    (hr : Reach cfg w ctx input e)
    (hf : ∀ f args, Sub (.call f args) e.root → ∃ b, f = Builtin.toFunc b ∧ b ≠ .min ∧ b ≠ .max)
    (D : Bytes → Bool → Prop) (P : Bytes → Prop) (m m' : HMap F64) (hs : Shift D P m m') (d : Bool)
    (he : Goes D P d e.root) (v v' : F64) (hv : e.eval w m = .ok v) (hv' : e.eval w m' = .ok v')
    (hn : v ≠ .nan) (hn' : v' ≠ .nan) : Moves d v v' := by
  have hp : NoPower e.root := by
    intro l r h
    obtain ⟨d, h⟩ := goes_sub h he
    cases h
  have hc : ∀ f args, Sub (.call f args) e.root → PassesNan w f ∧ ArityOk f args.length := by
    intro f args h
    have ha := C08_arity cfg w ctx input e hr f args h
    refine ⟨?_, ha.1, ha.2.1⟩
    obtain ⟨b, rfl, h1, h2⟩ := hf f args h
    refine C71_functions w b ?_
    obtain ⟨d, h⟩ := goes_sub h he
    cases h with
    | call hb hr _ =>
      cases hb
      simp only [Rises, List.mem_cons, List.not_mem_nil, or_false] at hr
      rcases hr with rfl | rfl | rfl | rfl | rfl | rfl | rfl | rfl | rfl | rfl <;> simp_all
    | abs hb _ _ => cases hb; simp
    | recip hb _ _ => cases hb; simp
  exact C76_tree w D P m m' hs d e.root he (clean_of_result hp hc hv hn)
    (clean_of_result hp hc hv' hn') v v' hv hv'

/-- `sqrt(x) * 3 - 2 / x`: the hypotheses can be met. -/
example : ∃ e, Reach cfgPlain w0 Context.default b!"sqrt(x) * 3 - 2 / x" e ∧
    (∀ f args, Sub (.call f args) e.root → ∃ b, f = Builtin.toFunc b ∧ b ≠ .min ∧ b ≠ .max) ∧
    Goes (fun _ d => d = true) (fun _ => True) true e.root ∧
    Shift (fun _ d => d = true) (fun _ => True) (mx F64.f1) (mx (F64.ofNat 4)) := by
  refine ⟨⟨.bin .minus (.bin .times (.call Builtin.sqrt.toFunc [vx]) (.num (F64.ofNat 3)))
    (.bin .divide (.num (F64.ofNat 2)) vx), [b!"x"]⟩, .parsed (o := Oracle.id) (by decide +kernel), ?_,
    ?_, ?_, ?_⟩
  · intro f args h
    simp only [vx] at h
    rcases h with _ | h | h
    · rcases h with _ | h | h
      · rcases h with _ | _ | _ | _ | ⟨ha, h⟩
        · exact ⟨_, rfl, by decide, by decide⟩
        · simp only [List.mem_cons, List.not_mem_nil, or_false] at ha
          subst ha; cases h
      · cases h
    · rcases h with _ | h | h
      · cases h
      · cases h
  · refine .sub (.timesR (.call rfl (by simp [Rises]) ?_)) (.div (.num (ofNat_sign 2)) (.var trivial) .num
      (.var rfl))
    intro a ha
    simp only [List.mem_cons, List.not_mem_nil, or_false] at ha
    subst ha
    rw [ofNat_sign]
    exact .var rfl
  · rintro n _ a b rfl h h'
    have : n = b!"x" := by
      by_contra hn
      simp [mx, HMap.insert, HMap.empty, hn] at h
    subst this
    cases h; cases h'
    exact .fin (p := 1) (q := 4) (by decide +kernel) (by decide +kernel) (by norm_num)
  · rintro n a - h
    have : n = b!"x" := by
      by_contra hn
      simp [mx, HMap.insert, HMap.empty, hn] at h
    subst this
    rcases h with h | h <;> cases h <;> exact ofNat_sign _

theorem noPower_of_goes {D : Bytes → Bool → Prop} {P : Bytes → Prop} {d : Bool} {e : Elem}
    (h : Goes D P d e) : NoPower e := by
  have hn : ∀ c, NoPower (.num c) := fun c l r h => by cases h
  induction h with
  | num => exact hn _
  | var => intro l r h; cases h
  | pos _ ih => exact noPower_un.2 ih
  | neg _ ih => exact noPower_un.2 ih
  | factorial _ ih => exact noPower_un.2 ih
  | add _ _ ih1 ih2 => exact noPower_bin.2 ⟨by decide, ih1, ih2⟩
  | sub _ _ ih1 ih2 => exact noPower_bin.2 ⟨by decide, ih1, ih2⟩
  | mul _ _ _ _ ih1 ih2 => exact noPower_bin.2 ⟨by decide, ih1, ih2⟩
  | div _ _ _ _ ih1 ih2 => exact noPower_bin.2 ⟨by decide, ih1, ih2⟩
  | timesL _ ih => exact noPower_bin.2 ⟨by decide, hn _, ih⟩
  | timesR _ ih => exact noPower_bin.2 ⟨by decide, ih, hn _⟩
  | over _ ih => exact noPower_bin.2 ⟨by decide, ih, hn _⟩
  | call _ _ _ ih => exact noPower_call.2 ih
  | abs _ _ _ ih => exact noPower_call.2 ih
  | recip _ _ _ ih => exact noPower_call.2 ih

/-- C76 for simplified trees: where the value of the tree is not doubtful (`Runs`), it does not
matter whether the tree was simplified. -/
theorem C76_simplify (cfg : Cfg) (w : World) (D : Bytes → Bool → Prop)
    (P : Bytes → Prop) (m m' : HMap F64) (hs : Shift D P m m') (d : Bool) (e e' : Elem)
    (he : Goes D P d e) (hc : Clean w m e) (hc' : Clean w m' e) (v v' : F64) (hv : Runs w m e v)
    (hv' : Runs w m' e v') (h : simplify cfg w e = .ok e') :
    ∃ u u', eval w m e' = .ok u ∧ eval w m' e' = .ok u' ∧ Moves d u u' := by
  obtain ⟨u, h1, h2⟩ := simplify_runs' (.inl (noPower_of_goes he)) hv h
  obtain ⟨u', h1', h2'⟩ := simplify_runs' (.inl (noPower_of_goes he)) hv' h
  exact ⟨u, u', runs_eval _ h1, runs_eval _ h1', moves_same
    (C76_tree w D P m m' hs d e he hc hc' v v' (runs_eval _ hv) (runs_eval _ hv')) h2 h2'⟩

/-- C76 for `simplify_for`: fixing a variable that need not move. -/
theorem C76_fixed (cfg : Cfg) (w : World) (D : Bytes → Bool → Prop)
    (P : Bytes → Prop) (m m' : HMap F64) (x : Bytes) (c : F64)
    (hs : Shift D P (m.insert x c) (m'.insert x c)) (d : Bool) (e e' : Xpr)
    (he : Goes D P d e.root) (hc : Clean w (m.insert x c) e.root)
    (hc' : Clean w (m'.insert x c) e.root) (v v' : F64) (hv : Runs w (m.insert x c) e.root v)
    (hv' : Runs w (m'.insert x c) e.root v') (h : e.simplifyFor cfg w x c = .ok e') :
    ∃ u u', e'.eval w m = .ok u ∧ e'.eval w m' = .ok u' ∧ Moves d u u' := by
  obtain ⟨h1, u, h2, h3⟩ := C29_partial cfg w m e e' x c v (.inl (noPower_of_goes he)) hv h
  obtain ⟨h1', u', h2', h3'⟩ := C29_partial cfg w m' e e' x c v' (.inl (noPower_of_goes he)) hv' h
  exact ⟨u, u', h2, h2', moves_same
    (C76_tree w D P _ _ hs d e.root he hc hc' v v' h1 h1') h3 h3'⟩

/-- C76 for texts: what a plain build makes of the text decides, and every other build that
accepts the text goes the same way. -/
theorem C76_text (cfg cfg' : Cfg) (w : World) (o o' : Oracle) (ctx : Context) (input : Bytes)
    (x y : Xpr) (hp : cfg.pejmdas = cfg'.pejmdas) (ho : cfg.opt = false)
    (hn : ∀ ts, Lex input ts → ParensApart ts)
    (h : parse cfg w o ctx input = .ok x) (h' : parse cfg' w o' ctx input = .ok y)
    (D : Bytes → Bool → Prop) (P : Bytes → Prop) (m m' : HMap F64) (hs : Shift D P m m') (d : Bool)
    (he : Goes D P d x.root) (hc : Clean w m x.root) (hc' : Clean w m' x.root) (v v' : F64)
    (hv : Runs w m x.root v) (hv' : Runs w m' x.root v') :
    ∃ u u', y.eval w m = .ok u ∧ y.eval w m' = .ok u' ∧ Moves d u u' := by
  obtain ⟨h1, u, h2, h3⟩ := C16_value_partial cfg cfg' w o o' ctx input x y m v hp ho
    (.inl (noPower_of_goes he)) hn h h' hv
  obtain ⟨h1', u', h2', h3'⟩ :=
    C16_value_partial cfg cfg' w o o' ctx input x y m' v' hp ho (.inl (noPower_of_goes he)) hn h h' hv'
  exact ⟨u, u', h2, h2', moves_same (C76_tree w D P m m' hs d x.root he hc hc' v v' h1 h1') h3 h3'⟩

end Props
end Xprs
