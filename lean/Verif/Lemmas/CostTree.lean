import Verif.Lemmas.CostSame
import Verif.Lemmas.Simplify
/-
Bounds on the steps of the functions that work on trees.
-/
namespace Xprs
open Spec

theorem thenC_le {ε α β : Type} {x : Except ε α × Nat} {f : α → Except ε β × Nat} {n m : Nat}
    (h : x.2 ≤ n) (h' : ∀ a, x.1 = .ok a → (f a).2 ≤ m) : (thenC x f).2 ≤ n + m := by
  rcases x with ⟨_ | a, k⟩
  · exact Nat.le_trans h (Nat.le_add_right _ _)
  · exact Nat.add_le_add h (h' a rfl)

theorem size_pos' (e : Elem) : 1 ≤ size e := by cases e <;> simp [size]

theorem length_le_sizeL : ∀ es : List Elem, es.length ≤ sizeL es
  | [] => Nat.le_refl _
  | a :: as => by
    have := size_pos' a; have := length_le_sizeL as
    simp only [List.length_cons, sizeL]; omega

theorem one_le_mul {a b : Nat} (ha : 1 ≤ a) (hb : 1 ≤ b) : 1 ≤ a * b := Nat.mul_pos ha hb

theorem andC_le {x y : PM Bool × Nat} {n m : Nat} (h : x.2 ≤ n) (h' : y.2 ≤ m) :
    (andC x y).2 ≤ n + m :=
  thenC_le h fun b _ => by cases b <;> simp [h']

theorem orC_le {x y : PM Bool × Nat} {n m : Nat} (h : x.2 ≤ n) (h' : y.2 ≤ m) :
    (orC x y).2 ≤ n + m :=
  thenC_le h fun b _ => by cases b <;> simp [h']

mutual
theorem eqC_le : ∀ a b, (eqC a b).2 ≤ size a * size b
  | .num a, b => by
    have := one_le_mul (size_pos' (.num a)) (size_pos' b)
    cases b <;> simp only [eqC] <;> exact this
  | .var a, b => by
    have := one_le_mul (size_pos' (.var a)) (size_pos' b)
    cases b <;> simp only [eqC] <;> exact this
  | .un o e, b => by
    have h1 := one_le_mul (size_pos' (.un o e)) (size_pos' b)
    cases b with
    | un o' e' =>
      have := eqC_le e e'
      rw [eqC, tick_snd]
      simp only [size]
      have h2 : (size e + 1) * (size e' + 1) = size e * size e' + size e + size e' + 1 := by
        simp only [Nat.add_mul, Nat.mul_add]; omega
      split
      · omega
      · dsimp only; omega
    | _ => simp only [eqC]; exact h1
  | .bin o l r, b => by
    have h1 := one_le_mul (size_pos' (.bin o l r)) (size_pos' b)
    cases b with
    | bin o' l' r' =>
      have a1 := eqC_le l l'
      have a2 := eqC_le r r'
      have a3 := eqC_le l r'
      have a4 := eqC_le r l'
      unfold eqC
      rw [tick_snd]
      simp only [size]
      have h2 : (size l + size r + 1) * (size l' + size r' + 1) =
          size l * size l' + size r * size r' + (size l * size r' + size r * size l') +
          size l + size r + size l' + size r' + 1 := by
        simp only [Nat.add_mul, Nat.mul_add]; omega
      split
      · have b1 := andC_le a1 a2
        have b2 := andC_le a3 a4
        have b3 := orC_le b1 b2
        cases o <;> dsimp only <;> omega
      · dsimp only; omega
    | _ => simp only [eqC]; exact h1
  | .call f as, b => by
    have h1 := one_le_mul (size_pos' (.call f as)) (size_pos' b)
    cases b with
    | call g bs =>
      have := eqCL_le as bs
      rw [eqC, tick_snd]
      simp only [size]
      have h2 : (sizeL as + 1) * (sizeL bs + 1) =
          sizeL as * sizeL bs + sizeL as + sizeL bs + 1 := by
        simp only [Nat.add_mul, Nat.mul_add]; omega
      split
      · split
        · omega
        · dsimp only; omega
      · dsimp only; omega
    | _ => simp only [eqC]; exact h1
theorem eqCL_le : ∀ as bs, (eqCL as bs).2 ≤ sizeL as * sizeL bs
  | [], bs => by simp [eqCL]
  | a :: as, [] => by simp [eqCL]
  | a :: as, b :: bs => by
    rw [eqCL]
    have h1 := andC_le (eqC_le a b) (eqCL_le as bs)
    have h2 : (size a + sizeL as) * (size b + sizeL bs) =
        size a * size b + sizeL as * sizeL bs + size a * sizeL bs + sizeL as * size b := by
      simp only [Nat.add_mul, Nat.mul_add]; omega
    simp only [sizeL]; omega
end

/-! ### `simplify` -/

theorem armC_le {g : Bool} {res : Elem} {rest : PM Elem × Nat} {n : Nat} (h : rest.2 ≤ n) :
    (armC g res rest).2 ≤ n + 1 := by
  cases g <;> simp [armC, tick]; omega
theorem armC2_le {g g' : Bool} {res : Elem} {rest : PM Elem × Nat} {n : Nat} (h : rest.2 ≤ n) :
    (armC2 g g' res rest).2 ≤ n + 2 := by
  cases g <;> cases g' <;> simp [armC2, tick] <;> omega
theorem guardC_le {a b res : Elem} {rest : PM Elem × Nat} {n m : Nat} (hm : size a * size b ≤ m)
    (h : rest.2 ≤ n) : (guardC a b res rest).2 ≤ n + m + 1 := by
  have := thenC_le (n := m) (m := n + 1) (f := fun c => if c then ((.ok res : PM Elem), 1) else tick 1 rest)
    (Nat.le_trans (eqC_le a b) hm) (fun c _ => by cases c <;> simp [tick]; omega)
  unfold guardC
  omega

theorem negOf_size {e a : Elem} (h : e.negOf? = some a) : size a ≤ size e := by
  unfold Elem.negOf? at h
  split at h
  · cases h; simp only [size]; omega
  · cases h

theorem simpBinC_le (cfg : Cfg) (w : World) (op : Op) (l r : Elem) :
    (simpBinC cfg w op l r).2 ≤ 8 + 2 * (size l * size r) := by
  have hf : ∀ op, (foldC w op l r).2 ≤ 1 := fun _ => Nat.le_refl _
  have hl : ∀ a, l.negOf? = some a → size a * size r ≤ size l * size r :=
    fun a h => Nat.mul_le_mul_right _ (negOf_size h)
  have hr : ∀ a, r.negOf? = some a → size l * size a ≤ size l * size r :=
    fun a h => Nat.mul_le_mul_left _ (negOf_size h)
  have h1 : ∀ x : PM Elem, ((x, 1) : PM Elem × Nat).2 ≤ 1 := fun _ => Nat.le_refl _
  cases op
  · simp only [simpBinC, simpPlusC]
    refine Nat.le_trans (armC_le (armC_le (n := 2 * (size l * size r) + 3) ?_)) (by omega)
    have key : ∀ y : PM Elem × Nat, y.2 ≤ size l * size r + 2 →
        (match cfg.nightly, l.negOf? with
          | true, some operand => guardC operand r (.num F64.f0) y
          | _, _ => y).2 ≤ 2 * (size l * size r) + 3 := by
      intro y hy
      cases cfg.nightly
      · dsimp only; omega
      · cases h : l.negOf? with
        | none => dsimp only; omega
        | some a => exact Nat.le_trans (guardC_le (hl a h) hy) (by omega)
    apply key
    cases cfg.nightly
    · have := hf .plus; dsimp only; omega
    · cases h : r.negOf? with
      | none => have := hf .plus; dsimp only; omega
      | some a => exact Nat.le_trans (guardC_le (hr a h) (hf _)) (by omega)
  · simp only [simpBinC, simpMinusC]
    refine Nat.le_trans (armC_le (armC_le (guardC_le (Nat.le_refl _) (n := 1) ?_))) (by omega)
    cases cfg.nightly
    · exact hf _
    · cases r.negOf?
      · exact hf _
      · exact h1 _
  · simp only [simpBinC, simpTimesC]
    refine Nat.le_trans (armC_le (armC_le (armC_le (armC_le (n := 1) ?_)))) (by omega)
    cases cfg.nightly <;> cases l.negOf? <;> cases r.negOf? <;> first | exact hf _ | exact h1 _
  · simp only [simpBinC, simpDivideC]
    refine Nat.le_trans (armC2_le (armC_le (armC_le (armC_le (guardC_le (Nat.le_refl _) (n := 2) ?_)))))
      (by omega)
    cases cfg.nightly <;> cases l.negOf? <;> cases r.negOf? <;>
      first | exact armC_le (hf _) | exact Nat.le_succ_of_le (h1 _)
  · simp only [simpBinC, simpPowerC]
    exact Nat.le_trans (armC2_le (armC_le (armC_le (hf _)))) (by omega)
  · simp only [simpBinC, simpModuloC]
    exact Nat.le_trans (armC2_le (armC_le (armC_le (armC_le (guardC_le (Nat.le_refl _) (hf _)))))) (by omega)
  · exact Nat.le_trans (hf _) (by omega)

/-- A bound on the steps of `simplify` on a tree with `n` nodes. -/
def simpBound (n : Nat) : Nat := n * n + 9 * n

theorem simpBound_mono {n m : Nat} (h : n ≤ m) : simpBound n ≤ simpBound m := by
  unfold simpBound
  have := Nat.mul_le_mul h h
  omega

theorem simpBound_add (a b : Nat) :
    simpBound (a + b) = simpBound a + simpBound b + 2 * (a * b) := by
  unfold simpBound
  have : b * a = a * b := Nat.mul_comm _ _
  simp only [Nat.add_mul, Nat.mul_add]; omega

theorem simpBound_succ (a : Nat) : simpBound (a + 1) = simpBound a + 2 * a + 10 := by
  rw [simpBound_add]; unfold simpBound; omega

mutual
theorem simplifyC_le (cfg : Cfg) (w : World) : ∀ e, (simplifyC cfg w e).2 ≤ simpBound (size e)
  | .num x => by simp [simplifyC, size, simpBound]
  | .var x => by simp [simplifyC, size, simpBound]
  | .bin op l r => by
    rw [simplifyC, tick_snd]
    have h := thenC_le (m := simpBound (size r) + (8 + 2 * (size l * size r)))
      (f := fun l' => thenC (simplifyC cfg w r) fun r' => simpBinC cfg w op l' r')
      (simplifyC_le cfg w l) (fun l' hl => thenC_le (simplifyC_le cfg w r) (fun r' hr => by
        rw [simplifyC_fst] at hl hr
        have h1 := Nat.mul_le_mul (simplify_size l hl) (simplify_size r hr)
        have h2 := simpBinC_le cfg w op l' r'
        omega))
    rw [show size (.bin op l r) = size l + size r + 1 from rfl, simpBound_succ, simpBound_add]
    omega
  | .un op e => by
    rw [simplifyC, tick_snd]
    have h := thenC_le (m := 1) (f := fun e' => (simpUn op e', 1)) (simplifyC_le cfg w e)
      (fun _ _ => Nat.le_refl _)
    rw [show size (.un op e) = size e + 1 from rfl, simpBound_succ]
    omega
  | .call f args => by
    rw [simplifyC, tick_snd]
    have h := thenC_le (m := sizeL args) (f := fun args' => (simpCall w f args', args'.length))
      (simplifyCL_le cfg w args)
      (fun as h => by
        rw [simplifyCL_fst] at h
        exact Nat.le_trans (length_le_sizeL as) (simplifyL_size args h))
    rw [show size (.call f args) = sizeL args + 1 from rfl, simpBound_succ]
    omega
theorem simplifyCL_le (cfg : Cfg) (w : World) : ∀ es, (simplifyCL cfg w es).2 ≤ simpBound (sizeL es)
  | [] => by simp [simplifyCL]
  | a :: as => by
    rw [simplifyCL]
    have h := thenC_le (m := simpBound (sizeL as) + 0)
      (f := fun a' => thenC (simplifyCL cfg w as) fun as' => ((.ok (a' :: as') : PM _), 0))
      (simplifyC_le cfg w a)
      (fun _ _ => thenC_le (simplifyCL_le cfg w as) (fun _ _ => Nat.le_refl _))
    rw [show sizeL (a :: as) = size a + sizeL as from rfl, simpBound_add]
    omega
end

/-! ### `simplify_for` -/

mutual
theorem simplifyForC_le (cfg : Cfg) (w : World) (x : Bytes) (v : F64) (N : Nat) :
    ∀ e, size e ≤ N → (simplifyForC cfg w x v e).2 ≤ size e * (simpBound N + 1)
  | .num a, _ => by simp [simplifyForC, size]
  | .var a, _ => by rw [simplifyForC]; split <;> simp [size]
  | .bin op l r, hN => by
    simp only [size] at hN
    rw [simplifyForC, tick_snd]
    have h := thenC_le (m := size r * (simpBound N + 1) + simpBound N)
      (f := fun l' => thenC (simplifyForC cfg w x v r) fun r' => simplifyC cfg w (.bin op l' r'))
      (simplifyForC_le cfg w x v N l (by omega)) (fun l' hl =>
        thenC_le (simplifyForC_le cfg w x v N r (by omega)) (fun r' hr => by
          rw [simplifyForC_fst] at hl hr
          have h1 := simplifyFor_size l hl
          have h2 := simplifyFor_size r hr
          exact Nat.le_trans (simplifyC_le cfg w _) (simpBound_mono (by simp only [size]; omega))))
    simp only [size, Nat.add_mul (size l + size r), Nat.add_mul (size l)]
    omega
  | .un op e, hN => by
    simp only [size] at hN
    rw [simplifyForC, tick_snd]
    have h := thenC_le (m := simpBound N) (f := fun e' => simplifyC cfg w (.un op e'))
      (simplifyForC_le cfg w x v N e (by omega)) (fun e' he => by
          rw [simplifyForC_fst] at he
          have h1 := simplifyFor_size e he
          exact Nat.le_trans (simplifyC_le cfg w _) (simpBound_mono (by simp only [size]; omega)))
    simp only [size, Nat.add_mul (size e)]
    omega
  | .call f args, hN => by
    simp only [size] at hN
    rw [simplifyForC, tick_snd]
    have h := thenC_le (m := simpBound N) (f := fun e' => simplifyC cfg w (.call f e'))
      (simplifyForCL_le cfg w x v N args (by omega)) (fun e' he => by
          rw [simplifyForCL_fst] at he
          have h1 := simplifyForL_size args he
          exact Nat.le_trans (simplifyC_le cfg w _) (simpBound_mono (by simp only [size]; omega)))
    simp only [size, Nat.add_mul (sizeL args)]
    omega
theorem simplifyForCL_le (cfg : Cfg) (w : World) (x : Bytes) (v : F64) (N : Nat) :
    ∀ es, sizeL es ≤ N → (simplifyForCL cfg w x v es).2 ≤ sizeL es * (simpBound N + 1)
  | [], _ => by simp [simplifyForCL]
  | a :: as, hN => by
    simp only [sizeL] at hN
    rw [simplifyForCL]
    have h := thenC_le (m := sizeL as * (simpBound N + 1) + 0)
      (f := fun a' => thenC (simplifyForCL cfg w x v as) fun as' => ((.ok (a' :: as') : PM _), 0))
      (simplifyForC_le cfg w x v N a (by omega))
      (fun _ _ => thenC_le (simplifyForCL_le cfg w x v N as (by omega)) (fun _ _ => Nat.le_refl _))
    simp only [sizeL, Nat.add_mul (size a)]
    omega
end

/-! ### `eval`, `find_variables` -/

mutual
theorem evalC_le (w : World) (m : HMap F64) : ∀ e, (evalC w m e).2 + 1 ≤ 2 * size e
  | .num a => by simp [evalC, size]
  | .var a => by rw [evalC]; cases m.get a <;> simp [size]
  | .bin op l r => by
    have hl := evalC_le w m l
    have hr := evalC_le w m r
    rw [evalC, tick_snd]
    have h := thenC_le (m := (evalC w m r).2 + 0)
      (f := fun a => thenC (evalC w m r) fun b => (liftP (binF w op a b), 0))
      (Nat.le_refl (evalC w m l).2)
      (fun _ _ => thenC_le (Nat.le_refl _) (fun _ _ => Nat.le_refl _))
    simp only [size]; omega
  | .un op e => by
    have he := evalC_le w m e
    rw [evalC, tick_snd]
    have h := thenC_le (m := 0) (f := fun v => (liftP (unF op v), 0)) (Nat.le_refl (evalC w m e).2)
      (fun _ _ => Nat.le_refl _)
    simp only [size]; omega
  | .call f args => by
    have ha := evalCL_le w m args
    rw [evalC, tick_snd]
    have h := thenC_le (m := args.length) (f := fun vs => (liftP (callFn w f vs), vs.length))
      (Nat.le_refl (evalCL w m args).2)
      (fun vs h => Nat.le_of_eq (evalCL_len w m args h))
    simp only [size]; omega
theorem evalCL_le (w : World) (m : HMap F64) : ∀ es, (evalCL w m es).2 + es.length ≤ 2 * sizeL es
  | [] => by simp [evalCL, sizeL]
  | a :: as => by
    have ha := evalC_le w m a
    have has := evalCL_le w m as
    rw [evalCL]
    have h := thenC_le (m := (evalCL w m as).2 + 0)
      (f := fun v => thenC (evalCL w m as) fun vs => ((.ok (v :: vs) : Except EvErr _), 0))
      (Nat.le_refl (evalC w m a).2)
      (fun _ _ => thenC_le (Nat.le_refl _) (fun _ _ => Nat.le_refl _))
    simp only [sizeL, List.length_cons]; omega
theorem evalCL_len (w : World) (m : HMap F64) : ∀ es {vs}, (evalCL w m es).1 = .ok vs → vs.length = es.length
  | [], vs, h => by rw [evalCL] at h; cases h; rfl
  | a :: as, vs, h => by
    rw [evalCL] at h
    rcases e1 : evalC w m a with ⟨_ | v, n⟩
    · rw [e1] at h; cases h
    · rcases e2 : evalCL w m as with ⟨_ | vs', n'⟩
      · rw [e1, e2] at h; cases h
      · rw [e1, e2] at h; cases h
        have := evalCL_len w m as (vs := vs') (by rw [e2])
        simp [this]
end

mutual
theorem findCost_eq : ∀ e, findCost e = size e
  | .num _ => rfl
  | .var _ => rfl
  | .bin _ l r => by rw [findCost, size, findCost_eq l, findCost_eq r]; omega
  | .un _ e => by rw [findCost, size, findCost_eq e]; omega
  | .call _ args => by rw [findCost, size, findCostL_eq args]; omega
theorem findCostL_eq : ∀ es, findCostL es = sizeL es
  | [] => rfl
  | a :: as => by rw [findCostL, sizeL, findCost_eq a, findCostL_eq as]
end

mutual
theorem findVars_length : ∀ e vs, (findVars e vs).length ≤ vs.length + size e
  | .num _, vs => by simp [findVars]
  | .var n, vs => by rw [findVars]; split <;> simp [size]
  | .bin _ l r, vs => by
    have h1 := findVars_length l vs
    have h2 := findVars_length r (findVars l vs)
    rw [findVars, size]; omega
  | .un _ e, vs => by
    have h1 := findVars_length e vs
    rw [findVars, size]; omega
  | .call _ args, vs => by
    have h1 := findVarsL_length args vs
    rw [findVars, size]; omega
theorem findVarsL_length : ∀ es vs, (findVarsL es vs).length ≤ vs.length + sizeL es
  | [], vs => by simp [findVarsL]
  | a :: as, vs => by
    have h1 := findVars_length a vs
    have h2 := findVarsL_length as (findVars a vs)
    rw [findVarsL, sizeL]; omega
end

end Xprs
