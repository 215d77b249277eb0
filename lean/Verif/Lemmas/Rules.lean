import Verif.Spec.Rules
import Verif.Lemmas.Equal
import Verif.Lemmas.Normal
import Verif.Lemmas.Safe
import Verif.Spec.Constant
/-
Simplification and the documented rules.
-/
namespace Xprs
open Spec

/-! ### Equality -/

theorem andM_false {x y : PM Bool} (h : andM x y = .ok false) : x = .ok false ∨ y = .ok false := by
  unfold andM at h
  split at h
  · exact .inr h
  · exact .inl rfl
  · cases h

theorem orM_false {x y : PM Bool} (h : orM x y = .ok false) : x = .ok false ∧ y = .ok false := by
  unfold orM at h
  split at h
  · cases h
  · exact ⟨rfl, h⟩
  · cases h

mutual
theorem equal_of_eqE : ∀ (a b : Elem), eqE a b = .ok true → Alike NumEq a b
  | .num x, b, h => by
    cases b <;> simp only [eqE] at h <;> first | cases h | skip
    exact .num (beq_iff.1 (by simpa using h))
  | .var x, b, h => by
    cases b <;> simp only [eqE] at h <;> first | cases h | skip
    simp at h; subst h; exact .var
  | .bin o l r, b, h => by
    cases b with
    | bin o' l' r' =>
      simp only [eqE] at h
      split at h
      · rename_i ho
        subst ho
        have both : andM (eqE l l') (eqE r r') = .ok true → Alike NumEq (.bin o l r) (.bin o l' r') := fun h =>
          .bin (equal_of_eqE l l' (andM_iff.1 h).1) (equal_of_eqE r r' (andM_iff.1 h).2)
        have comm : o = .plus ∨ o = .times →
            orM (andM (eqE l l') (eqE r r')) (andM (eqE l r') (eqE r l')) = .ok true →
            Alike NumEq (.bin o l r) (.bin o l' r') := fun ho h => by
          rcases orM_true h with h | h
          · exact both h
          · exact .comm ho (equal_of_eqE l r' (andM_iff.1 h).1) (equal_of_eqE r l' (andM_iff.1 h).2)
        cases o <;> simp only at h
        · exact comm (.inl rfl) h
        · exact both h
        · exact comm (.inr rfl) h
        · exact both h
        · exact both h
        · exact both h
        · cases h
      · cases h
    | _ => simp only [eqE] at h; cases h
  | .un o e, b, h => by
    cases b with
    | un o' e' =>
      simp only [eqE] at h
      split at h
      · rename_i ho; subst ho; exact .un (equal_of_eqE e e' h)
      · cases h
    | _ => simp only [eqE] at h; cases h
  | .call f as, b, h => by
    cases b with
    | call g bs =>
      simp only [eqE] at h
      split at h
      · rename_i hf
        subst hf
        split at h
        · rename_i hl; exact .call (equalL_of_eqEs as bs hl h)
        · cases h
      · cases h
    | _ => simp only [eqE] at h; cases h
theorem equalL_of_eqEs : ∀ (as bs : List Elem), as.length = bs.length → eqEs as bs = .ok true →
    AlikeL NumEq as bs
  | [], [], _, _ => .nil
  | [], _ :: _, h, _ => by simp at h
  | _ :: _, [], h, _ => by simp at h
  | a :: as, b :: bs, hl, h => by
    rw [eqEs] at h
    obtain ⟨h1, h2⟩ := andM_iff.1 h
    exact .cons (equal_of_eqE a b h1) (equalL_of_eqEs as bs (by simpa using hl) h2)
end

mutual
theorem eqE_of_equal : ∀ {a b : Elem}, Alike NumEq a b → eqE a b ≠ .ok false
  | _, _, .num h => by
    rw [eqE, beq_iff.2 h]; intro h; cases h
  | _, _, .var => by rw [eqE]; simp
  | _, _, .un h => by
    rw [eqE, if_pos rfl]; exact eqE_of_equal h
  | _, _, @Alike.bin _ op a a' b b' h h' => by
    have both : andM (eqE a a') (eqE b b') ≠ .ok false := fun hf => by
      rcases andM_false hf with hf | hf
      · exact eqE_of_equal h hf
      · exact eqE_of_equal h' hf
    cases op <;> simp only [eqE, if_pos]
    · exact fun hf => both (orM_false hf).1
    · exact both
    · exact fun hf => both (orM_false hf).1
    · exact both
    · exact both
    · exact both
    · intro hf; cases hf
  | _, _, @Alike.comm _ op a a' b b' ho h h' => by
    have both : andM (eqE a b') (eqE b a') ≠ .ok false := fun hf => by
      rcases andM_false hf with hf | hf
      · exact eqE_of_equal h hf
      · exact eqE_of_equal h' hf
    rcases ho with rfl | rfl <;> simp only [eqE, if_pos]
    · exact fun hf => both (orM_false hf).2
    · exact fun hf => both (orM_false hf).2
  | _, _, .call h => by
    rw [eqE, if_pos rfl, if_pos (alikeL_length h)]
    exact eqEs_of_equal h
theorem eqEs_of_equal : ∀ {as bs : List Elem}, AlikeL NumEq as bs → eqEs as bs ≠ .ok false
  | _, _, .nil => by rw [eqEs]; · intro h; cases h
                     · intros; simp_all
  | _, _, .cons h h' => by
    rw [eqEs]
    intro hf
    rcases andM_false hf with hf | hf
    · exact eqE_of_equal h hf
    · exact eqEs_of_equal h' hf
end

/-! ### LitOne node -/

section
variable {cfg : Cfg} {w : World}
local notation "nb" => cfg.nightly

theorem zero_of_is0 {e : Elem} (h : e.is0 = true) : LitZero e := is0_iff.1 h
theorem is0_of_zero {e : Elem} (h : LitZero e) : e.is0 = true := is0_iff.2 h
theorem not_zero_of_is0 {e : Elem} (h : ¬ e.is0 = true) : ¬ LitZero e := fun hz => h (is0_of_zero hz)
theorem one_of_is1 {e : Elem} (h : e.is1 = true) : LitOne e := is1_iff.1 h
theorem is1_of_one {e : Elem} (h : LitOne e) : e.is1 = true := is1_iff.2 h

/-- Either nothing is done, or a rule is applied. -/
def Done (w : World) (n : Bool) (a e : Elem) : Prop := e = a ∨ Rule w n a e

theorem foldBin_done {op : Op} {l r e : Elem} (h : foldBin w op l r = .ok e) :
    Done w nb (.bin op l r) e := by
  unfold foldBin at h
  split at h
  · rename_i a b
    cases hb : binF w op a b with
    | error p => simp [hb, Except.map] at h
    | ok v =>
      simp [hb, Except.map] at h; subst h
      exact .inr (.two_numbers (by simp only [eval, hb, liftP]))
  · cases h; exact .inl rfl

theorem guardEq_done {a b res e : Elem} {rest : PM Elem} {Q : Elem → Prop}
    (h : guardEq a b res rest = .ok e) (h1 : Equal a b → Q res) (h2 : rest = .ok e → Q e) : Q e := by
  unfold guardEq at h
  split at h
  · cases h
  · rename_i he; cases h; exact h1 (equal_of_eqE _ _ he)
  · exact h2 h

theorem simpBin_done {op : Op} {l r e : Elem} (h : simpBin cfg w op l r = .ok e) :
    Done w nb (.bin op l r) e := by
  cases op with
  | plus =>
    unfold simpBin simpPlus at h
    simp only at h
    split at h
    · rename_i h0; cases h; exact .inr (.zero_add (zero_of_is0 h0))
    split at h
    · rename_i h0; cases h; exact .inr (.add_zero (zero_of_is0 h0))
    have tail : ∀ e, (match cfg.nightly, r.negOf? with
        | true, some operand => guardEq l operand (.num F64.f0) (foldBin w .plus l r)
        | _, _ => foldBin w .plus l r) = .ok e → Done w nb (.bin .plus l r) e := by
      intro e h
      split at h
      · rename_i hn ho
        refine guardEq_done h (fun he => ?_) foldBin_done
        rw [negOf_some ho]
        exact .inr (.add_neg hn he)
      · exact foldBin_done h
    split at h
    · rename_i hn ho
      refine guardEq_done h (fun he => ?_) (tail e)
      rw [negOf_some ho]
      exact .inr (.neg_add hn he)
    · exact tail e h
  | minus =>
    unfold simpBin simpMinus at h
    simp only at h
    split at h
    · rename_i h0; cases h; exact .inr (.zero_sub (zero_of_is0 h0))
    split at h
    · rename_i h0; cases h; exact .inr (.sub_zero (zero_of_is0 h0))
    refine guardEq_done h (fun he => .inr (.sub_self he)) ?_
    intro h
    split at h
    · rename_i hn ho
      cases h
      rw [negOf_some ho]
      exact .inr (.sub_neg hn)
    · exact foldBin_done h
  | times =>
    unfold simpBin simpTimes at h
    simp only at h
    split at h
    · rename_i h0; cases h; exact .inr (.zero_mul (zero_of_is0 h0))
    split at h
    · rename_i h0; cases h; exact .inr (.mul_zero (zero_of_is0 h0))
    split at h
    · rename_i h0; cases h; exact .inr (.one_mul (one_of_is1 h0))
    split at h
    · rename_i h0; cases h; exact .inr (.mul_one (one_of_is1 h0))
    split at h
    · rename_i hn h1 h2
      cases h
      rw [negOf_some h1, negOf_some h2]
      exact .inr (.neg_mul_neg hn)
    · exact foldBin_done h
  | divide =>
    unfold simpBin simpDivide at h
    simp only at h
    split at h
    · rename_i h0
      rw [Bool.and_eq_true] at h0
      cases h; exact .inr (.zero_div_zero (zero_of_is0 h0.1) (zero_of_is0 h0.2))
    rename_i h00
    rw [Bool.and_eq_true, not_and] at h00
    split at h
    · rename_i h0; cases h
      exact .inr (.zero_div (zero_of_is0 h0) (not_zero_of_is0 (h00 h0)))
    rename_i hl
    split at h
    · rename_i h0; cases h; exact .inr (.div_zero (not_zero_of_is0 hl) (zero_of_is0 h0))
    rename_i hr
    split at h
    · rename_i h0; cases h; exact .inr (.div_one (one_of_is1 h0))
    refine guardEq_done h (fun he => .inr (.div_self (not_zero_of_is0 hl) he)) ?_
    intro h
    split at h
    · rename_i hn h1 h2
      cases h
      rw [negOf_some h1, negOf_some h2]
      exact .inr (.neg_div_neg hn)
    · first | exact foldBin_done h | (rw [if_neg hr] at h; exact foldBin_done h)
  | power =>
    replace h : simpPower w l r = .ok e := h
    unfold simpPower at h
    split at h
    · rename_i h0
      rw [Bool.and_eq_true] at h0
      cases h; exact .inr (.zero_pow_zero (zero_of_is0 h0.1) (zero_of_is0 h0.2))
    rename_i h00
    rw [Bool.and_eq_true, not_and] at h00
    split at h
    · rename_i h0; cases h
      exact .inr (.zero_pow (zero_of_is0 h0) (not_zero_of_is0 (h00 h0)))
    split at h
    · rename_i h0; cases h; exact .inr (.pow_one (one_of_is1 h0))
    exact foldBin_done h
  | modulo =>
    replace h : simpModulo w l r = .ok e := h
    unfold simpModulo at h
    split at h
    · rename_i h0
      rw [Bool.and_eq_true] at h0
      cases h; exact .inr (.zero_mod_zero (zero_of_is0 h0.1) (zero_of_is0 h0.2))
    rename_i h00
    rw [Bool.and_eq_true, not_and] at h00
    split at h
    · rename_i h0; cases h
      exact .inr (.zero_mod (zero_of_is0 h0) (not_zero_of_is0 (h00 h0)))
    rename_i hl
    split at h
    · rename_i h0; cases h; exact .inr (.mod_zero (zero_of_is0 h0))
    split at h
    · rename_i h0; cases h; exact .inr (.mod_one (one_of_is1 h0))
    exact guardEq_done h (fun he => .inr (.mod_self (not_zero_of_is0 hl) he)) foldBin_done
  | factorial => exact foldBin_done h

theorem simpUn_done {op : Op} {a e : Elem} (h : simpUn op a = .ok e) : Done w nb (.un op a) e := by
  unfold simpUn at h
  split at h
  · cases h; exact .inr .positive
  · split at h
    · rename_i x
      cases hf : factorial x with
      | error p => simp [hf, Except.map] at h
      | ok v =>
        simp [hf, Except.map] at h; subst h
        exact .inr (.one_number (by simp only [eval, unF, hf, liftP]))
    · cases h; exact .inl rfl
  · split at h
    · cases h; exact .inr (.one_number (by simp only [eval, unF, liftP]))
    · cases h; exact .inl rfl
  · cases h

theorem numsOf_full : ∀ {as : List Elem}, (numsOf as).length = as.length → as = (numsOf as).map .num
  | [], _ => rfl
  | .num x :: as, h => by
    simp only [numsOf, List.length_cons, Nat.add_right_cancel_iff] at h
    simp only [numsOf, List.map_cons]
    rw [← numsOf_full h]
  | .var _ :: as, h => by simp only [numsOf, List.length_cons] at h; have := numsOf_le as; omega
  | .bin .. :: as, h => by simp only [numsOf, List.length_cons] at h; have := numsOf_le as; omega
  | .un .. :: as, h => by simp only [numsOf, List.length_cons] at h; have := numsOf_le as; omega
  | .call .. :: as, h => by simp only [numsOf, List.length_cons] at h; have := numsOf_le as; omega
where
  numsOf_le : ∀ as : List Elem, (numsOf as).length ≤ as.length
    | [] => Nat.le_refl _
    | a :: as => by
      have := numsOf_le as
      cases a <;> simp only [numsOf, List.length_cons] <;> omega

theorem numsOf_map (xs : List F64) : numsOf (xs.map .num) = xs := by
  induction xs with
  | nil => rfl
  | cons x xs ih => simp only [List.map_cons, numsOf, ih]

theorem evalL_lits (w : World) (m : HMap F64) (xs : List F64) : evalL w m (xs.map .num) = .ok xs := by
  induction xs with
  | nil => rw [List.map_nil, evalL]
  | cons x xs ih => rw [List.map_cons, evalL, eval, ih]

theorem simpCall_done {f : Func} {args : List Elem} {e : Elem} (h : simpCall w f args = .ok e) :
    Done w nb (.call f args) e := by
  unfold simpCall at h
  split at h
  · rename_i hl
    rw [numsOf_full hl]
    cases hf : callFn w f (numsOf args) with
    | error p => simp [hf, Except.map] at h
    | ok v =>
      simp [hf, Except.map] at h; subst h
      exact .inr (.known_call (by rw [eval, evalL_lits]; simp only [hf, liftP]))
  · cases h; exact .inl rfl

/-! ### Trees -/

variable {n : Bool}

theorem steps_trans {a b c : Elem} (h : Steps w n a b) (h' : Steps w n b c) : Steps w n a c := by
  induction h' with
  | none => exact h
  | more _ hs ih => exact .more ih hs

theorem steps_left {op : Op} {a a' b : Elem} (h : Steps w n a a') :
    Steps w n (.bin op a b) (.bin op a' b) := by
  induction h with
  | none => exact .none
  | more _ hs ih => exact .more ih (.left hs)

theorem steps_right {op : Op} {a b b' : Elem} (h : Steps w n b b') :
    Steps w n (.bin op a b) (.bin op a b') := by
  induction h with
  | none => exact .none
  | more _ hs ih => exact .more ih (.right hs)

theorem steps_operand {op : Op} {a a' : Elem} (h : Steps w n a a') :
    Steps w n (.un op a) (.un op a') := by
  induction h with
  | none => exact .none
  | more _ hs ih => exact .more ih (.operand hs)

theorem steps_arg {f : Func} {pre post : List Elem} {a a' : Elem} (h : Steps w n a a') :
    Steps w n (.call f (pre ++ a :: post)) (.call f (pre ++ a' :: post)) := by
  induction h with
  | none => exact .none
  | more _ hs ih => exact .more ih (.arg hs)

/-- Lists of equal length whose elements are rewritten one by one. -/
inductive StepsL (w : World) (n : Bool) : List Elem → List Elem → Prop
  | nil : StepsL w n [] []
  | cons {a b as bs} : Steps w n a b → StepsL w n as bs → StepsL w n (a :: as) (b :: bs)

theorem steps_args {f : Func} : ∀ {as bs : List Elem} (pre : List Elem), StepsL w n as bs →
    Steps w n (.call f (pre ++ as)) (.call f (pre ++ bs))
  | _, _, _, .nil => .none
  | a :: as, b :: bs, pre, .cons h h' => by
    refine steps_trans (steps_arg h) ?_
    have := steps_args (f := f) (pre ++ [b]) h'
    simpa using this

theorem steps_bin {op : Op} {a a' b b' : Elem} (h : Steps w n a a') (h' : Steps w n b b') :
    Steps w n (.bin op a b) (.bin op a' b') := steps_trans (steps_left h) (steps_right h')

theorem steps_call {f : Func} {as bs : List Elem} (h : StepsL w n as bs) :
    Steps w n (.call f as) (.call f bs) := steps_args [] h

theorem steps_done {a e : Elem} (h : Done w n a e) : Steps w n a e := by
  rcases h with rfl | h
  · exact .none
  · exact .more .none (.rule h)

mutual
theorem simplify_steps : ∀ (e : Elem) {e' : Elem}, simplify cfg w e = .ok e' → Steps w nb e e'
  | .num x, e', h => by rw [simplify] at h; cases h; exact .none
  | .var x, e', h => by rw [simplify] at h; cases h; exact .none
  | .bin op l r, e', h => by
    obtain ⟨l', r', hl, hr, hb⟩ := simplify_bin_ok h
    exact steps_trans (steps_bin (simplify_steps l hl) (simplify_steps r hr))
      (steps_done (simpBin_done hb))
  | .un op a, e', h => by
    obtain ⟨a', ha, hb⟩ := simplify_un_ok h
    exact steps_trans (steps_operand (simplify_steps a ha)) (steps_done (simpUn_done hb))
  | .call f args, e', h => by
    obtain ⟨args', ha, hb⟩ := simplify_call_ok h
    exact steps_trans (steps_call (simplifyL_steps args ha)) (steps_done (simpCall_done hb))
theorem simplifyL_steps : ∀ (es : List Elem) {es' : List Elem}, simplifyL cfg w es = .ok es' →
    StepsL w nb es es'
  | [], es', h => by rw [simplifyL] at h; cases h; exact .nil
  | a :: as, es', h => by
    obtain ⟨a', as', ha, has, rfl⟩ := simplifyL_cons_ok h
    exact .cons (simplify_steps a ha) (simplifyL_steps as has)
end

mutual
theorem simplifyFor_steps {x : Bytes} {v : F64} : ∀ (e : Elem) {e' : Elem},
    simplifyFor cfg w x v e = .ok e' → Steps w nb (fixVar x v e) e'
  | .num a, e', h => by rw [simplifyFor] at h; cases h; rw [fixVar, subst]; exact .none
  | .var k, e', h => by
    rw [simplifyFor] at h
    rw [fixVar, subst]
    split at h <;> cases h
    · rename_i hk; rw [if_pos hk]; exact .none
    · rename_i hk; rw [if_neg hk]; exact .none
  | .bin op l r, e', h => by
    obtain ⟨l', r', hl, hr, hb⟩ := simplifyFor_bin_ok h
    rw [fixVar, subst]
    exact steps_trans (steps_bin (simplifyFor_steps l hl) (simplifyFor_steps r hr))
      (simplify_steps _ hb)
  | .un op a, e', h => by
    obtain ⟨a', ha, hb⟩ := simplifyFor_un_ok h
    rw [fixVar, subst]
    exact steps_trans (steps_operand (simplifyFor_steps a ha)) (simplify_steps _ hb)
  | .call f args, e', h => by
    obtain ⟨args', ha, hb⟩ := simplifyFor_call_ok h
    rw [fixVar, subst]
    exact steps_trans (steps_call (simplifyForL_steps args ha)) (simplify_steps _ hb)
theorem simplifyForL_steps {x : Bytes} {v : F64} : ∀ (es : List Elem) {es' : List Elem},
    simplifyForL cfg w x v es = .ok es' →
    StepsL w nb (substL (fun k => if k = x then .num v else .var k) es) es'
  | [], es', h => by rw [simplifyForL] at h; cases h; rw [substL]; exact .nil
  | a :: as, es', h => by
    obtain ⟨a', as', ha, has, rfl⟩ := simplifyForL_cons_ok h
    rw [substL]
    exact .cons (simplifyFor_steps a ha) (simplifyForL_steps as has)
end

/-! ### What is left -/

theorem guardEq_keep {a b res e : Elem} {rest : PM Elem} (h : guardEq a b res rest = .ok e)
    (hne : e ≠ res) : ¬ Equal a b ∧ rest = .ok e := by
  unfold guardEq at h
  split at h
  · cases h
  · cases h; exact absurd rfl hne
  · rename_i he
    exact ⟨fun hx => eqE_of_equal hx he, h⟩

theorem foldBin_keep {op : Op} {a b : F64} {e : Elem} (h : foldBin w op (.num a) (.num b) = .ok e) :
    ∃ v, e = .num v := by
  unfold foldBin at h
  cases hb : binF w op a b with
  | error p => simp [hb, Except.map] at h
  | ok v => simp [hb, Except.map] at h; exact ⟨v, h.symm⟩

/-- A binary node that is kept is the left side of no rule but `a ^ 0 => 1`. -/
theorem simpBin_keep {op : Op} {l r e : Elem} (h : simpBin cfg w op l r = .ok (.bin op l r))
    (hr : Rule w nb (.bin op l r) e) : op = .power ∧ LitZero r := by
  cases op with
  | plus =>
    exfalso
    unfold simpBin simpPlus at h
    simp only at h
    split at h
    · cases h
    rename_i hl
    split at h
    · cases h
    rename_i hr0
    have tail : ∀ b, r = .un .minus b → nb = true → (match cfg.nightly, r.negOf? with
        | true, some operand => guardEq l operand (.num F64.f0) (foldBin w .plus l r)
        | _, _ => foldBin w .plus l r) = .ok (.bin .plus l r) → ¬ Equal l b := by
      rintro b rfl hn h
      rw [hn] at h
      exact (guardEq_keep h (by simp)).1
    have key : (∀ b, l = .un .minus b → nb = true → ¬ Equal b r) ∧
        (match cfg.nightly, r.negOf? with
          | true, some operand => guardEq l operand (.num F64.f0) (foldBin w .plus l r)
          | _, _ => foldBin w .plus l r) = .ok (.bin .plus l r) := by
      split at h
      · rename_i hn ho
        obtain ⟨h1, h2⟩ := guardEq_keep h (by simp)
        refine ⟨fun b hb _ => ?_, h2⟩
        rw [hb] at ho
        cases ho; exact h1
      · rename_i hno
        refine ⟨fun b hb hn => ?_, h⟩
        subst hb
        exact absurd rfl (hno _ hn)
    cases hr with
    | zero_add hz => exact hl (is0_of_zero hz)
    | add_zero hz => exact hr0 (is0_of_zero hz)
    | neg_add hn he => exact key.1 _ rfl hn he
    | add_neg hn he => exact tail _ rfl hn key.2 he
    | two_numbers hv =>
      have := key.2
      simp only [Elem.negOf?] at this
      cases hc : cfg.nightly <;> rw [hc] at this <;>
        · obtain ⟨v, hv⟩ := foldBin_keep this
          cases hv
  | minus =>
    exfalso
    unfold simpBin simpMinus at h
    simp only at h
    split at h
    · cases h
    rename_i hl
    split at h
    · cases h
    rename_i hr0
    obtain ⟨h1, h2⟩ := guardEq_keep h (by simp)
    cases hr with
    | zero_sub hz => exact hl (is0_of_zero hz)
    | sub_zero hz => exact hr0 (is0_of_zero hz)
    | sub_self he => exact h1 he
    | sub_neg hn => simp only [hn, Elem.negOf?] at h2; cases h2
    | two_numbers hv =>
      simp only [Elem.negOf?] at h2
      cases hc : cfg.nightly <;> rw [hc] at h2 <;>
        · obtain ⟨v, hv⟩ := foldBin_keep h2
          cases hv
  | times =>
    exfalso
    unfold simpBin simpTimes at h
    simp only at h
    split at h
    · cases h
    rename_i hl0
    split at h
    · cases h
    rename_i hr0
    split at h
    · cases h
    rename_i hl1
    split at h
    · cases h
    rename_i hr1
    cases hr with
    | zero_mul hz => exact hl0 (is0_of_zero hz)
    | mul_zero hz => exact hr0 (is0_of_zero hz)
    | one_mul hz => exact hl1 (is1_of_one hz)
    | mul_one hz => exact hr1 (is1_of_one hz)
    | neg_mul_neg hn => simp only [hn, Elem.negOf?] at h; cases h
    | two_numbers hv =>
      simp only [Elem.negOf?] at h
      cases hc : cfg.nightly <;> rw [hc] at h <;>
        · obtain ⟨v, hv⟩ := foldBin_keep h
          cases hv
  | divide =>
    exfalso
    unfold simpBin simpDivide at h
    simp only at h
    split at h
    · cases h
    rename_i hb0
    split at h
    · cases h
    rename_i hl0
    split at h
    · cases h
    rename_i hr0
    split at h
    · cases h
    rename_i hr1
    obtain ⟨h1, h2⟩ := guardEq_keep h (by simp)
    cases hr with
    | zero_div_zero hz _ => exact hl0 (is0_of_zero hz)
    | zero_div hz _ => exact hl0 (is0_of_zero hz)
    | div_zero _ hz => exact hr0 (is0_of_zero hz)
    | div_one hz => exact hr1 (is1_of_one hz)
    | div_self _ he => exact h1 he
    | neg_div_neg hn => simp only [hn, Elem.negOf?] at h2; cases h2
    | two_numbers hv =>
      simp only [Elem.negOf?] at h2
      cases hc : cfg.nightly <;> rw [hc] at h2 <;>
        · first | rw [if_neg hr0] at h2 | skip
          obtain ⟨v, hv⟩ := foldBin_keep h2
          cases hv
  | power =>
    replace h : simpPower w l r = .ok (.bin .power l r) := h
    unfold simpPower at h
    split at h
    · cases h
    split at h
    · cases h
    rename_i hl0
    split at h
    · cases h
    rename_i hr1
    cases hr with
    | zero_pow_zero hz _ => exact absurd (is0_of_zero hz) hl0
    | zero_pow hz _ => exact absurd (is0_of_zero hz) hl0
    | pow_zero hz => exact ⟨rfl, hz⟩
    | pow_one hz => exact absurd (is1_of_one hz) hr1
    | two_numbers hv => obtain ⟨v, hv⟩ := foldBin_keep h; cases hv
  | modulo =>
    exfalso
    replace h : simpModulo w l r = .ok (.bin .modulo l r) := h
    unfold simpModulo at h
    split at h
    · cases h
    split at h
    · cases h
    rename_i hl0
    split at h
    · cases h
    rename_i hr0
    split at h
    · cases h
    rename_i hr1
    obtain ⟨h1, h2⟩ := guardEq_keep h (by simp)
    cases hr with
    | zero_mod_zero hz _ => exact hl0 (is0_of_zero hz)
    | zero_mod hz _ => exact hl0 (is0_of_zero hz)
    | mod_zero hz => exact hr0 (is0_of_zero hz)
    | mod_one hz => exact hr1 (is1_of_one hz)
    | mod_self _ he => exact h1 he
    | two_numbers hv => obtain ⟨v, hv⟩ := foldBin_keep h2; cases hv
  | factorial =>
    exfalso
    cases hr with
    | two_numbers hv =>
      rename_i a b v
      replace h : foldBin w .factorial (.num a) (.num b) = .ok (.bin .factorial (.num a) (.num b)) := h
      obtain ⟨v, hv⟩ := foldBin_keep h
      cases hv

theorem simpUn_keep {op : Op} {a e : Elem} (h : simpUn op a = .ok (.un op a))
    (hr : Rule w n (.un op a) e) : False := by
  cases hr with
  | positive => simp only [simpUn] at h; cases h
  | one_number hv =>
    rename_i x v
    cases op <;> simp only [simpUn] at h <;> try cases h
    cases hf : factorial x with
    | error p => simp [hf, Except.map] at h
    | ok u => simp [hf, Except.map] at h

theorem simpCall_keep {f : Func} {args : List Elem} {e : Elem} (h : simpCall w f args = .ok (.call f args))
    (hr : Rule w n (.call f args) e) : False := by
  cases hr with
  | known_call hv =>
    rename_i v xs
    unfold simpCall at h
    rw [numsOf_map, if_pos (by simp)] at h
    cases hf : callFn w f xs with
    | error p => simp [hf, Except.map] at h
    | ok u => simp [hf, Except.map] at h

/-- What simplifying a node makes of simplified operands, with the NIGHTLY cases apart. -/
theorem simpBin_cases {op : Op} {l r e : Elem} (h : simpBin cfg w op l r = .ok e) :
    StdShape op l r e ∨ (cfg.nightly = true ∧
      ((∃ b, r = .un .minus b ∧ e = .bin .plus l b) ∨
       ((op = .times ∨ op = .divide) ∧ ∃ a b, l = .un .minus a ∧ r = .un .minus b ∧ e = .bin op a b))) := by
  by_cases hc : cfg.nightly = true
  · cases simpBin_shape h with
    | left => exact .inl .left
    | right => exact .inl .right
    | num x => exact .inl (.num x)
    | neg ho => exact .inl (.neg ho)
    | plus b ho hr => exact .inr ⟨hc, .inl ⟨b, hr, rfl⟩⟩
    | same => exact .inl .same
    | both a b hl hr =>
      by_cases ho : op = .times ∨ op = .divide
      · exact .inr ⟨hc, .inr ⟨ho, a, b, hl, hr, rfl⟩⟩
      · exfalso
        rcases simpBin_done h with he | he
        · injection he with _ h1 h2
          rw [hl] at h1
          exact absurd (congrArg size h1) (by simp [size])
        · subst hl hr
          generalize hx : Elem.bin op (.un .minus a) (.un .minus b) = x at he
          generalize hy : Elem.bin op a b = y at he
          cases he <;> simp_all
          all_goals (rw [← hy] at hx; simp at hx)
  · exact .inl (simpBin_std (by simpa using hc) h)

/-- All left sides of rules in the tree are of that kind. -/
def Worked (w : World) (n : Bool) (e : Elem) : Prop := ∀ s b, Sub s e → Rule w n s b → Leftover n s

theorem worked_num {x : F64} : Worked w n (.num x) := fun s b hs hr => by
  rw [sub_num] at hs; subst hs; cases hr

theorem worked_var {x : Bytes} : Worked w n (.var x) := fun s b hs hr => by
  rw [sub_var] at hs; subst hs; cases hr

theorem worked_bin {op : Op} {l r : Elem} (hl : Worked w n l) (hr : Worked w n r)
    (h : ∀ b, Rule w n (.bin op l r) b → Leftover n (.bin op l r)) : Worked w n (.bin op l r) := by
  intro s b hs hb
  rcases sub_bin.1 hs with rfl | hs | hs
  · exact h b hb
  · exact hl s b hs hb
  · exact hr s b hs hb

theorem worked_un {op : Op} {a : Elem} (ha : Worked w n a)
    (h : ∀ b, Rule w n (.un op a) b → Leftover n (.un op a)) : Worked w n (.un op a) := by
  intro s b hs hb
  rcases sub_un.1 hs with rfl | hs
  · exact h b hb
  · exact ha s b hs hb

theorem worked_operand {op : Op} {a : Elem} (h : Worked w n (.un op a)) : Worked w n a :=
  fun s b hs hb => h s b (.operand hs) hb

mutual
theorem simplify_worked : ∀ (e : Elem) {e' : Elem}, simplify cfg w e = .ok e' → Worked w nb e'
  | .num x, e', h => by rw [simplify] at h; cases h; exact worked_num
  | .var x, e', h => by rw [simplify] at h; cases h; exact worked_var
  | .bin op l r, e', h => by
    obtain ⟨l', r', hl, hr, hb⟩ := simplify_bin_ok h
    have il := simplify_worked l hl
    have ir := simplify_worked r hr
    rcases simpBin_cases hb with hs | ⟨hn, ⟨b, rfl, rfl⟩ | ⟨ho, a, b, rfl, rfl, rfl⟩⟩
    · cases hs with
      | left => exact il
      | right => exact ir
      | num x => exact worked_num
      | neg ho =>
        refine worked_un ir fun b hb => ?_
        cases hb with
        | one_number hv => exact .inl ⟨_, rfl⟩
      | same =>
        refine worked_bin il ir fun b hk => ?_
        obtain ⟨rfl, hz⟩ := simpBin_keep hb hk
        exact .inr (.inl ⟨_, _, rfl, hz⟩)
    · exact worked_bin il (worked_operand ir) fun _ _ => .inr (.inr ⟨hn, _, _, _, rfl, .inl rfl⟩)
    · exact worked_bin (worked_operand il) (worked_operand ir) fun _ _ =>
        .inr (.inr ⟨hn, _, _, _, rfl, .inr ho⟩)
  | .un op a, e', h => by
    obtain ⟨a', ha, hb⟩ := simplify_un_ok h
    have ia := simplify_worked a ha
    cases simpUn_shape hb with
    | same ho => exact worked_un ia fun b hk => (simpUn_keep hb hk).elim
    | operand => exact ia
    | num x => exact worked_num
  | .call f args, e', h => by
    obtain ⟨args', ha, hb⟩ := simplify_call_ok h
    have ia := simplifyL_worked args ha
    rcases simpCall_shape hb with rfl | ⟨x, rfl⟩
    · intro s b hs hr
      rcases sub_call.1 hs with rfl | ⟨a, hm, hs⟩
      · exact (simpCall_keep hb hr).elim
      · exact ia a hm s b hs hr
    · exact worked_num
theorem simplifyL_worked : ∀ (es : List Elem) {es' : List Elem}, simplifyL cfg w es = .ok es' →
    ∀ a ∈ es', Worked w nb a
  | [], es', h => by rw [simplifyL] at h; cases h; simp
  | a :: as, es', h => by
    obtain ⟨a', as', ha, has, rfl⟩ := simplifyL_cons_ok h
    intro b hb
    rcases List.mem_cons.1 hb with rfl | hb
    · exact simplify_worked a ha
    · exact simplifyL_worked as has b hb
end

theorem simplifyFor_worked {x : Bytes} {v : F64} {e e' : Elem} (h : simplifyFor cfg w x v e = .ok e') :
    Worked w nb e' := by
  cases e with
  | num a => rw [simplifyFor] at h; cases h; exact worked_num
  | var k =>
    rw [simplifyFor] at h
    split at h <;> cases h
    · exact worked_num
    · exact worked_var
  | bin op l r => obtain ⟨_, _, _, _, hb⟩ := simplifyFor_bin_ok h; exact simplify_worked _ hb
  | un op a => obtain ⟨_, _, hb⟩ := simplifyFor_un_ok h; exact simplify_worked _ hb
  | call f args => obtain ⟨_, _, hb⟩ := simplifyFor_call_ok h; exact simplify_worked _ hb

end
end Xprs
