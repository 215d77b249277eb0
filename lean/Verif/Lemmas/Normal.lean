import Verif.Lemmas.Parse
/-
Trees that simplification leaves alone.
-/
namespace Xprs
open Spec

/-! ### Results of one node without the NIGHTLY arms -/

inductive StdShape (op : Op) (l r : Elem) : Elem → Prop
  | left : StdShape op l r l
  | right : StdShape op l r r
  | num (x) : StdShape op l r (.num x)
  | neg : op = .minus → StdShape op l r (.un .minus r)
  | same : StdShape op l r (.bin op l r)

theorem foldBin_std {w : World} {op : Op} {l r e : Elem} (h : foldBin w op l r = .ok e) :
    StdShape op l r e := by
  unfold foldBin at h
  split at h
  · rename_i a b
    cases hb : binF w op a b with
    | error p => simp [hb, Except.map] at h
    | ok v => simp [hb, Except.map] at h; subst h; exact .num v
  · cases h; exact .same

theorem simpBin_std {cfg : Cfg} {w : World} {op : Op} {l r e : Elem} (hc : cfg.nightly = false)
    (h : simpBin cfg w op l r = .ok e) : StdShape op l r e := by
  cases op with
  | plus =>
    unfold simpBin simpPlus at h
    simp only [hc] at h
    split at h
    · cases h; exact .right
    split at h
    · cases h; exact .left
    exact foldBin_std h
  | minus =>
    unfold simpBin simpMinus at h
    simp only [hc] at h
    split at h
    · cases h; exact .neg rfl
    split at h
    · cases h; exact .left
    exact guardEq_shape (Q := StdShape .minus l r) h (.num _) foldBin_std
  | times =>
    unfold simpBin simpTimes at h
    simp only [hc] at h
    split at h
    · cases h; exact .num _
    split at h
    · cases h; exact .num _
    split at h
    · cases h; exact .right
    split at h
    · cases h; exact .left
    exact foldBin_std h
  | divide =>
    unfold simpBin simpDivide at h
    simp only [hc] at h
    split at h
    · cases h; exact .num _
    split at h
    · cases h; exact .num _
    split at h
    · cases h; exact .num _
    split at h
    · cases h; exact .left
    exact guardEq_shape (Q := StdShape .divide l r) h (.num _) foldBin_std
  | power =>
    replace h : simpPower w l r = .ok e := h
    unfold simpPower at h
    split at h
    · cases h; exact .num _
    split at h
    · cases h; exact .num _
    split at h
    · cases h; exact .left
    exact foldBin_std h
  | modulo =>
    replace h : simpModulo w l r = .ok e := h
    unfold simpModulo at h
    split at h
    · cases h; exact .num _
    split at h
    · cases h; exact .num _
    split at h
    · cases h; exact .num _
    split at h
    · cases h; exact .num _
    exact guardEq_shape (Q := StdShape .modulo l r) h (.num _) foldBin_std
  | factorial => exact foldBin_std h

/-! ### Negated literals -/

theorem negLit_bin {op : Op} {l r : Elem} : NegLit (.bin op l r) ↔ NegLit l ∨ NegLit r := by
  unfold NegLit
  simp only [sub_bin]
  constructor
  · rintro ⟨c, h | h | h⟩
    · cases h
    · exact .inl ⟨c, h⟩
    · exact .inr ⟨c, h⟩
  · rintro (⟨c, h⟩ | ⟨c, h⟩)
    · exact ⟨c, .inr (.inl h)⟩
    · exact ⟨c, .inr (.inr h)⟩

theorem negLit_un {op : Op} {a : Elem} :
    NegLit (.un op a) ↔ NegLit a ∨ (op = .minus ∧ ∃ c, a = .num c) := by
  unfold NegLit
  simp only [sub_un]
  constructor
  · rintro ⟨c, h | h⟩
    · cases h; exact .inr ⟨rfl, c, rfl⟩
    · exact .inl ⟨c, h⟩
  · rintro (⟨c, h⟩ | ⟨rfl, c, rfl⟩)
    · exact ⟨c, .inr h⟩
    · exact ⟨c, .inl rfl⟩

theorem negLit_call {f : Func} {args : List Elem} :
    NegLit (.call f args) ↔ ∃ a ∈ args, NegLit a := by
  unfold NegLit
  simp only [sub_call]
  constructor
  · rintro ⟨c, h | ⟨a, ha, h⟩⟩
    · cases h
    · exact ⟨a, ha, c, h⟩
  · rintro ⟨a, ha, c, h⟩
    exact ⟨c, .inr ⟨a, ha, h⟩⟩

theorem negLit_num {x : F64} : ¬ NegLit (.num x) := by rintro ⟨c, h⟩; cases h
theorem negLit_var {n : Bytes} : ¬ NegLit (.var n) := by rintro ⟨c, h⟩; cases h

/-! ### Idempotence -/

theorem simplifyL_cons {cfg : Cfg} {w : World} {a b : Elem} {as bs : List Elem}
    (h : simplify cfg w a = .ok b) (h' : simplifyL cfg w as = .ok bs) :
    simplifyL cfg w (a :: as) = .ok (b :: bs) := by
  rw [simplifyL, h]; simp only [h']

theorem simplify_un_of {cfg : Cfg} {w : World} {op : Op} {a b : Elem} (h : simplify cfg w a = .ok b) :
    simplify cfg w (.un op a) = simpUn op b := by rw [simplify, h]

theorem simplify_bin_of {cfg : Cfg} {w : World} {op : Op} {l r l' r' : Elem}
    (hl : simplify cfg w l = .ok l') (hr : simplify cfg w r = .ok r') :
    simplify cfg w (.bin op l r) = simpBin cfg w op l' r' := by
  rw [simplify, hl]; simp only [hr]

theorem simplify_call_of {cfg : Cfg} {w : World} {f : Func} {as bs : List Elem}
    (h : simplifyL cfg w as = .ok bs) : simplify cfg w (.call f as) = simpCall w f bs := by
  rw [simplify, h]

mutual
theorem simplify_idem {cfg : Cfg} {w : World} (hc : cfg.nightly = false) :
    ∀ (e e' : Elem), simplify cfg w e = .ok e' → ¬ NegLit e' → simplify cfg w e' = .ok e'
  | .num x, e', h, _ => by rw [simplify] at h; cases h; rw [simplify]
  | .var x, e', h, _ => by rw [simplify] at h; cases h; rw [simplify]
  | .bin op l r, e', h, hn => by
    obtain ⟨l', r', hl, hr, hb⟩ := simplify_bin_ok h
    cases simpBin_std hc hb with
    | left => exact simplify_idem hc l _ hl hn
    | right => exact simplify_idem hc r _ hr hn
    | num x => rw [simplify]
    | neg ho =>
      have h1 : ¬ NegLit r' := fun hx => hn (negLit_un.2 (.inl hx))
      have h2 := simplify_idem hc r _ hr h1
      rw [simplify_un_of h2]
      cases r' with
      | num x => exact absurd (negLit_un.2 (.inr ⟨rfl, x, rfl⟩)) hn
      | _ => rfl
    | same =>
      rw [negLit_bin, not_or] at hn
      rw [simplify_bin_of (simplify_idem hc l _ hl hn.1) (simplify_idem hc r _ hr hn.2)]
      exact hb
  | .un op a, e', h, hn => by
    obtain ⟨a', ha, hb⟩ := simplify_un_ok h
    cases simpUn_shape hb with
    | same ho =>
      rw [negLit_un, not_or] at hn
      rw [simplify_un_of (simplify_idem hc a _ ha hn.1)]
      exact hb
    | operand => exact simplify_idem hc a _ ha hn
    | num x => rw [simplify]
  | .call f args, e', h, hn => by
    obtain ⟨args', ha, hb⟩ := simplify_call_ok h
    rcases simpCall_shape hb with rfl | ⟨x, rfl⟩
    · rw [simplify_call_of (simplifyL_idem hc args _ ha fun a hm hx => hn (negLit_call.2 ⟨a, hm, hx⟩))]
      exact hb
    · rw [simplify]
theorem simplifyL_idem {cfg : Cfg} {w : World} (hc : cfg.nightly = false) :
    ∀ (es es' : List Elem), simplifyL cfg w es = .ok es' → (∀ a ∈ es', ¬ NegLit a) →
      simplifyL cfg w es' = .ok es'
  | [], es', h, _ => by rw [simplifyL] at h; cases h; rw [simplifyL]
  | a :: as, es', h, hn => by
    obtain ⟨a', as', ha, has, rfl⟩ := simplifyL_cons_ok h
    exact simplifyL_cons (simplify_idem hc a _ ha (hn a' (by simp)))
      (simplifyL_idem hc as _ has fun b hb => hn b (by simp [hb]))
end

/-! ### Fixed points -/

theorem fix_bin {cfg : Cfg} {w : World} {op : Op} {l r : Elem}
    (h : simplify cfg w (.bin op l r) = .ok (.bin op l r)) :
    simplify cfg w l = .ok l ∧ simplify cfg w r = .ok r := by
  obtain ⟨l', r', hl, hr, hb⟩ := simplify_bin_ok h
  have h1 := simplify_size _ hl
  have h2 := simplify_size _ hr
  have hs := simpBin_shape hb
  generalize he : Elem.bin op l r = e at hs
  cases hs with
  | left => have := congrArg size he; simp only [size] at this; omega
  | right => have := congrArg size he; simp only [size] at this; omega
  | num x => cases he
  | neg _ => cases he
  | plus b ho hr' => cases he; cases ho
  | both a b ha hb' =>
    cases he
    rw [ha] at h1
    simp only [size] at h1; omega
  | same => cases he; exact ⟨hl, hr⟩

theorem fix_un {cfg : Cfg} {w : World} {op : Op} {a : Elem}
    (h : simplify cfg w (.un op a) = .ok (.un op a)) : simplify cfg w a = .ok a := by
  obtain ⟨a', ha, hb⟩ := simplify_un_ok h
  have h1 := simplify_size _ ha
  have hs := simpUn_shape hb
  generalize he : Elem.un op a = e at hs
  cases hs with
  | same _ => cases he; exact ha
  | operand => have := congrArg size he; simp only [size] at this; omega
  | num x => cases he

theorem fix_call {cfg : Cfg} {w : World} {f : Func} {args : List Elem}
    (h : simplify cfg w (.call f args) = .ok (.call f args)) : simplifyL cfg w args = .ok args := by
  obtain ⟨args', ha, hb⟩ := simplify_call_ok h
  rcases simpCall_shape hb with he | ⟨x, he⟩
  · cases he; exact ha
  · cases he

theorem fixL_cons {cfg : Cfg} {w : World} {a : Elem} {as : List Elem}
    (h : simplifyL cfg w (a :: as) = .ok (a :: as)) :
    simplify cfg w a = .ok a ∧ simplifyL cfg w as = .ok as := by
  obtain ⟨a', as', ha, has, he⟩ := simplifyL_cons_ok h
  cases he; exact ⟨ha, has⟩

mutual
/-- On a fixed point, simplifying for an absent variable does nothing. -/
theorem simplifyFor_fix {cfg : Cfg} {w : World} {x : Bytes} {v : F64} :
    ∀ e : Elem, simplify cfg w e = .ok e → ¬ Occurs x e → simplifyFor cfg w x v e = .ok e
  | .num y, _, _ => by rw [simplifyFor]
  | .var y, _, ho => by
    rw [simplifyFor, if_neg]
    rintro rfl; exact ho .here
  | .bin op l r, h, ho => by
    obtain ⟨h1, h2⟩ := fix_bin h
    rw [simplifyFor, simplifyFor_fix l h1 fun hx => ho (.left hx)]
    simp only [simplifyFor_fix r h2 fun hx => ho (.right hx)]
    exact h
  | .un op a, h, ho => by
    rw [simplifyFor, simplifyFor_fix a (fix_un h) fun hx => ho (.operand hx)]
    exact h
  | .call f args, h, ho => by
    rw [simplifyFor, simplifyForL_fix args (fix_call h) fun a ha hx => ho (.arg ha hx)]
    exact h
theorem simplifyForL_fix {cfg : Cfg} {w : World} {x : Bytes} {v : F64} :
    ∀ es : List Elem, simplifyL cfg w es = .ok es → (∀ a ∈ es, ¬ Occurs x a) →
      simplifyForL cfg w x v es = .ok es
  | [], _, _ => by rw [simplifyForL]
  | a :: as, h, ho => by
    obtain ⟨h1, h2⟩ := fixL_cons h
    rw [simplifyForL, simplifyFor_fix a h1 (ho a (by simp))]
    simp only [simplifyForL_fix as h2 fun b hb => ho b (by simp [hb])]
end

/-- What `simplify_for` returns is a simplified tree, or a leaf. -/
theorem simplifyFor_result {cfg : Cfg} {w : World} {x : Bytes} {v : F64} {e e' : Elem}
    (h : simplifyFor cfg w x v e = .ok e') : ∃ e0, simplify cfg w e0 = .ok e' := by
  cases e with
  | num y => rw [simplifyFor] at h; cases h; exact ⟨.num y, by rw [simplify]⟩
  | var y =>
    rw [simplifyFor] at h
    split at h <;> cases h
    · exact ⟨.num v, by rw [simplify]⟩
    · exact ⟨.var y, by rw [simplify]⟩
  | bin op l r => obtain ⟨l', r', _, _, hb⟩ := simplifyFor_bin_ok h; exact ⟨_, hb⟩
  | un op a => obtain ⟨a', _, hb⟩ := simplifyFor_un_ok h; exact ⟨_, hb⟩
  | call f args => obtain ⟨a', _, hb⟩ := simplifyFor_call_ok h; exact ⟨_, hb⟩

/-! ### Closed trees -/

/-- Two numbers are never left as operands. -/
theorem simpBin_nums {cfg : Cfg} {w : World} {op : Op} {a b : F64} {e : Elem}
    (h : simpBin cfg w op (.num a) (.num b) = .ok e) :
    (∃ c, e = .num c) ∨ (op = .minus ∧ e = .un .minus (.num b)) := by
  have fold : ∀ {op e}, foldBin w op (.num a) (.num b) = .ok e → ∃ c, e = .num c := by
    intro op e h
    unfold foldBin at h
    cases hb : binF w op a b with
    | error p => simp [hb, Except.map] at h
    | ok v => simp [hb, Except.map] at h; exact ⟨v, h.symm⟩
  have hs := simpBin_shape h
  cases hs with
  | left => exact .inl ⟨a, rfl⟩
  | right => exact .inl ⟨b, rfl⟩
  | num x => exact .inl ⟨x, rfl⟩
  | neg ho => exact .inr ⟨ho, rfl⟩
  | plus b ho hr => cases hr
  | both a b ha hb => cases ha
  | same =>
    exfalso
    have hne : ∀ {e : Elem}, (∃ c, e = .num c) → e ≠ .bin op (.num a) (.num b) := by
      rintro e ⟨c, rfl⟩ h; cases h
    have hfold := fun (h : foldBin w op (.num a) (.num b) = .ok (.bin op (.num a) (.num b))) =>
      hne (fold h) rfl
    cases op with
    | plus =>
      unfold simpBin simpPlus at h
      simp only [show ∀ x : F64, (Elem.num x).negOf? = none from fun _ => rfl] at h
      cases hnn : cfg.nightly <;> simp only [hnn] at h
      all_goals repeat' split at h
      all_goals first | cases h | exact hfold h
    | minus =>
      unfold simpBin simpMinus at h
      simp only [show ∀ x : F64, (Elem.num x).negOf? = none from fun _ => rfl] at h
      cases hnn : cfg.nightly <;> simp only [hnn, guardEq] at h
      all_goals repeat' split at h
      all_goals first | cases h | exact hfold h
    | times =>
      unfold simpBin simpTimes at h
      simp only [show ∀ x : F64, (Elem.num x).negOf? = none from fun _ => rfl] at h
      cases hnn : cfg.nightly <;> simp only [hnn] at h
      all_goals repeat' split at h
      all_goals first | cases h | exact hfold h
    | divide =>
      unfold simpBin simpDivide at h
      simp only [show ∀ x : F64, (Elem.num x).negOf? = none from fun _ => rfl] at h
      cases hnn : cfg.nightly <;> simp only [hnn, guardEq] at h
      all_goals repeat' split at h
      all_goals first | cases h | exact hfold h
    | power =>
      replace h : simpPower w (.num a) (.num b) = _ := h
      unfold simpPower at h
      split at h
      · cases h
      split at h
      · cases h
      split at h
      · cases h
      exact hfold h
    | modulo =>
      replace h : simpModulo w (.num a) (.num b) = _ := h
      unfold simpModulo at h
      split at h
      · cases h
      split at h
      · cases h
      split at h
      · cases h
      split at h
      · cases h
      unfold guardEq at h
      split at h
      · cases h
      · cases h
      · exact hfold h
    | factorial => exact hfold h

theorem numsOf_all : ∀ {args : List Elem}, (∀ a ∈ args, ∃ c, a = .num c) →
    (numsOf args).length = args.length
  | [], _ => rfl
  | a :: as, h => by
    obtain ⟨c, rfl⟩ := h a (by simp)
    have := numsOf_all (args := as) fun b hb => h b (List.mem_cons_of_mem _ hb)
    simp [numsOf, this]

theorem simpCall_nums {w : World} {f : Func} {args : List Elem} {e : Elem}
    (ha : ∀ a ∈ args, ∃ c, a = .num c) (h : simpCall w f args = .ok e) : ∃ c, e = .num c := by
  unfold simpCall at h
  rw [if_pos (numsOf_all ha)] at h
  cases hf : callFn w f (numsOf args) with
  | error p => simp [hf, Except.map] at h
  | ok v => simp [hf, Except.map] at h; exact ⟨v, h.symm⟩

/-- A fixed point without variables is a number. -/
theorem fix_closed {cfg : Cfg} {w : World} : ∀ e : Elem, simplify cfg w e = .ok e →
    (∀ n, ¬ Occurs n e) → ∃ c, e = .num c := by
  intro e
  induction e using Elem.ind with
  | num x => intro _ _; exact ⟨x, rfl⟩
  | var n => intro _ h; exact absurd .here (h n)
  | bin op l r ihl ihr =>
    intro h ho
    obtain ⟨hl, hr⟩ := fix_bin h
    obtain ⟨a, rfl⟩ := ihl hl fun n hn => ho n (.left hn)
    obtain ⟨b, rfl⟩ := ihr hr fun n hn => ho n (.right hn)
    rw [simplify_bin_of hl hr] at h
    rcases simpBin_nums h with ⟨c, hc⟩ | ⟨_, hc⟩ <;> cases hc
  | un op a ih =>
    intro h ho
    have ha := fix_un h
    obtain ⟨c, rfl⟩ := ih ha fun n hn => ho n (.operand hn)
    rw [simplify_un_of ha] at h
    unfold simpUn at h
    cases op <;> simp at h
    cases hf : factorial c <;> simp [hf, Except.map] at h
  | call f args ih =>
    intro h ho
    have ha := fix_call h
    have hall : ∀ a ∈ args, ∃ c, a = .num c := by
      clear h
      induction args with
      | nil => simp
      | cons b bs ihb =>
        obtain ⟨h1, h2⟩ := fixL_cons ha
        intro a hm
        rcases List.mem_cons.1 hm with rfl | hm
        · exact ih a (by simp) h1 fun n hn => ho n (.arg (by simp) hn)
        · refine ihb (fun a ha => ih a (by simp [ha])) (fun n hn => ?_) h2 a hm
          rcases occurs_call.1 hn with ⟨c, hc, hn⟩
          exact ho n (.arg (by simp [hc]) hn)
    rw [simplify_call_of ha] at h
    obtain ⟨c, hc⟩ := simpCall_nums hall h
    cases hc

/-! ### Without subtraction -/

theorem noSub_bin {op : Op} {l r : Elem} : NoSub (.bin op l r) ↔ op ≠ .minus ∧ NoSub l ∧ NoSub r := by
  constructor
  · intro h
    refine ⟨?_, fun a b hs => h a b (.left hs), fun a b hs => h a b (.right hs)⟩
    rintro rfl; exact h l r .refl
  · rintro ⟨ho, h1, h2⟩ a b hs
    cases hs with
    | refl => exact ho rfl
    | left hs => exact h1 a b hs
    | right hs => exact h2 a b hs

theorem noSub_un {op : Op} {a : Elem} : NoSub (.un op a) ↔ NoSub a := by
  constructor
  · intro h x y hs; exact h x y (.operand hs)
  · intro h x y hs; cases hs with | operand hs => exact h x y hs

theorem noSub_call {f : Func} {args : List Elem} : NoSub (.call f args) ↔ ∀ a ∈ args, NoSub a := by
  constructor
  · intro h a ha x y hs; exact h x y (.arg ha hs)
  · intro h x y hs; cases hs with | arg ha hs => exact h _ ha x y hs

theorem noSub_num {x : F64} : NoSub (.num x) := by intro a b h; cases h
theorem noSub_var {n : Bytes} : NoSub (.var n) := by intro a b h; cases h

/-- Simplifying a tree without subtractions yields one, and if that is closed it is a
number. -/
theorem simplify_noSub {cfg : Cfg} {w : World} : ∀ e e' : Elem, simplify cfg w e = .ok e' → NoSub e →
    NoSub e' ∧ ((∀ n, ¬ Occurs n e') → ∃ c, e' = .num c) := by
  intro e
  induction e using Elem.ind with
  | num x =>
    intro e' h _; rw [simplify] at h; cases h; exact ⟨noSub_num, fun _ => ⟨x, rfl⟩⟩
  | var n =>
    intro e' h _; rw [simplify] at h; cases h; exact ⟨noSub_var, fun h => absurd .here (h n)⟩
  | bin op l r ihl ihr =>
    intro e' h hn
    obtain ⟨l', r', hl, hr, hb⟩ := simplify_bin_ok h
    obtain ⟨ho, hnl, hnr⟩ := noSub_bin.1 hn
    obtain ⟨l1, l2⟩ := ihl _ hl hnl
    obtain ⟨r1, r2⟩ := ihr _ hr hnr
    have hs := simpBin_shape hb
    cases hs with
    | left => exact ⟨l1, l2⟩
    | right => exact ⟨r1, r2⟩
    | num x => exact ⟨noSub_num, fun _ => ⟨x, rfl⟩⟩
    | neg hm => exact absurd hm ho
    | plus b hm _ => exact absurd hm ho
    | both a b ha hb' =>
      subst ha hb'
      refine ⟨noSub_bin.2 ⟨ho, noSub_un.1 l1, noSub_un.1 r1⟩, fun hc => ?_⟩
      obtain ⟨c, hcc⟩ := l2 fun n hn => by
        cases hn with | operand hn => exact hc n (.left hn)
      cases hcc
    | same =>
      refine ⟨noSub_bin.2 ⟨ho, l1, r1⟩, fun hc => ?_⟩
      obtain ⟨a, rfl⟩ := l2 fun n hn => hc n (.left hn)
      obtain ⟨b, rfl⟩ := r2 fun n hn => hc n (.right hn)
      rcases simpBin_nums hb with ⟨c, hc⟩ | ⟨h, _⟩
      · cases hc
      · exact absurd h ho
  | un op a ih =>
    intro e' h hn
    obtain ⟨a', ha, hb⟩ := simplify_un_ok h
    obtain ⟨a1, a2⟩ := ih _ ha (noSub_un.1 hn)
    cases simpUn_shape hb with
    | operand => exact ⟨a1, a2⟩
    | num x => exact ⟨noSub_num, fun _ => ⟨x, rfl⟩⟩
    | same ho =>
      refine ⟨noSub_un.2 a1, fun hc => ?_⟩
      obtain ⟨c, rfl⟩ := a2 fun n hn => hc n (.operand hn)
      unfold simpUn at hb
      cases op <;> simp at hb
      cases hf : factorial c <;> simp [hf, Except.map] at hb
  | call f args ih =>
    intro e' h hn
    obtain ⟨args', ha, hb⟩ := simplify_call_ok h
    have hall : ∀ a ∈ args', NoSub a ∧ ((∀ n, ¬ Occurs n a) → ∃ c, a = .num c) := by
      clear h hb
      rw [noSub_call] at hn
      induction args generalizing args' with
      | nil => rw [simplifyL] at ha; cases ha; simp
      | cons b bs ihb =>
        obtain ⟨b', bs', h1, h2, rfl⟩ := simplifyL_cons_ok ha
        intro a hm
        rcases List.mem_cons.1 hm with rfl | hm
        · exact ih b (by simp) _ h1 (hn b (by simp))
        · exact ihb (fun a ha => ih a (by simp [ha])) (fun a ha => hn a (by simp [ha])) bs' h2 a hm
    rcases simpCall_shape hb with rfl | ⟨x, rfl⟩
    · refine ⟨noSub_call.2 fun a ha => (hall a ha).1, fun hc => ?_⟩
      exact simpCall_nums (fun a ha => (hall a ha).2 fun n hn => hc n (.arg ha hn)) hb
    · exact ⟨noSub_num, fun _ => ⟨x, rfl⟩⟩

end Xprs
