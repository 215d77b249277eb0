import Verif.Lemmas.Eval
/-
Facts about simplification: the shape of its results, what it preserves, and that it
does not panic on proper trees.
-/
namespace Xprs
open Spec
set_option linter.unusedSimpArgs false

/-! ### Shape of the results -/

/-- What simplifying a binary node with simplified operands can produce. -/
inductive BinShape (op : Op) (l r : Elem) : Elem → Prop
  | left : BinShape op l r l
  | right : BinShape op l r r
  | num (x) : BinShape op l r (.num x)
  | neg : op = .minus → BinShape op l r (.un .minus r)
  | plus (b) : op = .minus → r = .un .minus b → BinShape op l r (.bin .plus l b)
  | both (a b) : l = .un .minus a → r = .un .minus b → BinShape op l r (.bin op a b)
  | same : BinShape op l r (.bin op l r)

theorem negOf_some {e a : Elem} (h : e.negOf? = some a) : e = .un .minus a := by
  unfold Elem.negOf? at h
  split at h
  · cases h; rfl
  · cases h

theorem foldBin_shape {w : World} {op : Op} {l r e : Elem} (h : foldBin w op l r = .ok e) :
    BinShape op l r e := by
  unfold foldBin at h
  split at h
  · rename_i a b
    cases hb : binF w op a b with
    | error p => simp [hb, Except.map] at h
    | ok v => simp [hb, Except.map] at h; subst h; exact .num v
  · cases h; exact .same

theorem guardEq_shape {a b res e : Elem} {rest : PM Elem} {Q : Elem → Prop}
    (h : guardEq a b res rest = .ok e) (h1 : Q res) (h2 : rest = .ok e → Q e) : Q e := by
  unfold guardEq at h
  split at h
  · cases h
  · cases h; exact h1
  · exact h2 h

theorem simpPlus_shape {cfg : Cfg} {w : World} {l r e : Elem} (h : simpPlus cfg w l r = .ok e) :
    BinShape .plus l r e := by
  unfold simpPlus at h
  split at h
  · cases h; exact .right
  split at h
  · cases h; exact .left
  · simp only at h
    have tail : ∀ e, (match cfg.nightly, r.negOf? with
        | true, some operand => guardEq l operand (.num F64.f0) (foldBin w .plus l r)
        | _, _ => foldBin w .plus l r) = .ok e → BinShape .plus l r e := by
      intro e h
      split at h
      · exact guardEq_shape h (.num _) foldBin_shape
      · exact foldBin_shape h
    split at h
    · exact guardEq_shape h (.num _) (tail e)
    · exact tail e h

theorem simpMinus_shape {cfg : Cfg} {w : World} {l r e : Elem} (h : simpMinus cfg w l r = .ok e) :
    BinShape .minus l r e := by
  unfold simpMinus at h
  split at h
  · cases h; exact .neg rfl
  split at h
  · cases h; exact .left
  · refine guardEq_shape h (.num _) ?_
    intro h
    split at h
    · rename_i hn
      cases h
      exact .plus _ rfl (negOf_some hn)
    · exact foldBin_shape h

theorem simpTimes_shape {cfg : Cfg} {w : World} {l r e : Elem} (h : simpTimes cfg w l r = .ok e) :
    BinShape .times l r e := by
  unfold simpTimes at h
  split at h
  · cases h; exact .num _
  split at h
  · cases h; exact .num _
  split at h
  · cases h; exact .right
  split at h
  · cases h; exact .left
  split at h
  · rename_i h1 h2; cases h; exact .both _ _ (negOf_some h1) (negOf_some h2)
  · exact foldBin_shape h

theorem simpDivide_shape {cfg : Cfg} {w : World} {l r e : Elem}
    (h : simpDivide cfg w l r = .ok e) : BinShape .divide l r e := by
  unfold simpDivide at h
  split at h
  · cases h; exact .num _
  split at h
  · cases h; exact .num _
  split at h
  · cases h; exact .num _
  split at h
  · cases h; exact .left
  · refine guardEq_shape h (.num _) ?_
    intro h
    split at h
    · rename_i h1 h2; cases h; exact .both _ _ (negOf_some h1) (negOf_some h2)
    · first
      | exact foldBin_shape h
      | split at h
        · cases h; exact .num _
        · exact foldBin_shape h

theorem simpPower_shape {w : World} {l r e : Elem} (h : simpPower w l r = .ok e) :
    BinShape .power l r e := by
  unfold simpPower at h
  split at h
  · cases h; exact .num _
  split at h
  · cases h; exact .num _
  split at h
  · cases h; exact .left
  · exact foldBin_shape h

theorem simpModulo_shape {w : World} {l r e : Elem} (h : simpModulo w l r = .ok e) :
    BinShape .modulo l r e := by
  unfold simpModulo at h
  split at h
  · cases h; exact .num _
  split at h
  · cases h; exact .num _
  split at h
  · cases h; exact .num _
  split at h
  · cases h; exact .num _
  · exact guardEq_shape h (.num _) foldBin_shape

theorem simpBin_shape {cfg : Cfg} {w : World} {op : Op} {l r e : Elem}
    (h : simpBin cfg w op l r = .ok e) : BinShape op l r e := by
  cases op with
  | plus => exact simpPlus_shape h
  | minus => exact simpMinus_shape h
  | times => exact simpTimes_shape h
  | divide => exact simpDivide_shape h
  | power => exact simpPower_shape h
  | modulo => exact simpModulo_shape h
  | factorial => exact foldBin_shape h

/-- What simplifying a unary node with a simplified operand can produce. -/
inductive UnShape (op : Op) (a : Elem) : Elem → Prop
  | same : (op = .minus ∨ op = .factorial) → UnShape op a (.un op a)
  | operand : UnShape op a a
  | num (x) : UnShape op a (.num x)

theorem simpUn_shape {op : Op} {a e : Elem} (h : simpUn op a = .ok e) : UnShape op a e := by
  unfold simpUn at h
  split at h
  · cases h; exact .operand
  · split at h
    · rename_i x
      cases hf : factorial x with
      | error p => simp [hf, Except.map] at h
      | ok v => simp [hf, Except.map] at h; subst h; exact .num v
    · cases h; exact .same (Or.inr rfl)
  · split at h
    · cases h; exact .num _
    · cases h; exact .same (Or.inl rfl)
  · cases h

theorem simpCall_shape {w : World} {f : Func} {args : List Elem} {e : Elem}
    (h : simpCall w f args = .ok e) : e = .call f args ∨ ∃ x, e = .num x := by
  unfold simpCall at h
  split at h
  · cases hf : callFn w f (numsOf args) with
    | error p => simp [hf, Except.map] at h
    | ok v => simp [hf, Except.map] at h; subst h; exact Or.inr ⟨v, rfl⟩
  · cases h; exact Or.inl rfl

/-! ### Decomposition of `simplify` and `simplifyFor` -/

theorem simplify_bin_ok {cfg : Cfg} {w : World} {op : Op} {l r e : Elem}
    (h : simplify cfg w (.bin op l r) = .ok e) :
    ∃ l' r', simplify cfg w l = .ok l' ∧ simplify cfg w r = .ok r' ∧
      simpBin cfg w op l' r' = .ok e := by
  rw [simplify] at h
  split at h
  · cases h
  · rename_i l' hl
    split at h
    · cases h
    · rename_i r' hr
      exact ⟨l', r', hl, hr, h⟩

theorem simplify_un_ok {cfg : Cfg} {w : World} {op : Op} {a e : Elem}
    (h : simplify cfg w (.un op a) = .ok e) :
    ∃ a', simplify cfg w a = .ok a' ∧ simpUn op a' = .ok e := by
  rw [simplify] at h
  split at h
  · cases h
  · rename_i a' ha; exact ⟨a', ha, h⟩

theorem simplify_call_ok {cfg : Cfg} {w : World} {f : Func} {args : List Elem} {e : Elem}
    (h : simplify cfg w (.call f args) = .ok e) :
    ∃ args', simplifyL cfg w args = .ok args' ∧ simpCall w f args' = .ok e := by
  rw [simplify] at h
  split at h
  · cases h
  · rename_i a' ha; exact ⟨a', ha, h⟩

theorem simplifyL_cons_ok {cfg : Cfg} {w : World} {a : Elem} {as es : List Elem}
    (h : simplifyL cfg w (a :: as) = .ok es) :
    ∃ a' as', simplify cfg w a = .ok a' ∧ simplifyL cfg w as = .ok as' ∧ es = a' :: as' := by
  rw [simplifyL] at h
  split at h
  · cases h
  · rename_i a' ha
    split at h
    · cases h
    · rename_i as' has
      cases h
      exact ⟨a', as', ha, has, rfl⟩

theorem simplifyFor_bin_ok {cfg : Cfg} {w : World} {x : Bytes} {v : F64} {op : Op} {l r e : Elem}
    (h : simplifyFor cfg w x v (.bin op l r) = .ok e) :
    ∃ l' r', simplifyFor cfg w x v l = .ok l' ∧ simplifyFor cfg w x v r = .ok r' ∧
      simplify cfg w (.bin op l' r') = .ok e := by
  rw [simplifyFor] at h
  split at h
  · cases h
  · rename_i l' hl
    split at h
    · cases h
    · rename_i r' hr
      exact ⟨l', r', hl, hr, h⟩

theorem simplifyFor_un_ok {cfg : Cfg} {w : World} {x : Bytes} {v : F64} {op : Op} {a e : Elem}
    (h : simplifyFor cfg w x v (.un op a) = .ok e) :
    ∃ a', simplifyFor cfg w x v a = .ok a' ∧ simplify cfg w (.un op a') = .ok e := by
  rw [simplifyFor] at h
  split at h
  · cases h
  · rename_i a' ha; exact ⟨a', ha, h⟩

theorem simplifyFor_call_ok {cfg : Cfg} {w : World} {x : Bytes} {v : F64} {f : Func}
    {args : List Elem} {e : Elem} (h : simplifyFor cfg w x v (.call f args) = .ok e) :
    ∃ args', simplifyForL cfg w x v args = .ok args' ∧ simplify cfg w (.call f args') = .ok e := by
  rw [simplifyFor] at h
  split at h
  · cases h
  · rename_i a' ha; exact ⟨a', ha, h⟩

theorem simplifyForL_cons_ok {cfg : Cfg} {w : World} {x : Bytes} {v : F64} {a : Elem}
    {as es : List Elem} (h : simplifyForL cfg w x v (a :: as) = .ok es) :
    ∃ a' as', simplifyFor cfg w x v a = .ok a' ∧ simplifyForL cfg w x v as = .ok as' ∧
      es = a' :: as' := by
  rw [simplifyForL] at h
  split at h
  · cases h
  · rename_i a' ha
    split at h
    · cases h
    · rename_i as' has
      cases h
      exact ⟨a', as', ha, has, rfl⟩

/-! ### Variables -/

theorem BinShape.occurs {op : Op} {l r e : Elem} {n : Bytes} (h : BinShape op l r e)
    (ho : Occurs n e) : Occurs n l ∨ Occurs n r := by
  cases h with
  | left => exact .inl ho
  | right => exact .inr ho
  | num x => simp at ho
  | neg _ => simp at ho; exact .inr ho
  | plus b _ hr => subst hr; simpa using ho
  | both a b hl hr => subst hl hr; simpa using ho
  | same => simpa using ho

theorem UnShape.occurs {op : Op} {a e : Elem} {n : Bytes} (h : UnShape op a e)
    (ho : Occurs n e) : Occurs n a := by
  cases h with
  | same _ => simpa using ho
  | operand => exact ho
  | num x => simp at ho

mutual
theorem simplify_occurs {cfg : Cfg} {w : World} {n : Bytes} : ∀ (e : Elem) {e' : Elem},
    simplify cfg w e = .ok e' → Occurs n e' → Occurs n e
  | .num x, e', h, ho => by rw [simplify] at h; cases h; exact ho
  | .var x, e', h, ho => by rw [simplify] at h; cases h; exact ho
  | .bin op l r, e', h, ho => by
    obtain ⟨l', r', hl, hr, hb⟩ := simplify_bin_ok h
    rw [occurs_bin]
    exact ((simpBin_shape hb).occurs ho).imp (simplify_occurs l hl) (simplify_occurs r hr)
  | .un op a, e', h, ho => by
    obtain ⟨a', ha, hb⟩ := simplify_un_ok h
    rw [occurs_un]
    exact simplify_occurs a ha ((simpUn_shape hb).occurs ho)
  | .call f args, e', h, ho => by
    obtain ⟨args', ha, hb⟩ := simplify_call_ok h
    rcases simpCall_shape hb with rfl | ⟨x, rfl⟩
    · rw [occurs_call] at ho ⊢
      exact simplifyL_occurs args ha ho
    · simp at ho
theorem simplifyL_occurs {cfg : Cfg} {w : World} {n : Bytes} : ∀ (es : List Elem) {es' : List Elem},
    simplifyL cfg w es = .ok es' → (∃ a ∈ es', Occurs n a) → ∃ a ∈ es, Occurs n a
  | [], es', h, ho => by rw [simplifyL] at h; cases h; exact ho
  | a :: as, es', h, ho => by
    obtain ⟨a', as', ha, has, rfl⟩ := simplifyL_cons_ok h
    obtain ⟨b, hb, ho⟩ := ho
    rcases List.mem_cons.1 hb with rfl | hb
    · exact ⟨a, by simp, simplify_occurs a ha ho⟩
    · obtain ⟨c, hc, hco⟩ := simplifyL_occurs as has ⟨b, hb, ho⟩
      exact ⟨c, by simp [hc], hco⟩
end

mutual
theorem simplifyFor_occurs {cfg : Cfg} {w : World} {x n : Bytes} {v : F64} :
    ∀ (e : Elem) {e' : Elem}, simplifyFor cfg w x v e = .ok e' → Occurs n e' →
      Occurs n e ∧ n ≠ x
  | .num y, e', h, ho => by rw [simplifyFor] at h; cases h; simp at ho
  | .var y, e', h, ho => by
    rw [simplifyFor] at h
    split at h
    · cases h; simp at ho
    · rename_i hne
      cases h
      refine ⟨ho, ?_⟩
      simp at ho
      subst ho; exact hne
  | .bin op l r, e', h, ho => by
    obtain ⟨l', r', hl, hr, hb⟩ := simplifyFor_bin_ok h
    have := simplify_occurs _ hb ho
    rw [occurs_bin] at this ⊢
    rcases this with h | h
    · exact (simplifyFor_occurs l hl h).imp_left .inl
    · exact (simplifyFor_occurs r hr h).imp_left .inr
  | .un op a, e', h, ho => by
    obtain ⟨a', ha, hb⟩ := simplifyFor_un_ok h
    have := simplify_occurs _ hb ho
    rw [occurs_un] at this ⊢
    exact simplifyFor_occurs a ha this
  | .call f args, e', h, ho => by
    obtain ⟨args', ha, hb⟩ := simplifyFor_call_ok h
    have := simplify_occurs _ hb ho
    rw [occurs_call] at this ⊢
    exact simplifyForL_occurs args ha this
theorem simplifyForL_occurs {cfg : Cfg} {w : World} {x n : Bytes} {v : F64} :
    ∀ (es : List Elem) {es' : List Elem}, simplifyForL cfg w x v es = .ok es' →
      (∃ a ∈ es', Occurs n a) → (∃ a ∈ es, Occurs n a) ∧ n ≠ x
  | [], es', h, ho => by rw [simplifyForL] at h; cases h; simp at ho
  | a :: as, es', h, ho => by
    obtain ⟨a', as', ha, has, rfl⟩ := simplifyForL_cons_ok h
    obtain ⟨b, hb, ho⟩ := ho
    rcases List.mem_cons.1 hb with rfl | hb
    · exact (simplifyFor_occurs a ha ho).imp_left fun h => ⟨a, by simp, h⟩
    · obtain ⟨⟨c, hc, hco⟩, hne⟩ := simplifyForL_occurs as has ⟨b, hb, ho⟩
      exact ⟨⟨c, by simp [hc], hco⟩, hne⟩
end

/-! ### Length of argument lists -/

theorem simplifyL_length {cfg : Cfg} {w : World} : ∀ (es : List Elem) {es' : List Elem},
    simplifyL cfg w es = .ok es' → es'.length = es.length
  | [], es', h => by rw [simplifyL] at h; cases h; rfl
  | a :: as, es', h => by
    obtain ⟨a', as', ha, has, rfl⟩ := simplifyL_cons_ok h
    simp [simplifyL_length as has]

theorem simplifyForL_length {cfg : Cfg} {w : World} {x : Bytes} {v : F64} :
    ∀ (es : List Elem) {es' : List Elem},
    simplifyForL cfg w x v es = .ok es' → es'.length = es.length
  | [], es', h => by rw [simplifyForL] at h; cases h; rfl
  | a :: as, es', h => by
    obtain ⟨a', as', ha, has, rfl⟩ := simplifyForL_cons_ok h
    simp [simplifyForL_length as has]

/-! ### Equality on proper trees does not panic -/

theorem andM_ok {x y : PM Bool} (hx : ∃ a, x = .ok a) (hy : ∃ b, y = .ok b) :
    ∃ c, andM x y = .ok c := by
  obtain ⟨a, rfl⟩ := hx; obtain ⟨b, rfl⟩ := hy
  cases a <;> exact ⟨_, rfl⟩

theorem orM_ok {x y : PM Bool} (hx : ∃ a, x = .ok a) (hy : ∃ b, y = .ok b) :
    ∃ c, orM x y = .ok c := by
  obtain ⟨a, rfl⟩ := hx; obtain ⟨b, rfl⟩ := hy
  cases a <;> exact ⟨_, rfl⟩

mutual
theorem eqE_total {P : Func → Prop} : ∀ (a b : Elem), Proper P a → ∃ c, eqE a b = .ok c
  | .num x, b, _ => by cases b <;> exact ⟨_, rfl⟩
  | .var x, b, _ => by cases b <;> exact ⟨_, rfl⟩
  | .un op e, b, h => by
    cases b with
    | un op' e' =>
      rw [eqE]
      split
      · cases h with | un _ he => exact eqE_total e e' he
      · exact ⟨_, rfl⟩
    | _ => exact ⟨_, rfl⟩
  | .bin op l r, b, h => by
    cases h with
    | bin ho hl hr =>
      cases b with
      | bin op' l' r' =>
        unfold eqE
        split
        · cases op with
          | factorial => exact absurd rfl ho
          | plus =>
            exact orM_ok (andM_ok (eqE_total l l' hl) (eqE_total r r' hr))
              (andM_ok (eqE_total l r' hl) (eqE_total r l' hr))
          | times =>
            exact orM_ok (andM_ok (eqE_total l l' hl) (eqE_total r r' hr))
              (andM_ok (eqE_total l r' hl) (eqE_total r l' hr))
          | _ => exact andM_ok (eqE_total l l' hl) (eqE_total r r' hr)
        · exact ⟨_, rfl⟩
      | _ => exact ⟨_, rfl⟩
  | .call f args, b, h => by
    cases h with
    | call _ _ ha =>
      cases b with
      | call g bs =>
        rw [eqE]
        split
        · split
          · exact eqEs_total args bs ha
          · exact ⟨_, rfl⟩
        · exact ⟨_, rfl⟩
      | _ => exact ⟨_, rfl⟩
theorem eqEs_total {P : Func → Prop} : ∀ (as bs : List Elem), (∀ a ∈ as, Proper P a) →
    ∃ c, eqEs as bs = .ok c
  | [], bs, _ => ⟨true, by rw [eqEs]; simp⟩
  | a :: as, [], _ => ⟨true, by rw [eqEs]; simp⟩
  | a :: as, b :: bs, h => by
    rw [eqEs]
    exact andM_ok (eqE_total a b (h a (by simp))) (eqEs_total as bs fun c hc => h c (by simp [hc]))
end

/-! ### Proper trees: simplification succeeds and stays proper -/

theorem _root_.Xprs.Spec.Proper.neg_inv {P : Func → Prop} {op : Op} {a : Elem} (h : Proper P (.un op a)) :
    Proper P a := by cases h; assumption

theorem BinShape.proper {P : Func → Prop} {op : Op} {l r e : Elem} (h : BinShape op l r e)
    (ho : op ≠ .factorial) (hl : Proper P l) (hr : Proper P r) : Proper P e := by
  cases h with
  | left => exact hl
  | right => exact hr
  | num x => exact .num x
  | neg _ => exact .un (Or.inr (Or.inl rfl)) hr
  | plus b _ hb => subst hb; exact .bin (by decide) hl hr.neg_inv
  | both a b ha hb => subst ha hb; exact .bin ho hl.neg_inv hr.neg_inv
  | same => exact .bin ho hl hr

theorem UnShape.proper {P : Func → Prop} {op : Op} {a e : Elem} (h : UnShape op a e)
    (ha : Proper P a) : Proper P e := by
  cases h with
  | same ho => exact .un (Or.inr ho) ha
  | operand => exact ha
  | num x => exact .num x

theorem foldBin_total (w : World) {op : Op} (ho : op ≠ .factorial) (l r : Elem) :
    ∃ e, foldBin w op l r = .ok e := by
  unfold foldBin
  split
  · rename_i a b
    obtain ⟨v, hv⟩ := binF_total w ho a b
    exact ⟨_, by rw [hv]; rfl⟩
  · exact ⟨_, rfl⟩

theorem guardEq_total {P : Func → Prop} {a b res : Elem} {rest : PM Elem} (ha : Proper P a)
    (hr : ∃ e, rest = .ok e) : ∃ e, guardEq a b res rest = .ok e := by
  unfold guardEq
  obtain ⟨c, hc⟩ := eqE_total a b ha
  rw [hc]
  cases c
  · exact hr
  · exact ⟨_, rfl⟩

theorem simpBin_total {P : Func → Prop} (cfg : Cfg) (w : World) {op : Op} (ho : op ≠ .factorial)
    {l r : Elem} (hl : Proper P l) : ∃ e, simpBin cfg w op l r = .ok e := by
  have hneg : ∀ {a}, l.negOf? = some a → Proper P a := by
    intro a h; rw [negOf_some h] at hl; exact hl.neg_inv
  cases op with
  | factorial => exact absurd rfl ho
  | plus =>
    show ∃ e, simpPlus cfg w l r = .ok e
    unfold simpPlus
    split
    · exact ⟨_, rfl⟩
    split
    · exact ⟨_, rfl⟩
    · simp only
      have tail : ∃ e, (match cfg.nightly, r.negOf? with
          | true, some operand => guardEq l operand (.num F64.f0) (foldBin w .plus l r)
          | _, _ => foldBin w .plus l r) = .ok e := by
        split
        · exact guardEq_total hl (foldBin_total w ho l r)
        · exact foldBin_total w ho l r
      split
      · rename_i h; exact guardEq_total (hneg h) tail
      · exact tail
  | minus =>
    show ∃ e, simpMinus cfg w l r = .ok e
    unfold simpMinus
    split
    · exact ⟨_, rfl⟩
    split
    · exact ⟨_, rfl⟩
    · refine guardEq_total hl ?_
      split
      · exact ⟨_, rfl⟩
      · exact foldBin_total w ho l r
  | times =>
    show ∃ e, simpTimes cfg w l r = .ok e
    unfold simpTimes
    repeat' split
    all_goals first | exact ⟨_, rfl⟩ | exact foldBin_total w ho l r
  | divide =>
    show ∃ e, simpDivide cfg w l r = .ok e
    unfold simpDivide
    split
    · exact ⟨_, rfl⟩
    split
    · exact ⟨_, rfl⟩
    split
    · exact ⟨_, rfl⟩
    split
    · exact ⟨_, rfl⟩
    · refine guardEq_total hl ?_
      repeat' split
      all_goals first | exact ⟨_, rfl⟩ | exact foldBin_total w ho l r
  | power =>
    show ∃ e, simpPower w l r = .ok e
    unfold simpPower
    repeat' split
    all_goals first | exact ⟨_, rfl⟩ | exact foldBin_total w ho l r
  | modulo =>
    show ∃ e, simpModulo w l r = .ok e
    unfold simpModulo
    split
    · exact ⟨_, rfl⟩
    split
    · exact ⟨_, rfl⟩
    split
    · exact ⟨_, rfl⟩
    split
    · exact ⟨_, rfl⟩
    · exact guardEq_total hl (foldBin_total w ho l r)

theorem simpUn_total {op : Op} (h : op = .plus ∨ op = .minus ∨ op = .factorial) (a : Elem) :
    ∃ e, simpUn op a = .ok e := by
  rcases h with rfl | rfl | rfl
  · exact ⟨_, rfl⟩
  · unfold simpUn; simp only; split <;> exact ⟨_, rfl⟩
  · unfold simpUn; simp only
    split
    · rename_i x
      obtain ⟨v, hv⟩ := factorial_ok x
      exact ⟨_, by rw [hv]; rfl⟩
    · exact ⟨_, rfl⟩

theorem simpCall_total {w : World} {f : Func} (hf : FnTotal w f) {args : List Elem}
    (ha : ArityOk f args.length) : ∃ e, simpCall w f args = .ok e := by
  unfold simpCall
  split
  · rename_i h
    obtain ⟨v, hv⟩ := hf (numsOf args) (by rw [h]; exact ha)
    exact ⟨_, by rw [hv]; rfl⟩
  · exact ⟨_, rfl⟩

mutual
theorem simplify_proper {P : Func → Prop} (cfg : Cfg) (w : World) (hP : ∀ f, P f → FnTotal w f) :
    ∀ e : Elem, Proper P e → ∃ e', simplify cfg w e = .ok e' ∧ Proper P e'
  | .num x, h => ⟨_, by rw [simplify], h⟩
  | .var x, h => ⟨_, by rw [simplify], h⟩
  | .bin op l r, h => by
    cases h with
    | bin ho hl hr =>
      obtain ⟨l', hl1, hl2⟩ := simplify_proper cfg w hP l hl
      obtain ⟨r', hr1, hr2⟩ := simplify_proper cfg w hP r hr
      obtain ⟨e, he⟩ := simpBin_total cfg w ho (r := r') hl2
      exact ⟨e, by rw [simplify, hl1]; simp only [hr1]; exact he,
        (simpBin_shape he).proper ho hl2 hr2⟩
  | .un op a, h => by
    cases h with
    | un ho ha =>
      obtain ⟨a', ha1, ha2⟩ := simplify_proper cfg w hP a ha
      obtain ⟨e, he⟩ := simpUn_total ho a'
      exact ⟨e, by rw [simplify, ha1]; exact he, (simpUn_shape he).proper ha2⟩
  | .call f args, h => by
    cases h with
    | call hf har ha =>
      obtain ⟨args', h1, h2⟩ := simplifyL_proper cfg w hP args ha
      have hlen := simplifyL_length args h1
      obtain ⟨e, he⟩ := simpCall_total (hP f hf) (args := args') (by rw [hlen]; exact har)
      refine ⟨e, by rw [simplify, h1]; exact he, ?_⟩
      rcases simpCall_shape he with rfl | ⟨x, rfl⟩
      · exact .call hf (by rw [hlen]; exact har) h2
      · exact .num x
theorem simplifyL_proper {P : Func → Prop} (cfg : Cfg) (w : World) (hP : ∀ f, P f → FnTotal w f) :
    ∀ es : List Elem, (∀ a ∈ es, Proper P a) →
      ∃ es', simplifyL cfg w es = .ok es' ∧ ∀ a ∈ es', Proper P a
  | [], _ => ⟨[], by rw [simplifyL], by simp⟩
  | a :: as, h => by
    obtain ⟨a', ha1, ha2⟩ := simplify_proper cfg w hP a (h a (by simp))
    obtain ⟨as', has1, has2⟩ := simplifyL_proper cfg w hP as fun c hc => h c (by simp [hc])
    refine ⟨a' :: as', by rw [simplifyL, ha1]; simp only [has1], ?_⟩
    intro c hc
    rcases List.mem_cons.1 hc with rfl | hc
    · exact ha2
    · exact has2 c hc
end

mutual
theorem simplifyFor_proper {P : Func → Prop} (cfg : Cfg) (w : World) (hP : ∀ f, P f → FnTotal w f)
    (x : Bytes) (v : F64) : ∀ e : Elem, Proper P e →
      ∃ e', simplifyFor cfg w x v e = .ok e' ∧ Proper P e'
  | .num y, h => ⟨_, by rw [simplifyFor], h⟩
  | .var y, h => by
    rw [simplifyFor]
    split
    · exact ⟨_, rfl, .num v⟩
    · exact ⟨_, rfl, h⟩
  | .bin op l r, h => by
    cases h with
    | bin ho hl hr =>
      obtain ⟨l', hl1, hl2⟩ := simplifyFor_proper cfg w hP x v l hl
      obtain ⟨r', hr1, hr2⟩ := simplifyFor_proper cfg w hP x v r hr
      rw [simplifyFor, hl1]
      simp only [hr1]
      exact simplify_proper cfg w hP _ (.bin ho hl2 hr2)
  | .un op a, h => by
    cases h with
    | un ho ha =>
      obtain ⟨a', ha1, ha2⟩ := simplifyFor_proper cfg w hP x v a ha
      rw [simplifyFor, ha1]
      exact simplify_proper cfg w hP _ (.un ho ha2)
  | .call f args, h => by
    cases h with
    | call hf har ha =>
      obtain ⟨args', h1, h2⟩ := simplifyForL_proper cfg w hP x v args ha
      have hlen := simplifyForL_length args h1
      rw [simplifyFor, h1]
      exact simplify_proper cfg w hP _ (.call hf (by rw [hlen]; exact har) h2)
theorem simplifyForL_proper {P : Func → Prop} (cfg : Cfg) (w : World)
    (hP : ∀ f, P f → FnTotal w f) (x : Bytes) (v : F64) :
    ∀ es : List Elem, (∀ a ∈ es, Proper P a) →
      ∃ es', simplifyForL cfg w x v es = .ok es' ∧ ∀ a ∈ es', Proper P a
  | [], _ => ⟨[], by rw [simplifyForL], by simp⟩
  | a :: as, h => by
    obtain ⟨a', ha1, ha2⟩ := simplifyFor_proper cfg w hP x v a (h a (by simp))
    obtain ⟨as', has1, has2⟩ := simplifyForL_proper cfg w hP x v as fun c hc => h c (by simp [hc])
    refine ⟨a' :: as', by rw [simplifyForL, ha1]; simp only [has1], ?_⟩
    intro c hc
    rcases List.mem_cons.1 hc with rfl | hc
    · exact ha2
    · exact has2 c hc
end

/-! ### Calls keep their number of arguments, in any tree -/

theorem sub_num {t : Elem} {x : F64} : Sub t (.num x) ↔ t = .num x :=
  ⟨by rintro ⟨⟩; rfl, by rintro rfl; exact .refl⟩
theorem sub_var {t : Elem} {x : Bytes} : Sub t (.var x) ↔ t = .var x :=
  ⟨by rintro ⟨⟩; rfl, by rintro rfl; exact .refl⟩
theorem sub_bin {t : Elem} {op : Op} {l r : Elem} :
    Sub t (.bin op l r) ↔ t = .bin op l r ∨ Sub t l ∨ Sub t r :=
  ⟨by rintro ⟨⟩ <;> simp [*], by rintro (rfl | h | h); exact .refl; exact .left h; exact .right h⟩
theorem sub_un {t : Elem} {op : Op} {a : Elem} :
    Sub t (.un op a) ↔ t = .un op a ∨ Sub t a :=
  ⟨by rintro ⟨⟩ <;> simp [*], by rintro (rfl | h); exact .refl; exact .operand h⟩
theorem sub_call {t : Elem} {f : Func} {args : List Elem} :
    Sub t (.call f args) ↔ t = .call f args ∨ ∃ a ∈ args, Sub t a :=
  ⟨by
    rintro ⟨⟩
    · exact .inl rfl
    · exact .inr ⟨_, by assumption, by assumption⟩,
   by rintro (rfl | ⟨a, h, h'⟩); exact .refl; exact .arg h h'⟩

@[simp] theorem calls_num {P : Func → Prop} {x : F64} : Calls P (.num x) := by
  intro f args h; rw [sub_num] at h; cases h
@[simp] theorem calls_var {P : Func → Prop} {x : Bytes} : Calls P (.var x) := by
  intro f args h; rw [sub_var] at h; cases h
theorem calls_bin {P : Func → Prop} {op : Op} {l r : Elem} :
    Calls P (.bin op l r) ↔ Calls P l ∧ Calls P r := by
  constructor
  · intro h
    exact ⟨fun f a hs => h f a (.left hs), fun f a hs => h f a (.right hs)⟩
  · intro ⟨h1, h2⟩ f a hs
    rw [sub_bin] at hs
    rcases hs with hs | hs | hs
    · cases hs
    · exact h1 f a hs
    · exact h2 f a hs
theorem calls_un {P : Func → Prop} {op : Op} {a : Elem} : Calls P (.un op a) ↔ Calls P a := by
  constructor
  · intro h f b hs; exact h f b (.operand hs)
  · intro h f b hs
    rw [sub_un] at hs
    rcases hs with hs | hs
    · cases hs
    · exact h f b hs
theorem calls_call {P : Func → Prop} {f : Func} {args : List Elem} :
    Calls P (.call f args) ↔ (P f ∧ ArityOk f args.length) ∧ ∀ a ∈ args, Calls P a := by
  constructor
  · intro h
    exact ⟨h f args .refl, fun a ha g b hs => h g b (.arg ha hs)⟩
  · intro ⟨h1, h2⟩ g b hs
    rw [sub_call] at hs
    rcases hs with hs | ⟨a, ha, hs⟩
    · cases hs; exact h1
    · exact h2 a ha g b hs

theorem BinShape.calls {P : Func → Prop} {op : Op} {l r e : Elem} (h : BinShape op l r e)
    (hl : Calls P l) (hr : Calls P r) : Calls P e := by
  cases h with
  | left => exact hl
  | right => exact hr
  | num x => exact calls_num
  | neg _ => exact calls_un.2 hr
  | plus b _ hb => subst hb; exact calls_bin.2 ⟨hl, calls_un.1 hr⟩
  | both a b ha hb => subst ha hb; exact calls_bin.2 ⟨calls_un.1 hl, calls_un.1 hr⟩
  | same => exact calls_bin.2 ⟨hl, hr⟩

theorem UnShape.calls {P : Func → Prop} {op : Op} {a e : Elem} (h : UnShape op a e) (ha : Calls P a) :
    Calls P e := by
  cases h with
  | same _ => exact calls_un.2 ha
  | operand => exact ha
  | num x => exact calls_num

mutual
theorem simplify_calls {P : Func → Prop} {cfg : Cfg} {w : World} : ∀ (e : Elem) {e' : Elem},
    simplify cfg w e = .ok e' → Calls P e → Calls P e'
  | .num x, e', h, ho => by rw [simplify] at h; cases h; exact ho
  | .var x, e', h, ho => by rw [simplify] at h; cases h; exact ho
  | .bin op l r, e', h, ho => by
    obtain ⟨l', r', hl, hr, hb⟩ := simplify_bin_ok h
    have := calls_bin.1 ho
    exact (simpBin_shape hb).calls (simplify_calls l hl this.1) (simplify_calls r hr this.2)
  | .un op a, e', h, ho => by
    obtain ⟨a', ha, hb⟩ := simplify_un_ok h
    exact (simpUn_shape hb).calls (simplify_calls a ha (calls_un.1 ho))
  | .call f args, e', h, ho => by
    obtain ⟨args', ha, hb⟩ := simplify_call_ok h
    have := calls_call.1 ho
    rcases simpCall_shape hb with rfl | ⟨x, rfl⟩
    · exact calls_call.2 ⟨⟨this.1.1, by rw [simplifyL_length args ha]; exact this.1.2⟩,
        simplifyL_calls args ha this.2⟩
    · exact calls_num
theorem simplifyL_calls {P : Func → Prop} {cfg : Cfg} {w : World} : ∀ (es : List Elem) {es' : List Elem},
    simplifyL cfg w es = .ok es' → (∀ a ∈ es, Calls P a) → ∀ a ∈ es', Calls P a
  | [], es', h, ho => by rw [simplifyL] at h; cases h; exact ho
  | a :: as, es', h, ho => by
    obtain ⟨a', as', ha, has, rfl⟩ := simplifyL_cons_ok h
    intro b hb
    rcases List.mem_cons.1 hb with rfl | hb
    · exact simplify_calls a ha (ho a (by simp))
    · exact simplifyL_calls as has (fun c hc => ho c (by simp [hc])) b hb
end

mutual
theorem simplifyFor_calls {P : Func → Prop} {cfg : Cfg} {w : World} {x : Bytes} {v : F64} :
    ∀ (e : Elem) {e' : Elem}, simplifyFor cfg w x v e = .ok e' → Calls P e → Calls P e'
  | .num y, e', h, ho => by rw [simplifyFor] at h; cases h; exact ho
  | .var y, e', h, ho => by
    rw [simplifyFor] at h
    split at h
    · cases h; exact calls_num
    · cases h; exact ho
  | .bin op l r, e', h, ho => by
    obtain ⟨l', r', hl, hr, hb⟩ := simplifyFor_bin_ok h
    have := calls_bin.1 ho
    exact simplify_calls _ hb
      (calls_bin.2 ⟨simplifyFor_calls l hl this.1, simplifyFor_calls r hr this.2⟩)
  | .un op a, e', h, ho => by
    obtain ⟨a', ha, hb⟩ := simplifyFor_un_ok h
    exact simplify_calls _ hb (calls_un.2 (simplifyFor_calls a ha (calls_un.1 ho)))
  | .call f args, e', h, ho => by
    obtain ⟨args', ha, hb⟩ := simplifyFor_call_ok h
    have := calls_call.1 ho
    exact simplify_calls _ hb (calls_call.2
      ⟨⟨this.1.1, by rw [simplifyForL_length args ha]; exact this.1.2⟩, simplifyForL_calls args ha this.2⟩)
theorem simplifyForL_calls {P : Func → Prop} {cfg : Cfg} {w : World} {x : Bytes} {v : F64} :
    ∀ (es : List Elem) {es' : List Elem},
    simplifyForL cfg w x v es = .ok es' → (∀ a ∈ es, Calls P a) → ∀ a ∈ es', Calls P a
  | [], es', h, ho => by rw [simplifyForL] at h; cases h; exact ho
  | a :: as, es', h, ho => by
    obtain ⟨a', as', ha, has, rfl⟩ := simplifyForL_cons_ok h
    intro b hb
    rcases List.mem_cons.1 hb with rfl | hb
    · exact simplifyFor_calls a ha (ho a (by simp))
    · exact simplifyForL_calls as has (fun c hc => ho c (by simp [hc])) b hb
end

/-! ### Size -/

theorem BinShape.size {op : Op} {l r e : Elem} (h : BinShape op l r e) :
    size e ≤ size l + size r + 1 := by
  have pos : ∀ e : Elem, 0 < Spec.size e := by intro e; cases e <;> simp [Spec.size]
  have := pos l; have := pos r
  cases h with
  | plus b _ hb => subst hb; simp [Spec.size]
  | both a b ha hb => subst ha hb; simp [Spec.size]; omega
  | _ => simp [Spec.size] <;> omega

theorem UnShape.size {op : Op} {a e : Elem} (h : UnShape op a e) : size e ≤ size a + 1 := by
  cases h with
  | _ => simp [Spec.size]

mutual
theorem simplify_size {cfg : Cfg} {w : World} : ∀ (e : Elem) {e' : Elem},
    simplify cfg w e = .ok e' → size e' ≤ size e
  | .num x, e', h => by rw [simplify] at h; cases h; exact Nat.le_refl _
  | .var x, e', h => by rw [simplify] at h; cases h; exact Nat.le_refl _
  | .bin op l r, e', h => by
    obtain ⟨l', r', hl, hr, hb⟩ := simplify_bin_ok h
    have h1 := simplify_size l hl
    have h2 := simplify_size r hr
    have h3 := (simpBin_shape hb).size
    simp only [size]; omega
  | .un op a, e', h => by
    obtain ⟨a', ha, hb⟩ := simplify_un_ok h
    have h1 := simplify_size a ha
    have h3 := (simpUn_shape hb).size
    simp only [size]; omega
  | .call f args, e', h => by
    obtain ⟨args', ha, hb⟩ := simplify_call_ok h
    have h1 := simplifyL_size args ha
    rcases simpCall_shape hb with rfl | ⟨x, rfl⟩ <;> simp only [size] <;> omega
theorem simplifyL_size {cfg : Cfg} {w : World} : ∀ (es : List Elem) {es' : List Elem},
    simplifyL cfg w es = .ok es' → sizeL es' ≤ sizeL es
  | [], es', h => by rw [simplifyL] at h; cases h; exact Nat.le_refl _
  | a :: as, es', h => by
    obtain ⟨a', as', ha, has, rfl⟩ := simplifyL_cons_ok h
    have h1 := simplify_size a ha
    have h2 := simplifyL_size as has
    simp only [sizeL]; omega
end

mutual
theorem simplifyFor_size {cfg : Cfg} {w : World} {x : Bytes} {v : F64} :
    ∀ (e : Elem) {e' : Elem}, simplifyFor cfg w x v e = .ok e' → size e' ≤ size e
  | .num y, e', h => by rw [simplifyFor] at h; cases h; exact Nat.le_refl _
  | .var y, e', h => by
    rw [simplifyFor] at h
    split at h <;> cases h <;> simp [size]
  | .bin op l r, e', h => by
    obtain ⟨l', r', hl, hr, hb⟩ := simplifyFor_bin_ok h
    have h1 := simplifyFor_size l hl
    have h2 := simplifyFor_size r hr
    have h3 := simplify_size _ hb
    simp only [size] at *; omega
  | .un op a, e', h => by
    obtain ⟨a', ha, hb⟩ := simplifyFor_un_ok h
    have h1 := simplifyFor_size a ha
    have h3 := simplify_size _ hb
    simp only [size] at *; omega
  | .call f args, e', h => by
    obtain ⟨args', ha, hb⟩ := simplifyFor_call_ok h
    have h1 := simplifyForL_size args ha
    have h3 := simplify_size _ hb
    simp only [size] at *; omega
theorem simplifyForL_size {cfg : Cfg} {w : World} {x : Bytes} {v : F64} :
    ∀ (es : List Elem) {es' : List Elem}, simplifyForL cfg w x v es = .ok es' →
      sizeL es' ≤ sizeL es
  | [], es', h => by rw [simplifyForL] at h; cases h; exact Nat.le_refl _
  | a :: as, es', h => by
    obtain ⟨a', as', ha, has, rfl⟩ := simplifyForL_cons_ok h
    have h1 := simplifyFor_size a ha
    have h2 := simplifyForL_size as has
    simp only [sizeL]; omega
end

/-! ### Number of calls of a function -/

theorem BinShape.callCount_le (g : Func) {op : Op} {l r e : Elem} (h : BinShape op l r e) :
    callCount g e ≤ callCount g l + callCount g r := by
  cases h with
  | plus b _ hb => subst hb; simp [Spec.callCount]
  | both a b ha hb => subst ha hb; simp [Spec.callCount]
  | _ => simp [Spec.callCount]

theorem UnShape.callCount_le (g : Func) {op : Op} {a e : Elem} (h : UnShape op a e) : callCount g e ≤ callCount g a := by
  cases h with
  | _ => simp [Spec.callCount]

mutual
theorem simplify_callCount (g : Func) {cfg : Cfg} {w : World} : ∀ (e : Elem) {e' : Elem},
    simplify cfg w e = .ok e' → callCount g e' ≤ callCount g e
  | .num x, e', h => by rw [simplify] at h; cases h; exact Nat.le_refl _
  | .var x, e', h => by rw [simplify] at h; cases h; exact Nat.le_refl _
  | .bin op l r, e', h => by
    obtain ⟨l', r', hl, hr, hb⟩ := simplify_bin_ok h
    have h1 := simplify_callCount g l hl
    have h2 := simplify_callCount g r hr
    have h3 := (simpBin_shape hb).callCount_le g
    simp only [callCount]; omega
  | .un op a, e', h => by
    obtain ⟨a', ha, hb⟩ := simplify_un_ok h
    have h1 := simplify_callCount g a ha
    have h3 := (simpUn_shape hb).callCount_le g
    simp only [callCount]; omega
  | .call f args, e', h => by
    obtain ⟨args', ha, hb⟩ := simplify_call_ok h
    have h1 := simplifyL_callCount g args ha
    rcases simpCall_shape hb with rfl | ⟨x, rfl⟩ <;> simp only [callCount] <;> omega
theorem simplifyL_callCount (g : Func) {cfg : Cfg} {w : World} : ∀ (es : List Elem) {es' : List Elem},
    simplifyL cfg w es = .ok es' → callCountL g es' ≤ callCountL g es
  | [], es', h => by rw [simplifyL] at h; cases h; exact Nat.le_refl _
  | a :: as, es', h => by
    obtain ⟨a', as', ha, has, rfl⟩ := simplifyL_cons_ok h
    have h1 := simplify_callCount g a ha
    have h2 := simplifyL_callCount g as has
    simp only [callCountL]; omega
end

mutual
theorem simplifyFor_callCount (g : Func) {cfg : Cfg} {w : World} {x : Bytes} {v : F64} :
    ∀ (e : Elem) {e' : Elem}, simplifyFor cfg w x v e = .ok e' → callCount g e' ≤ callCount g e
  | .num y, e', h => by rw [simplifyFor] at h; cases h; exact Nat.le_refl _
  | .var y, e', h => by
    rw [simplifyFor] at h
    split at h <;> cases h <;> simp [Spec.callCount]
  | .bin op l r, e', h => by
    obtain ⟨l', r', hl, hr, hb⟩ := simplifyFor_bin_ok h
    have h1 := simplifyFor_callCount g l hl
    have h2 := simplifyFor_callCount g r hr
    have h3 := simplify_callCount g _ hb
    simp only [callCount] at *; omega
  | .un op a, e', h => by
    obtain ⟨a', ha, hb⟩ := simplifyFor_un_ok h
    have h1 := simplifyFor_callCount g a ha
    have h3 := simplify_callCount g _ hb
    simp only [callCount] at *; omega
  | .call f args, e', h => by
    obtain ⟨args', ha, hb⟩ := simplifyFor_call_ok h
    have h1 := simplifyForL_callCount g args ha
    have h3 := simplify_callCount g _ hb
    simp only [callCount] at *; omega
theorem simplifyForL_callCount (g : Func) {cfg : Cfg} {w : World} {x : Bytes} {v : F64} :
    ∀ (es : List Elem) {es' : List Elem}, simplifyForL cfg w x v es = .ok es' →
      callCountL g es' ≤ callCountL g es
  | [], es', h => by rw [simplifyForL] at h; cases h; exact Nat.le_refl _
  | a :: as, es', h => by
    obtain ⟨a', as', ha, has, rfl⟩ := simplifyForL_cons_ok h
    have h1 := simplifyFor_callCount g a ha
    have h2 := simplifyForL_callCount g as has
    simp only [callCountL]; omega
end

end Xprs
