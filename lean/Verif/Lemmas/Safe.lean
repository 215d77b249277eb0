import Verif.Lemmas.Same
/-
Simplification preserves the value of trees that run without doubtful steps.
-/
namespace Xprs
open Spec

theorem Spec.BinStep.det {w : World} {op : Op} {a b v v' : F64} (h : BinStep w op a b v)
    (h' : BinStep w op a b v') : v = v' := by
  cases h <;> cases h' <;> rfl

theorem Spec.BinStep.run {w : World} {op : Op} {a b v : F64} (h : BinStep w op a b v) :
    binF w op a b = .ok v := by
  cases h <;> rfl

theorem Spec.BinStep.congr {w : World} (hw : PowLaws w) {op : Op} {a a' b b' v : F64}
    (h : BinStep w op a b v) (ha : Same a a') (hb : Same b b') :
    ∃ v', BinStep w op a' b' v' ∧ Same v v' := by
  cases h with
  | plus hn =>
    have := add_congr ha hb
    exact ⟨_, .plus (fun e => hn (this.nan.2 e)), this⟩
  | minus hn =>
    have := sub_congr ha hb
    exact ⟨_, .minus (fun e => hn (this.nan.2 e)), this⟩
  | times hn =>
    have := mul_congr ha hb
    exact ⟨_, .times (fun e => hn (this.nan.2 e)), this⟩
  | divide hn hz =>
    have := div_congr ha hb hz
    exact ⟨_, .divide (fun e => hn (this.nan.2 e)) (fun h => hz (hb.isZero.2 h)), this⟩
  | power hp =>
    exact ⟨_, .power (fun h => (hp (ha.isZero.2 h)).same hb), hw.sign _ _ _ _ ha hb hp⟩
  | modulo hn hi =>
    have := rem_congr ha hb
    refine ⟨_, .modulo (fun e => hn (this.nan.2 e)) ?_, this⟩
    intro e
    subst e
    exact (hi (hb.symm.of_not_zero f1_not_zero).symm).same ha

theorem Spec.UnStep.det {op : Op} {a v v' : F64} (h : UnStep op a v) (h' : UnStep op a v') :
    v = v' := by
  cases h <;> cases h' <;> first | rfl | skip
  rename_i h1 h2
  rw [h1] at h2; cases h2; rfl

theorem Spec.UnStep.run {op : Op} {a v : F64} (h : UnStep op a v) : unF op a = .ok v := by
  cases h with
  | plus => rfl
  | minus => rfl
  | factorial h => exact h

theorem Spec.UnStep.congr {op : Op} {a a' v : F64} (h : UnStep op a v) (ha : Same a a') :
    ∃ v', UnStep op a' v' ∧ Same v v' := by
  cases h with
  | plus => exact ⟨_, .plus, ha⟩
  | minus => exact ⟨_, .minus, neg_congr ha⟩
  | factorial h => exact ⟨_, .factorial (by rw [← factorial_congr ha]; exact h), .refl _⟩

theorem Spec.CallStep.congr {w : World} {f : Func} {vs us : List F64} {v : F64}
    (h : CallStep w f vs v) (hs : SameL vs us) : ∃ u, CallStep w f us u ∧ Same v u := by
  obtain ⟨u, hu, hvu⟩ := h.2 us hs
  refine ⟨u, ⟨hu, ?_⟩, hvu⟩
  intro ts ht
  obtain ⟨t, ht, hvt⟩ := h.2 ts (hs.trans ht)
  exact ⟨t, ht, hvu.symm.trans hvt⟩

theorem Spec.CallStep.det {w : World} {f : Func} {vs : List F64} {v v' : F64}
    (h : CallStep w f vs v) (h' : CallStep w f vs v') : v = v' := by
  have := h.1.symm.trans h'.1
  cases this; rfl

/-! ### `Runs` is evaluation -/

mutual
theorem runs_eval {w : World} {m : HMap F64} : ∀ (e : Elem) {v : F64}, Runs w m e v →
    eval w m e = .ok v
  | .num x, v, h => by cases h; rfl
  | .var n, v, h => by
    cases h with
    | var h => rw [eval, HMap.get, h]
  | .bin op l r, v, h => by
    cases h with
    | bin hl hr hs => rw [eval, runs_eval l hl, runs_eval r hr]; simp only [hs.run]; rfl
  | .un op e, v, h => by
    cases h with
    | un he hs => rw [eval, runs_eval e he]; simp only [hs.run]; rfl
  | .call f args, v, h => by
    cases h with
    | call ha hs => rw [eval, runsL_eval args ha]; simp only [hs.1]; rfl
theorem runsL_eval {w : World} {m : HMap F64} : ∀ (es : List Elem) {vs : List F64},
    RunsL w m es vs → evalL w m es = .ok vs
  | [], vs, h => by cases h; rfl
  | a :: as, vs, h => by
    cases h with
    | cons h hs => rw [evalL, runs_eval a h, runsL_eval as hs]
end

mutual
/-- A map that agrees on the variables of the tree will do as well. -/
theorem runs_map {w : World} {m m' : HMap F64} : ∀ (e : Elem) {v : F64}, Runs w m e v →
    (∀ n, Occurs n e → m n = m' n) → Runs w m' e v
  | .num x, v, h, _ => by cases h; exact .num
  | .var n, v, h, hm => by
    cases h with
    | var h => exact .var (by rw [← hm n .here]; exact h)
  | .bin op l r, v, h, hm => by
    cases h with
    | bin hl hr hs =>
      exact .bin (runs_map l hl fun n hn => hm n (.left hn))
        (runs_map r hr fun n hn => hm n (.right hn)) hs
  | .un op e, v, h, hm => by
    cases h with
    | un he hs => exact .un (runs_map e he fun n hn => hm n (.operand hn)) hs
  | .call f args, v, h, hm => by
    cases h with
    | call ha hs => exact .call (runsL_map args ha fun n a hma hn => hm n (.arg hma hn)) hs
theorem runsL_map {w : World} {m m' : HMap F64} : ∀ (es : List Elem) {vs : List F64},
    RunsL w m es vs → (∀ n, ∀ a ∈ es, Occurs n a → m n = m' n) → RunsL w m' es vs
  | [], vs, h, _ => by cases h; exact .nil
  | a :: as, vs, h, hm => by
    cases h with
    | cons h hs =>
      exact .cons (runs_map a h fun n hn => hm n a (List.mem_cons_self ..) hn)
        (runsL_map as hs fun n b hb hn => hm n b (List.mem_cons_of_mem _ hb) hn)
end

/-! ### Equal trees have the same value -/

theorem andM_true {x y : PM Bool} (h : andM x y = .ok true) : x = .ok true ∧ y = .ok true := by
  unfold andM at h
  split at h
  · exact ⟨rfl, h⟩
  · cases h
  · cases h

theorem orM_true {x y : PM Bool} (h : orM x y = .ok true) : x = .ok true ∨ y = .ok true := by
  unfold orM at h
  split at h
  · exact .inl rfl
  · exact .inr h
  · cases h

theorem Spec.BinStep.same {w : World} (hw : PowLaws w) {op : Op} {a a' b b' v v' : F64}
    (h : BinStep w op a b v) (h' : BinStep w op a' b' v') (ha : Same a a') (hb : Same b b') :
    Same v v' := by
  obtain ⟨u, hu, hs⟩ := h.congr hw ha hb
  rw [← hu.det h']; exact hs

theorem Spec.BinStep.swap {w : World} {op : Op} (ho : op = .plus ∨ op = .times) {a b v : F64}
    (h : BinStep w op a b v) : BinStep w op b a v := by
  rcases ho with rfl | rfl
  · cases h with
    | plus h => rw [fadd_comm] at h ⊢; exact .plus h
  · cases h with
    | times h => rw [fmul_comm] at h ⊢; exact .times h

mutual
theorem eqE_same {w : World} {m : HMap F64} (hw : PowLaws w) : ∀ (x y : Elem) {a b : F64},
    Runs w m x a → Runs w m y b → eqE x y = .ok true → Same a b
  | .num u, y, a, b, hx, hy, h => by
    cases y with
    | num u' =>
      cases hx; cases hy
      simp only [eqE, Except.ok.injEq] at h
      exact (beq_iff.1 h).2
    | _ => simp [eqE] at h
  | .var n, y, a, b, hx, hy, h => by
    cases y with
    | var n' =>
      simp only [eqE, Except.ok.injEq, decide_eq_true_eq] at h
      subst h
      cases hx with
      | var hx =>
        cases hy with
        | var hy => rw [hx] at hy; cases hy; exact .refl _
    | _ => simp [eqE] at h
  | .un o e, y, a, b, hx, hy, h => by
    cases y with
    | un o' e' =>
      rw [eqE] at h
      split at h
      · rename_i ho
        subst ho
        cases hx with
        | un hx sx =>
          cases hy with
          | un hy sy =>
            obtain ⟨u, hu, hs⟩ := sx.congr (eqE_same hw e e' hx hy h)
            rw [← hu.det sy]; exact hs
      · cases h
    | _ => simp [eqE] at h
  | .bin o l r, y, a, b, hx, hy, h => by
    cases y with
    | bin o' l' r' =>
      unfold eqE at h
      split at h
      · rename_i ho
        subst ho
        cases hx with
        | bin hl hr sx =>
          cases hy with
          | bin hl' hr' sy =>
            have straight : andM (eqE l l') (eqE r r') = .ok true → Same a b := by
              intro h
              obtain ⟨h1, h2⟩ := andM_true h
              exact sx.same hw sy (eqE_same hw l l' hl hl' h1) (eqE_same hw r r' hr hr' h2)
            have crossed : (o = .plus ∨ o = .times) → andM (eqE l r') (eqE r l') = .ok true →
                Same a b := by
              intro ho h
              obtain ⟨h1, h2⟩ := andM_true h
              exact sx.same hw (sy.swap ho) (eqE_same hw l r' hl hr' h1)
                (eqE_same hw r l' hr hl' h2)
            cases o with
            | factorial => cases h
            | plus =>
              rcases orM_true h with h | h
              · exact straight h
              · exact crossed (.inl rfl) h
            | times =>
              rcases orM_true h with h | h
              · exact straight h
              · exact crossed (.inr rfl) h
            | _ => exact straight h
      · cases h
    | _ => simp [eqE] at h
  | .call f as, y, a, b, hx, hy, h => by
    cases y with
    | call g bs =>
      rw [eqE] at h
      split at h
      · rename_i hf
        subst hf
        split at h
        · rename_i hlen
          cases hx with
          | call hx sx =>
            cases hy with
            | call hy sy =>
              obtain ⟨u, hu, hs⟩ := sx.congr (eqEs_same hw as bs hlen hx hy h)
              rw [← hu.det sy]; exact hs
        · cases h
      · cases h
    | _ => simp [eqE] at h
theorem eqEs_same {w : World} {m : HMap F64} (hw : PowLaws w) : ∀ (xs ys : List Elem)
    {as bs : List F64}, xs.length = ys.length → RunsL w m xs as → RunsL w m ys bs →
    eqEs xs ys = .ok true → SameL as bs
  | [], ys, as, bs, hl, hx, hy, h => by
    cases ys with
    | nil => cases hx; cases hy; exact .nil
    | cons => simp at hl
  | x :: xs, ys, as, bs, hl, hx, hy, h => by
    cases ys with
    | nil => simp at hl
    | cons y ys =>
      cases hx with
      | cons hx hxs =>
        cases hy with
        | cons hy hys =>
          rw [eqEs] at h
          obtain ⟨h1, h2⟩ := andM_true h
          exact .cons (eqE_same hw x y hx hy h1)
            (eqEs_same hw xs ys (by simpa using hl) hxs hys h2)
end

/-! ### One node -/

theorem runs_is0 {w : World} {m : HMap F64} {e : Elem} {a : F64} (h : Runs w m e a)
    (h0 : e.is0 = true) : IsZero a := by
  obtain ⟨x, rfl, hx⟩ := is0_iff.1 h0
  cases h; exact hx

theorem runs_is1 {w : World} {m : HMap F64} {e : Elem} {a : F64} (h : Runs w m e a)
    (h1 : e.is1 = true) : a = F64.f1 := by
  rw [is1_iff.1 h1] at h
  cases h; rfl

theorem runs_neg {w : World} {m : HMap F64} {e o : Elem} {a : F64} (h : Runs w m e a)
    (hn : e.negOf? = some o) : ∃ b, Runs w m o b ∧ a = F64.neg b := by
  rw [negOf_some hn] at h
  cases h with
  | un h s => cases s; exact ⟨_, h, rfl⟩

theorem foldBin_runs {w : World} {m : HMap F64} {op : Op} {l r e : Elem} {a b v : F64}
    (hl : Runs w m l a) (hr : Runs w m r b) (hs : BinStep w op a b v)
    (h : foldBin w op l r = .ok e) : ∃ u, Runs w m e u ∧ Same v u := by
  unfold foldBin at h
  split at h
  · cases hl; cases hr
    rw [hs.run] at h
    cases h
    exact ⟨_, .num, .refl _⟩
  · cases h
    exact ⟨v, .bin hl hr hs, .refl _⟩

/-- What a comparison guard does to the rest of the argument. -/
theorem guardEq_runs {w : World} {m : HMap F64} (hw : PowLaws w) {x y res e : Elem}
    {rest : PM Elem} {a b : F64} {Q : Prop} (hx : Runs w m x a) (hy : Runs w m y b)
    (h : guardEq x y res rest = .ok e) (h1 : Same a b → e = res → Q) (h2 : rest = .ok e → Q) :
    Q := by
  unfold guardEq at h
  split at h
  · cases h
  · rename_i heq
    cases h
    exact h1 (eqE_same hw x y hx hy heq) rfl
  · exact h2 h

theorem same_f0 {v : F64} (h : IsZero v) : Same v F64.f0 := .inr ⟨h, ⟨false, rfl⟩⟩

theorem simpPlus_runs {cfg : Cfg} {w : World} {m : HMap F64} (hw : PowLaws w) {l r e : Elem}
    {a b v : F64} (hl : Runs w m l a) (hr : Runs w m r b) (hs : BinStep w .plus a b v)
    (h : simpPlus cfg w l r = .ok e) : ∃ u, Runs w m e u ∧ Same v u := by
  have hfold := fun h => foldBin_runs (e := e) hl hr hs h
  have hnum : IsZero v → e = .num F64.f0 → ∃ u, Runs w m e u ∧ Same v u := by
    rintro hz rfl; exact ⟨_, .num, same_f0 hz⟩
  cases hs with
  | plus hn =>
    unfold simpPlus at h
    split at h
    · rename_i h0
      cases h
      obtain ⟨s, rfl⟩ := runs_is0 hl h0
      exact ⟨b, hr, add_zero_left s b⟩
    · split at h
      · rename_i h0
        cases h
        obtain ⟨s, rfl⟩ := runs_is0 hr h0
        exact ⟨a, hl, by rw [fadd_comm]; exact add_zero_left s a⟩
      · dsimp only at h
        have second : (match cfg.nightly, r.negOf? with
            | true, some operand => guardEq l operand (.num F64.f0) (foldBin w .plus l r)
            | _, _ => foldBin w .plus l r) = .ok e → ∃ u, Runs w m e u ∧ Same (F64.add a b) u := by
          intro h
          split at h
          · rename_i o _ hneg
            obtain ⟨c, hc, rfl⟩ := runs_neg hr hneg
            refine guardEq_runs hw hl hc h (fun hsame => hnum ?_) hfold
            rcases sub_self hsame with h | h
            · exact absurd h hn
            · exact h
          · exact hfold h
        split at h
        · rename_i o _ hneg
          obtain ⟨c, hc, rfl⟩ := runs_neg hl hneg
          refine guardEq_runs hw hc hr h (fun hsame => hnum ?_) second
          rw [fadd_comm] at hn ⊢
          rcases sub_self hsame.symm with h | h
          · exact absurd h hn
          · exact h
        · exact second h

theorem simpMinus_runs {cfg : Cfg} {w : World} {m : HMap F64} (hw : PowLaws w) {l r e : Elem}
    {a b v : F64} (hl : Runs w m l a) (hr : Runs w m r b) (hs : BinStep w .minus a b v)
    (h : simpMinus cfg w l r = .ok e) : ∃ u, Runs w m e u ∧ Same v u := by
  have hfold := fun h => foldBin_runs (e := e) hl hr hs h
  cases hs with
  | minus hn =>
    unfold simpMinus at h
    split at h
    · rename_i h0
      cases h
      obtain ⟨s, rfl⟩ := runs_is0 hl h0
      exact ⟨_, .un hr .minus, zero_sub s b⟩
    · split at h
      · rename_i h0
        cases h
        exact ⟨a, hl, sub_zero a (runs_is0 hr h0)⟩
      · refine guardEq_runs hw hl hr h ?_ ?_
        · rintro hsame rfl
          rcases sub_self hsame with h | h
          · exact absurd h hn
          · exact ⟨_, .num, same_f0 h⟩
        · intro h
          split at h
          · rename_i o _ hneg
            obtain ⟨c, hc, rfl⟩ := runs_neg hr hneg
            cases h
            unfold F64.sub at hn ⊢
            rw [fneg_neg] at hn ⊢
            exact ⟨_, .bin hl hc (.plus hn), .refl _⟩
          · exact hfold h

theorem simpTimes_runs {cfg : Cfg} {w : World} {m : HMap F64} {l r e : Elem}
    {a b v : F64} (hl : Runs w m l a) (hr : Runs w m r b) (hs : BinStep w .times a b v)
    (h : simpTimes cfg w l r = .ok e) : ∃ u, Runs w m e u ∧ Same v u := by
  have hfold := fun h => foldBin_runs (e := e) hl hr hs h
  cases hs with
  | times hn =>
    unfold simpTimes at h
    split at h
    · rename_i h0
      cases h
      obtain ⟨s, rfl⟩ := runs_is0 hl h0
      exact ⟨_, .num, same_f0 ((mul_zero_left s b).resolve_left hn)⟩
    · split at h
      · rename_i h0
        cases h
        obtain ⟨s, rfl⟩ := runs_is0 hr h0
        rw [fmul_comm] at hn ⊢
        exact ⟨_, .num, same_f0 ((mul_zero_left s a).resolve_left hn)⟩
      · split at h
        · rename_i h1
          cases h
          rw [runs_is1 hl h1, mul_one_left]
          exact ⟨b, hr, .refl _⟩
        · split at h
          · rename_i h1
            cases h
            rw [runs_is1 hr h1, mul_one_right]
            exact ⟨a, hl, .refl _⟩
          · split at h
            · rename_i o o' _ hneg hneg'
              obtain ⟨c, hc, rfl⟩ := runs_neg hl hneg
              obtain ⟨d, hd, rfl⟩ := runs_neg hr hneg'
              cases h
              rw [fmul_neg_neg] at hn ⊢
              exact ⟨_, .bin hc hd (.times hn), .refl _⟩
            · exact hfold h

theorem simpDivide_runs {cfg : Cfg} {w : World} {m : HMap F64} (hw : PowLaws w) {l r e : Elem}
    {a b v : F64} (hl : Runs w m l a) (hr : Runs w m r b) (hs : BinStep w .divide a b v)
    (h : simpDivide cfg w l r = .ok e) : ∃ u, Runs w m e u ∧ Same v u := by
  have hfold := fun h => foldBin_runs (e := e) hl hr hs h
  cases hs with
  | divide hn hz =>
    have hr0 : r.is0 = false := by
      cases h0 : r.is0 with
      | false => rfl
      | true => exact absurd (runs_is0 hr h0) hz
    unfold simpDivide at h
    rw [hr0] at h
    simp only [Bool.and_false, Bool.false_eq_true, if_false] at h
    split at h
    · rename_i h0
      cases h
      exact ⟨_, .num, same_f0 ((zero_div (runs_is0 hl h0) b).resolve_left hn)⟩
    · split at h
      · rename_i h1
        cases h
        rw [runs_is1 hr h1, div_one]
        exact ⟨a, hl, .refl _⟩
      · refine guardEq_runs hw hl hr h ?_ ?_
        · rintro hsame rfl
          rw [(div_self hsame hz).resolve_left hn]
          exact ⟨_, .num, .refl _⟩
        · intro h
          split at h
          · rename_i o o' _ hneg hneg'
            obtain ⟨c, hc, rfl⟩ := runs_neg hl hneg
            obtain ⟨d, hd, rfl⟩ := runs_neg hr hneg'
            cases h
            rw [fdiv_neg_neg] at hn ⊢
            refine ⟨_, .bin hc hd (.divide hn ?_), .refl _⟩
            rintro ⟨s, rfl⟩
            exact hz ⟨!s, rfl⟩
          · exact hfold h

theorem simpPower_runs {w : World} {m : HMap F64} (hw : PowLaws w) {l r e : Elem}
    {a b v : F64} (hl : Runs w m l a) (hr : Runs w m r b) (hs : BinStep w .power a b v)
    (h : simpPower w l r = .ok e) : ∃ u, Runs w m e u ∧ Same v u := by
  have hfold := fun h => foldBin_runs (e := e) hl hr hs h
  cases hs with
  | power hp =>
    unfold simpPower at h
    split at h
    · rename_i h0
      simp only [Bool.and_eq_true] at h0
      have hpos := hp (runs_is0 hl h0.1)
      obtain ⟨s, rfl⟩ := runs_is0 hr h0.2
      cases hpos with
      | fin hn => exact absurd rfl hn
    · split at h
      · rename_i h0
        cases h
        have hz := runs_is0 hl h0
        exact ⟨_, .num, same_f0 (hw.zero a b hz (hp hz))⟩
      · split at h
        · rename_i h1
          cases h
          rw [runs_is1 hr h1, hw.one]
          exact ⟨a, hl, .refl _⟩
        · exact hfold h

theorem simpModulo_runs {w : World} {m : HMap F64} (hw : PowLaws w) {l r e : Elem}
    {a b v : F64} (hl : Runs w m l a) (hr : Runs w m r b) (hs : BinStep w .modulo a b v)
    (h : simpModulo w l r = .ok e) : ∃ u, Runs w m e u ∧ Same v u := by
  have hfold := fun h => foldBin_runs (e := e) hl hr hs h
  cases hs with
  | modulo hn hi =>
    have hr0 : r.is0 = false := by
      cases h0 : r.is0 with
      | false => rfl
      | true => exact absurd (rem_zero_right a (runs_is0 hr h0)) hn
    unfold simpModulo at h
    rw [hr0] at h
    simp only [Bool.and_false, Bool.false_eq_true, if_false] at h
    split at h
    · rename_i h0
      cases h
      exact ⟨_, .num, same_f0 ((zero_rem (runs_is0 hl h0) b).resolve_left hn)⟩
    · split at h
      · rename_i h1
        cases h
        have hb := runs_is1 hr h1
        have := whole_rem_one (hi hb)
        rw [← hb] at this
        exact ⟨_, .num, same_f0 this⟩
      · refine guardEq_runs hw hl hr h ?_ hfold
        rintro hsame rfl
        exact ⟨_, .num, same_f0 ((rem_self hsame).resolve_left hn)⟩

theorem simpBin_runs {cfg : Cfg} {w : World} {m : HMap F64} (hw : PowLaws w) {op : Op}
    {l r e : Elem} {a b v : F64} (hl : Runs w m l a) (hr : Runs w m r b)
    (hs : BinStep w op a b v) (h : simpBin cfg w op l r = .ok e) :
    ∃ u, Runs w m e u ∧ Same v u := by
  cases op with
  | plus => exact simpPlus_runs hw hl hr hs h
  | minus => exact simpMinus_runs hw hl hr hs h
  | times => exact simpTimes_runs hl hr hs h
  | divide => exact simpDivide_runs hw hl hr hs h
  | power => exact simpPower_runs hw hl hr hs h
  | modulo => exact simpModulo_runs hw hl hr hs h
  | factorial => cases hs

theorem simpUn_runs {w : World} {m : HMap F64} {op : Op} {x e : Elem} {a v : F64}
    (hx : Runs w m x a) (hs : UnStep op a v) (h : simpUn op x = .ok e) :
    ∃ u, Runs w m e u ∧ Same v u := by
  cases hs with
  | plus => cases h; exact ⟨_, hx, .refl _⟩
  | minus =>
    unfold simpUn at h
    simp only at h
    split at h
    · cases h; cases hx; exact ⟨_, .num, .refl _⟩
    · cases h; exact ⟨_, .un hx .minus, .refl _⟩
  | factorial hf =>
    unfold simpUn at h
    simp only at h
    split at h
    · cases hx
      rw [hf] at h
      cases h; exact ⟨_, .num, .refl _⟩
    · cases h; exact ⟨_, .un hx (.factorial hf), .refl _⟩

theorem numsOf_runs {w : World} {m : HMap F64} : ∀ {args : List Elem} {vs : List F64},
    RunsL w m args vs → (numsOf args).length = args.length → numsOf args = vs
  | [], _, h, _ => by cases h; rfl
  | a :: as, _, h, hl => by
    cases h with
    | cons h hs =>
      have hle : ∀ l : List Elem, (numsOf l).length ≤ l.length := by
        intro l
        induction l with
        | nil => exact Nat.le_refl _
        | cons b bs ih => cases b <;> simp only [numsOf, List.length_cons] <;> omega
      have := hle as
      cases a with
      | num x =>
        cases h
        simp only [numsOf, List.length_cons, Nat.add_right_cancel_iff] at hl ⊢
        rw [numsOf_runs hs hl]
      | _ => simp only [numsOf, List.length_cons] at hl; omega

theorem simpCall_runs {w : World} {m : HMap F64} {f : Func} {args : List Elem} {e : Elem}
    {vs : List F64} {v : F64} (ha : RunsL w m args vs) (hs : CallStep w f vs v)
    (h : simpCall w f args = .ok e) : ∃ u, Runs w m e u ∧ Same v u := by
  unfold simpCall at h
  split at h
  · rename_i hlen
    rw [numsOf_runs ha hlen, hs.1] at h
    cases h
    exact ⟨_, .num, .refl _⟩
  · cases h
    exact ⟨_, .call ha hs, .refl _⟩

/-! ### Whole trees -/

mutual
theorem simplify_runs {cfg : Cfg} {w : World} {m : HMap F64} (hw : PowLaws w) :
    ∀ (e : Elem) {e' : Elem} {v : F64}, Runs w m e v → simplify cfg w e = .ok e' →
      ∃ u, Runs w m e' u ∧ Same v u
  | .num x, e', v, hr, h => by cases h; exact ⟨v, hr, .refl _⟩
  | .var n, e', v, hr, h => by cases h; exact ⟨v, hr, .refl _⟩
  | .bin op l r, e', v, hr, h => by
    obtain ⟨l', r', hl', hr', h⟩ := simplify_bin_ok h
    cases hr with
    | bin hl hr hs =>
      obtain ⟨a', ha, sa⟩ := simplify_runs hw l hl hl'
      obtain ⟨b', hb, sb⟩ := simplify_runs hw r hr hr'
      obtain ⟨v', hv, sv⟩ := hs.congr hw sa sb
      obtain ⟨u, hu, su⟩ := simpBin_runs hw ha hb hv h
      exact ⟨u, hu, sv.trans su⟩
  | .un op e, e', v, hr, h => by
    obtain ⟨a, ha, h⟩ := simplify_un_ok h
    cases hr with
    | un hr hs =>
      obtain ⟨a', ha, sa⟩ := simplify_runs hw e hr ha
      obtain ⟨v', hv, sv⟩ := hs.congr sa
      obtain ⟨u, hu, su⟩ := simpUn_runs ha hv h
      exact ⟨u, hu, sv.trans su⟩
  | .call f args, e', v, hr, h => by
    obtain ⟨as, ha, h⟩ := simplify_call_ok h
    cases hr with
    | call hr hs =>
      obtain ⟨us, ha, sa⟩ := simplifyL_runs hw args hr ha
      obtain ⟨v', hv, sv⟩ := hs.congr sa
      obtain ⟨u, hu, su⟩ := simpCall_runs ha hv h
      exact ⟨u, hu, sv.trans su⟩
theorem simplifyL_runs {cfg : Cfg} {w : World} {m : HMap F64} (hw : PowLaws w) :
    ∀ (es : List Elem) {es' : List Elem} {vs : List F64}, RunsL w m es vs →
      simplifyL cfg w es = .ok es' → ∃ us, RunsL w m es' us ∧ SameL vs us
  | [], es', vs, hr, h => by cases h; cases hr; exact ⟨[], .nil, .nil⟩
  | a :: as, es', vs, hr, h => by
    obtain ⟨a', as', ha, has, rfl⟩ := simplifyL_cons_ok h
    cases hr with
    | cons hr hrs =>
      obtain ⟨u, hu, su⟩ := simplify_runs hw a hr ha
      obtain ⟨us, hus, sus⟩ := simplifyL_runs hw as hrs has
      exact ⟨_, .cons hu hus, .cons su sus⟩
end

mutual
theorem simplifyFor_runs {cfg : Cfg} {w : World} {m : HMap F64} (hw : PowLaws w) {x : Bytes}
    {c : F64} : ∀ (e : Elem) {e' : Elem} {v : F64}, Runs w (m.insert x c) e v →
      simplifyFor cfg w x c e = .ok e' → ∃ u, Runs w m e' u ∧ Same v u
  | .num y, e', v, hr, h => by cases h; cases hr; exact ⟨y, .num, .refl _⟩
  | .var n, e', v, hr, h => by
    rw [simplifyFor] at h
    cases hr with
    | var hr =>
      unfold HMap.insert at hr
      split at h
      · rename_i hn
        cases h
        rw [if_pos hn] at hr
        cases hr
        exact ⟨_, .num, .refl _⟩
      · rename_i hn
        cases h
        rw [if_neg hn] at hr
        exact ⟨_, .var hr, .refl _⟩
  | .bin op l r, e', v, hr, h => by
    obtain ⟨l', r', hl', hr', h⟩ := simplifyFor_bin_ok h
    cases hr with
    | bin hl hr hs =>
      obtain ⟨a', ha, sa⟩ := simplifyFor_runs hw l hl hl'
      obtain ⟨b', hb, sb⟩ := simplifyFor_runs hw r hr hr'
      obtain ⟨v', hv, sv⟩ := hs.congr hw sa sb
      obtain ⟨u, hu, su⟩ := simplify_runs hw _ (.bin ha hb hv) h
      exact ⟨u, hu, sv.trans su⟩
  | .un op e, e', v, hr, h => by
    obtain ⟨a, ha, h⟩ := simplifyFor_un_ok h
    cases hr with
    | un hr hs =>
      obtain ⟨a', ha, sa⟩ := simplifyFor_runs hw e hr ha
      obtain ⟨v', hv, sv⟩ := hs.congr sa
      obtain ⟨u, hu, su⟩ := simplify_runs hw _ (.un ha hv) h
      exact ⟨u, hu, sv.trans su⟩
  | .call f args, e', v, hr, h => by
    obtain ⟨as, ha, h⟩ := simplifyFor_call_ok h
    cases hr with
    | call hr hs =>
      obtain ⟨us, ha, sa⟩ := simplifyForL_runs hw args hr ha
      obtain ⟨v', hv, sv⟩ := hs.congr sa
      obtain ⟨u, hu, su⟩ := simplify_runs hw _ (.call ha hv) h
      exact ⟨u, hu, sv.trans su⟩
theorem simplifyForL_runs {cfg : Cfg} {w : World} {m : HMap F64} (hw : PowLaws w) {x : Bytes}
    {c : F64} : ∀ (es : List Elem) {es' : List Elem} {vs : List F64},
      RunsL w (m.insert x c) es vs → simplifyForL cfg w x c es = .ok es' →
      ∃ us, RunsL w m es' us ∧ SameL vs us
  | [], es', vs, hr, h => by cases h; cases hr; exact ⟨[], .nil, .nil⟩
  | a :: as, es', vs, hr, h => by
    obtain ⟨a', as', ha, has, rfl⟩ := simplifyForL_cons_ok h
    cases hr with
    | cons hr hrs =>
      obtain ⟨u, hu, su⟩ := simplifyFor_runs hw a hr ha
      obtain ⟨us, hus, sus⟩ := simplifyForL_runs hw as hrs has
      exact ⟨_, .cons hu hus, .cons su sus⟩
end

end Xprs
