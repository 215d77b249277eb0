import Verif.Depth
import Verif.Lemmas.CostParse
import Verif.Lemmas.Extent
import Verif.Lemmas.Nesting
/-
How deep the recursive functions recurse.
-/
namespace Xprs
open Spec

/-! ### Functions that walk through the whole tree -/

mutual
theorem findVarsD_eq : ∀ (n : Nat) (e : Elem) (vs : List Bytes),
    findVarsD n e vs = if height e ≤ n then some (findVars e vs) else none
  | 0, e, vs => by rw [findVarsD, if_neg (by have := height_pos e; omega)]
  | n + 1, .num x, vs => by rw [findVarsD, findVars, if_pos (by simp [height])]
  | n + 1, .var v, vs => by
    rw [findVarsD, findVars, if_pos (show height (.var v) ≤ n + 1 by simp [height])]
  | n + 1, .un op e, vs => by
    rw [findVarsD, findVars, findVarsD_eq n e, height]
    simp only [Nat.add_le_add_iff_right]
  | n + 1, .bin op l r, vs => by
    rw [findVarsD, findVars, findVarsD_eq n l, height]
    simp only [Nat.add_le_add_iff_right, Nat.max_le]
    by_cases h1 : height l ≤ n
    · simp only [h1, if_true, true_and]
      exact findVarsD_eq n r _
    · simp [h1]
  | n + 1, .call f args, vs => by
    rw [findVarsD, findVars, findVarsDL_eq n args, height]
    simp only [Nat.add_le_add_iff_right]
theorem findVarsDL_eq : ∀ (n : Nat) (as : List Elem) (vs : List Bytes),
    findVarsDL n as vs = if heightL as ≤ n then some (findVarsL as vs) else none
  | n, [], vs => by rw [findVarsDL, findVarsL, if_pos (by simp [heightL])]
  | n, a :: as, vs => by
    rw [findVarsDL, findVarsL, findVarsD_eq n a, heightL]
    simp only [Nat.max_le]
    by_cases h1 : height a ≤ n
    · simp only [h1, if_true, true_and]
      exact findVarsDL_eq n as _
    · simp [h1]
end

mutual
theorem showD_eq (fmt : F64 → Bytes) : ∀ (n : Nat) (e : Elem),
    showD fmt n e = if height e ≤ n then some (showE fmt e) else none
  | 0, e => by rw [showD, if_neg (by have := height_pos e; omega)]
  | n + 1, .num x => by rw [showD, showE, if_pos (by simp [height])]
  | n + 1, .var v => by rw [showD, showE, if_pos (by simp [height])]
  | n + 1, .un op e => by
    rw [showD, showE, showD_eq fmt n e, height]
    by_cases h1 : height e ≤ n <;> simp [h1]
  | n + 1, .bin op l r => by
    rw [showD, showE, showD_eq fmt n l, showD_eq fmt n r, height]
    simp only [Nat.add_le_add_iff_right, Nat.max_le]
    by_cases h1 : height l ≤ n <;> by_cases h2 : height r ≤ n <;> simp [h1, h2]
  | n + 1, .call f args => by
    rw [showD, showE, showDL_eq fmt n args, height]
    by_cases h1 : heightL args ≤ n <;> simp [h1]
theorem showDL_eq (fmt : F64 → Bytes) : ∀ (n : Nat) (as : List Elem),
    showDL fmt n as = if heightL as ≤ n then some (showL fmt as) else none
  | n, [] => by rw [showDL, showL, if_pos (by simp [heightL])]
  | n, a :: as => by
    rw [showDL, showL, showD_eq fmt n a, showDL_eq fmt n as, heightL]
    simp only [Nat.max_le]
    by_cases h1 : height a ≤ n <;> by_cases h2 : heightL as ≤ n <;> simp [h1, h2]
end

mutual
theorem dropD_eq : ∀ (n : Nat) (e : Elem), dropD n e = if height e ≤ n then some () else none
  | 0, e => by rw [dropD, if_neg (by have := height_pos e; omega)]
  | n + 1, .num x => by rw [dropD, if_pos (by simp [height])]
  | n + 1, .var v => by rw [dropD, if_pos (by simp [height])]
  | n + 1, .un op e => by
    rw [dropD, dropD_eq n e, height]
    simp only [Nat.add_le_add_iff_right]
  | n + 1, .bin op l r => by
    rw [dropD, dropD_eq n l, dropD_eq n r, height]
    simp only [Nat.add_le_add_iff_right, Nat.max_le]
    by_cases h1 : height l ≤ n <;> simp [h1]
  | n + 1, .call f args => by
    rw [dropD, dropDL_eq n args, height]
    simp only [Nat.add_le_add_iff_right]
theorem dropDL_eq : ∀ (n : Nat) (as : List Elem), dropDL n as = if heightL as ≤ n then some () else none
  | n, [] => by rw [dropDL, if_pos (by simp [heightL])]
  | n, a :: as => by
    rw [dropDL, dropD_eq n a, dropDL_eq n as, heightL]
    simp only [Nat.max_le]
    by_cases h1 : height a ≤ n <;> simp [h1]
end

/-! ### `==` -/

theorem andD_some {x y : PM Bool} : andD (some x) (some y) = some (andM x y) := by
  rcases x with p | _ | _ <;> rfl
theorem orD_some {x y : PM Bool} : orD (some x) (some y) = some (orM x y) := by
  rcases x with p | _ | _ <;> rfl

/-- Nothing, or this. -/
def Only {α : Type} (v : α) (o : Option α) : Prop := ∀ r, o = some r → r = v

theorem andD_only {x y : PM Bool} {a b : Option (PM Bool)} (ha : Only x a) (hb : Only y b) :
    Only (andM x y) (andD a b) := by
  intro r hr
  rcases a with _ | a
  · cases hr
  · have := ha a rfl; subst this
    rcases a with p | _ | _
    · cases hr; rfl
    · cases hr; rfl
    · exact hb r hr
theorem orD_only {x y : PM Bool} {a b : Option (PM Bool)} (ha : Only x a) (hb : Only y b) :
    Only (orM x y) (orD a b) := by
  intro r hr
  rcases a with _ | a
  · cases hr
  · have := ha a rfl; subst this
    rcases a with p | _ | _
    · cases hr; rfl
    · exact hb r hr
    · cases hr; rfl
theorem only_some {α : Type} (v : α) : Only v (some v) := fun _ h => (Option.some.inj h).symm
theorem only_none {α : Type} (v : α) : Only v none := nofun

mutual
theorem eqD_only : ∀ (n : Nat) (a b : Elem), Only (eqE a b) (eqD n a b)
  | 0, a, b => by rw [eqD]; exact only_none _
  | n + 1, a, b => by
    cases a <;> cases b <;> simp only [eqD, eqE] <;> try exact only_some _
    · rename_i o l r o' l' r'
      split
      · cases o <;> simp only <;> first
          | exact andD_only (eqD_only n _ _) (eqD_only n _ _)
          | exact orD_only (andD_only (eqD_only n _ _) (eqD_only n _ _)) (andD_only (eqD_only n _ _) (eqD_only n _ _))
          | exact only_some _
      · exact only_some _
    · split
      · exact eqD_only n _ _
      · exact only_some _
    · split
      · split
        · exact eqDL_only n _ _
        · exact only_some _
      · exact only_some _
theorem eqDL_only : ∀ (n : Nat) (as bs : List Elem), Only (eqEs as bs) (eqDL n as bs)
  | n, a :: as, b :: bs => by
    rw [eqDL, eqEs]; exact andD_only (eqD_only n a b) (eqDL_only n as bs)
  | n, [], bs => by rw [eqDL, eqEs]; exact only_some _; all_goals nofun
  | n, a :: as, [] => by rw [eqDL, eqEs]; exact only_some _; all_goals nofun
end

mutual
theorem eqD_enough : ∀ (n : Nat) (a b : Elem), height a ≤ n → eqD n a b = some (eqE a b)
  | 0, a, b, h => absurd h (by have := height_pos a; omega)
  | n + 1, a, b, h => by
    cases a <;> cases b <;> simp only [eqD, eqE] <;> try rfl
    · rename_i o l r o' l' r'
      rw [height] at h
      have hl : height l ≤ n := by omega
      have hr : height r ≤ n := by omega
      split
      · cases o <;> simp only [eqD_enough n l _ hl, eqD_enough n r _ hr, andD_some, orD_some]
      · rfl
    · rw [height] at h
      split
      · exact eqD_enough n _ _ (by omega)
      · rfl
    · rw [height] at h
      split
      · split
        · exact eqDL_enough n _ _ (by omega)
        · rfl
      · rfl
theorem eqDL_enough : ∀ (n : Nat) (as bs : List Elem), heightL as ≤ n → eqDL n as bs = some (eqEs as bs)
  | n, a :: as, b :: bs, h => by
    rw [heightL] at h
    rw [eqDL, eqEs, eqD_enough n a b (by omega), eqDL_enough n as bs (by omega), andD_some]
  | n, [], bs, _ => by rw [eqDL, eqEs]; all_goals nofun
  | n, a :: as, [], _ => by rw [eqDL, eqEs]; all_goals nofun
end

/-! ### `simplify` -/

theorem guardD_only {n : Nat} {a b res : Elem} {v : PM Elem} {o : Option (PM Elem)} (h : Only v o) :
    Only (guardEq a b res v) (guardD n a b res o) := by
  intro r hr
  unfold guardD at hr
  unfold guardEq
  have := eqD_only n a b
  cases he : eqD n a b with
  | none => rw [he] at hr; cases hr
  | some x =>
    rw [← this x he]
    rw [he] at hr
    rcases x with p | _ | _
    · cases hr; rfl
    · exact h r hr
    · cases hr; rfl

theorem guardD_enough {n : Nat} {a b res : Elem} {v : PM Elem} (ha : height a ≤ n) :
    guardD n a b res (some v) = some (guardEq a b res v) := by
  unfold guardD guardEq
  rw [eqD_enough n a b ha]
  rcases eqE a b with p | _ | _ <;> rfl

theorem negOf_height {e a : Elem} (h : e.negOf? = some a) : height a ≤ height e := by
  unfold Elem.negOf? at h
  split at h
  · cases h; simp [height]
  · cases h

theorem simpBinD_only (cfg : Cfg) (w : World) (n : Nat) (op : Op) (l r : Elem) :
    Only (simpBin cfg w op l r) (simpBinD cfg w n op l r) := by
  cases op <;> rw [simpBinD, simpBin] <;> try exact only_some _
  · split
    · exact only_some _
    · rename_i h
      simp only [Bool.or_eq_true, not_or] at h
      unfold simpPlus
      rw [if_neg h.1, if_neg h.2]
      cases cfg.nightly <;> cases l.negOf? <;> cases r.negOf? <;> simp only <;> first
        | exact only_some _
        | exact guardD_only (only_some _)
        | exact guardD_only (guardD_only (only_some _))
  · split
    · exact only_some _
    · rename_i h
      simp only [Bool.or_eq_true, not_or] at h
      unfold simpMinus
      rw [if_neg h.1, if_neg h.2]
      refine guardD_only ?_
      cases cfg.nightly <;> cases r.negOf? <;> exact only_some _
  · split
    · exact only_some _
    · rename_i h
      simp only [Bool.or_eq_true, not_or] at h
      unfold simpDivide
      simp only [h.1.1, h.1.2, h.2, Bool.false_and]
      refine guardD_only ?_
      cases cfg.nightly <;> cases l.negOf? <;> cases r.negOf? <;> simp <;> exact only_some _
  · split
    · exact only_some _
    · rename_i h
      simp only [Bool.or_eq_true, not_or] at h
      unfold simpModulo
      simp only [h.1.1, h.1.2, h.2, Bool.false_and]
      exact guardD_only (only_some _)

theorem simpBinD_enough (cfg : Cfg) (w : World) (n : Nat) (op : Op) (l r : Elem) (hl : height l ≤ n) :
    simpBinD cfg w n op l r = some (simpBin cfg w op l r) := by
  cases op <;> rw [simpBinD, simpBin]
  · split
    · rfl
    · rename_i h
      simp only [Bool.or_eq_true, not_or] at h
      unfold simpPlus
      rw [if_neg h.1, if_neg h.2]
      have hn : ∀ {a}, l.negOf? = some a → height a ≤ n := fun ha => Nat.le_trans (negOf_height ha) hl
      generalize l.negOf? = p at hn
      cases cfg.nightly <;> rcases p with _ | a <;> cases r.negOf? <;> simp only [guardD_enough hl] <;>
        rw [guardD_enough (hn rfl)]
  · split
    · rfl
    · rename_i h
      simp only [Bool.or_eq_true, not_or] at h
      unfold simpMinus
      rw [if_neg h.1, if_neg h.2]
      cases cfg.nightly <;> cases r.negOf? <;> simp only [guardD_enough hl]
  · split
    · rfl
    · rename_i h
      simp only [Bool.or_eq_true, not_or] at h
      unfold simpDivide
      simp only [h.1.1, h.1.2, h.2, Bool.false_and]
      cases cfg.nightly <;> cases l.negOf? <;> cases r.negOf? <;> simp [guardD_enough hl]
  · split
    · rfl
    · rename_i h
      simp only [Bool.or_eq_true, not_or] at h
      unfold simpModulo
      simp only [h.1.1, h.1.2, h.2, Bool.false_and, guardD_enough hl]
      rfl

mutual
theorem simplifyD_only (cfg : Cfg) (w : World) : ∀ (n : Nat) (e : Elem), Only (simplify cfg w e) (simplifyD cfg w n e)
  | 0, e => by rw [simplifyD]; exact only_none _
  | n + 1, .num x => by rw [simplifyD, simplify]; exact only_some _
  | n + 1, .var v => by rw [simplifyD, simplify]; exact only_some _
  | n + 1, .un op e => by
    rw [simplifyD, simplify]
    have h := simplifyD_only cfg w n e
    rcases he : simplifyD cfg w n e with _ | p | a
    · exact only_none _
    · rw [← h _ he]; exact only_some _
    · rw [← h _ he]; exact only_some _
  | n + 1, .bin op l r => by
    rw [simplifyD, simplify]
    have h := simplifyD_only cfg w n l
    rcases hl : simplifyD cfg w n l with _ | p | a
    · exact only_none _
    · rw [← h _ hl]; exact only_some _
    · rw [← h _ hl]
      have h' := simplifyD_only cfg w n r
      rcases hr : simplifyD cfg w n r with _ | p | b
      · exact only_none _
      · rw [← h' _ hr]; exact only_some _
      · rw [← h' _ hr]; exact simpBinD_only cfg w n op a b
  | n + 1, .call f args => by
    rw [simplifyD, simplify]
    have h := simplifyDL_only cfg w n args
    rcases he : simplifyDL cfg w n args with _ | p | a
    · exact only_none _
    · rw [← h _ he]; exact only_some _
    · rw [← h _ he]; exact only_some _
theorem simplifyDL_only (cfg : Cfg) (w : World) : ∀ (n : Nat) (as : List Elem),
    Only (simplifyL cfg w as) (simplifyDL cfg w n as)
  | n, [] => by rw [simplifyDL, simplifyL]; exact only_some _
  | n, a :: as => by
    rw [simplifyDL, simplifyL]
    have h := simplifyD_only cfg w n a
    rcases hl : simplifyD cfg w n a with _ | p | x
    · exact only_none _
    · rw [← h _ hl]; exact only_some _
    · rw [← h _ hl]
      have h' := simplifyDL_only cfg w n as
      rcases hr : simplifyDL cfg w n as with _ | p | xs
      · exact only_none _
      · rw [← h' _ hr]; exact only_some _
      · rw [← h' _ hr]; exact only_some _
end

mutual
theorem simplifyD_enough (cfg : Cfg) (w : World) : ∀ (n : Nat) (e : Elem), height e ≤ n →
    simplifyD cfg w n e = some (simplify cfg w e)
  | 0, e, h => absurd h (by have := height_pos e; omega)
  | n + 1, .num x, _ => by rw [simplifyD, simplify]
  | n + 1, .var v, _ => by rw [simplifyD, simplify]
  | n + 1, .un op e, h => by
    rw [height] at h
    rw [simplifyD, simplify, simplifyD_enough cfg w n e (by omega)]
    cases simplify cfg w e <;> rfl
  | n + 1, .bin op l r, h => by
    rw [height] at h
    rw [simplifyD, simplify, simplifyD_enough cfg w n l (by omega), simplifyD_enough cfg w n r (by omega)]
    cases hl : simplify cfg w l with
    | error p => rfl
    | ok a =>
      have := simplify_height l hl
      cases simplify cfg w r with
      | error p => rfl
      | ok b => exact simpBinD_enough cfg w n op a b (by omega)
  | n + 1, .call f args, h => by
    rw [height] at h
    rw [simplifyD, simplify, simplifyDL_enough cfg w n args (by omega)]
    cases simplifyL cfg w args <;> rfl
theorem simplifyDL_enough (cfg : Cfg) (w : World) : ∀ (n : Nat) (as : List Elem), heightL as ≤ n →
    simplifyDL cfg w n as = some (simplifyL cfg w as)
  | n, [], _ => by rw [simplifyDL, simplifyL]
  | n, a :: as, h => by
    rw [heightL] at h
    rw [simplifyDL, simplifyL, simplifyD_enough cfg w n a (by omega), simplifyDL_enough cfg w n as (by omega)]
    cases simplify cfg w a with
    | error p => rfl
    | ok x => cases simplifyL cfg w as <;> rfl
end

mutual
theorem simplifyD_need (cfg : Cfg) (w : World) : ∀ (n : Nat) (e e' : Elem),
    simplifyD cfg w n e = some (.ok e') → height e ≤ n
  | 0, e, e', h => by rw [simplifyD] at h; cases h
  | n + 1, .num x, _, _ => by simp [height]
  | n + 1, .var v, _, _ => by simp [height]
  | n + 1, .un op e, e', h => by
    rw [simplifyD] at h
    rcases he : simplifyD cfg w n e with _ | p | a
    · rw [he] at h; cases h
    · rw [he] at h; cases h
    · have := simplifyD_need cfg w n e a he
      rw [height]; omega
  | n + 1, .bin op l r, e', h => by
    rw [simplifyD] at h
    rcases hl : simplifyD cfg w n l with _ | p | a
    · rw [hl] at h; cases h
    · rw [hl] at h; cases h
    · rw [hl] at h
      rcases hr : simplifyD cfg w n r with _ | p | b
      · rw [hr] at h; cases h
      · rw [hr] at h; cases h
      · have h1 := simplifyD_need cfg w n l a hl
        have h2 := simplifyD_need cfg w n r b hr
        rw [height]; omega
  | n + 1, .call f args, e', h => by
    rw [simplifyD] at h
    rcases he : simplifyDL cfg w n args with _ | p | a
    · rw [he] at h; cases h
    · rw [he] at h; cases h
    · have := simplifyDL_need cfg w n args a he
      rw [height]; omega
theorem simplifyDL_need (cfg : Cfg) (w : World) : ∀ (n : Nat) (as as' : List Elem),
    simplifyDL cfg w n as = some (.ok as') → heightL as ≤ n
  | n, [], _, _ => by simp [heightL]
  | n, a :: as, as', h => by
    rw [simplifyDL] at h
    rcases hl : simplifyD cfg w n a with _ | p | x
    · rw [hl] at h; cases h
    · rw [hl] at h; cases h
    · rw [hl] at h
      rcases hr : simplifyDL cfg w n as with _ | p | xs
      · rw [hr] at h; cases h
      · rw [hr] at h; cases h
      · have h1 := simplifyD_need cfg w n a x hl
        have h2 := simplifyDL_need cfg w n as xs hr
        rw [heightL]; omega
end

/-! ### `simplify_for` -/

section
variable (cfg : Cfg) (w : World) (x : Bytes) (v : F64)

mutual
theorem simplifyForD_enough : ∀ (n : Nat) (e : Elem), height e + 1 ≤ n →
    simplifyForD cfg w x v n e = some (simplifyFor cfg w x v e)
  | 0, e, h => absurd h (by omega)
  | n + 1, .num a, _ => by rw [simplifyForD, simplifyFor]
  | n + 1, .var m, _ => by rw [simplifyForD, simplifyFor]
  | n + 1, .un op e, h => by
    rw [height] at h
    rw [simplifyForD, simplifyFor, simplifyForD_enough n e (by omega)]
    cases he : simplifyFor cfg w x v e with
    | error p => rfl
    | ok a =>
      have := simplifyFor_height e he
      exact simplifyD_enough cfg w n _ (by rw [height]; omega)
  | n + 1, .bin op l r, h => by
    rw [height] at h
    rw [simplifyForD, simplifyFor, simplifyForD_enough n l (by omega), simplifyForD_enough n r (by omega)]
    cases hl : simplifyFor cfg w x v l with
    | error p => rfl
    | ok a =>
      have h1 := simplifyFor_height l hl
      cases hr : simplifyFor cfg w x v r with
      | error p => rfl
      | ok b =>
        have h2 := simplifyFor_height r hr
        exact simplifyD_enough cfg w n _ (by rw [height]; omega)
  | n + 1, .call f args, h => by
    rw [height] at h
    rw [simplifyForD, simplifyFor, simplifyForDL_enough n args (by omega)]
    cases he : simplifyForL cfg w x v args with
    | error p => rfl
    | ok a =>
      have := simplifyForL_height args he
      exact simplifyD_enough cfg w n _ (by rw [height]; omega)
theorem simplifyForDL_enough : ∀ (n : Nat) (as : List Elem), heightL as + 1 ≤ n →
    simplifyForDL cfg w x v n as = some (simplifyForL cfg w x v as)
  | n, [], _ => by rw [simplifyForDL, simplifyForL]
  | n, a :: as, h => by
    rw [heightL] at h
    rw [simplifyForDL, simplifyForL, simplifyForD_enough n a (by omega), simplifyForDL_enough n as (by omega)]
    cases simplifyFor cfg w x v a with
    | error p => rfl
    | ok x' => cases simplifyForL cfg w x v as <;> rfl
end

mutual
theorem simplifyForD_need : ∀ (n : Nat) (e e' : Elem),
    simplifyForD cfg w x v n e = some (.ok e') → height e ≤ n ∧ simplifyFor cfg w x v e = .ok e'
  | 0, e, e', h => by rw [simplifyForD] at h; cases h
  | n + 1, .num a, _, h => by
    rw [simplifyForD] at h; cases h
    exact ⟨by simp [height], by rw [simplifyFor]⟩
  | n + 1, .var m, _, h => by
    rw [simplifyForD] at h
    exact ⟨by simp [height], by rw [simplifyFor]; exact Option.some.inj h⟩
  | n + 1, .un op e, e', h => by
    rw [simplifyForD] at h
    rcases he : simplifyForD cfg w x v n e with _ | p | a
    · rw [he] at h; cases h
    · rw [he] at h; cases h
    · obtain ⟨h1, h2⟩ := simplifyForD_need n e a he
      rw [he] at h
      exact ⟨by rw [height]; omega, by rw [simplifyFor, h2]; exact (simplifyD_only cfg w n _ _ h).symm⟩
  | n + 1, .bin op l r, e', h => by
    rw [simplifyForD] at h
    rcases hl : simplifyForD cfg w x v n l with _ | p | a
    · rw [hl] at h; cases h
    · rw [hl] at h; cases h
    · rw [hl] at h
      rcases hr : simplifyForD cfg w x v n r with _ | p | b
      · rw [hr] at h; cases h
      · rw [hr] at h; cases h
      · obtain ⟨h1, h2⟩ := simplifyForD_need n l a hl
        obtain ⟨h3, h4⟩ := simplifyForD_need n r b hr
        rw [hr] at h
        exact ⟨by rw [height]; omega, by rw [simplifyFor, h2, h4]; exact (simplifyD_only cfg w n _ _ h).symm⟩
  | n + 1, .call f args, e', h => by
    rw [simplifyForD] at h
    rcases he : simplifyForDL cfg w x v n args with _ | p | a
    · rw [he] at h; cases h
    · rw [he] at h; cases h
    · obtain ⟨h1, h2⟩ := simplifyForDL_need n args a he
      rw [he] at h
      exact ⟨by rw [height]; omega, by rw [simplifyFor, h2]; exact (simplifyD_only cfg w n _ _ h).symm⟩
theorem simplifyForDL_need : ∀ (n : Nat) (as as' : List Elem),
    simplifyForDL cfg w x v n as = some (.ok as') → heightL as ≤ n ∧ simplifyForL cfg w x v as = .ok as'
  | n, [], _, h => by
    rw [simplifyForDL] at h; cases h
    exact ⟨by simp [heightL], by rw [simplifyForL]⟩
  | n, a :: as, as', h => by
    rw [simplifyForDL] at h
    rcases hl : simplifyForD cfg w x v n a with _ | p | x'
    · rw [hl] at h; cases h
    · rw [hl] at h; cases h
    · rw [hl] at h
      rcases hr : simplifyForDL cfg w x v n as with _ | p | xs
      · rw [hr] at h; cases h
      · rw [hr] at h; cases h
      · obtain ⟨h1, h2⟩ := simplifyForD_need n a x' hl
        obtain ⟨h3, h4⟩ := simplifyForDL_need n as xs hr
        rw [hr] at h; cases h
        exact ⟨by rw [heightL]; omega, by rw [simplifyForL, h2, h4]⟩
end

end

/-! ### The parser -/

theorem finishD_upto {cfg : Cfg} {w : World} {n : Nat} {el : Elem} {s : St} :
    Upto (finishD cfg w n el s) (finish cfg w el s) := by
  intro h
  unfold finishD at h ⊢
  unfold finish
  split
  · rename_i ho
    rw [if_pos ho] at h
    have := simplifyD_only cfg w n el
    rcases he : simplifyD cfg w n el with _ | p | a
    · rw [he] at h; exact absurd rfl h
    · rw [← this _ he]
    · rw [← this _ he]
  · rfl

/-- What is returned before the depth is used up is what is returned without a bound. -/
theorem elementD_upto (cfg : Cfg) (w : World) (ctx : Context) : ∀ (n m p : Nat) (s : St), n ≤ m →
    Upto (elementD cfg w ctx n p s) (element cfg w ctx m p s)
  | 0, _, _, _, _ => fun h => absurd rfl h
  | n + 1, 0, _, _, h => absurd h (by omega)
  | n + 1, m + 1, p, s, h => by
    rw [elementD, element]
    have ih := fun q t => elementD_upto cfg w ctx n m q t (by omega)
    exact (atom_upto ih s).bind fun a s1 => (opLoop_upto ih p _ _ _).bind fun _ _ => finishD_upto

theorem Upto.bind' {α β : Type} {r r' : R α} {f f' : α → St → R β} (h : Upto r r')
    (hf : ∀ a s, r = .ok a s → Upto (f a s) (f' a s)) : Upto (r.bind f) (r'.bind f') := by
  intro hn
  cases r with
  | ok a s => rw [h (by simp)]; exact hf a s rfl hn
  | err e s => rw [h (by simp)]; rfl
  | panic p => rw [h (by simp)]; rfl
  | fuel => exact absurd rfl hn

section
variable {cfg : Cfg} {ctx : Context} {N : Nat} {rec rec' : Nat → St → R Elem}
  (hr : Consumes rec) (h : ∀ p s, Tot N s → Upto (rec p s) (rec' p s))
include h

theorem argument_on {s : St} (hs : Tot N s) : Upto (argument cfg rec s) (argument cfg rec' s) := by
  intro hn
  unfold argument at hn ⊢
  rw [h noPrec s hs (by
    intro e
    rw [e] at hn
    exact hn rfl)]

include hr

theorem parseArgs_on : ∀ (n : Nat) (as : List Elem) (s : St), Tot N s →
    Upto (parseArgs cfg rec n as s) (parseArgs cfg rec' n as s)
  | 0, _, _, _ => .refl _
  | n + 1, as, s, hs => by
    rw [parseArgs, parseArgs]
    refine (argument_on h hs).bind' fun arg s1 h1 => ?_
    have t1 := (le_trim s1).tot ((hr _ _ _ _ (argument_ok h1)).le.tot hs)
    simp only
    split
    · rename_i c hc
      split
      · exact parseArgs_on n _ _ ((lt_one hc).le.tot t1)
      · exact .refl _
    · exact .refl _

theorem atom_on {s : St} (hs : Tot N s) : Upto (atom cfg ctx rec s) (atom cfg ctx rec' s) := by
  have t1 := (le_trim s).tot hs
  unfold atom
  simp only
  split
  · exact .refl _
  · rename_i c hc
    have t2 := (lt_one hc).le.tot t1
    split
    · exact .refl _
    · split
      · unfold parseIdent
        simp only
        split
        · exact .refl _
        · exact .refl _
        · split
          · exact (parseArgs_on hr h _ _ _ ((le_consumeIf _ _).tot ((le_skipWhile _ _).tot t1))).bind fun _ _ => .refl _
          · exact .refl _
      · split
        · exact (h _ _ t2).bind fun _ _ => .refl _
        · split
          · exact (h _ _ t2).bind fun _ _ => .refl _
          · split
            · exact (h _ _ t2).bind fun _ _ => .refl _
            · exact .refl _

theorem opLoop_on (p : Nat) : ∀ (n : Nat) (el : Elem) (s : St), Tot N s →
    Upto (opLoop cfg rec p n el s) (opLoop cfg rec' p n el s)
  | 0, _, _, _ => .refl _
  | n + 1, el, s, hs => by
    rw [opLoop, opLoop]
    split
    · exact .refl _
    · rename_i op q k hk
      have t1 := (opInfo_le hk).tot ((le_trim s).tot hs)
      exact (h _ _ t1).bind' fun e s2 h2 => opLoop_on p n _ _ ((hr _ _ _ _ h2).le.tot t1)

end

mutual
theorem height_le_size : ∀ e : Elem, height e ≤ size e
  | .num _ => by simp [height, size]
  | .var _ => by simp [height, size]
  | .un op e => by have := height_le_size e; simp only [height, size]; omega
  | .bin op l r => by
    have := height_le_size l; have := height_le_size r
    simp only [height, size]; omega
  | .call f args => by have := heightL_le_size args; simp only [height, size]; omega
theorem heightL_le_size : ∀ es : List Elem, heightL es ≤ sizeL es
  | [] => by simp [heightL, sizeL]
  | a :: as => by
    have := height_le_size a; have := heightL_le_size as
    simp only [heightL, sizeL]; omega
end

/-- Steps of one simplification inside a text of `N` bytes. -/
theorem finish_steps (cfg : Cfg) (w : World) (N : Nat) (e : Elem) (s : St) (h : size e + 1 ≤ 2 * N) :
    (finishC cfg w e s).2 ≤ simpBound (2 * N) := by
  unfold finishC
  split
  · have h1 := simplifyC_le cfg w e
    have h2 := simpBound_mono (show size e ≤ 2 * N by omega)
    rcases hc : simplifyC cfg w e with ⟨_ | a, k⟩
    · rw [hc] at h1; simp only at h1 ⊢; omega
    · rw [hc] at h1; simp only at h1 ⊢; omega
  · exact Nat.zero_le _

/-- The trees that are simplified are not larger than the text. -/
theorem loop_size {cfg : Cfg} {w : World} {ctx : Context} {N n p k : Nat} {s s1 s3 : St} {a el : Elem} (hs : Tot N s)
    (ha : atom cfg ctx (element cfg w ctx n) s = .ok a s1)
    (hl : opLoop cfg (element cfg w ctx n) p k (if (consumeIf c!"!" s1).1 then .un .factorial a else a)
      (consumeIf c!"!" s1).2 = .ok el s3) : size el + 1 ≤ 2 * N := by
  have hN : s.pos + s.rest.length = N := hs
  have hr := bd_element (cfg := cfg) (A := simpBound (2 * N) + 20) rfl (finish_steps cfg w N) ctx n
  have h1 := bd_atom rfl hr (cfg := cfg) ctx s hs
  have e1 := atomC_fst cfg (elementC_fst cfg w ctx n) ctx s
  rw [ha] at e1
  rcases hc : atomC cfg ctx (elementC cfg w ctx n) s with ⟨r, m⟩
  rw [hc] at e1 h1
  simp only at e1; subst e1
  obtain ⟨hs1, h1, _⟩ := h1
  have ht := (le_consumeIf c!"!" s1).tot hs1
  have hlen := (le_consumeIf c!"!" s1).len
  have hel : size (if (consumeIf c!"!" s1).1 then .un .factorial a else a) + 1 +
      2 * (consumeIf c!"!" s1).2.rest.length ≤ 2 * s.rest.length := by
    split
    · rename_i e
      have ⟨p1, p2⟩ := consumeIf_true e
      have hadv := len_adv_one p1
      have htr := (le_trim s1).len
      rw [p2]; simp only [size]; omega
    · omega
  have h2 := bd_opLoop rfl hr (cfg := cfg) p k (if (consumeIf c!"!" s1).1 then .un .factorial a else a)
    (consumeIf c!"!" s1).2 ht
  have e2 := opLoopC_fst cfg (elementC_fst cfg w ctx n) p k (if (consumeIf c!"!" s1).1 then .un .factorial a else a)
    (consumeIf c!"!" s1).2
  rw [hl] at e2
  rcases hc : opLoopC cfg (elementC cfg w ctx n) p k (if (consumeIf c!"!" s1).1 then .un .factorial a else a)
    (consumeIf c!"!" s1).2 with ⟨r, m'⟩
  rw [hc] at e2 h2
  simp only at e2; subst e2
  obtain ⟨_, h2, _⟩ := h2
  omega

/-- With room for the trees on top of what the nesting needs, the depth is not used up. -/
theorem elementD_on (cfg : Cfg) (w : World) (ctx : Context) {N m : Nat} (hm : 2 * N ≤ m) :
    ∀ (n p : Nat) (s : St), Tot N s → Upto (element cfg w ctx n p s) (elementD cfg w ctx (n + m) p s)
  | 0, _, _, _ => fun h => absurd rfl h
  | n + 1, p, s, hs => by
    rw [show n + 1 + m = (n + m) + 1 by omega, elementD, element]
    have ih := elementD_on cfg w ctx hm n
    have hr := element_consumes cfg w ctx n
    refine (atom_on hr ih hs).bind' fun a s1 h1 => ?_
    have t1 := (le_consumeIf c!"!" s1).tot ((atom_lt hr h1).le.tot hs)
    refine (opLoop_on hr ih p _ _ _ t1).bind' fun el s3 h3 => ?_
    intro _
    have h4 := loop_size hs h1 h3
    have h5 := height_le_size el
    unfold finishD finish
    rw [simplifyD_enough cfg w (n + m) el (by omega)]
    split
    · cases simplify cfg w el <;> rfl
    · rfl

/-- With optimisation the parser recurses deeper than the tree it returns is high. -/
theorem elementD_height {cfg : Cfg} (hopt : cfg.opt = true) {w : World} {ctx : Context} {n p : Nat} {s s' : St}
    {e : Elem} (h : elementD cfg w ctx n p s = .ok e s') : height e < n := by
  cases n with
  | zero => rw [elementD] at h; cases h
  | succ n =>
    rw [elementD] at h
    obtain ⟨a, s1, _, h⟩ := R.bind_eq_ok h
    obtain ⟨el, s3, _, h⟩ := R.bind_eq_ok h
    unfold finishD at h
    rw [if_pos hopt] at h
    cases hd : simplifyD cfg w n el with
    | none => rw [hd] at h; cases h
    | some r =>
      cases r with
      | error p => rw [hd] at h; cases h
      | ok e' =>
        rw [hd] at h; cases h
        have h1 := simplifyD_need cfg w n el e hd
        have h2 := simplify_height el (simplifyD_only cfg w n el _ hd).symm
        omega

end Xprs
