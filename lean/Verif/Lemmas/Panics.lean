import Verif.Lemmas.Denote
/-
Which panics are possible: as long as functions get the number of arguments they
declare, only `unreachable!()`.
-/
namespace Xprs
open Spec
set_option linter.unusedSimpArgs false

/-- Every failure is an `unreachable!()`. -/
def OnlyUnr {α : Type} (x : PM α) : Prop := ∀ p, x = .error p → p = .unreachable

theorem onlyUnr_ok {α : Type} (a : α) : OnlyUnr (.ok a : PM α) := by intro p h; cases h
theorem onlyUnr_unr {α : Type} : OnlyUnr (.error .unreachable : PM α) := by
  intro p h; cases h; rfl
theorem onlyUnr_of_ok {α : Type} {x : PM α} (h : ∃ a, x = .ok a) : OnlyUnr x := by
  obtain ⟨a, rfl⟩ := h; exact onlyUnr_ok a
theorem onlyUnr_map {α β : Type} {x : PM α} (f : α → β) (h : OnlyUnr x) : OnlyUnr (x.map f) := by
  intro p hp
  cases x with
  | ok a => cases hp
  | error q => cases hp; exact h _ rfl

theorem onlyUnr_andM {x y : PM Bool} (hx : OnlyUnr x) (hy : OnlyUnr y) : OnlyUnr (andM x y) := by
  unfold andM; split
  · exact hy
  · exact onlyUnr_ok _
  · intro p h; cases h; exact hx _ rfl
theorem onlyUnr_orM {x y : PM Bool} (hx : OnlyUnr x) (hy : OnlyUnr y) : OnlyUnr (orM x y) := by
  unfold orM; split
  · exact onlyUnr_ok _
  · exact hy
  · intro p h; cases h; exact hx _ rfl

mutual
theorem eqE_unr : ∀ a b : Elem, OnlyUnr (eqE a b)
  | .num x, b => by cases b <;> exact onlyUnr_ok _
  | .var x, b => by cases b <;> exact onlyUnr_ok _
  | .un op e, b => by
    cases b with
    | un op' e' =>
      unfold eqE; split
      · exact eqE_unr e e'
      · exact onlyUnr_ok _
    | _ => exact onlyUnr_ok _
  | .bin op l r, b => by
    cases b with
    | bin op' l' r' =>
      unfold eqE
      split
      · cases op with
        | factorial => exact onlyUnr_unr
        | plus => exact onlyUnr_orM (onlyUnr_andM (eqE_unr l l') (eqE_unr r r'))
                    (onlyUnr_andM (eqE_unr l r') (eqE_unr r l'))
        | times => exact onlyUnr_orM (onlyUnr_andM (eqE_unr l l') (eqE_unr r r'))
                    (onlyUnr_andM (eqE_unr l r') (eqE_unr r l'))
        | _ => exact onlyUnr_andM (eqE_unr l l') (eqE_unr r r')
      · exact onlyUnr_ok _
    | _ => exact onlyUnr_ok _
  | .call f as, b => by
    cases b with
    | call g bs =>
      unfold eqE
      split
      · split
        · exact eqEs_unr as bs
        · exact onlyUnr_ok _
      · exact onlyUnr_ok _
    | _ => exact onlyUnr_ok _
theorem eqEs_unr : ∀ as bs : List Elem, OnlyUnr (eqEs as bs)
  | [], bs => by rw [eqEs]; exact onlyUnr_ok _; simp
  | a :: as, [] => by rw [eqEs]; exact onlyUnr_ok _; simp
  | a :: as, b :: bs => by
    rw [eqEs]; exact onlyUnr_andM (eqE_unr a b) (eqEs_unr as bs)
end

theorem binF_unr (w : World) (op : Op) (a b : F64) : OnlyUnr (binF w op a b) := by
  cases op <;> first | exact onlyUnr_ok _ | exact onlyUnr_unr

theorem unF_unr (op : Op) (a : F64) : OnlyUnr (unF op a) := by
  cases op <;>
    first
    | exact onlyUnr_ok _
    | exact onlyUnr_unr
    | exact onlyUnr_of_ok (factorial_ok a)

theorem foldBin_unr (w : World) (op : Op) (l r : Elem) : OnlyUnr (foldBin w op l r) := by
  unfold foldBin; split
  · exact onlyUnr_map _ (binF_unr w op _ _)
  · exact onlyUnr_ok _

theorem guardEq_unr {a b res : Elem} {rest : PM Elem} (h : OnlyUnr rest) :
    OnlyUnr (guardEq a b res rest) := by
  unfold guardEq; split
  · rename_i p hp; intro q hq; cases hq; exact eqE_unr a b _ hp
  · exact onlyUnr_ok _
  · exact h

theorem simpBin_unr (cfg : Cfg) (w : World) (op : Op) (l r : Elem) :
    OnlyUnr (simpBin cfg w op l r) := by
  cases op <;>
    simp only [simpBin, simpPlus, simpMinus, simpTimes, simpDivide, simpPower, simpModulo] <;>
    repeat' first
      | exact onlyUnr_ok _
      | exact foldBin_unr w _ _ _
      | apply guardEq_unr
      | split

theorem simpUn_unr (op : Op) (e : Elem) : OnlyUnr (simpUn op e) := by
  unfold simpUn
  repeat' split
  all_goals first
    | exact onlyUnr_ok _
    | exact onlyUnr_unr
    | exact onlyUnr_map _ (onlyUnr_of_ok (factorial_ok _))

theorem simpCall_unr {w : World} {f : Func} (hf : FnTotal w f) {args : List Elem}
    (ha : ArityOk f args.length) : OnlyUnr (simpCall w f args) :=
  onlyUnr_of_ok (simpCall_total hf ha)

mutual
theorem simplify_unr (cfg : Cfg) (w : World) : ∀ e : Elem, Calls (FnTotal w) e →
    OnlyUnr (simplify cfg w e)
  | .num x, _ => by rw [simplify]; exact onlyUnr_ok _
  | .var x, _ => by rw [simplify]; exact onlyUnr_ok _
  | .bin op l r, h => by
    rw [calls_bin] at h
    rw [simplify]
    split
    · rename_i p hp; intro q hq; cases hq; exact simplify_unr cfg w l h.1 _ hp
    · split
      · rename_i p hp; intro q hq; cases hq; exact simplify_unr cfg w r h.2 _ hp
      · exact simpBin_unr cfg w op _ _
  | .un op e, h => by
    rw [calls_un] at h
    rw [simplify]
    split
    · rename_i p hp; intro q hq; cases hq; exact simplify_unr cfg w e h _ hp
    · exact simpUn_unr op _
  | .call f args, h => by
    rw [calls_call] at h
    rw [simplify]
    split
    · rename_i p hp; intro q hq; cases hq; exact simplifyL_unr cfg w args h.2 _ hp
    · rename_i args' ha
      exact simpCall_unr h.1.1 (by rw [simplifyL_length args ha]; exact h.1.2)
theorem simplifyL_unr (cfg : Cfg) (w : World) : ∀ es : List Elem, (∀ a ∈ es, Calls (FnTotal w) a) →
    OnlyUnr (simplifyL cfg w es)
  | [], _ => by rw [simplifyL]; exact onlyUnr_ok _
  | a :: as, h => by
    rw [simplifyL]
    split
    · rename_i p hp; intro q hq; cases hq; exact simplify_unr cfg w a (h a (by simp)) _ hp
    · split
      · rename_i p hp; intro q hq; cases hq
        exact simplifyL_unr cfg w as (fun c hc => h c (by simp [hc])) _ hp
      · exact onlyUnr_ok _
end

mutual
theorem simplifyFor_unr (cfg : Cfg) (w : World) (x : Bytes) (v : F64) : ∀ e : Elem,
    Calls (FnTotal w) e → OnlyUnr (simplifyFor cfg w x v e)
  | .num y, _ => by rw [simplifyFor]; exact onlyUnr_ok _
  | .var y, _ => by rw [simplifyFor]; split <;> exact onlyUnr_ok _
  | .bin op l r, h => by
    rw [calls_bin] at h
    rw [simplifyFor]
    split
    · rename_i p hp; intro q hq; cases hq; exact simplifyFor_unr cfg w x v l h.1 _ hp
    · rename_i l' hl
      split
      · rename_i p hp; intro q hq; cases hq; exact simplifyFor_unr cfg w x v r h.2 _ hp
      · rename_i r' hr
        exact simplify_unr cfg w _
          (calls_bin.2 ⟨simplifyFor_calls l hl h.1, simplifyFor_calls r hr h.2⟩)
  | .un op e, h => by
    rw [calls_un] at h
    rw [simplifyFor]
    split
    · rename_i p hp; intro q hq; cases hq; exact simplifyFor_unr cfg w x v e h _ hp
    · rename_i e' he
      exact simplify_unr cfg w _ (calls_un.2 (simplifyFor_calls e he h))
  | .call f args, h => by
    rw [calls_call] at h
    rw [simplifyFor]
    split
    · rename_i p hp; intro q hq; cases hq; exact simplifyForL_unr cfg w x v args h.2 _ hp
    · rename_i args' ha
      exact simplify_unr cfg w _ (calls_call.2
        ⟨⟨h.1.1, by rw [simplifyForL_length args ha]; exact h.1.2⟩, simplifyForL_calls args ha h.2⟩)
theorem simplifyForL_unr (cfg : Cfg) (w : World) (x : Bytes) (v : F64) : ∀ es : List Elem,
    (∀ a ∈ es, Calls (FnTotal w) a) → OnlyUnr (simplifyForL cfg w x v es)
  | [], _ => by rw [simplifyForL]; exact onlyUnr_ok _
  | a :: as, h => by
    rw [simplifyForL]
    split
    · rename_i p hp; intro q hq; cases hq
      exact simplifyFor_unr cfg w x v a (h a (by simp)) _ hp
    · split
      · rename_i p hp; intro q hq; cases hq
        exact simplifyForL_unr cfg w x v as (fun c hc => h c (by simp [hc])) _ hp
      · exact onlyUnr_ok _
end

theorem liftP_unr {α : Type} {x : PM α} {p : Panic} (hx : OnlyUnr x)
    (h : liftP x = .error (.panic p)) : p = .unreachable := by
  cases x with
  | ok a => cases h
  | error q => cases h; exact hx _ rfl

mutual
theorem eval_unr (w : World) (m : HMap F64) : ∀ (e : Elem) {p : Panic}, Calls (FnTotal w) e →
    eval w m e = .error (.panic p) → p = .unreachable
  | .num x, p, _, h => by rw [eval] at h; cases h
  | .var x, p, _, h => by rw [eval] at h; split at h <;> cases h
  | .bin op l r, p, hc, h => by
    rw [calls_bin] at hc
    rw [eval] at h
    split at h
    · rename_i q hq; cases h; exact eval_unr w m l hc.1 hq
    · split at h
      · rename_i q hq; cases h; exact eval_unr w m r hc.2 hq
      · exact liftP_unr (binF_unr w op _ _) h
  | .un op e, p, hc, h => by
    rw [calls_un] at hc
    rw [eval] at h
    split at h
    · rename_i q hq; cases h; exact eval_unr w m e hc hq
    · exact liftP_unr (unF_unr op _) h
  | .call f args, p, hc, h => by
    rw [calls_call] at hc
    rw [eval] at h
    split at h
    · rename_i q hq; cases h; exact evalL_unr w m args hc.2 hq
    · rename_i vs hvs
      refine liftP_unr (onlyUnr_of_ok (hc.1.1 vs ?_)) h
      rw [evalL_length w m args hvs]; exact hc.1.2
theorem evalL_unr (w : World) (m : HMap F64) : ∀ (es : List Elem) {p : Panic},
    (∀ a ∈ es, Calls (FnTotal w) a) → evalL w m es = .error (.panic p) → p = .unreachable
  | [], p, _, h => by rw [evalL] at h; cases h
  | a :: as, p, hc, h => by
    rw [evalL] at h
    split at h
    · rename_i q hq; cases h; exact eval_unr w m a (hc a (by simp)) hq
    · split at h
      · rename_i q hq; cases h; exact evalL_unr w m as (fun c h' => hc c (by simp [h'])) hq
      · cases h
end

end Xprs
