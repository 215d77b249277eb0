import Verif.Lemmas.Safe
import Verif.Eval
/-
Trees for which two platforms do the same.
-/
namespace Xprs
open Spec

/-- Two platforms agree on the powers and functions of a tree. -/
inductive OnBoth (w w' : World) : Elem → Prop
  | num (x) : OnBoth w w' (.num x)
  | var (n) : OnBoth w w' (.var n)
  | un {op e} : OnBoth w w' e → OnBoth w w' (.un op e)
  | bin {op l r} : (op = .power → ∀ a b, w.powf a b = w'.powf a b) → OnBoth w w' l →
      OnBoth w w' r → OnBoth w w' (.bin op l r)
  | call {f args} : (∀ vs, callFn w f vs = callFn w' f vs) → (∀ a ∈ args, OnBoth w w' a) →
      OnBoth w w' (.call f args)

variable {w w' : World} {cfg : Cfg}

theorem OnBoth.un_inv {op : Op} {a : Elem} (h : OnBoth w w' (.un op a)) : OnBoth w w' a := by
  cases h; assumption

theorem BinShape.onBoth {op : Op} {l r e : Elem} (h : BinShape op l r e)
    (ho : op = .power → ∀ a b, w.powf a b = w'.powf a b) (hl : OnBoth w w' l) (hr : OnBoth w w' r) :
    OnBoth w w' e := by
  cases h with
  | left => exact hl
  | right => exact hr
  | num x => exact .num x
  | neg _ => exact .un hr
  | plus b _ hb => subst hb; exact .bin (by simp) hl hr.un_inv
  | both a b ha hb => subst ha hb; exact .bin ho hl.un_inv hr.un_inv
  | same => exact .bin ho hl hr

theorem UnShape.onBoth {op : Op} {a e : Elem} (h : UnShape op a e) (ha : OnBoth w w' a) :
    OnBoth w w' e := by
  cases h with
  | same _ => exact .un ha
  | operand => exact ha
  | num x => exact .num x

theorem binF_both {op : Op} (ho : op = .power → ∀ a b, w.powf a b = w'.powf a b) (a b : F64) :
    binF w op a b = binF w' op a b := by
  cases op <;> first | rfl | (simp only [binF]; rw [ho rfl])

theorem foldBin_both {op : Op} (ho : op = .power → ∀ a b, w.powf a b = w'.powf a b) (l r : Elem) :
    foldBin w op l r = foldBin w' op l r := by
  unfold foldBin
  split
  · rw [binF_both ho]
  · rfl

theorem simpBin_both {op : Op} (ho : op = .power → ∀ a b, w.powf a b = w'.powf a b) (l r : Elem) :
    simpBin cfg w op l r = simpBin cfg w' op l r := by
  have h := foldBin_both ho l r
  cases op <;>
    simp only [simpBin, simpPlus, simpMinus, simpTimes, simpDivide, simpPower, simpModulo, h]

theorem simpCall_both {f : Func} (hf : ∀ vs, callFn w f vs = callFn w' f vs) (args : List Elem) :
    simpCall w f args = simpCall w' f args := by
  unfold simpCall; rw [hf]

/-- Simplification does the same on both platforms, and keeps what they agree on. -/
theorem simplify_both (e : Elem) : OnBoth w w' e → simplify cfg w e = simplify cfg w' e ∧
    ∀ e', simplify cfg w e = .ok e' → OnBoth w w' e' := by
  induction e using Elem.ind with
  | num x => intro h; exact ⟨by rw [simplify, simplify], fun e' h' => by rw [simplify] at h'; cases h'; exact h⟩
  | var x => intro h; exact ⟨by rw [simplify, simplify], fun e' h' => by rw [simplify] at h'; cases h'; exact h⟩
  | bin op l r ihl ihr =>
    intro h
    cases h with
    | bin ho hl hr =>
      obtain ⟨l1, l2⟩ := ihl hl
      obtain ⟨r1, r2⟩ := ihr hr
      refine ⟨?_, fun e' h' => ?_⟩
      · rw [simplify, simplify, ← l1, ← r1]
        simp only [simpBin_both ho]
      · obtain ⟨l', r', hl', hr', hb⟩ := simplify_bin_ok h'
        exact (simpBin_shape hb).onBoth ho (l2 _ hl') (r2 _ hr')
  | un op a ih =>
    intro h
    obtain ⟨h1, h2⟩ := ih h.un_inv
    refine ⟨by rw [simplify, simplify, ← h1], fun e' h' => ?_⟩
    obtain ⟨a', ha, hb⟩ := simplify_un_ok h'
    exact (simpUn_shape hb).onBoth (h2 _ ha)
  | call f args ih =>
    intro h
    cases h with
    | call hf hargs =>
      have hl : simplifyL cfg w args = simplifyL cfg w' args ∧
          ∀ es, simplifyL cfg w args = .ok es → ∀ a ∈ es, OnBoth w w' a := by
        clear hf
        induction args with
        | nil => exact ⟨by rw [simplifyL, simplifyL], fun es h => by rw [simplifyL] at h; cases h; simp⟩
        | cons b bs ihb =>
          obtain ⟨h1, h2⟩ := ih b (by simp) (hargs b (by simp))
          obtain ⟨h3, h4⟩ := ihb (fun a ha => ih a (by simp [ha])) (fun a ha => hargs a (by simp [ha]))
          refine ⟨by rw [simplifyL, simplifyL, ← h1, ← h3], fun es h => ?_⟩
          obtain ⟨b', bs', hb1, hb2, rfl⟩ := simplifyL_cons_ok h
          intro d hd
          rcases List.mem_cons.1 hd with rfl | hd
          · exact h2 _ hb1
          · exact h4 _ hb2 d hd
      refine ⟨?_, fun e' h' => ?_⟩
      · rw [simplify, simplify, ← hl.1]
        simp only [simpCall_both hf]
      · obtain ⟨args', ha, hb⟩ := simplify_call_ok h'
        rcases simpCall_shape hb with rfl | ⟨x, rfl⟩
        · exact .call hf (hl.2 _ ha)
        · exact .num x

theorem simplifyFor_both (x : Bytes) (v : F64) (e : Elem) : OnBoth w w' e →
    simplifyFor cfg w x v e = simplifyFor cfg w' x v e ∧
    ∀ e', simplifyFor cfg w x v e = .ok e' → OnBoth w w' e' := by
  induction e using Elem.ind with
  | num y => intro h; exact ⟨by rw [simplifyFor, simplifyFor], fun e' h' => by rw [simplifyFor] at h'; cases h'; exact h⟩
  | var y =>
    intro h
    refine ⟨by rw [simplifyFor, simplifyFor], fun e' h' => ?_⟩
    rw [simplifyFor] at h'
    split at h' <;> cases h'
    · exact .num v
    · exact h
  | bin op l r ihl ihr =>
    intro h
    cases h with
    | bin ho hl hr =>
      obtain ⟨l1, l2⟩ := ihl hl
      obtain ⟨r1, r2⟩ := ihr hr
      refine ⟨?_, fun e' h' => ?_⟩
      · rw [simplifyFor, simplifyFor, ← l1, ← r1]
        cases hl' : simplifyFor cfg w x v l with
        | error p => rfl
        | ok l' =>
          cases hr' : simplifyFor cfg w x v r with
          | error p => rfl
          | ok r' => exact (simplify_both _ (.bin ho (l2 _ hl') (r2 _ hr'))).1
      · obtain ⟨l', r', hl', hr', hb⟩ := simplifyFor_bin_ok h'
        exact (simplify_both _ (.bin ho (l2 _ hl') (r2 _ hr'))).2 _ hb
  | un op a ih =>
    intro h
    obtain ⟨h1, h2⟩ := ih h.un_inv
    refine ⟨?_, fun e' h' => ?_⟩
    · rw [simplifyFor, simplifyFor, ← h1]
      cases ha : simplifyFor cfg w x v a with
      | error p => rfl
      | ok a' => exact (simplify_both _ (.un (h2 _ ha))).1
    · obtain ⟨a', ha, hb⟩ := simplifyFor_un_ok h'
      exact (simplify_both _ (.un (h2 _ ha))).2 _ hb
  | call f args ih =>
    intro h
    cases h with
    | call hf hargs =>
      have hl : simplifyForL cfg w x v args = simplifyForL cfg w' x v args ∧
          ∀ es, simplifyForL cfg w x v args = .ok es → ∀ a ∈ es, OnBoth w w' a := by
        clear hf
        induction args with
        | nil => exact ⟨by rw [simplifyForL, simplifyForL], fun es h => by rw [simplifyForL] at h; cases h; simp⟩
        | cons b bs ihb =>
          obtain ⟨h1, h2⟩ := ih b (by simp) (hargs b (by simp))
          obtain ⟨h3, h4⟩ := ihb (fun a ha => ih a (by simp [ha])) (fun a ha => hargs a (by simp [ha]))
          refine ⟨by rw [simplifyForL, simplifyForL, ← h1, ← h3], fun es h => ?_⟩
          obtain ⟨b', bs', hb1, hb2, rfl⟩ := simplifyForL_cons_ok h
          intro d hd
          rcases List.mem_cons.1 hd with rfl | hd
          · exact h2 _ hb1
          · exact h4 _ hb2 d hd
      refine ⟨?_, fun e' h' => ?_⟩
      · rw [simplifyFor, simplifyFor, ← hl.1]
        cases ha : simplifyForL cfg w x v args with
        | error p => rfl
        | ok as => exact (simplify_both _ (.call hf (hl.2 _ ha))).1
      · obtain ⟨args', ha, hb⟩ := simplifyFor_call_ok h'
        exact (simplify_both _ (.call hf (hl.2 _ ha))).2 _ hb

/-- So do the two evaluations. -/
theorem eval_both (m : HMap F64) (e : Elem) (h : OnBoth w w' e) :
    eval w m e = eval w' m e ∧ evalU w m e = evalU w' m e := by
  induction e using Elem.ind with
  | num x => exact ⟨by rw [eval, eval], by rw [evalU, evalU]⟩
  | var x => exact ⟨by rw [eval, eval], by rw [evalU, evalU]⟩
  | bin op l r ihl ihr =>
    cases h with
    | bin ho hl hr =>
      obtain ⟨l1, l2⟩ := ihl hl
      obtain ⟨r1, r2⟩ := ihr hr
      constructor
      · rw [eval, eval, ← l1, ← r1]
        simp only [binF_both ho]
      · rw [evalU, evalU, ← l2, ← r2]
        cases op <;> first | rfl | simp only [ho rfl]
  | un op a ih =>
    obtain ⟨h1, h2⟩ := ih h.un_inv
    exact ⟨by rw [eval, eval, ← h1], by rw [evalU, evalU, ← h2]⟩
  | call f args ih =>
    cases h with
    | call hf hargs =>
      have hl : evalL w m args = evalL w' m args ∧ evalUL w m args = evalUL w' m args := by
        clear hf
        induction args with
        | nil => exact ⟨by rw [evalL, evalL], by rw [evalUL, evalUL]⟩
        | cons b bs ihb =>
          obtain ⟨h1, h2⟩ := ih b (by simp) (hargs b (by simp))
          obtain ⟨h3, h4⟩ := ihb (fun a ha => ih a (by simp [ha])) (fun a ha => hargs a (by simp [ha]))
          exact ⟨by rw [evalL, evalL, ← h1, ← h3], by rw [evalUL, evalUL, ← h2, ← h4]⟩
      constructor
      · rw [eval, eval, ← hl.1]; simp only [hf]
      · rw [evalU, evalU, ← hl.2]; simp only [hf]

end Xprs
