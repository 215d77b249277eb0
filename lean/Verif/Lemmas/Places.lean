import Verif.Lemmas.Layout
import Verif.Lemmas.Parse
import Verif.Spec.Effects
/-
The calls of a parsed tree are those written, in builds that do not simplify.
-/
namespace Xprs
open Spec

variable {cfg : Cfg} {ctx : Context}

theorem userCalls_call (f : Func) (args : List Elem) : userCalls (.call f args) =
    userCallsL args ++ match f.func with
      | .builtin _ => []
      | p => [p] := by rw [userCalls]; rfl

theorem userFn_sym {c : UInt8} (h : ¬ letter c) (t : Bytes) : userFn ctx (c :: t) = none := by
  simp [userFn, h]

theorem userFn_name {nm rest : Bytes} (h : Name nm rest) : userFn ctx nm =
    match lookup ctx nm with
    | .func f =>
      match f.func with
      | .builtin _ => none
      | p => some p
    | _ => none := by
  obtain ⟨c, hc, hl⟩ := h.1
  cases nm with
  | nil => cases hc
  | cons a t => cases hc; rw [userFn, if_pos hl]; rfl

/-- The tree has the calls of its text. -/
theorem den_userCalls :
    (∀ (x : Cst) (rest : Bytes) (e : Elem), x.wf cfg .ok ctx rest → x.den .ok ctx = .ok e →
      userCalls e = x.calls ctx) ∧
    (∀ (as : CArgs) (rest : Bytes) (es : List Elem), as.wf cfg .ok ctx rest → as.den .ok ctx = .ok es →
      userCallsL es = as.calls ctx) := by
  refine cst_ind ?_ ?_ ?_ ?_ ?_ ?_ ?_ ?_ ?_ ?_
  · intro ws txt v rest e hw h
    rw [Cst.den] at h; cases h
    rw [userCalls, Cst.calls]
  · intro ws nm rest e hw h
    rw [Cst.den] at h
    rw [Cst.calls]
    split at h <;> cases h <;> rw [userCalls]
  · intro ws nm ws2 as ih rest e hw h
    rw [Cst.wf] at hw
    obtain ⟨_, hn, _, ⟨f, hf, _⟩, hw⟩ := hw
    rw [Cst.den] at h
    rw [Cst.calls, userFn_name hn, hf]
    cases ha : as.den .ok ctx with
    | error p => rw [ha] at h; cases h
    | ok es =>
      rw [ha, hf] at h
      cases h
      rw [userCalls_call, ih rest es hw ha]
      cases f with | mk n p k => cases p <;> rfl
  · intro ws x ws2 ih rest e hw h
    rw [Cst.wf] at hw
    rw [Cst.den] at h
    rw [Cst.calls]
    cases ha : x.den .ok ctx with
    | error p => rw [ha] at h; cases h
    | ok e1 => rw [ha] at h; cases h; exact ih _ _ hw.2.2 ha
  · intro ws neg x ih rest e hw h
    rw [Cst.wf] at hw
    rw [Cst.den] at h
    rw [Cst.calls]
    cases ha : x.den .ok ctx with
    | error p => rw [ha] at h; cases h
    | ok e1 => rw [ha] at h; cases h; rw [userCalls]; exact ih _ _ hw.2.1 ha
  · intro x ws ih rest e hw h
    rw [Cst.wf] at hw
    rw [Cst.den] at h
    rw [Cst.calls]
    cases ha : x.den .ok ctx with
    | error p => rw [ha] at h; cases h
    | ok e1 => rw [ha] at h; cases h; rw [userCalls]; exact ih _ _ hw.2.2 ha
  · intro l ws op r ih1 ih2 rest e hw h
    rw [Cst.wf] at hw
    rw [Cst.den] at h
    rw [Cst.calls]
    cases ha : l.den .ok ctx with
    | error p => rw [ha] at h; cases h
    | ok e1 =>
      cases hb : r.den .ok ctx with
      | error p => rw [ha, hb] at h; cases h
      | ok e2 =>
        rw [ha, hb] at h; cases h
        rw [userCalls, ih1 _ _ hw.2.1 ha, ih2 _ _ hw.2.2.2.1 hb]
  · intro l r ih1 ih2 rest e hw h
    rw [Cst.wf] at hw
    rw [Cst.den] at h
    rw [Cst.calls]
    cases ha : l.den .ok ctx with
    | error p => rw [ha] at h; cases h
    | ok e1 =>
      cases hb : r.den .ok ctx with
      | error p => rw [ha, hb] at h; cases h
      | ok e2 =>
        rw [ha, hb] at h; cases h
        rw [userCalls, ih1 _ _ hw.1 ha, ih2 _ _ hw.2.2.1 hb]
  · intro x ws ih rest es hw h
    rw [CArgs.wf] at hw
    rw [CArgs.den] at h
    rw [CArgs.calls]
    cases ha : x.den .ok ctx with
    | error p => rw [ha] at h; cases h
    | ok e1 =>
      rw [ha] at h; cases h
      rw [userCallsL, userCallsL, List.append_nil]; exact ih _ _ hw.2 ha
  · intro x ws as ih1 ih2 rest es hw h
    rw [CArgs.wf] at hw
    rw [CArgs.den] at h
    rw [CArgs.calls]
    cases ha : x.den .ok ctx with
    | error p => rw [ha] at h; cases h
    | ok e1 =>
      cases hb : as.den .ok ctx with
      | error p => rw [ha, hb] at h; cases h
      | ok e2 =>
        rw [ha, hb] at h; cases h
        rw [userCallsL, ih1 _ _ hw.2.1 ha, ih2 _ _ hw.2.2 hb]

/-- The calls of a text are the tokens that name functions. -/
theorem toks_calls :
    (∀ (x : Cst) (rest : Bytes), x.wf cfg .ok ctx rest →
      (x.calls ctx).Perm (x.toks.filterMap (userFn ctx))) ∧
    (∀ (as : CArgs) (rest : Bytes), as.wf cfg .ok ctx rest →
      (as.calls ctx).Perm (as.toks.filterMap (userFn ctx))) := by
  have hsym : ∀ {c : UInt8} {l : List Bytes}, ¬ letter c →
      List.filterMap (userFn ctx) ([c] :: l) = List.filterMap (userFn ctx) l := fun h => by
    rw [List.filterMap_cons, userFn_sym h]
  have hop : ∀ op, ¬ letter (opChar op) := by intro op; cases op <;> decide
  refine cst_ind ?_ ?_ ?_ ?_ ?_ ?_ ?_ ?_ ?_ ?_
  · intro ws txt v rest hw
    rw [Cst.wf] at hw
    obtain ⟨c, hc, hd⟩ := literal_head hw.2
    have : userFn ctx txt = none := by
      cases txt with
      | nil => cases hc
      | cons a t => cases hc; exact userFn_sym ((starts c).1 hd).2.1 t
    rw [Cst.calls, Cst.toks, List.filterMap_cons, this]
    exact .nil
  · intro ws nm rest hw
    rw [Cst.wf] at hw
    have : userFn ctx nm = none := by
      rw [userFn_name hw.2.1]
      split
      · rename_i f hf; exact absurd hf (hw.2.2 f)
      · rfl
    rw [Cst.calls, Cst.toks, List.filterMap_cons, this]
    exact .nil
  · intro ws nm ws2 as ih rest hw
    rw [Cst.wf] at hw
    have ih := ih rest hw.2.2.2.2
    rw [Cst.calls, Cst.toks]
    have e : (nm :: b!"(" :: (as.toks ++ [b!")"])).filterMap (userFn ctx) =
        (userFn ctx nm).toList ++ as.toks.filterMap (userFn ctx) := by
      have h2 : (b!"(" :: (as.toks ++ [b!")"])).filterMap (userFn ctx) = as.toks.filterMap (userFn ctx) := by
        rw [show b!"(" = [c!"("] from rfl, hsym (by decide), List.filterMap_append,
          show b!")" = [c!")"] from rfl, hsym (by decide)]
        simp
      rw [List.filterMap_cons, h2]
      cases userFn ctx nm <;> rfl
    rw [e]
    exact (List.perm_append_comm).trans (ih.append_left _)
  · intro ws x ws2 ih rest hw
    rw [Cst.wf] at hw
    have ih := ih _ hw.2.2
    rw [Cst.calls, Cst.toks, show b!"(" = [c!"("] from rfl, hsym (by decide), List.filterMap_append,
          show b!")" = [c!")"] from rfl, hsym (by decide)]
    simpa using ih
  · intro ws neg x ih rest hw
    rw [Cst.wf] at hw
    have ih := ih _ hw.2.1
    rw [Cst.calls, Cst.toks, hsym (by cases neg <;> decide)]
    exact ih
  · intro x ws ih rest hw
    rw [Cst.wf] at hw
    have ih := ih _ hw.2.2
    rw [Cst.calls, Cst.toks, List.filterMap_append, show b!"!" = [c!"!"] from rfl, hsym (by decide)]
    simpa using ih
  · intro l ws op r ih1 ih2 rest hw
    rw [Cst.wf] at hw
    rw [Cst.calls, Cst.toks, List.filterMap_append, hsym (hop op)]
    exact (ih1 _ hw.2.1).append (ih2 _ hw.2.2.2.1)
  · intro l r ih1 ih2 rest hw
    rw [Cst.wf] at hw
    rw [Cst.calls, Cst.toks, List.filterMap_append]
    exact (ih1 _ hw.1).append (ih2 _ hw.2.2.1)
  · intro x ws ih rest hw
    rw [CArgs.wf] at hw
    exact ih _ hw.2
  · intro x ws as ih1 ih2 rest hw
    rw [CArgs.wf] at hw
    rw [CArgs.calls, CArgs.toks, List.filterMap_append, show b!"," = [c!","] from rfl, hsym (by decide)]
    exact (ih1 _ hw.2.1).append (ih2 _ hw.2.2)

end Xprs
