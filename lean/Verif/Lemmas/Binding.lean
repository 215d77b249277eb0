import Verif.Spec.Binding
import Verif.Lemmas.Missing
/-
Facts about binding.
-/
namespace Xprs
open Spec

/-! ### `HMap.ofList` -/

theorem foldl_insert_get {α : Type} : ∀ (l : List (Bytes × α)) (m : HMap α) (n : Bytes) (v : α),
    l.foldl (fun m kv => m.insert kv.1 kv.2) m n = some v ↔
      (∃ i : Nat, l[i]? = some (n, v) ∧ ∀ j : Nat, i < j → ∀ u, l[j]? ≠ some (n, u)) ∨
      (m n = some v ∧ ∀ (j : Nat) u, l[j]? ≠ some (n, u))
  | [], m, n, v => by simp
  | (k, x) :: l, m, n, v => by
    rw [List.foldl_cons, foldl_insert_get l]
    simp only [HMap.insert]
    constructor
    · rintro (⟨i, h1, h2⟩ | ⟨h1, h2⟩)
      · left
        refine ⟨i + 1, by simpa using h1, fun j hj u => ?_⟩
        cases j with
        | zero => omega
        | succ j => simpa using h2 j (by omega) u
      · split at h1
        · rename_i hn; cases h1; subst hn
          left
          refine ⟨0, by simp, fun j hj u => ?_⟩
          cases j with
          | zero => omega
          | succ j => simpa using h2 j u
        · rename_i hn
          right
          refine ⟨h1, fun j u => ?_⟩
          cases j with
          | zero => simp; rintro rfl; exact absurd rfl hn
          | succ j => simpa using h2 j u
    · rintro (⟨i, h1, h2⟩ | ⟨h1, h2⟩)
      · cases i with
        | zero =>
          simp at h1
          obtain ⟨rfl, rfl⟩ := h1
          right
          refine ⟨by simp, fun j u => ?_⟩
          simpa using h2 (j + 1) (by omega) u
        | succ i =>
          left
          refine ⟨i, by simpa using h1, fun j hj u => ?_⟩
          simpa using h2 (j + 1) (by omega) u
      · right
        have h0 := h2 0
        simp at h0
        have hn : n ≠ k := fun h => h0 h.symm
        refine ⟨by rw [if_neg hn]; exact h1, fun j u => ?_⟩
        simpa using h2 (j + 1) u

theorem ofList_some {α : Type} {l : List (Bytes × α)} {n : Bytes} {v : α} :
    HMap.ofList l n = some v ↔
      ∃ i : Nat, l[i]? = some (n, v) ∧ ∀ j : Nat, i < j → ∀ u, l[j]? ≠ some (n, u) := by
  unfold HMap.ofList
  rw [foldl_insert_get]
  constructor
  · rintro (h | ⟨h, _⟩)
    · exact h
    · cases h
  · exact .inl

/-- The map has a value exactly for the keys of the list. -/
theorem ofList_isSome {α : Type} (l : List (Bytes × α)) (n : Bytes) :
    (∃ v, HMap.ofList l n = some v) ↔ n ∈ l.map (·.1) := by
  have key : ∀ (l : List (Bytes × α)) (m : HMap α),
      (∃ v, l.foldl (fun m kv => m.insert kv.1 kv.2) m n = some v) ↔
        n ∈ l.map (·.1) ∨ ∃ v, m n = some v := by
    intro l
    induction l with
    | nil => intro m; simp
    | cons a l ih =>
      intro m
      rw [List.foldl_cons, ih]
      simp only [HMap.insert, List.map_cons, List.mem_cons]
      by_cases h : n = a.1
      · simp [h]
      · simp [h]
  unfold HMap.ofList
  rw [key]
  simp [HMap.empty]

theorem zip_getElem? {α β : Type} {a : List α} {b : List β} {i : Nat} {x : α} {y : β} :
    (a.zip b)[i]? = some (x, y) ↔ a[i]? = some x ∧ b[i]? = some y := by
  rw [List.getElem?_zip_eq_some]

/-- A map that assigns the values extends the one the closures build. -/
theorem assigns_ofList {names : List Bytes} {values : List F64} {m : HMap F64}
    (h : Assigns names values m) {n : Bytes} {v : F64}
    (hv : HMap.ofList (names.zip values) n = some v) : m n = some v := by
  obtain ⟨i, h1, h2⟩ := ofList_some.1 hv
  obtain ⟨h3, h4⟩ := zip_getElem?.1 h1
  refine h i n v h3 h4 fun j hj hl hn => ?_
  exact h2 j hj (values[j]) (zip_getElem?.2 ⟨hn, List.getElem?_eq_getElem hl⟩)

theorem assigns_self (names : List Bytes) (values : List F64) :
    Assigns names values (HMap.ofList (names.zip values)) := by
  intro i n v h1 h2 h3
  refine ofList_some.2 ⟨i, zip_getElem?.2 ⟨h1, h2⟩, fun j hj u hu => ?_⟩
  obtain ⟨h4, h5⟩ := zip_getElem?.1 hu
  exact h3 j hj (List.getElem?_eq_some_iff.1 h5).1 h4

theorem zip_keys (names : List Bytes) (values : List F64) :
    (names.zip values).map (·.1) = names.take values.length := by
  induction names generalizing values with
  | nil => simp
  | cons a as ih => cases values with
    | nil => simp
    | cons b bs => simp [ih]

/-! ### `from_diff` -/

theorem diffLoop_spec (cfg : Cfg) : ∀ (l : List Bytes) (c : Nat) (s : Bytes), c < 256 →
    diffLoop cfg l c s =
      if cfg.overflowChecks = true ∧ 256 ≤ c + l.length then .error .overflow
      else .ok ((c + l.length) % 256, s ++ List.intercalate b!", " l)
  | [], c, s, hc => by
    rw [diffLoop, if_neg (by simp; omega)]
    simp [List.intercalate, Nat.mod_eq_of_lt hc]
  | v :: rest, c, s, hc => by
    rw [diffLoop]
    unfold incU8
    have hj : (if rest.isEmpty then s ++ v else (s ++ v) ++ b!", ") ++ List.intercalate b!", " rest
        = s ++ List.intercalate b!", " (v :: rest) := by
      cases rest with
      | nil => simp [List.intercalate]
      | cons a as => simp [List.intercalate, List.append_assoc]
    split
    · rename_i p hp
      split at hp
      · cases hp
      · split at hp
        · rename_i h1 h2; cases hp
          rw [if_pos ⟨h2, by simp; omega⟩]
        · cases hp
    · rename_i c' hc'
      split at hc'
      · rename_i hlt; cases hc'
        rw [diffLoop_spec cfg rest _ _ hlt, hj]
        simp only [List.length_cons, show c + 1 + rest.length = c + (rest.length + 1) by omega]
      · rename_i hge
        split at hc'
        · cases hc'
        · rename_i ho
          cases hc'
          rw [diffLoop_spec cfg rest _ _ (by omega), hj, if_neg (by simp [ho]), if_neg (by simp [ho])]
          have : c = 255 := by omega
          subst this
          simp only [List.length_cons]
          congr 2
          omega

/-- `from_diff` in one formula. -/
theorem fromDiff_spec (cfg : Cfg) (l : List Bytes) :
    fromDiff cfg l =
      if cfg.overflowChecks = true ∧ 256 ≤ l.length then .error .overflow
      else .ok (if l.length % 256 = 0 then none
        else if l.length % 256 = 1 then some (.one (List.intercalate b!", " l))
        else some (.multiple (List.intercalate b!", " l))) := by
  unfold fromDiff
  rw [diffLoop_spec cfg l 0 [] (by omega)]
  simp only [Nat.zero_add, List.nil_append]
  by_cases h : cfg.overflowChecks = true ∧ 256 ≤ l.length
  · rw [if_pos h, if_pos h]
  · rw [if_neg h, if_neg h]

theorem bindWith_spec {α : Type} (cfg : Cfg) (o : Oracle) (e : Xpr) (names : List Bytes) (f : α) :
    bindWith cfg o e names f =
      if cfg.overflowChecks = true ∧ 256 ≤ (diffVars o e.vars names).length then .panic .overflow
      else if (diffVars o e.vars names).length % 256 = 0 then .ok f
      else if (diffVars o e.vars names).length % 256 = 1 then
        .err (.one (List.intercalate b!", " (diffVars o e.vars names)))
      else .err (.multiple (List.intercalate b!", " (diffVars o e.vars names))) := by
  unfold bindWith bindCheck
  rw [fromDiff_spec]
  by_cases h : cfg.overflowChecks = true ∧ 256 ≤ (diffVars o e.vars names).length
  · rw [if_pos h, if_pos h]
  · rw [if_neg h, if_neg h]
    split <;> rename_i h1
    · cases h1
    · split at h1
      · cases h1
      · rename_i h0
        rw [if_neg h0]
        split at h1 <;> rename_i h2
        · cases h1; rw [if_pos h2]
        · cases h1; rw [if_neg h2]
    · split at h1
      · rename_i h0; rw [if_pos h0]
      · split at h1 <;> cases h1

theorem missing_diffVars {o : Oracle} {e : Xpr} (h : e.vars.Nodup) (names : List Bytes) :
    Missing e names (diffVars o e.vars names) := by
  refine ⟨?_, fun v => mem_diffVars⟩
  unfold diffVars
  exact ((o.perm e.vars).nodup_iff.2 h).filter _

theorem missing_length {e : Xpr} {names l l' : List Bytes} (h : Missing e names l)
    (h' : Missing e names l') : l.length = l'.length := by
  refine List.Perm.length_eq ((List.perm_ext_iff_of_nodup h.1 h'.1).2 fun v => ?_)
  rw [h.2, h'.2]

theorem missing_le {e : Xpr} {names l : List Bytes} (hn : e.vars.Nodup) (h : Missing e names l) :
    l.length ≤ e.vars.length := by
  rw [missing_length h (missing_diffVars (o := Oracle.id) hn names)]
  exact List.length_filter_le _ _

/-! ### The ten variants -/

/-- How the returned closures behave. -/
def runClosure (w : World) (e : Xpr) (checked : Bool) (names : List Bytes) (values : List F64) :
    Except EvErr F64 :=
  if checked then e.eval w (HMap.ofList (names.zip values))
  else liftP (e.evalUnchecked w (HMap.ofList (names.zip values)))

theorem conv_bindWith {α β : Type} (cfg : Cfg) (o : Oracle) (e : Xpr) (names : List Bytes) (f : α)
    (g : α → β) : BindRes.conv g (bindWith cfg o e names f) = bindWith cfg o e names (g f) := by
  unfold bindWith
  split <;> rfl

theorem getD_of_getElem? {vs : List F64} {i : Nat} (h : i < vs.length) : at_ vs i = vs[i] := by
  simp [at_, h]

/-- Every variant is the common check followed by a closure that evaluates. -/
theorem bindCall_spec {cfg : Cfg} {w : World} {o : Oracle} {e : Xpr} {names : List Bytes}
    {r : BindRes (List F64 → Except EvErr F64)} (h : BindCall cfg w o e names r) :
    ∃ (checked : Bool) (g : List F64 → Except EvErr F64),
      (∀ values, values.length = names.length → g values = runClosure w e checked names values) ∧
      r = bindWith cfg o e names g := by
  have fin : ∀ (names : List Bytes) (g : List F64 → Except EvErr F64),
      (∀ values, values.length = names.length → g values = runClosure w e false names values) →
      ∃ (checked : Bool) (g' : List F64 → Except EvErr F64),
      (∀ values, values.length = names.length → g' values = runClosure w e checked names values) ∧
      bindWith cfg o e names g = bindWith cfg o e names g' :=
    fun names g hg => ⟨false, g, hg, rfl⟩
  cases h with
  | runtime => exact ⟨true, _, fun values _ => rfl, rfl⟩
  | n names =>
    unfold Xpr.bindN
    rw [conv_bindWith]
    apply fin
    intro values hv
    simp only [runClosure, Bool.false_eq_true, if_false]
    congr 4
    refine List.ext_getElem (by simpa using hv.symm) fun i h1 h2 => ?_
    simp [h2]
  | b1 => unfold Xpr.bind1; rw [conv_bindWith]; apply fin; intro values hv; match values, hv with | [_], _ => rfl
  | b2 => unfold Xpr.bind2; rw [conv_bindWith]; apply fin; intro values hv; match values, hv with | [_, _], _ => rfl
  | b3 => unfold Xpr.bind3; rw [conv_bindWith]; apply fin; intro values hv; match values, hv with | [_, _, _], _ => rfl
  | b4 => unfold Xpr.bind4; rw [conv_bindWith]; apply fin; intro values hv; match values, hv with | [_, _, _, _], _ => rfl
  | b5 => unfold Xpr.bind5; rw [conv_bindWith]; apply fin; intro values hv; match values, hv with | [_, _, _, _, _], _ => rfl
  | b6 => unfold Xpr.bind6; rw [conv_bindWith]; apply fin; intro values hv; match values, hv with | [_, _, _, _, _, _], _ => rfl
  | b7 => unfold Xpr.bind7; rw [conv_bindWith]; apply fin; intro values hv; match values, hv with | [_, _, _, _, _, _, _], _ => rfl
  | b8 => unfold Xpr.bind8; rw [conv_bindWith]; apply fin; intro values hv; match values, hv with | [_, _, _, _, _, _, _, _], _ => rfl
  | b9 => unfold Xpr.bind9; rw [conv_bindWith]; apply fin; intro values hv; match values, hv with | [_, _, _, _, _, _, _, _, _], _ => rfl

/-! ### Defining functions, substitution -/

theorem run_world {w w' : World} (h1 : w.libm1 = w'.libm1) (h2 : w.libm2 = w'.libm2)
    (h3 : w.sumInit = w'.sumInit) (b : Builtin) (args : List F64) : b.run w args = b.run w' args := by
  unfold Builtin.run sumF
  rw [h1, h2, h3]

mutual
/-- Evaluation does not depend on functions that are not called. -/
theorem eval_defineFn (w : World) (m : HMap F64) (addr : Nat) (g : List F64 → Except EvErr F64) :
    ∀ e : Elem, (∀ f args, Sub (.call f args) e → f.func ≠ .dyn addr) →
      eval (defineFn w addr g) m e = eval w m e
  | .num x, _ => rfl
  | .var n, _ => rfl
  | .un op e, h => by
    rw [eval, eval, eval_defineFn w m addr g e fun f args hs => h f args (.operand hs)]
  | .bin op l r, h => by
    rw [eval, eval, eval_defineFn w m addr g l fun f args hs => h f args (.left hs),
      eval_defineFn w m addr g r fun f args hs => h f args (.right hs)]
    have : binF (defineFn w addr g) = binF w := by
      funext op a b; cases op <;> rfl
    rw [this]
  | .call f args, h => by
    rw [eval, eval, evalL_defineFn w m addr g args fun a ha f args hs => h f args (.arg ha hs)]
    have : callFn (defineFn w addr g) f = callFn w f := by
      funext vs
      unfold callFn
      have hne := h f args .refl
      cases hf : f.func with
      | builtin b => exact run_world rfl rfl rfl b vs
      | static a => simp [defineFn]
      | dyn a =>
        have : a ≠ addr := fun hc => hne (by rw [hf, hc])
        simp [defineFn, this]
    rw [this]
theorem evalL_defineFn (w : World) (m : HMap F64) (addr : Nat) (g : List F64 → Except EvErr F64) :
    ∀ es : List Elem, (∀ a ∈ es, ∀ f args, Sub (.call f args) a → f.func ≠ .dyn addr) →
      evalL (defineFn w addr g) m es = evalL w m es
  | [], _ => rfl
  | a :: as, h => by
    rw [evalL, evalL, eval_defineFn w m addr g a (h a (by simp)),
      evalL_defineFn w m addr g as fun b hb => h b (by simp [hb])]
end

mutual
/-- Substitution lemma. -/
theorem eval_subst (w : World) (m m' : HMap F64) (σ : Bytes → Elem) :
    ∀ e : Elem, (∀ n, Occurs n e → ∃ v, m' n = some v ∧ eval w m (σ n) = .ok v) →
      eval w m (subst σ e) = eval w m' e
  | .num x, _ => rfl
  | .var n, h => by
    obtain ⟨v, h1, h2⟩ := h n .here
    rw [subst, h2, eval, HMap.get, h1]
  | .un op e, h => by
    rw [subst, eval, eval, eval_subst w m m' σ e fun n hn => h n (.operand hn)]
  | .bin op l r, h => by
    rw [subst, eval, eval, eval_subst w m m' σ l fun n hn => h n (.left hn),
      eval_subst w m m' σ r fun n hn => h n (.right hn)]
  | .call f args, h => by
    rw [subst, eval, eval, evalL_subst w m m' σ args fun a ha n hn => h n (.arg ha hn)]
theorem evalL_subst (w : World) (m m' : HMap F64) (σ : Bytes → Elem) :
    ∀ es : List Elem, (∀ a ∈ es, ∀ n, Occurs n a → ∃ v, m' n = some v ∧ eval w m (σ n) = .ok v) →
      evalL w m (substL σ es) = evalL w m' es
  | [], _ => rfl
  | a :: as, h => by
    rw [substL, evalL, evalL, eval_subst w m m' σ a (h a (by simp)),
      evalL_subst w m m' σ as fun b hb => h b (by simp [hb])]
end

theorem evalL_getElem {w : World} {m : HMap F64} : ∀ {es : List Elem} {vs : List F64},
    evalL w m es = .ok vs → ∀ (i : Nat) (a : Elem), es[i]? = some a →
      ∃ v, vs[i]? = some v ∧ eval w m a = .ok v
  | [], vs, _, i, a, ha => by simp at ha
  | b :: bs, vs, h, i, a, ha => by
    rw [evalL] at h
    split at h
    · cases h
    · rename_i v hv
      split at h
      · cases h
      · rename_i us hus
        cases h
        cases i with
        | zero => simp at ha; subst ha; exact ⟨v, by simp, hv⟩
        | succ i => simpa using evalL_getElem hus i a (by simpa using ha)

end Xprs
