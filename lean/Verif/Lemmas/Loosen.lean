import Verif.Lemmas.Simplify
import Verif.Lemmas.Viable
import Verif.Spec.Text
/-
Loosening the arities of functions does not change how trees are folded (for C66).
-/
namespace Xprs
open Spec

mutual
/-- The tree with other functions. -/
def refunc (φ : Func → Func) : Elem → Elem
  | .num x => .num x
  | .var n => .var n
  | .bin op l r => .bin op (refunc φ l) (refunc φ r)
  | .un op e => .un op (refunc φ e)
  | .call f as => .call (φ f) (refuncL φ as)
/-- The same for arguments. -/
def refuncL (φ : Func → Func) : List Elem → List Elem
  | [] => []
  | a :: as => refunc φ a :: refuncL φ as
end

theorem refuncL_map (φ : Func → Func) : ∀ es : List Elem, refuncL φ es = es.map (refunc φ)
  | [] => rfl
  | a :: as => by rw [refuncL, refuncL_map φ as]; rfl

/-- Only functions of `F` are called. -/
def On (F : Func → Prop) (e : Elem) : Prop := ∀ g, 0 < callCount g e → F g

section
variable {φ : Func → Func} {F : Func → Prop}

theorem refunc_num (x : F64) : refunc φ (.num x) = .num x := by rw [refunc]
theorem refunc_var (n : Bytes) : refunc φ (.var n) = .var n := by rw [refunc]
theorem refunc_bin (op : Op) (l r : Elem) : refunc φ (.bin op l r) = .bin op (refunc φ l) (refunc φ r) := by
  rw [refunc]
theorem refunc_un (op : Op) (e : Elem) : refunc φ (.un op e) = .un op (refunc φ e) := by
  rw [refunc]
theorem refunc_call (f : Func) (as : List Elem) : refunc φ (.call f as) = .call (φ f) (as.map (refunc φ)) := by
  rw [refunc, refuncL_map]

theorem on_num (x : F64) : On F (.num x) := fun g h => by simp [callCount] at h
theorem on_var (n : Bytes) : On F (.var n) := fun g h => by simp [callCount] at h
theorem on_bin {op : Op} {l r : Elem} : On F (.bin op l r) ↔ On F l ∧ On F r := by
  refine ⟨fun h => ⟨fun g hg => h g ?_, fun g hg => h g ?_⟩, fun h g hg => ?_⟩
  · rw [callCount]; omega
  · rw [callCount]; omega
  · rw [callCount] at hg
    by_cases h1 : 0 < callCount g l
    · exact h.1 g h1
    · exact h.2 g (by omega)
theorem on_un {op : Op} {e : Elem} : On F (.un op e) ↔ On F e := by
  refine ⟨fun h g hg => h g ?_, fun h g hg => h g ?_⟩
  · rw [callCount]; exact hg
  · rw [callCount] at hg; exact hg
theorem callCountL_pos {g : Func} : ∀ {as : List Elem}, 0 < callCountL g as ↔ ∃ a ∈ as, 0 < callCount g a
  | [] => by simp [callCountL]
  | a :: as => by
    rw [callCountL]
    have := @callCountL_pos g as
    constructor
    · intro h
      by_cases h1 : 0 < callCount g a
      · exact ⟨a, by simp, h1⟩
      · obtain ⟨b, h2, h3⟩ := this.1 (by omega)
        exact ⟨b, by simp [h2], h3⟩
    · rintro ⟨b, h2, h3⟩
      rcases List.mem_cons.1 h2 with rfl | h2
      · omega
      · have := this.2 ⟨b, h2, h3⟩
        omega
theorem on_call {f : Func} {as : List Elem} : On F (.call f as) ↔ F f ∧ ∀ a ∈ as, On F a := by
  refine ⟨fun h => ⟨h f ?_, fun a ha g hg => h g ?_⟩, fun h g hg => ?_⟩
  · rw [callCount, if_pos rfl]; omega
  · rw [callCount]
    have := callCountL_pos.2 ⟨a, ha, hg⟩
    omega
  · rw [callCount] at hg
    by_cases h1 : f = g
    · exact h1 ▸ h.1
    · rw [if_neg h1, Nat.zero_add] at hg
      obtain ⟨a, ha, h2⟩ := callCountL_pos.1 hg
      exact h.2 a ha g h2
theorem on_negOf {e a : Elem} (h : On F e) (ha : e.negOf? = some a) : On F a := by
  unfold Elem.negOf? at ha
  split at ha
  · cases ha; exact on_un.1 h
  · cases ha

theorem refunc_is0 (e : Elem) : (refunc φ e).is0 = e.is0 := by
  cases e <;> simp only [refunc_num, refunc_var, refunc_bin, refunc_un, refunc_call] <;> rfl
theorem refunc_is1 (e : Elem) : (refunc φ e).is1 = e.is1 := by
  cases e <;> simp only [refunc_num, refunc_var, refunc_bin, refunc_un, refunc_call] <;> rfl
theorem refunc_negOf (e : Elem) : (refunc φ e).negOf? = e.negOf?.map (refunc φ) := by
  cases e <;> simp only [refunc_num, refunc_var, refunc_bin, refunc_un, refunc_call] <;> try rfl
  rename_i op a
  cases op <;> rfl

theorem foldBin_refunc (w : World) (op : Op) (l r : Elem) :
    foldBin w op (refunc φ l) (refunc φ r) = (foldBin w op l r).map (refunc φ) := by
  cases l <;> cases r <;>
    simp only [refunc_num, refunc_var, refunc_bin, refunc_un, refunc_call, foldBin, Except.map]
  rename_i a b
  cases binF w op a b <;> simp [refunc_num]

mutual
theorem eqE_refunc (hφ : ∀ f g, F f → F g → φ f = φ g → f = g) :
    ∀ a b : Elem, On F a → On F b → eqE (refunc φ a) (refunc φ b) = eqE a b
  | .num x, b, _, _ => by
    cases b <;> simp only [refunc_num, refunc_var, refunc_bin, refunc_un, refunc_call, eqE]
  | .var x, b, _, _ => by
    cases b <;> simp only [refunc_num, refunc_var, refunc_bin, refunc_un, refunc_call, eqE]
  | .bin o l r, b, ha, hb => by
    cases b with
    | bin o' l' r' =>
      obtain ⟨h1, h2⟩ := on_bin.1 ha
      obtain ⟨h3, h4⟩ := on_bin.1 hb
      simp only [refunc_bin, eqE]
      rw [eqE_refunc hφ l l' h1 h3, eqE_refunc hφ r r' h2 h4, eqE_refunc hφ l r' h1 h4,
        eqE_refunc hφ r l' h2 h3]
    | _ => simp only [refunc_num, refunc_var, refunc_bin, refunc_un, refunc_call, eqE]
  | .un o e, b, ha, hb => by
    cases b with
    | un o' e' =>
      simp only [refunc_un, eqE]
      rw [eqE_refunc hφ e e' (on_un.1 ha) (on_un.1 hb)]
    | _ => simp only [refunc_num, refunc_var, refunc_bin, refunc_un, refunc_call, eqE]
  | .call f as, b, ha, hb => by
    cases b with
    | call g bs =>
      obtain ⟨h1, h2⟩ := on_call.1 ha
      obtain ⟨h3, h4⟩ := on_call.1 hb
      simp only [refunc_call, eqE, List.length_map]
      rw [eqEs_refunc hφ as bs h2 h4]
      by_cases h : f = g
      · rw [if_pos h, if_pos (by rw [h])]
      · rw [if_neg h, if_neg fun h' => h (hφ f g h1 h3 h')]
    | _ => simp only [refunc_num, refunc_var, refunc_bin, refunc_un, refunc_call, eqE]
theorem eqEs_refunc (hφ : ∀ f g, F f → F g → φ f = φ g → f = g) : ∀ as bs : List Elem,
    (∀ a ∈ as, On F a) → (∀ b ∈ bs, On F b) →
    eqEs (as.map (refunc φ)) (bs.map (refunc φ)) = eqEs as bs
  | [], [], _, _ => rfl
  | [], _ :: _, _, _ => rfl
  | _ :: _, [], _, _ => rfl
  | a :: as, b :: bs, ha, hb => by
    simp only [List.map_cons, eqEs]
    rw [eqE_refunc hφ a b (ha a (by simp)) (hb b (by simp)),
      eqEs_refunc hφ as bs (fun x hx => ha x (by simp [hx])) (fun x hx => hb x (by simp [hx]))]
end

theorem guardEq_refunc (hφ : ∀ f g, F f → F g → φ f = φ g → f = g) {a b : Elem}
    (ha : On F a) (hb : On F b) (res : Elem) (rest : PM Elem) :
    guardEq (refunc φ a) (refunc φ b) (refunc φ res) (rest.map (refunc φ)) =
      (guardEq a b res rest).map (refunc φ) := by
  unfold guardEq
  rw [eqE_refunc hφ a b ha hb]
  cases eqE a b with
  | error p => rfl
  | ok t => cases t <;> rfl

theorem simpBin_refunc (cfg : Cfg) (w : World) (hφ : ∀ f g, F f → F g → φ f = φ g → f = g) (op : Op) (l r : Elem)
    (hl : On F l) (hr : On F r) :
    simpBin cfg w op (refunc φ l) (refunc φ r) = (simpBin cfg w op l r).map (refunc φ) := by
  have g := fun (a b : Elem) (ha : On F a) (hb : On F b) x rest =>
    guardEq_refunc hφ ha hb (.num x) rest
  simp only [refunc_num] at g
  have ite : ∀ (c : Bool) (x y : PM Elem), (if c then x else y).map (refunc φ) =
      if c then x.map (refunc φ) else y.map (refunc φ) := by
    intro c x y; cases c <;> rfl
  cases op with
  | plus =>
    show simpPlus cfg w _ _ = (simpPlus cfg w _ _).map _
    simp only [simpPlus, refunc_is0, refunc_negOf, ite]
    split
    · rfl
    · split
      · rfl
      · cases cfg.nightly
        · exact foldBin_refunc w _ l r
        · cases h1 : l.negOf? with
          | none =>
            cases h2 : r.negOf? with
            | none => simp only [Option.map, foldBin_refunc]
            | some b => simp only [Option.map, foldBin_refunc, g l b hl (on_negOf hr h2)]
          | some a =>
            cases h2 : r.negOf? with
            | none => simp only [Option.map, foldBin_refunc, g a r (on_negOf hl h1) hr]
            | some b =>
              simp only [Option.map, foldBin_refunc, g l b hl (on_negOf hr h2),
                g a r (on_negOf hl h1) hr]
  | minus =>
    show simpMinus cfg w _ _ = (simpMinus cfg w _ _).map _
    simp only [simpMinus, refunc_is0, refunc_negOf, ite]
    split
    · simp [Except.map, refunc_un]
    · split
      · rfl
      · rw [← g l r hl hr]
        congr 1
        cases cfg.nightly
        · exact foldBin_refunc w _ l r
        · cases r.negOf? <;> simp only [Option.map, foldBin_refunc, Except.map, refunc_bin]
  | times =>
    show simpTimes cfg w _ _ = (simpTimes cfg w _ _).map _
    simp only [simpTimes, refunc_is0, refunc_is1, refunc_negOf, ite]
    split
    · simp [Except.map, refunc_num]
    · split
      · simp [Except.map, refunc_num]
      · split
        · rfl
        · split
          · rfl
          · cases cfg.nightly
            · exact foldBin_refunc w _ l r
            · cases l.negOf? <;> cases r.negOf? <;>
                simp only [Option.map, foldBin_refunc, Except.map, refunc_bin]
  | divide =>
    show simpDivide cfg w _ _ = (simpDivide cfg w _ _).map _
    simp only [simpDivide, refunc_is0, refunc_is1, refunc_negOf, ite]
    split
    · simp [Except.map, refunc_num]
    · split
      · simp [Except.map, refunc_num]
      · split
        · simp [Except.map, refunc_num]
        · split
          · rfl
          · rw [← g l r hl hr]
            congr 1
            cases cfg.nightly
            · simp only [foldBin_refunc, Except.map]
            · cases l.negOf? <;> cases r.negOf? <;>
                simp only [Option.map, foldBin_refunc, Except.map, refunc_bin]
  | power =>
    show simpPower w _ _ = (simpPower w _ _).map _
    simp only [simpPower, refunc_is0, refunc_is1, ite, foldBin_refunc]
    simp only [Except.map, refunc_num]
  | modulo =>
    show simpModulo w _ _ = (simpModulo w _ _).map _
    simp only [simpModulo, refunc_is0, refunc_is1, ite, foldBin_refunc, ← g l r hl hr]
    simp only [Except.map, refunc_num]
  | factorial => exact foldBin_refunc w _ l r

theorem simpUn_refunc (op : Op) (e : Elem) : simpUn op (refunc φ e) = (simpUn op e).map (refunc φ) := by
  cases op <;> cases e <;>
    simp only [refunc_num, refunc_var, refunc_bin, refunc_un, refunc_call, simpUn, Except.map]
  rename_i x
  cases factorial x <;> simp [refunc_num]

theorem numsOf_refunc : ∀ as : List Elem, numsOf (as.map (refunc φ)) = numsOf as
  | [] => rfl
  | a :: as => by
    rw [List.map_cons]
    cases a <;> simp only [refunc_num, refunc_var, refunc_bin, refunc_un, refunc_call, numsOf] <;>
      rw [numsOf_refunc as]

theorem simpCall_refunc (hf : ∀ f, (φ f).func = f.func) (w : World) (f : Func) (as : List Elem) :
    simpCall w (φ f) (as.map (refunc φ)) = (simpCall w f as).map (refunc φ) := by
  unfold simpCall
  rw [numsOf_refunc, List.length_map]
  split
  · have : callFn w (φ f) (numsOf as) = callFn w f (numsOf as) := by unfold callFn; rw [hf]
    rw [this]
    cases callFn w f (numsOf as) <;> simp [Except.map, refunc_num]
  · simp [Except.map, refunc_call]

theorem on_simplify {cfg : Cfg} {w : World} {e e' : Elem} (h : On F e)
    (hs : simplify cfg w e = .ok e') : On F e' := by
  intro g hg
  exact h g (Nat.lt_of_lt_of_le hg (simplify_callCount g e hs))

mutual
theorem simplify_refunc (cfg : Cfg) (w : World) (hφ : ∀ f g, F f → F g → φ f = φ g → f = g)
    (hf : ∀ f, (φ f).func = f.func) : ∀ e : Elem, On F e →
    simplify cfg w (refunc φ e) = (simplify cfg w e).map (refunc φ)
  | .num x, _ => by simp only [refunc_num, simplify, Except.map]
  | .var x, _ => by simp only [refunc_var, simplify, Except.map]
  | .bin op l r, h => by
    obtain ⟨h1, h2⟩ := on_bin.1 h
    rw [refunc_bin, simplify, simplify, simplify_refunc cfg w hφ hf l h1,
      simplify_refunc cfg w hφ hf r h2]
    cases h3 : simplify cfg w l with
    | error p => rfl
    | ok l' =>
      cases h4 : simplify cfg w r with
      | error p => rfl
      | ok r' => exact simpBin_refunc cfg w hφ op l' r' (on_simplify h1 h3) (on_simplify h2 h4)
  | .un op e, h => by
    rw [refunc_un, simplify, simplify, simplify_refunc cfg w hφ hf e (on_un.1 h)]
    cases simplify cfg w e with
    | error p => rfl
    | ok e' => exact simpUn_refunc op e'
  | .call f as, h => by
    rw [refunc_call, simplify, simplify, simplifyL_refunc cfg w hφ hf as (on_call.1 h).2]
    cases simplifyL cfg w as with
    | error p => rfl
    | ok as' => exact simpCall_refunc hf w f as'
theorem simplifyL_refunc (cfg : Cfg) (w : World) (hφ : ∀ f g, F f → F g → φ f = φ g → f = g)
    (hf : ∀ f, (φ f).func = f.func) : ∀ es : List Elem, (∀ e ∈ es, On F e) →
    simplifyL cfg w (es.map (refunc φ)) = (simplifyL cfg w es).map (List.map (refunc φ))
  | [], _ => rfl
  | a :: as, h => by
    rw [List.map_cons, simplifyL, simplifyL, simplify_refunc cfg w hφ hf a (h a (by simp)),
      simplifyL_refunc cfg w hφ hf as fun x hx => h x (by simp [hx])]
    cases simplify cfg w a with
    | error p => rfl
    | ok a' =>
      cases simplifyL cfg w as with
      | error p => rfl
      | ok as' => rfl
end

end

/-- Taking away the arity. -/
def free (f : Func) : Func := { f with nbArgs := none }

/-- The trees read differ in the arities only, folded or not. -/
theorem parallel_free (cfg : Cfg) (w : World) {ctx : Context} (hc : OneArity ctx) :
    Parallel cfg w ctx fun e e' => e' = refunc free e ∧ On (Named ctx) e where
  isNum {e e'} h := by
    rw [h.1]
    cases e <;> simp only [refunc_num, refunc_var, refunc_bin, refunc_un, refunc_call] <;> rfl
  num x := ⟨(refunc_num x).symm, on_num x⟩
  var x := ⟨(refunc_var x).symm, on_var x⟩
  un op e e' h := ⟨by rw [h.1, refunc_un], on_un.2 h.2⟩
  bin op e e' f f' h h' := ⟨by rw [h.1, h'.1, refunc_bin], on_bin.2 ⟨h.2, h'.2⟩⟩
  call {nm f as bs} h hs := by
    have : bs = as.map (refunc free) ∧ ∀ a ∈ as, On (Named ctx) a := by
      induction hs with
      | nil => exact ⟨rfl, by simp⟩
      | cons h1 _ ih =>
        refine ⟨by rw [List.map_cons, h1.1, ih.1], fun a ha => ?_⟩
        rcases List.mem_cons.1 ha with rfl | ha
        · exact h1.2
        · exact ih.2 a ha
    exact ⟨by rw [refunc_call, this.1]; rfl, on_call.2 ⟨⟨nm, h⟩, this.2⟩⟩
  fin {e e' a s s'} h hx t := by
    obtain ⟨h1, h2⟩ := h
    subst h1
    unfold finish at hx ⊢
    split at hx
    · rename_i ho
      split at hx
      · rename_i a' hs
        simp only [R.ok.injEq] at hx
        obtain ⟨h3, h4⟩ := hx
        subst h3 h4
        refine ⟨refunc free a', ?_, rfl, on_simplify h2 hs⟩
        rw [if_pos ho, simplify_refunc cfg w (φ := free) (F := Named ctx) ?_ (fun _ => rfl) e h2, hs]
        · rfl
        · rintro f g ⟨n, hn⟩ ⟨m, hm⟩ hfg
          have h5 := congrArg Func.name hfg
          have h6 := congrArg Func.func hfg
          exact hc n m f g hn hm h5 h6
      · simp at hx
    · rename_i ho
      simp only [R.ok.injEq] at hx
      obtain ⟨h3, h4⟩ := hx
      subst h3 h4
      exact ⟨_, by rw [if_neg ho], rfl, h2⟩

end Xprs
