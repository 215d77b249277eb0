import Verif.Spec.Constant
import Verif.Lemmas.Builds
import Verif.Lemmas.Binding
/-
Two contexts that differ in whether a name that is no function is a constant make a build
without optimizations read the same texts, as long as no number follows the name or a
parenthesis directly.
-/
namespace Xprs
open Spec

theorem Spec.ApartFrom.right {n : Bytes} {a b : List Bytes} (h : ApartFrom n (a ++ b)) :
    ApartFrom n b := by
  intro p x y q he
  exact h (a ++ p) x y q (by rw [he]; simp)

/-- The contexts know the same names, except that `n`, which is no function, may differ. -/
def SameBut (n : Bytes) (ctx ctx' : Context) : Prop :=
  ∀ nm, lookup ctx nm = lookup ctx' nm ∨
    (nm = n ∧ (∀ f, lookup ctx nm ≠ .func f) ∧ ∀ f, lookup ctx' nm ≠ .func f)

theorem SameBut.symm {n : Bytes} {ctx ctx' : Context} (h : SameBut n ctx ctx') :
    SameBut n ctx' ctx := fun nm => by
  rcases h nm with h | ⟨h1, h2, h3⟩
  · exact .inl h.symm
  · exact .inr ⟨h1, h3, h2⟩

theorem SameBut.func {n : Bytes} {ctx ctx' : Context} (h : SameBut n ctx ctx') {nm : Bytes}
    {f : Func} (hf : lookup ctx nm = .func f) : lookup ctx' nm = .func f := by
  rcases h nm with h | ⟨_, h2, _⟩
  · rw [← h]; exact hf
  · exact absurd hf (h2 f)

section
variable {cfg : Cfg} {ctx ctx' : Context} {n : Bytes}

/-- What is a number in one context is one in the other, unless the text ends with the name
or a parenthesis. -/
theorem isNumber_but (hs : SameBut n ctx ctx') : ∀ (x : Cst) (p : List Bytes) (o : Bytes),
    x.toks = p ++ [o] → o ≠ n → o ≠ b!")" → (isNumber .ok ctx x ↔ isNumber .ok ctx' x)
  | .num ws txt v, p, o, _, _, _ => Iff.rfl
  | .name ws nm, p, o, he, h1, _ => by
    obtain ⟨_, he⟩ := List.append_inj' (s₁ := []) (t₁ := [nm]) he rfl
    cases he
    unfold isNumber
    rw [Cst.den, Cst.den]
    rcases hs nm with h | ⟨h, _⟩
    · rw [h]
    · exact absurd h h1
  | .call ws nm ws2 as, p, o, he, _, h2 => by
    obtain ⟨_, he⟩ := List.append_inj' (s₁ := nm :: b!"(" :: as.toks) (t₁ := [b!")"]) he rfl
    cases he
    exact absurd rfl h2
  | .paren ws x ws2, p, o, he, _, h2 => by
    obtain ⟨_, he⟩ := List.append_inj' (s₁ := b!"(" :: x.toks) (t₁ := [b!")"]) he rfl
    cases he
    exact absurd rfl h2
  | .sign ws neg x, p, o, _, _, _ => by
    have key : ∀ ctx, ¬ isNumber .ok ctx (.sign ws neg x) := by
      rintro c ⟨v, hv⟩
      rw [Cst.den] at hv
      cases hd : x.den .ok c <;> rw [hd] at hv <;> cases hv
    exact ⟨fun h => absurd h (key _), fun h => absurd h (key _)⟩
  | .fact x ws, p, o, _, _, _ => by
    have key : ∀ ctx, ¬ isNumber .ok ctx (.fact x ws) := by
      rintro c ⟨v, hv⟩
      rw [Cst.den] at hv
      cases hd : x.den .ok c <;> rw [hd] at hv <;> cases hv
    exact ⟨fun h => absurd h (key _), fun h => absurd h (key _)⟩
  | .bin l ws op r, p, o, _, _, _ => by
    have key : ∀ ctx, ¬ isNumber .ok ctx (.bin l ws op r) := by
      rintro c ⟨v, hv⟩
      rw [Cst.den] at hv
      cases hd : l.den .ok c <;> rw [hd] at hv
      · cases hv
      · cases hd : r.den .ok c <;> rw [hd] at hv <;> cases hv
    exact ⟨fun h => absurd h (key _), fun h => absurd h (key _)⟩
  | .juxt l r, p, o, _, _, _ => by
    have key : ∀ ctx, ¬ isNumber .ok ctx (.juxt l r) := by
      rintro c ⟨v, hv⟩
      rw [Cst.den] at hv
      cases hd : l.den .ok c <;> rw [hd] at hv
      · cases hv
      · cases hd : r.den .ok c <;> rw [hd] at hv <;> cases hv
    exact ⟨fun h => absurd h (key _), fun h => absurd h (key _)⟩

theorem isNumber_digit (hs : SameBut n ctx ctx') {x : Cst} {rest : Bytes} {ts : List Bytes}
    (hl : Lex rest ts) (ha : ApartFrom n (x.toks ++ ts)) {c : UInt8} (hc : firstTok rest = some c)
    (hd : digit c) : isNumber .ok ctx x ↔ isNumber .ok ctx' x := by
  obtain ⟨p, o, hp⟩ : ∃ p o, x.toks = p ++ [o] :=
    ⟨_, _, (List.dropLast_concat_getLast (toks_ne.1 x)).symm⟩
  rw [lex_firstTok hl] at hc
  cases ts with
  | nil => cases hc
  | cons b q =>
    obtain ⟨h1, h2⟩ := ha p o b q (by rw [hp]; simp) ⟨c, hc, hd⟩
    exact isNumber_but hs x p o hp h1 h2

theorem stops_but (hs : SameBut n ctx ctx') {q : Nat} {x : Cst} {rest : Bytes} {ts : List Bytes}
    (hl : Lex rest ts) (ha : ApartFrom n (x.toks ++ ts))
    (h : stops cfg q (isNumber .ok ctx x) rest) : stops cfg q (isNumber .ok ctx' x) rest := by
  intro c hc
  have := h c hc
  exact ⟨this.1, this.2.1, fun hd => (this.2.2 hd).imp id (isNumber_digit hs hl ha hc hd).1⟩

theorem closed_but (hs : SameBut n ctx ctx') {rest : Bytes} {ts : List Bytes} (hl : Lex rest ts) :
    ∀ x : Cst, ApartFrom n (x.toks ++ ts) → x.closed cfg .ok ctx rest → x.closed cfg .ok ctx' rest
  | .num .., _, h => h
  | .name .., _, h => h
  | .call .., _, h => h
  | .paren .., _, h => h
  | .fact .., _, h => h
  | .sign ws neg x, ha, h => by
    have ha' : ApartFrom n (x.toks ++ ts) :=
      ApartFrom.right (a := [[if neg then c!"-" else c!"+"]]) (by simpa [Cst.toks] using ha)
    exact ⟨stops_but hs hl ha' h.1, closed_but hs hl x ha' h.2⟩
  | .bin l ws op r, ha, h => by
    have ha' : ApartFrom n (r.toks ++ ts) :=
      ApartFrom.right (a := l.toks ++ [[opChar op]]) (by simpa [Cst.toks] using ha)
    exact ⟨stops_but hs hl ha' h.1, closed_but hs hl r ha' h.2⟩
  | .juxt l r, ha, h => by
    have ha' : ApartFrom n (r.toks ++ ts) :=
      ApartFrom.right (a := l.toks) (by simpa [Cst.toks] using ha)
    exact ⟨stops_but hs hl ha' h.1, closed_but hs hl r ha' h.2⟩

theorem wf_but (hs : SameBut n ctx ctx') :
    (∀ (x : Cst) (rest : Bytes) (ts : List Bytes), x.wf cfg .ok ctx rest → Lex rest ts →
      ApartFrom n (x.toks ++ ts) → x.wf cfg .ok ctx' rest) ∧
    (∀ (as : CArgs) (rest : Bytes) (ts : List Bytes), as.wf cfg .ok ctx rest → Lex rest ts →
      ApartFrom n (as.toks ++ b!")" :: ts) → as.wf cfg .ok ctx' rest) := by
  refine cst_ind ?_ ?_ ?_ ?_ ?_ ?_ ?_ ?_ ?_ ?_
  · intro ws txt v rest ts h _ _; exact h
  · intro ws nm rest ts h _ _
    exact ⟨h.1, h.2.1, fun f hf => h.2.2 f (hs.symm.func hf)⟩
  · intro ws nm ws2 as ih rest ts h hl ha
    obtain ⟨f, hf, hk⟩ := h.2.2.2.1
    refine ⟨h.1, h.2.1, h.2.2.1, ⟨f, hs.func hf, hk⟩, ih rest ts h.2.2.2.2 hl ?_⟩
    exact ApartFrom.right (a := [nm, b!"("]) (by simpa [Cst.toks] using ha)
  · intro ws x ws2 ih rest ts h hl ha
    refine ⟨h.1, h.2.1, ih _ (b!")" :: ts) h.2.2 (.sym h.2.1 (by decide) hl) ?_⟩
    exact ApartFrom.right (a := [b!"("]) (by simpa [Cst.toks] using ha)
  · intro ws neg x ih rest ts h hl ha
    refine ⟨h.1, ih _ _ h.2.1 hl ?_, h.2.2⟩
    exact ApartFrom.right (a := [[if neg then c!"-" else c!"+"]]) (by simpa [Cst.toks] using ha)
  · intro x ws ih rest ts h hl ha
    refine ⟨h.1, h.2.1, ih _ (b!"!" :: ts) h.2.2 (.sym h.2.1 (by decide) hl) ?_⟩
    simpa [Cst.toks] using ha
  · intro l ws op r ihl ihr rest ts h hl ha
    have e2 : (Cst.bin l ws op r).toks ++ ts = l.toks ++ [opChar op] :: (r.toks ++ ts) := by
      simp [Cst.toks]
    rw [e2] at ha
    have h1 : Lex (ws ++ opChar op :: r.text ++ rest) ([opChar op] :: (r.toks ++ ts)) := by
      rw [show ws ++ opChar op :: r.text ++ rest = ws ++ opChar op :: (r.text ++ rest) by simp]
      exact .sym h.1 (symb_op op) (lex_text.1 r rest ts h.2.2.2.1 hl)
    have hr : ApartFrom n (r.toks ++ ts) :=
      ApartFrom.right (a := l.toks ++ [[opChar op]]) (by simpa using ha)
    exact ⟨h.1, ihl _ _ h.2.1 h1 ha, closed_but hs h1 l ha h.2.2.1,
      ihr _ _ h.2.2.2.1 hl hr, h.2.2.2.2⟩
  · intro l r ihl ihr rest ts h hl ha
    have e2 : (Cst.juxt l r).toks ++ ts = l.toks ++ (r.toks ++ ts) := by simp [Cst.toks]
    rw [e2] at ha
    have h1 := lex_text.1 r rest ts h.2.2.1 hl
    obtain ⟨c, hc, hk⟩ := h.2.2.2.2
    refine ⟨ihl _ _ h.1 h1 ha, closed_but hs h1 l ha h.2.1, ihr _ _ h.2.2.1 hl ha.right,
      h.2.2.2.1, c, hc, ?_⟩
    rcases hk with hk | hk | hk
    · exact .inl hk
    · exact .inr (.inl hk)
    · exact .inr (.inr ⟨hk.1, fun hm => hk.2 ((isNumber_digit hs h1 ha hc hk.1).2 hm)⟩)
  · intro x ws ih rest ts h hl ha
    exact ⟨h.1, ih _ _ h.2 (.sym h.1 (by decide) hl) ha⟩
  · intro x ws as ih ihs rest ts h hl ha
    have e2 : (CArgs.more x ws as).toks ++ b!")" :: ts = x.toks ++ b!"," :: (as.toks ++ b!")" :: ts) := by
      simp [CArgs.toks]
    rw [e2] at ha
    have h1 : Lex (ws ++ c!"," :: (as.text ++ c!")" :: rest)) (b!"," :: (as.toks ++ b!")" :: ts)) :=
      .sym h.1 (by decide) (lex_text.2 as rest ts h.2.2 hl)
    exact ⟨h.1, ih _ _ h.2.1 h1 ha, ihs _ _ h.2.2 hl
      (ApartFrom.right (a := x.toks ++ [b!","]) (by simpa using ha))⟩

/-- The meaning with the constant is the meaning without it, with the value filled in. -/
theorem den_fix {v : F64} (h0 : ∀ nm, lookup ctx' nm = if nm = n then .const v else lookup ctx nm)
    (h1 : lookup ctx n = .var n) :
    (∀ (x : Cst) (rest : Bytes) (e : Elem), x.wf cfg .ok ctx rest → x.den .ok ctx = .ok e →
      x.den .ok ctx' = .ok (fixVar n v e)) ∧
    (∀ (as : CArgs) (rest : Bytes) (es : List Elem), as.wf cfg .ok ctx rest → as.den .ok ctx = .ok es →
      as.den .ok ctx' = .ok (es.map (fixVar n v))) := by
  have hL : ∀ es : List Elem, substL (fun k => if k = n then .num v else .var k) es =
      es.map (fixVar n v) := by
    intro es
    induction es with
    | nil => rfl
    | cons a as ih => rw [substL, ih]; rfl
  refine cst_ind ?_ ?_ ?_ ?_ ?_ ?_ ?_ ?_ ?_ ?_
  · intro ws txt u rest e _ h
    rw [Cst.den] at h ⊢
    cases h; rfl
  · intro ws nm rest e hw h
    rw [Cst.den] at h ⊢
    rw [h0]
    by_cases hc : nm = n
    · subst hc
      rw [h1] at h
      cases h
      simp [fixVar, subst]
    · rw [if_neg hc]
      cases hl : lookup ctx nm with
      | const x => rw [hl] at h; cases h; rfl
      | func f => exact absurd hl (hw.2.2 f)
      | var k => rw [hl] at h; cases h; simp [fixVar, subst, hc]
  · intro ws nm ws2 as ih rest e hw h
    obtain ⟨f, hf, _⟩ := hw.2.2.2.1
    rw [Cst.den] at h ⊢
    cases hd : as.den .ok ctx with
    | error p => rw [hd] at h; cases h
    | ok es =>
      rw [hd] at h
      rw [ih rest es hw.2.2.2.2 hd]
      have hc : nm ≠ n := by rintro rfl; rw [h1] at hf; cases hf
      rw [hf] at h
      rw [h0, if_neg hc, hf]
      cases h
      simp only [fixVar, subst]
      rw [hL]
  · intro ws x ws2 ih rest e hw h
    rw [Cst.den] at h ⊢
    cases hd : x.den .ok ctx with
    | error p => rw [hd] at h; cases h
    | ok a => rw [hd] at h; rw [ih _ a hw.2.2 hd]; cases h; rfl
  · intro ws neg x ih rest e hw h
    rw [Cst.den] at h ⊢
    cases hd : x.den .ok ctx with
    | error p => rw [hd] at h; cases h
    | ok a => rw [hd] at h; rw [ih _ a hw.2.1 hd]; cases h; rfl
  · intro x ws ih rest e hw h
    rw [Cst.den] at h ⊢
    cases hd : x.den .ok ctx with
    | error p => rw [hd] at h; cases h
    | ok a => rw [hd] at h; rw [ih _ a hw.2.2 hd]; cases h; rfl
  · intro l ws op r ihl ihr rest e hw h
    rw [Cst.den] at h ⊢
    cases hd : l.den .ok ctx with
    | error p => rw [hd] at h; cases h
    | ok a =>
      rw [hd] at h
      rw [ihl _ a hw.2.1 hd]
      cases hd' : r.den .ok ctx with
      | error p => rw [hd'] at h; cases h
      | ok b => rw [hd'] at h; rw [ihr _ b hw.2.2.2.1 hd']; cases h; rfl
  · intro l r ihl ihr rest e hw h
    rw [Cst.den] at h ⊢
    cases hd : l.den .ok ctx with
    | error p => rw [hd] at h; cases h
    | ok a =>
      rw [hd] at h
      rw [ihl _ a hw.1 hd]
      cases hd' : r.den .ok ctx with
      | error p => rw [hd'] at h; cases h
      | ok b => rw [hd'] at h; rw [ihr _ b hw.2.2.1 hd']; cases h; rfl
  · intro x ws ih rest es hw h
    rw [CArgs.den] at h ⊢
    cases hd : x.den .ok ctx with
    | error p => rw [hd] at h; cases h
    | ok a => rw [hd] at h; rw [ih _ a hw.2 hd]; cases h; rfl
  · intro x ws as ih ihs rest es hw h
    rw [CArgs.den] at h ⊢
    cases hd : x.den .ok ctx with
    | error p => rw [hd] at h; cases h
    | ok a =>
      rw [hd] at h
      rw [ih _ a hw.2.1 hd]
      cases hd' : as.den .ok ctx with
      | error p => rw [hd'] at h; cases h
      | ok bs => rw [hd'] at h; rw [ihs _ bs hw.2.2 hd']; cases h; rfl

end

/-! ### Values -/

section
variable {w : World} {n : Bytes} {v : F64}

mutual
theorem eval_fixVar (m : HMap F64) : ∀ e : Elem,
    eval w m (subst (fun k => if k = n then .num v else .var k) e) = eval w (m.insert n v) e
  | .num x => rfl
  | .var k => by
    rw [subst]
    by_cases h : k = n <;> simp [h, eval, HMap.get, HMap.insert]
  | .un op e => by rw [subst, eval, eval, eval_fixVar m e]
  | .bin op l r => by rw [subst, eval, eval, eval_fixVar m l, eval_fixVar m r]
  | .call f args => by rw [subst, eval, eval, evalL_fixVar m args]
theorem evalL_fixVar (m : HMap F64) : ∀ es : List Elem,
    evalL w m (substL (fun k => if k = n then .num v else .var k) es) = evalL w (m.insert n v) es
  | [] => rfl
  | a :: as => by rw [substL, evalL, evalL, eval_fixVar m a, evalL_fixVar m as]
end

mutual
theorem runs_fixVar {m : HMap F64} : ∀ (e : Elem) {u : F64}, Runs w (m.insert n v) e u →
    Runs w m (subst (fun k => if k = n then .num v else .var k) e) u
  | .num x, u, h => by cases h; exact .num
  | .var k, u, h => by
    cases h with
    | var h =>
      rw [subst]
      by_cases hk : k = n
      · subst hk
        simp only [HMap.insert, if_true, Option.some.injEq] at h
        subst h
        rw [if_pos rfl]; exact .num
      · simp only [HMap.insert, if_neg hk] at h
        rw [if_neg hk]; exact .var h
  | .un op e, u, h => by
    cases h with
    | un h1 h2 => exact .un (runs_fixVar e h1) h2
  | .bin op l r, u, h => by
    cases h with
    | bin h1 h2 h3 => exact .bin (runs_fixVar l h1) (runs_fixVar r h2) h3
  | .call f args, u, h => by
    cases h with
    | call h1 h2 => exact .call (runsL_fixVar args h1) h2
theorem runsL_fixVar {m : HMap F64} : ∀ (es : List Elem) {us : List F64},
    RunsL w (m.insert n v) es us →
    RunsL w m (substL (fun k => if k = n then .num v else .var k) es) us
  | [], us, h => by cases h; exact .nil
  | a :: as, us, h => by
    cases h with
    | cons h1 h2 => exact .cons (runs_fixVar a h1) (runsL_fixVar as h2)
end

mutual
theorem occurs_fixVar (k : Bytes) : ∀ e : Elem,
    Occurs k (subst (fun k => if k = n then .num v else .var k) e) ↔ Occurs k e ∧ k ≠ n
  | .num x => by
    rw [subst]
    constructor
    · intro h; cases h
    · rintro ⟨h, _⟩; cases h
  | .var j => by
    rw [subst]
    by_cases hj : j = n
    · rw [if_pos hj]
      constructor
      · intro h; cases h
      · rintro ⟨h, hk⟩; cases h; exact absurd hj hk
    · rw [if_neg hj]
      constructor
      · intro h; cases h; exact ⟨.here, hj⟩
      · exact fun h => h.1
  | .un op e => by
    rw [subst]
    have := occurs_fixVar k e
    constructor
    · intro h; cases h with
      | operand h => exact ⟨.operand (this.1 h).1, (this.1 h).2⟩
    · rintro ⟨h, hk⟩; cases h with
      | operand h => exact .operand (this.2 ⟨h, hk⟩)
  | .bin op l r => by
    rw [subst]
    have h1 := occurs_fixVar k l
    have h2 := occurs_fixVar k r
    constructor
    · intro h; cases h with
      | left h => exact ⟨.left (h1.1 h).1, (h1.1 h).2⟩
      | right h => exact ⟨.right (h2.1 h).1, (h2.1 h).2⟩
    · rintro ⟨h, hk⟩; cases h with
      | left h => exact .left (h1.2 ⟨h, hk⟩)
      | right h => exact .right (h2.2 ⟨h, hk⟩)
  | .call f args => by
    rw [subst]
    have := occursL_fixVar k args
    constructor
    · intro h; cases h with
      | arg ha h =>
        obtain ⟨⟨a, h1, h2⟩, h3⟩ := this.1 ⟨_, ha, h⟩
        exact ⟨.arg h1 h2, h3⟩
    · rintro ⟨h, hk⟩; cases h with
      | arg ha h =>
        obtain ⟨a, h1, h2⟩ := this.2 ⟨⟨_, ha, h⟩, hk⟩
        exact .arg h1 h2
theorem occursL_fixVar (k : Bytes) : ∀ es : List Elem,
    (∃ a ∈ substL (fun k => if k = n then .num v else .var k) es, Occurs k a) ↔
      (∃ a ∈ es, Occurs k a) ∧ k ≠ n
  | [] => by simp [substL]
  | a :: as => by
    have h1 := occurs_fixVar k a
    have h2 := occursL_fixVar k as
    rw [substL]
    simp only [List.mem_cons, exists_eq_or_imp]
    rw [h1, h2]
    constructor
    · rintro (h | h)
      · exact ⟨.inl h.1, h.2⟩
      · exact ⟨.inr h.1, h.2⟩
    · rintro ⟨h | h, hk⟩
      · exact .inl ⟨h, hk⟩
      · exact .inr ⟨h, hk⟩
end

end

end Xprs
