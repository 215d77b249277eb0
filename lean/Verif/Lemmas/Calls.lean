import Verif.Lemmas.Effects
import Verif.Lemmas.Ieee
import Verif.Props.Names
/-
Calls of user functions during parsing and evaluation.
-/
namespace Xprs
open Spec
set_option linter.unusedSimpArgs false

variable {σ : Type}

/-! ### Places of calls in a text -/

section
variable (ctx : Context) (p : FnPtr)

theorem callPlaces_cons (c : UInt8) (l : Bytes) :
    callPlaces ctx p l ≤ callPlaces ctx p (c :: l) ∧
    (CallsAt ctx p (c :: l) → callPlaces ctx p l + 1 ≤ callPlaces ctx p (c :: l)) := by
  unfold callPlaces
  rw [List.tails_cons, List.countP_cons]
  constructor
  · omega
  · intro h; rw [if_pos (by simpa using h)]

theorem callPlaces_append : ∀ (a b : Bytes), callPlaces ctx p b ≤ callPlaces ctx p (a ++ b)
  | [], _ => Nat.le_refl _
  | c :: a, b => Nat.le_trans (callPlaces_append a b) (callPlaces_cons ctx p c _).1

theorem places_le {s s' : St} (h : Le s s') : callPlaces ctx p s'.rest ≤ callPlaces ctx p s.rest := by
  obtain ⟨pre, h1, _⟩ := h
  rw [h1]; exact callPlaces_append ctx p _ _

theorem places_lt {s s' : St} (h : Lt s s') (hc : CallsAt ctx p s.rest) :
    callPlaces ctx p s'.rest + 1 ≤ callPlaces ctx p s.rest := by
  obtain ⟨pre, hn, h1, _⟩ := h
  cases pre with
  | nil => exact absurd rfl hn
  | cons c pre =>
    rw [h1] at hc ⊢
    rw [List.cons_append] at hc ⊢
    exact Nat.le_trans (Nat.succ_le_succ (callPlaces_append ctx p pre _)) ((callPlaces_cons ctx p c _).2 hc)

/-! ### The budget of the parser -/

/-- The calls made, those in the tree and those in the rest of the text are at most `n`. -/
def Paid (n : Nat) (x : R Elem × (σ × List Call)) : Prop :=
  match x with
  | (.ok e s, t) => tally p t + cnt p e + callPlaces ctx p s.rest ≤ n
  | (.err _ s, t) => tally p t + callPlaces ctx p s.rest ≤ n
  | (.panic _, t) => tally p t ≤ n
  | (.fuel, t) => tally p t ≤ n
def PaidL (n : Nat) (x : R (List Elem) × (σ × List Call)) : Prop :=
  match x with
  | (.ok e s, t) => tally p t + cntL p e + callPlaces ctx p s.rest ≤ n
  | (.err _ s, t) => tally p t + callPlaces ctx p s.rest ≤ n
  | (.panic _, t) => tally p t ≤ n
  | (.fuel, t) => tally p t ≤ n

theorem Paid.mono {n k : Nat} {x : R Elem × (σ × List Call)} (h : Paid ctx p n x) (hk : n ≤ k) :
    Paid ctx p k x := by
  rcases x with ⟨_ | _ | _ | _, t⟩ <;> exact Nat.le_trans h hk

variable {rec : Nat → St → σ × List Call → R Elem × (σ × List Call)}

def PaidRec (rec : Nat → St → σ × List Call → R Elem × (σ × List Call)) : Prop :=
  ∀ q s t, Paid ctx p (tally p t + callPlaces ctx p s.rest) (rec q s t)

/-- An error raised in the state `s`. -/
theorem paid_errEnd {n : Nat} (cfg : Cfg) {s : St} {t : σ × List Call}
    (h : tally p t + callPlaces ctx p s.rest ≤ n) : Paid ctx p n (errEnd cfg s, t) := by
  unfold errEnd
  split
  · exact Nat.le_trans (Nat.le_add_right _ _) h
  · exact h
theorem paid_errEndL {n : Nat} (cfg : Cfg) {s : St} {t : σ × List Call}
    (h : tally p t + callPlaces ctx p s.rest ≤ n) : PaidL ctx p n (errEnd cfg s, t) := by
  unfold errEnd
  split
  · exact Nat.le_trans (Nat.le_add_right _ _) h
  · exact h

theorem argumentS_paid (cfg : Cfg) (hr : PaidRec ctx p rec) (s : St) (t : σ × List Call) :
    Paid ctx p (tally p t + callPlaces ctx p s.rest) (argumentS cfg rec s t) := by
  unfold argumentS
  have h := hr noPrec s t
  revert h
  rcases rec noPrec s t with ⟨e | ⟨e, s'⟩ | q | _, t'⟩ <;> intro h
  · exact h
  · dsimp only
    split
    · unfold errMissing
      split
      · exact Nat.le_trans (Nat.le_add_right _ _) h
      · exact h
    · exact h
  · exact h
  · exact h

theorem parseArgsS_paid (cfg : Cfg) (hr : PaidRec ctx p rec) : ∀ (fuel : Nat) (args : List Elem) (s : St)
    (t : σ × List Call), PaidL ctx p (tally p t + cntL p args + callPlaces ctx p s.rest)
      (parseArgsS cfg rec fuel args s t)
  | 0, args, s, t => Nat.le_trans (Nat.le_add_right _ _) (Nat.le_add_right _ _)
  | fuel + 1, args, s, t => by
    unfold parseArgsS
    have h := argumentS_paid ctx p cfg hr s t
    revert h
    rcases argumentS cfg rec s t with ⟨⟨a, s1⟩ | ⟨e, s1⟩ | q | _, t1⟩ <;> intro h
    · have h : tally p t1 + cnt p a + callPlaces ctx p s1.rest ≤ tally p t + callPlaces ctx p s.rest := h
      have h1 := places_le ctx p (le_trim s1)
      show PaidL ctx p _ (match (trim s1).rest.head? with
        | some c =>
          if c = c!"," then parseArgsS cfg rec fuel (args ++ [a]) (adv (trim s1) 1) t1
          else if c = c!")" then (.ok (args ++ [a]) (trim s1), t1)
          else (errTok (trim s1) c, t1)
        | none => (errEnd cfg (trim s1), t1))
      have hc : cntL p (args ++ [a]) = cntL p args + cnt p a := by
        rw [cntL_append, cntL_cons, cntL_nil]; omega
      cases hh : (trim s1).rest.head? with
      | none => exact paid_errEndL ctx p cfg (by omega)
      | some c =>
        dsimp only
        split
        · have h2 := places_le ctx p (lt_one hh).le
          have ih := parseArgsS_paid cfg hr fuel (args ++ [a]) (adv (trim s1) 1) t1
          rw [hc] at ih
          revert ih
          generalize parseArgsS cfg rec fuel (args ++ [a]) (adv (trim s1) 1) t1 = z
          rcases z with ⟨_ | _ | _ | _, _⟩ <;> intro ih <;> exact Nat.le_trans ih (by omega)
        · split
          · show _ ≤ _
            rw [hc]; omega
          · show _ ≤ _
            omega
    · have h : tally p t1 + callPlaces ctx p s1.rest ≤ tally p t + callPlaces ctx p s.rest := h
      show tally p t1 + callPlaces ctx p s1.rest ≤ _
      omega
    · have h : tally p t1 ≤ tally p t + callPlaces ctx p s.rest := h
      show tally p t1 ≤ _
      omega
    · have h : tally p t1 ≤ tally p t + callPlaces ctx p s.rest := h
      show tally p t1 ≤ _
      omega

theorem parseIdentS_paid (cfg : Cfg) (hr : PaidRec ctx p rec) (s : St) (t : σ × List Call) {c : UInt8}
    (hc : s.rest.head? = some c) (hl : isIdStart c = true) :
    Paid ctx p (tally p t + callPlaces ctx p s.rest) (parseIdentS cfg ctx rec s t) := by
  unfold parseIdentS
  dsimp only
  have h1 := places_le ctx p (le_skipWhile isIdChar s)
  cases hk : lookup ctx (List.takeWhile isIdChar s.rest) with
  | const x =>
    show _ + 0 + _ ≤ _
    omega
  | var n =>
    show _ + 0 + _ ≤ _
    omega
  | func f =>
    dsimp only
    have h2 := places_le ctx p (le_consumeIf c!"(" (skipWhile isIdChar s))
    by_cases hp : (consumeIf c!"(" (skipWhile isIdChar s)).1 = true
    · rw [if_pos hp]
      obtain ⟨hp1, hp2⟩ := consumeIf_true hp
      have hcall : CallsAt ctx f.func s.rest := by
        have e1 := takeWhile_append_drop isIdChar s.rest
        rw [trim_rest, skipWhile_rest] at hp1
        rw [drop_takeWhile] at e1
        have e2 := takeWhile_append_drop isWs (s.rest.dropWhile isIdChar)
        rw [drop_takeWhile] at e2
        cases hd : (s.rest.dropWhile isIdChar).dropWhile isWs with
        | nil => rw [hd] at hp1; cases hp1
        | cons d b =>
          rw [hd] at hp1 e2
          cases hp1
          refine ⟨_, _, b, f, by rw [e2]; exact e1.symm, ⟨?_, ?_, ?_⟩, ?_, hk, rfl⟩
          · refine ⟨c, ?_, (isIdStart_iff c).1 hl⟩
            cases hs : s.rest with
            | nil => rw [hs] at hc; cases hc
            | cons a r =>
              rw [hs] at hc
              cases hc
              have : isIdChar c = true := by
                rw [isIdChar_iff]; exact .inl ((isIdStart_iff c).1 hl)
              simp [List.takeWhile_cons, this]
          · intro x hx; exact (isIdChar_iff x).1 (mem_takeWhile x hx)
          · rw [e2]; intro x hx hn
            have := head_dropWhile hx
            rw [(isIdChar_iff x).2 hn] at this; cases this
          · intro x hx; exact (isWs_iff x).1 (mem_takeWhile x hx)
      have hlt : Lt s (consumeIf c!"(" (skipWhile isIdChar s)).2 :=
        (le_skipWhile isIdChar s).trans_lt (lt_consumeIf hp)
      have hpay : isFn p f + callPlaces ctx p (consumeIf c!"(" (skipWhile isIdChar s)).2.rest ≤
          callPlaces ctx p s.rest := by
        by_cases hf : f.func = p
        · have := places_lt ctx p hlt (hf ▸ hcall)
          have : isFn p f ≤ 1 := by
            unfold isFn
            cases f.func <;> simp [List.count_cons] <;> split <;> omega
          omega
        · have : isFn p f = 0 := by
            unfold isFn
            cases hf' : f.func <;> rw [hf'] at hf <;> simp [List.count_cons, hf]
          omega
      generalize (consumeIf c!"(" (skipWhile isIdChar s)).2 = s2 at hpay
      have h3 := parseArgsS_paid ctx p cfg hr (s2.rest.length + 1) [] s2 t
      rw [cntL_nil] at h3
      revert h3
      rcases parseArgsS cfg rec (s2.rest.length + 1) [] s2 t with ⟨⟨as, s3⟩ | ⟨e, s3⟩ | q | _, t3⟩ <;> intro h3
      · have h3 : tally p t3 + cntL p as + callPlaces ctx p s3.rest ≤ tally p t + 0 + callPlaces ctx p s2.rest := h3
        have h4 := places_le ctx p (le_consumeIf c!")" s3)
        show Paid ctx p _ (R.bindS (assertConsume c!")" s3, t3) fun _ s4 t4 => (checkArity f as s.pos s4, t4))
        unfold assertConsume
        split
        · show Paid ctx p _ (checkArity f as s.pos (consumeIf c!")" s3).2, t3)
          have hok : Paid ctx p (tally p t + callPlaces ctx p s.rest)
              (R.ok (Elem.call f as) (consumeIf c!")" s3).2, t3) := by
            show _ ≤ _
            rw [cnt_call]; omega
          unfold checkArity
          split
          · split
            · exact hok
            · split
              · show _ ≤ _
                omega
              · show _ ≤ _
                omega
          · exact hok
        · show _ ≤ _
          omega
      · have h3 : tally p t3 + callPlaces ctx p s3.rest ≤ tally p t + 0 + callPlaces ctx p s2.rest := h3
        show tally p t3 + callPlaces ctx p s3.rest ≤ _
        omega
      · have h3 : tally p t3 ≤ tally p t + 0 + callPlaces ctx p s2.rest := h3
        show tally p t3 ≤ _
        omega
      · have h3 : tally p t3 ≤ tally p t + 0 + callPlaces ctx p s2.rest := h3
        show tally p t3 ≤ _
        omega
    · rw [if_neg hp]
      show _ ≤ _
      omega

theorem bind_paid {n : Nat} {x : R Elem × (σ × List Call)} {f : Elem → St → σ × List Call → R Elem × (σ × List Call)}
    (h : Paid ctx p n x)
    (hf : ∀ e s t, tally p t + cnt p e + callPlaces ctx p s.rest ≤ n → Paid ctx p n (f e s t)) :
    Paid ctx p n (R.bindS x f) := by
  rcases x with ⟨⟨e, s⟩ | ⟨e, s⟩ | q | _, t⟩
  · exact hf e s t h
  · exact h
  · exact h
  · exact h

theorem atomS_paid (cfg : Cfg) (hr : PaidRec ctx p rec) (s0 : St) (t : σ × List Call) :
    Paid ctx p (tally p t + callPlaces ctx p s0.rest) (atomS cfg ctx rec s0 t) := by
  unfold atomS
  dsimp only
  have h0 := places_le ctx p (le_trim s0)
  cases hc : (trim s0).rest.head? with
  | none => exact paid_errEnd ctx p cfg (by omega)
  | some c =>
    dsimp only
    have h1 := places_le ctx p (lt_one hc).le
    split
    · unfold parseNumber
      have h2 := places_le ctx p (le_numEnd (trim s0))
      dsimp only
      split
      · show _ + 0 + _ ≤ _
        omega
      · show _ ≤ _
        omega
    split
    · rename_i hl
      exact (parseIdentS_paid ctx p cfg hr (trim s0) t hc hl).mono ctx p (by omega)
    split
    · refine bind_paid ctx p ((hr _ _ _).mono ctx p (by omega)) fun e s t h => ?_
      show _ ≤ _
      rw [cnt_un]; exact h
    split
    · refine bind_paid ctx p ((hr _ _ _).mono ctx p (by omega)) fun e s t h => ?_
      show _ ≤ _
      rw [cnt_un]; exact h
    split
    · refine bind_paid ctx p ((hr _ _ _).mono ctx p (by omega)) fun e s t h => ?_
      have h2 := places_le ctx p (le_consumeIf c!")" s)
      unfold assertConsume
      split
      · show _ ≤ _
        omega
      · show _ ≤ _
        omega
    split
    · show _ ≤ _
      omega
    · show _ ≤ _
      omega

theorem opLoopS_paid (cfg : Cfg) (hr : PaidRec ctx p rec) (q : Nat) : ∀ (fuel : Nat) (el : Elem) (s : St)
    (t : σ × List Call), Paid ctx p (tally p t + cnt p el + callPlaces ctx p s.rest)
      (opLoopS cfg rec q fuel el s t)
  | 0, el, s, t => Nat.le_trans (Nat.le_add_right _ _) (Nat.le_add_right _ _)
  | fuel + 1, el, s, t => by
    unfold opLoopS
    dsimp only
    have h0 := places_le ctx p (le_trim s)
    cases ho : opInfo cfg el q (trim s) with
    | none => show _ ≤ _; omega
    | some k =>
      obtain ⟨op, q', k⟩ := k
      dsimp only
      have h1 : callPlaces ctx p (adv (trim s) k).rest ≤ callPlaces ctx p (trim s).rest := by
        have : (trim s).rest = (trim s).rest.take k ++ (adv (trim s) k).rest := by simp [adv]
        rw [this]
        exact callPlaces_append ctx p _ _
      have h2 := hr q' (adv (trim s) k) t
      revert h2
      rcases rec q' (adv (trim s) k) t with ⟨⟨r, s2⟩ | ⟨e, s2⟩ | _ | _, t2⟩ <;> intro h2
      · have h2 : tally p t2 + cnt p r + callPlaces ctx p s2.rest ≤
          tally p t + callPlaces ctx p (adv (trim s) k).rest := h2
        refine (opLoopS_paid cfg hr q fuel (.bin op el r) s2 t2).mono ctx p ?_
        rw [cnt_bin]; omega
      · have h2 : tally p t2 + callPlaces ctx p s2.rest ≤
          tally p t + callPlaces ctx p (adv (trim s) k).rest := h2
        show tally p t2 + callPlaces ctx p s2.rest ≤ _
        omega
      · have h2 : tally p t2 ≤ tally p t + callPlaces ctx p (adv (trim s) k).rest := h2
        show tally p t2 ≤ _
        omega
      · have h2 : tally p t2 ≤ tally p t + callPlaces ctx p (adv (trim s) k).rest := h2
        show tally p t2 ≤ _
        omega

theorem elementS_paid (cfg : Cfg) (w : World) (u : Stateful σ) : ∀ n,
    PaidRec ctx p (elementS cfg w (recording u) ctx n)
  | 0, _, s, t => Nat.le_add_right _ _
  | n + 1, q, s, t => by
    have hr := elementS_paid cfg w u n
    rw [elementS]
    unfold elementFS
    refine bind_paid ctx p (atomS_paid ctx p cfg hr s t) fun e s1 t1 h1 => ?_
    have h2 := places_le ctx p (le_consumeIf c!"!" s1)
    have h3 : cnt p (if (consumeIf c!"!" s1).1 then .un .factorial e else e) = cnt p e := by
      split
      · rw [cnt_un]
      · rfl
    refine bind_paid ctx p ((opLoopS_paid ctx p cfg hr q _ _ _ t1).mono ctx p (by omega))
      fun e' s3 t3 h4 => ?_
    unfold finishS
    split
    · have h5 := simplifyS_within p cfg (w := w) (u := u) e' t3
      revert h5
      rcases simplifyS cfg w (recording u) e' t3 with ⟨_ | e2, t4⟩ <;> intro h5
      · have h5 : tally p t4 ≤ tally p t3 + cnt p e' := h5
        show tally p t4 ≤ _
        omega
      · have h5 : tally p t4 + cnt p e2 ≤ tally p t3 + cnt p e' := h5
        show tally p t4 + cnt p e2 + callPlaces ctx p s3.rest ≤ _
        omega
    · exact h4

/-- The whole of `parse`. -/
theorem parseS_paid (cfg : Cfg) (w : World) (u : Stateful σ) (o : Oracle) (input : Bytes) (t : σ × List Call) :
    tally p (parseS cfg w (recording u) o ctx input t).2 ≤ tally p t + callPlaces ctx p input ∧
    ∀ x, (parseS cfg w (recording u) o ctx input t).1 = .ok x →
      tally p (parseS cfg w (recording u) o ctx input t).2 + cnt p x.root ≤
        tally p t + callPlaces ctx p input := by
  have key : tally p (parseImplS cfg w (recording u) ctx input t).2 ≤ tally p t + callPlaces ctx p input ∧
    ∀ x, (parseImplS cfg w (recording u) ctx input t).1 = .ok x →
      tally p (parseImplS cfg w (recording u) ctx input t).2 + cnt p x.root ≤
        tally p t + callPlaces ctx p input := by
    unfold parseImplS
    have h := elementS_paid ctx p cfg w u (input.length + 1) noPrec ⟨0, input⟩ t
    revert h
    rcases elementS cfg w (recording u) ctx (input.length + 1) noPrec ⟨0, input⟩ t with
      ⟨⟨e, s⟩ | ⟨e, s⟩ | q | _, t1⟩ <;> intro h
    · have h : tally p t1 + cnt p e + callPlaces ctx p s.rest ≤ tally p t + callPlaces ctx p input := h
      dsimp only
      split
      · exact ⟨by show tally p t1 ≤ _; omega, fun x hx => by cases hx⟩
      · refine ⟨by show tally p t1 ≤ _; omega, fun x hx => ?_⟩
        cases hx
        show tally p t1 + cnt p e ≤ _
        omega
    · have h : tally p t1 + callPlaces ctx p s.rest ≤ tally p t + callPlaces ctx p input := h
      exact ⟨by show tally p t1 ≤ _; omega, fun x hx => by cases hx⟩
    · exact ⟨h, fun x hx => by cases hx⟩
    · exact ⟨h, fun x hx => by cases hx⟩
  unfold parseS
  revert key
  rcases parseImplS cfg w (recording u) ctx input t with ⟨x | e | q | _, t1⟩ <;> intro key
  · dsimp only
    split
    · split
      · exact ⟨key.1, fun x hx => by cases hx⟩
      · exact key
    · exact key
  · exact key
  · exact key
  · exact key

end

/-! ### Evaluation -/

section
variable {w : World} {u : Stateful σ} {m : HMap F64}

theorem Spec.Outcomes.append {t t' t'' : σ} {k k' : List Call} (h : Outcomes u t k t') (h' : Outcomes u t' k' t'') :
    Outcomes u t (k ++ k') t'' := by
  induction h with
  | nil => exact h'
  | cons _ ih => exact .cons (ih h')

/-- What an evaluation adds to the record. -/
def Trace (u : Stateful σ) (calls : List FnPtr) {α ε : Type} (P : List Call → α → Prop) (t : σ × List Call)
    (x : Except ε α × (σ × List Call)) : Prop :=
  ∃ k, x.2.2 = t.2 ++ k ∧ Outcomes u t.1 k x.2.1 ∧ k.map (·.fn) <+: calls ∧
    ∀ v, x.1 = .ok v → k.map (·.fn) = calls ∧ P k v

theorem trace_nil {α ε : Type} {P : List Call → α → Prop} {t : σ × List Call} {r : Except ε α}
    {calls : List FnPtr} (h : ∀ v, r = .ok v → calls = [] ∧ P [] v) : Trace u calls P t (r, t) :=
  ⟨[], by simp, .nil, by simp, fun v hv => ⟨by simp [(h v hv).1], (h v hv).2⟩⟩

theorem trace_bin (w : World) (m : HMap F64) (l r : Elem) (op : Op) (a b : F64) (k k' : List Call)
    (hl : Evaluates w m l k a) (hr : Evaluates w m r k' b) (v : F64) (h : liftP (binF w op a b) = .ok v) :
    Evaluates w m (.bin op l r) (k ++ k') v := by
  cases op <;> simp [binF, liftP] at h <;> subst h
  · exact .plus hl hr (adds a b)
  · exact .minus hl hr (adds a (F64.neg b))
  · exact .times hl hr (muls a b)
  · exact .divide hl hr (divs a b)
  · exact .power hl hr
  · exact .modulo hl hr (rems a b)

theorem trace_un (w : World) (m : HMap F64) (e : Elem) (op : Op) (a : F64) (k : List Call)
    (hl : Evaluates w m e k a) (v : F64) (h : liftP (unF op a) = .ok v) :
    Evaluates w m (.un op e) k v := by
  cases op <;> simp [unF, liftP] at h
  · subst h; exact .pos hl
  · subst h; exact .neg hl
  · obtain ⟨y, h1, h2⟩ := Props.factorial_of a
    rw [h1] at h
    simp at h
    subst h
    exact .factorial hl h2

mutual
theorem evalS_trace : ∀ (e : Elem) (t : σ × List Call),
    Trace u (userCalls e) (Evaluates w m e) t (evalS w (recording u) m e t)
  | .num x, t => by
    rw [evalS]
    exact trace_nil fun v hv => by cases hv; exact ⟨rfl, .num⟩
  | .var n, t => by
    rw [evalS]
    cases h : m.get n with
    | none => exact trace_nil fun v hv => by cases hv
    | some x => exact trace_nil fun v hv => by cases hv; exact ⟨rfl, .var h⟩
  | .un op e, t => by
    rw [evalS]
    obtain ⟨k, h1, h2, h3, h4⟩ := evalS_trace e t
    revert h1 h2 h4
    rcases evalS w (recording u) m e t with ⟨_ | a, t1⟩ <;> intro h1 h2 h4
    · exact ⟨k, h1, h2, by rw [userCalls]; exact h3, fun v hv => by cases hv⟩
    · refine ⟨k, h1, h2, by rw [userCalls]; exact h3, fun v hv => ?_⟩
      rw [userCalls]
      exact ⟨(h4 a rfl).1, trace_un w m e op a k (h4 a rfl).2 v hv⟩
  | .bin op l r, t => by
    rw [evalS, userCalls]
    obtain ⟨k, h1, h2, h3, h4⟩ := evalS_trace l t
    revert h1 h2 h4
    rcases evalS w (recording u) m l t with ⟨_ | a, t1⟩ <;> intro h1 h2 h4
    · exact ⟨k, h1, h2, h3.trans (List.prefix_append _ _), fun v hv => by cases hv⟩
    · obtain ⟨k', g1, g2, g3, g4⟩ := evalS_trace r t1
      dsimp only
      obtain ⟨h4, h5⟩ := h4 a rfl
      have h1 : t1.2 = t.2 ++ k := h1
      have hp : (k ++ k').map (·.fn) <+: userCalls l ++ userCalls r := by
        rw [List.map_append, h4]
        exact (List.prefix_append_right_inj _).2 g3
      revert g1 g2 g4
      rcases evalS w (recording u) m r t1 with ⟨_ | b, t2⟩ <;> intro g1 g2 g4 <;>
        have g1 : t2.2 = t1.2 ++ k' := g1
      · exact ⟨k ++ k', by show t2.2 = _; rw [g1, h1, List.append_assoc], h2.append g2, hp,
          fun v hv => by cases hv⟩
      · refine ⟨k ++ k', by show t2.2 = _; rw [g1, h1, List.append_assoc], h2.append g2, hp, fun v hv => ?_⟩
        obtain ⟨g4, g5⟩ := g4 b rfl
        exact ⟨by rw [List.map_append, h4, g4], trace_bin w m l r op a b k k' h5 g5 v hv⟩
  | .call f args, t => by
    rw [evalS]
    obtain ⟨k, h1, h2, h3, h4⟩ := evalSL_trace args t
    revert h1 h2 h4
    rcases evalSL w (recording u) m args t with ⟨_ | vs, t1⟩ <;> intro h1 h2 h4
    · exact ⟨k, h1, h2, by rw [userCalls]; exact h3.trans (List.prefix_append _ _), fun v hv => by cases hv⟩
    · dsimp only
      obtain ⟨h4, h5⟩ := h4 vs rfl
      have h1 : t1.2 = t.2 ++ k := h1
      have h2 : Outcomes u t.1 k t1.1 := h2
      rcases fn_cases f with ⟨b, hb⟩ | hf
      · rw [callS_builtin _ _ hb, userCalls]
        simp only [hb, List.append_nil]
        refine ⟨k, h1, h2, h3, fun v hv => ⟨h4, ?_⟩⟩
        refine .builtin h5 hb ?_
        revert hv
        cases b.run w vs <;> simp [liftP]
      · rw [callS_user _ _ hf]
        have hu : userCalls (.call f args) = userCallsL args ++ [f.func] := by
          rw [userCalls]
          cases h : f.func with
          | builtin b => exact absurd h (hf b)
          | static _ => rfl
          | dyn _ => rfl
        rw [hu]
        have hm : (k ++ [(⟨f.func, vs, (u.call f.func vs t1.1).1⟩ : Call)]).map Call.fn =
            userCallsL args ++ [f.func] := by rw [List.map_append, h4]; rfl
        refine ⟨k ++ [⟨f.func, vs, (u.call f.func vs t1.1).1⟩], ?_, h2.append (.cons .nil), ?_, fun v hv => ⟨hm, ?_⟩⟩
        · show t1.2 ++ _ = _
          rw [h1, List.append_assoc]
        · rw [hm]
        · have : (u.call f.func vs t1.1).1 = some v := by
            revert hv
            show liftP (match (u.call f.func vs t1.1).1 with | some v => .ok v | none => .error .user) = .ok v → _
            cases (u.call f.func vs t1.1).1 <;> simp [liftP]
          rw [this]
          exact .user h5 hf
theorem evalSL_trace : ∀ (l : List Elem) (t : σ × List Call),
    Trace u (userCallsL l) (EvaluatesL w m l) t (evalSL w (recording u) m l t)
  | [], t => by
    rw [evalSL]
    exact trace_nil fun v hv => by cases hv; exact ⟨rfl, .nil⟩
  | a :: as, t => by
    rw [evalSL, userCallsL]
    obtain ⟨k, h1, h2, h3, h4⟩ := evalS_trace a t
    revert h1 h2 h4
    rcases evalS w (recording u) m a t with ⟨_ | y, t1⟩ <;> intro h1 h2 h4
    · exact ⟨k, h1, h2, h3.trans (List.prefix_append _ _), fun v hv => by cases hv⟩
    · obtain ⟨k', g1, g2, g3, g4⟩ := evalSL_trace as t1
      dsimp only
      obtain ⟨h4, h5⟩ := h4 y rfl
      have h1 : t1.2 = t.2 ++ k := h1
      have hp : (k ++ k').map (·.fn) <+: userCalls a ++ userCallsL as := by
        rw [List.map_append, h4]
        exact (List.prefix_append_right_inj _).2 g3
      revert g1 g2 g4
      rcases evalSL w (recording u) m as t1 with ⟨_ | b, t2⟩ <;> intro g1 g2 g4 <;>
        have g1 : t2.2 = t1.2 ++ k' := g1
      · exact ⟨k ++ k', by show t2.2 = _; rw [g1, h1, List.append_assoc], h2.append g2, hp,
          fun v hv => by cases hv⟩
      · refine ⟨k ++ k', by show t2.2 = _; rw [g1, h1, List.append_assoc], h2.append g2, hp, fun v hv => ?_⟩
        cases hv
        obtain ⟨g4, g5⟩ := g4 b rfl
        exact ⟨by rw [List.map_append, h4, g4], .cons h5 g5⟩
end

/-! ### The unchecked evaluation makes the same calls -/

/-- The same value, the same memory, or both fail with the same memory. -/
def Alike {α : Type} (x : Except EvErr α × σ) (y : PM α × σ) : Prop :=
  x.2 = y.2 ∧ ∀ v, x.1 = .ok v ↔ y.1 = .ok v

theorem Alike.elim {α : Type} {x : Except EvErr α × σ} {y : PM α × σ} (h : Alike x y) :
    (∃ r r' t, x = (.error r, t) ∧ y = (.error r', t)) ∨ ∃ a t, x = (.ok a, t) ∧ y = (.ok a, t) := by
  rcases x with ⟨r | a, t⟩ <;> rcases y with ⟨r' | a', t'⟩ <;> obtain ⟨h1, h2⟩ := h <;> cases h1
  · exact .inl ⟨_, _, _, rfl, rfl⟩
  · have := (h2 a').2 rfl; cases this
  · have := (h2 a).1 rfl; cases this
  · have := (h2 a).1 rfl; cases this; exact .inr ⟨_, _, rfl, rfl⟩

theorem alike_lift {α : Type} (x : PM α) (t : σ) : Alike (liftP x, t) (x, t) :=
  ⟨rfl, fun v => by cases x <;> simp [liftP]⟩

mutual
theorem evalS_alike (u : Stateful σ) : ∀ (e : Elem) (t : σ), Alike (evalS w u m e t) (evalUS w u m e t)
  | .num x, t => ⟨rfl, fun v => by simp [evalS, evalUS]⟩
  | .var n, t => by
    rw [evalS, evalUS]
    cases m.get n with
    | none => exact ⟨rfl, fun v => by simp⟩
    | some x => exact ⟨rfl, fun v => by simp⟩
  | .un op e, t => by
    rw [evalS, evalUS]
    rcases (evalS_alike u e t).elim with ⟨r, r', t1, h1, h2⟩ | ⟨a, t1, h1, h2⟩ <;> rw [h1, h2]
    · exact ⟨rfl, fun v => by simp⟩
    · cases op <;> exact alike_lift _ _
  | .bin op l r, t => by
    rw [evalS, evalUS]
    rcases (evalS_alike u l t).elim with ⟨r, r', t1, h1, h2⟩ | ⟨a, t1, h1, h2⟩ <;> rw [h1, h2]
    · exact ⟨rfl, fun v => by simp⟩
    · dsimp only
      rcases (evalS_alike u r t1).elim with ⟨r, r', t1, h1, h2⟩ | ⟨a, t1, h1, h2⟩ <;> rw [h1, h2]
      · exact ⟨rfl, fun v => by simp⟩
      · cases op <;> exact alike_lift _ _
  | .call f args, t => by
    rw [evalS, evalUS]
    rcases (evalSL_alike u args t).elim with ⟨r, r', t1, h1, h2⟩ | ⟨a, t1, h1, h2⟩ <;> rw [h1, h2]
    · exact ⟨rfl, fun v => by simp⟩
    · exact alike_lift _ _
theorem evalSL_alike (u : Stateful σ) : ∀ (l : List Elem) (t : σ), Alike (evalSL w u m l t) (evalUSL w u m l t)
  | [], t => ⟨rfl, fun v => by simp [evalSL, evalUSL]⟩
  | a :: as, t => by
    rw [evalSL, evalUSL]
    rcases (evalS_alike u a t).elim with ⟨r, r', t1, h1, h2⟩ | ⟨a, t1, h1, h2⟩ <;> rw [h1, h2]
    · exact ⟨rfl, fun v => by simp⟩
    · dsimp only
      rcases (evalSL_alike u as t1).elim with ⟨r, r', t1, h1, h2⟩ | ⟨a, t1, h1, h2⟩ <;> rw [h1, h2]
      · exact ⟨rfl, fun v => by simp⟩
      · exact ⟨rfl, fun v => by simp⟩
end

end

end Xprs
