import Verif.Lemmas.Rows
import Verif.Lemmas.Rename
/-
The two orders of operations, PEMDAS and PEJMDAS.
-/
namespace Xprs
open Spec

section
variable {cfg cfg' : Cfg} {w : World}

theorem simpBin_order (hc : SameButOrder cfg cfg') (op : Op) (l r : Elem) :
    simpBin cfg w op l r = simpBin cfg' w op l r := by
  cases op <;> simp only [simpBin, simpPlus, simpMinus, simpTimes, simpDivide, hc.2.1]

mutual
theorem simplify_order (hc : SameButOrder cfg cfg') : ∀ e : Elem, simplify cfg w e = simplify cfg' w e
  | .num _ => rfl
  | .var _ => rfl
  | .bin op l r => by
    rw [simplify, simplify, simplify_order hc l, simplify_order hc r]
    simp only [simpBin_order hc]
  | .un op e => by rw [simplify, simplify, simplify_order hc e]
  | .call f args => by rw [simplify, simplify, simplifyL_order hc args]
theorem simplifyL_order (hc : SameButOrder cfg cfg') : ∀ es : List Elem, simplifyL cfg w es = simplifyL cfg' w es
  | [] => rfl
  | a :: as => by rw [simplifyL, simplifyL, simplify_order hc a, simplifyL_order hc as]
end

theorem finOf_order (hc : SameButOrder cfg cfg') : finOf cfg w = finOf cfg' w := by
  funext e
  unfold finOf
  rw [hc.1, simplify_order hc]

variable {fin : Elem → PM Elem} {ctx : Context}

/-- Levels of the operators other than `*`, `/` and `%`. -/
def FarLevel (q : Nat) : Prop := q ≠ 2

theorem impl_far {q : Nat} (h : FarLevel q) : implLevel cfg ≤ q ↔ implLevel cfg' ≤ q := by
  unfold FarLevel at h
  unfold implLevel
  split <;> split <;> omega

theorem impl_far_lt {q : Nat} (h : q ≠ 3) : implLevel cfg < q ↔ implLevel cfg' < q := by
  unfold implLevel
  split <;> split <;> omega

theorem stops_order {q q' : Nat} (h : implLevel cfg ≤ q ↔ implLevel cfg' ≤ q')
    (hq : ∀ op, level op ≤ q ↔ level op ≤ q') {P : Prop} {rest : Bytes}
    (hs : stops cfg q P rest) : stops cfg' q' P rest := by
  intro c hc
  obtain ⟨h1, h2, h3⟩ := hs c hc
  exact ⟨fun op ho => (hq op).1 (h1 op ho), fun hh => h.1 (h2 hh), fun hh => (h3 hh).imp_left h.1⟩

/-- No `*`, `/` or `%` among the tokens. -/
def FarToks (ts : List Bytes) : Prop := b!"*" ∉ ts ∧ b!"/" ∉ ts ∧ b!"%" ∉ ts

theorem FarToks.sub {ts us : List Bytes} (h : FarToks ts) (hs : ∀ t ∈ us, t ∈ ts) : FarToks us :=
  ⟨fun hh => h.1 (hs _ hh), fun hh => h.2.1 (hs _ hh), fun hh => h.2.2 (hs _ hh)⟩

theorem far_op {op : Op} {ts : List Bytes} (h : FarToks ts) (hm : [opChar op] ∈ ts) : FarLevel (level op) := by
  unfold FarLevel
  cases op with
  | times => exact absurd hm h.1
  | divide => exact absurd hm h.2.1
  | modulo => exact absurd hm h.2.2
  | _ => decide

theorem impl_self (op : Op) (h : FarLevel (level op)) : level op ≤ implLevel cfg ↔ level op ≤ implLevel cfg' := by
  unfold FarLevel at h
  cases op <;> simp only [level, implLevel] at h ⊢ <;> split <;> split <;> omega

theorem chain_far {x : Cst} (h : FarToks x.toks) {q : Nat} (hq : FarLevel q) : q < x.chain cfg ↔ q < x.chain cfg' := by
  induction x using Cst.chain.induct with
  | case1 l ws op r ih =>
    rw [Cst.chain, Cst.chain, lt_min_iff, lt_min_iff, ih (h.sub (by simp [Cst.toks]; tauto))]
  | case2 l r ih =>
    rw [Cst.chain, Cst.chain, lt_min_iff, lt_min_iff, ih (h.sub (by simp [Cst.toks]; tauto))]
    unfold FarLevel at hq
    have : q < implLevel cfg ↔ q < implLevel cfg' := by unfold implLevel; split <;> split <;> omega
    rw [this]
  | case3 x h1 h2 =>
    cases x with
    | bin => exact absurd rfl (h1 _ _ _ _)
    | juxt => exact absurd rfl (h2 _ _)
    | _ => rfl

theorem chain_impl {x : Cst} (h : FarToks x.toks) : implLevel cfg < x.chain cfg ↔ implLevel cfg' < x.chain cfg' := by
  induction x using Cst.chain.induct with
  | case1 l ws op r ih =>
    have hop : FarLevel (level op) := far_op h (by simp [Cst.toks])
    rw [Cst.chain, Cst.chain, lt_min_iff, lt_min_iff, ih (h.sub (by simp [Cst.toks]; tauto))]
    have : implLevel cfg < level op ↔ implLevel cfg' < level op := by
      rw [← not_le, ← not_le, impl_self (cfg := cfg) (cfg' := cfg') op hop]
    rw [this]
  | case2 l r ih => simp [Cst.chain]
  | case3 x h1 h2 =>
    have : implLevel cfg < 7 ∧ implLevel cfg' < 7 := by unfold implLevel; split <;> split <;> decide
    cases x with
    | bin => exact absurd rfl (h1 _ _ _ _)
    | juxt => exact absurd rfl (h2 _ _)
    | _ => exact ⟨fun _ => this.2, fun _ => this.1⟩

/-- The next token, if it is an operator, is none of `*`, `/`, `%`. -/
def FarNext (rest : Bytes) : Prop := ∀ c, firstTok rest = some c → c ≠ c!"*" ∧ c ≠ c!"/" ∧ c ≠ c!"%"

theorem stops_impl {P : Prop} {rest : Bytes} (hf : FarNext rest) (hs : stops cfg (implLevel cfg) P rest) :
    stops cfg' (implLevel cfg') P rest := by
  intro c hc
  obtain ⟨h1, h2, h3⟩ := hs c hc
  refine ⟨fun op ho => ?_, fun _ => le_refl _, fun _ => .inl (le_refl _)⟩
  obtain ⟨f1, f2, f3⟩ := hf c hc
  have hop : FarLevel (level op) := by
    subst ho
    cases op with
    | times => exact absurd rfl f1
    | divide => exact absurd rfl f2
    | modulo => exact absurd rfl f3
    | _ => unfold FarLevel; decide
  exact (impl_self op hop).1 (h1 op ho)

theorem closed_order {rest : Bytes} (hf : FarNext rest) : ∀ x : Cst, FarToks x.toks →
    x.closed cfg fin ctx rest → x.closed cfg' fin ctx rest
  | .num .., _, h => h
  | .name .., _, h => h
  | .call .., _, h => h
  | .paren .., _, h => h
  | .sign _ _ x, ht, h => ⟨stops_order (impl_far (by unfold FarLevel; decide)) (fun _ => Iff.rfl) h.1,
      closed_order hf x (ht.sub (by simp [Cst.toks]; tauto)) h.2⟩
  | .fact _ _, _, _ => trivial
  | .bin _ _ op r, ht, h => ⟨stops_order (impl_far (far_op ht (by simp [Cst.toks]))) (fun _ => Iff.rfl) h.1,
      closed_order hf r (ht.sub (by simp [Cst.toks]; tauto)) h.2⟩
  | .juxt _ r, ht, h => ⟨stops_impl hf h.1, closed_order hf r (ht.sub (by simp [Cst.toks]; tauto)) h.2⟩

/-- Without `*`, `/` and `%` the same texts are legal in both orders. -/
theorem wf_order :
    (∀ (x : Cst) (rest : Bytes) (ts : List Bytes), Lex rest ts → FarToks (x.toks ++ ts) →
      x.wf cfg fin ctx rest → x.wf cfg' fin ctx rest) ∧
    (∀ (as : CArgs) (rest : Bytes) (ts : List Bytes), Lex rest ts → FarToks (as.toks ++ [c!")"] :: ts) →
      as.wf cfg fin ctx rest → as.wf cfg' fin ctx rest) := by
  have sym0 : ∀ {ws : Bytes} {c : UInt8} {rest : Bytes} {ts : List Bytes}, spaces ws → symb c → Lex rest ts →
      Lex (ws ++ c :: rest) ([c] :: ts) := fun hw hc h => Lex.sym hw hc h
  have next : ∀ {rest : Bytes} {ts : List Bytes}, Lex rest ts → FarToks ts → FarNext rest := by
    intro rest ts hl hf c hc
    have key : ∀ c, symb c → firstTok rest = some c → [c] ∈ ts := by
      intro c hs hc
      cases hl with
      | nil h => rw [lex_firstTok (.nil h)] at hc; cases hc
      | @num ws txt rest v ts h1 h2 h3 =>
        rw [lex_firstTok (.num h1 h2 h3)] at hc
        obtain ⟨d, d1, d2⟩ := literal_head h2
        rw [show (txt :: ts).head?.bind (·.head?) = txt.head? from rfl, d1, Option.some.injEq] at hc
        subst hc
        exact absurd hs ((starts d).1 d2).2.2
      | @name ws nm rest ts h1 h2 h3 =>
        rw [lex_firstTok (.name h1 h2 h3)] at hc
        obtain ⟨d, d1, d2⟩ := h2.1
        rw [show (nm :: ts).head?.bind (·.head?) = nm.head? from rfl, d1, Option.some.injEq] at hc
        subst hc
        exact absurd hs ((starts d).2.1 d2).2.2
      | @sym ws rest c' ts h1 h2 h3 =>
        rw [lex_firstTok (.sym h1 h2 h3)] at hc
        cases hc
        simp
    refine ⟨?_, ?_, ?_⟩ <;> rintro rfl
    · exact hf.1 (key _ (by decide) hc)
    · exact hf.2.1 (key _ (by decide) hc)
    · exact hf.2.2 (key _ (by decide) hc)
  refine cst_ind ?_ ?_ ?_ ?_ ?_ ?_ ?_ ?_ ?_ ?_
  · intro ws txt v rest ts _ _ h; exact h
  · intro ws nm rest ts _ _ h; exact h
  · intro ws nm ws2 as ih rest ts hl hf h
    exact ⟨h.1, h.2.1, h.2.2.1, h.2.2.2.1, ih _ _ hl (hf.sub (by simp [Cst.toks]; tauto)) h.2.2.2.2⟩
  · intro ws x ws2 ih rest ts hl hf h
    exact ⟨h.1, h.2.1, ih _ _ (sym0 h.2.1 (by decide) hl) (hf.sub (by simp [Cst.toks]; tauto)) h.2.2⟩
  · intro ws neg x ih rest ts hl hf h
    have hx : FarToks (x.toks ++ ts) := hf.sub (by simp [Cst.toks]; tauto)
    exact ⟨h.1, ih _ _ hl hx h.2.1, (chain_far (hx.sub (by simp; tauto)) (by unfold FarLevel; decide)).1 h.2.2⟩
  · intro x ws ih rest ts hl hf h
    exact ⟨h.1, h.2.1, ih _ _ (sym0 h.2.1 (by decide) hl) (hf.sub (by simp [Cst.toks])) h.2.2⟩
  · intro l ws op r ihl ihr rest ts hl hf h
    obtain ⟨h1, h2, h3, h4, h5⟩ := h
    have hlr : Lex (ws ++ opChar op :: r.text ++ rest) ([opChar op] :: (r.toks ++ ts)) := by
      have := sym0 h1 (symb_op op) (lex_text.1 r _ _ h4 hl)
      simpa using this
    have fl : FarToks (l.toks ++ [opChar op] :: (r.toks ++ ts)) := hf.sub (by simp [Cst.toks])
    have fr : FarToks (r.toks ++ ts) := fl.sub (by simp; tauto)
    have fs := next hlr (fl.sub (by simp; tauto))
    exact ⟨h1, ihl _ _ hlr fl h2, closed_order fs l (fl.sub (by simp; tauto)) h3, ihr _ _ hl fr h4,
      (chain_far (fr.sub (by simp; tauto)) (far_op fl (by simp))).1 h5⟩
  · intro l r ihl ihr rest ts hl hf h
    obtain ⟨h2, h3, h4, h5, h6⟩ := h
    have hlr := lex_text.1 r _ _ h4 hl
    have fl : FarToks (l.toks ++ (r.toks ++ ts)) := hf.sub (by simp [Cst.toks])
    have fr : FarToks (r.toks ++ ts) := fl.sub (by simp; tauto)
    exact ⟨ihl _ _ hlr fl h2, closed_order (next hlr fr) l (fl.sub (by simp; tauto)) h3, ihr _ _ hl fr h4,
      (chain_impl (fr.sub (by simp; tauto))).1 h5, h6⟩
  · intro x ws ih rest ts hl hf h
    exact ⟨h.1, ih _ _ (sym0 h.1 (by decide) hl) (by simpa [CArgs.toks] using hf) h.2⟩
  · intro x ws as ih ihs rest ts hl hf h
    have hla := lex_text.2 as _ _ h.2.2 hl
    have fa : FarToks (as.toks ++ [c!")"] :: ts) := hf.sub (by simp [CArgs.toks]; tauto)
    refine ⟨h.1, ih _ ([c!","] :: (as.toks ++ [c!")"] :: ts)) (sym0 h.1 (by decide) ?_)
      (by simpa [CArgs.toks] using hf) h.2.1, ihs _ _ hl fa h.2.2⟩
    simpa using hla

/-! ### Fences -/

/-- What follows does not extend a number or a name. -/
def ClearTail (rest : Bytes) : Prop := notHead (fun c => mantChar c ∨ nameChar c) rest

theorem literal_clearTail {txt rest rest' : Bytes} {v : F64} (hc : ClearTail rest') (h : Literal txt rest v) :
    Literal txt rest' v := by
  obtain ⟨mant, ip, fp, h1, h2, h3, h⟩ := h
  refine ⟨mant, ip, fp, h1, h2, h3, ?_⟩
  rcases h with ⟨ht, h4, h5, hv⟩ | ⟨e, sg, ds, he, hne, hds, ht, hr, h⟩
  · refine .inl ⟨ht, fun c h => fun hh => hc c h (.inl hh), ?_, hv⟩
    rintro ⟨e, sg, d, t, k1, k2, k3, rfl⟩
    refine hc e rfl (.inr ?_)
    rcases k1 with rfl | rfl <;> decide
  · exact .inr ⟨e, sg, ds, he, hne, hds, ht, fun c h => fun hh => hc c h (.inl (.inl hh)), h⟩

theorem name_clearTail {nm rest rest' : Bytes} (hc : ClearTail rest') (h : Name nm rest) : Name nm rest' :=
  ⟨h.1, h.2.1, fun c h hh => hc c h (.inr hh)⟩

theorem clearTail_spaces {ws rest : Bytes} (hw : spaces ws) (h : ClearTail rest) : ClearTail (ws ++ rest) := by
  cases ws with
  | nil => exact h
  | cons a ws =>
    intro c hc
    cases hc
    have key : ∀ c, space c → ¬ (mantChar c ∨ nameChar c) := forall_byte (by decide +kernel)
    exact key _ (hw _ (by simp))

theorem clearTail_symb {c : UInt8} {rest : Bytes} (h : symb c) : ClearTail (c :: rest) := by
  intro d hd
  cases hd
  have key : ∀ c, symb c → ¬ (mantChar c ∨ nameChar c) := forall_byte (by decide +kernel)
  exact key _ h

theorem fence_primary : ∀ {x : Cst}, x.primary → x.fence.primary
  | .num .., _ => by rw [Cst.fence]; trivial
  | .name .., _ => by rw [Cst.fence]; trivial
  | .call .., _ => by rw [Cst.fence]; trivial
  | .paren .., _ => by rw [Cst.fence]; trivial

theorem fence_chain {q : Nat} (hq : q < 7) : ∀ {x : Cst}, q < x.chain cfg → q < x.fence.chain cfg'
  | .num .., _ => by rw [Cst.fence]; exact hq
  | .name .., _ => by rw [Cst.fence]; exact hq
  | .call .., _ => by rw [Cst.fence]; exact hq
  | .paren .., _ => by rw [Cst.fence]; exact hq
  | .sign .., _ => by rw [Cst.fence]; exact hq
  | .fact .., _ => by rw [Cst.fence]; exact hq
  | .juxt .., _ => by rw [Cst.fence]; exact hq
  | .bin l ws op r, h => by
    rw [Cst.chain, lt_min_iff] at h
    rw [Cst.fence, Cst.chain, lt_min_iff]
    exact ⟨h.1, fence_chain hq h.2⟩

theorem op_not {op : Op} : ¬ lower (opChar op) ∧ opChar op ≠ c!"(" ∧ ¬ digit (opChar op) := by
  cases op <;> decide

theorem stops_fence {q : Nat} {P P' : Prop} {op : Op} {rest rest' : Bytes} (h1 : firstTok rest = some (opChar op))
    (h2 : firstTok rest' = some (opChar op)) (h : stops cfg q P rest) : stops cfg' q P' rest' := by
  intro c hc
  rw [h2] at hc
  cases hc
  exact ⟨(h _ h1).1, fun hh => (hh.elim op_not.1 op_not.2.1).elim, fun hh => (op_not.2.2 hh).elim⟩

theorem level_bang : level .factorial = 5 := rfl

theorem fence_closed {op : Op} {rest rest' : Bytes} (h1 : firstTok rest = some (opChar op))
    (h2 : firstTok rest' = some (opChar op)) : ∀ {x : Cst}, x.closed cfg fin ctx rest → x.fence.closed cfg' fin ctx rest'
  | .num .., h => by rw [Cst.fence]; unfold Cst.closed noBang at *; rwa [h2, ← h1]
  | .name .., h => by rw [Cst.fence]; unfold Cst.closed noBang at *; rwa [h2, ← h1]
  | .call .., h => by rw [Cst.fence]; unfold Cst.closed noBang at *; rwa [h2, ← h1]
  | .paren .., h => by rw [Cst.fence]; unfold Cst.closed noBang at *; rwa [h2, ← h1]
  | .sign .., h => by rw [Cst.fence]; exact ⟨stops_fence h1 h2 h.1, fence_closed h1 h2 h.2⟩
  | .fact .., _ => by rw [Cst.fence]; trivial
  | .bin .., h => by rw [Cst.fence]; exact ⟨stops_fence h1 h2 h.1, fence_closed h1 h2 h.2⟩
  | .juxt .., h => by
    rw [Cst.fence]
    unfold Cst.closed noBang
    rw [h2]
    intro hb
    have := (h.1 _ h1).1 .factorial (by injection hb with hb; exact hb.symm)
    rw [level_bang] at this
    unfold implLevel at this
    split at this <;> omega

theorem fence_count : ∀ as : CArgs, as.fence.count = as.count
  | .last _ _ => by rw [CArgs.fence]; rfl
  | .more _ _ as => by rw [CArgs.fence, CArgs.count, CArgs.count, fence_count as]

theorem level_lt7 (op : Op) : level op < 7 := by cases op <;> decide

/-- A fenced text is legal in every order. -/
theorem fence_wf :
    (∀ (x : Cst) (rest rest' : Bytes), ClearTail rest' → x.wf cfg fin ctx rest → x.fence.wf cfg' fin ctx rest') ∧
    (∀ (as : CArgs) (rest rest' : Bytes), as.wf cfg fin ctx rest → as.fence.wf cfg' fin ctx rest') := by
  refine cst_ind ?_ ?_ ?_ ?_ ?_ ?_ ?_ ?_ ?_ ?_
  · intro ws txt v rest rest' hc h; rw [Cst.fence]; exact ⟨h.1, literal_clearTail hc h.2⟩
  · intro ws nm rest rest' hc h; rw [Cst.fence]; exact ⟨h.1, name_clearTail hc h.2.1, h.2.2⟩
  · intro ws nm ws2 as ih rest rest' hc h
    rw [Cst.fence]
    refine ⟨h.1, h.2.1, h.2.2.1, ?_, ih _ _ h.2.2.2.2⟩
    rw [fence_count]
    exact h.2.2.2.1
  · intro ws x ws2 ih rest rest' hc h
    rw [Cst.fence]
    exact ⟨h.1, h.2.1, ih _ _ (clearTail_spaces h.2.1 (clearTail_symb (by decide))) h.2.2⟩
  · intro ws neg x ih rest rest' hc h
    rw [Cst.fence]
    exact ⟨h.1, ih _ _ hc h.2.1, fence_chain (by decide) h.2.2⟩
  · intro x ws ih rest rest' hc h
    rw [Cst.fence]
    exact ⟨fence_primary h.1, h.2.1, ih _ _ (clearTail_spaces h.2.1 (clearTail_symb (by decide))) h.2.2⟩
  · intro l ws op r ihl ihr rest rest' hc h
    obtain ⟨h1, h2, h3, h4, h5⟩ := h
    rw [Cst.fence]
    have ft : ∀ t : Bytes, firstTok (ws ++ opChar op :: t) = some (opChar op) := by
      intro t
      have := firstTok_spaces (t := opChar op :: t) h1
      rw [this]
      have key : ∀ op t, firstTok (opChar op :: t) = some (opChar op) := by
        intro op t; cases op <;> rfl
      exact key op t
    refine ⟨h1, ihl _ _ ?_ h2, ?_, ihr _ _ hc h4, fence_chain (level_lt7 op) h5⟩
    · rw [List.append_assoc]
      exact clearTail_spaces h1 (clearTail_symb (symb_op op))
    · rw [List.append_assoc] at h3 ⊢
      exact fence_closed (ft _) (ft _) h3
  · intro l r ihl ihr rest rest' hc h
    obtain ⟨h2, h3, h4, h5, h6⟩ := h
    rw [Cst.fence]
    refine ⟨by simp [spaces], by simp [spaces], ⟨by simp [spaces], by simp [spaces], ihl _ _ (clearTail_symb (by decide)) h2⟩,
      ?_, ⟨by simp [spaces], by simp [spaces], ihr _ _ (clearTail_symb (by decide)) h4⟩, ?_, ⟨c!"(", ?_, .inr (.inl rfl)⟩⟩
    · rw [Cst.text]
      unfold Cst.closed noBang
      simp only [List.nil_append, List.cons_append]
      intro hh
      cases hh
    · unfold Cst.chain implLevel
      split <;> decide
    · rw [Cst.text]; rfl
  · intro x ws ih rest rest' h
    rw [CArgs.fence]
    exact ⟨h.1, ih _ _ (clearTail_spaces h.1 (clearTail_symb (by decide))) h.2⟩
  · intro x ws as ih ihs rest rest' h
    rw [CArgs.fence]
    exact ⟨h.1, ih _ _ (clearTail_spaces h.1 (clearTail_symb (by decide))) h.2.1, ihs _ _ h.2.2⟩

theorem fence_den :
    (∀ x : Cst, x.fence.den .ok ctx = x.den .ok ctx) ∧ (∀ as : CArgs, as.fence.den .ok ctx = as.den .ok ctx) := by
  refine cst_ind ?_ ?_ ?_ ?_ ?_ ?_ ?_ ?_ ?_ ?_
  · intro ws txt v; rw [Cst.fence]
  · intro ws nm; rw [Cst.fence]
  · intro ws nm ws2 as ih; rw [Cst.fence, Cst.den, Cst.den, ih]
  · intro ws x ws2 ih; rw [Cst.fence, Cst.den, Cst.den, ih]
  · intro ws neg x ih; rw [Cst.fence, Cst.den, Cst.den, ih]
  · intro x ws ih; rw [Cst.fence, Cst.den, Cst.den, ih]
  · intro l ws op r ihl ihr; rw [Cst.fence, Cst.den, Cst.den, ihl, ihr]
  · intro l r ihl ihr
    rw [Cst.fence, Cst.den, Cst.den, Cst.den, Cst.den, Cst.den, ihl, ihr]
    cases l.den .ok ctx <;> cases r.den .ok ctx <;> rfl
  · intro x ws ih; rw [CArgs.fence, CArgs.den, CArgs.den, ih]
  · intro x ws as ih ihs; rw [CArgs.fence, CArgs.den, CArgs.den, ih, ihs]

/-- Fencing adds parentheses and nothing else. -/
theorem fence_bare :
    (∀ x : Cst, bare x.fence.text = bare x.text) ∧ (∀ as : CArgs, bare as.fence.text = bare as.text) := by
  refine cst_ind ?_ ?_ ?_ ?_ ?_ ?_ ?_ ?_ ?_ ?_
  · intro ws txt v; rw [Cst.fence]
  · intro ws nm; rw [Cst.fence]
  · intro ws nm ws2 as ih; rw [Cst.fence, Cst.text, Cst.text]; simp [bare] at ih ⊢; rw [ih]
  · intro ws x ws2 ih; rw [Cst.fence, Cst.text, Cst.text]; simp [bare] at ih ⊢; rw [ih]
  · intro ws neg x ih; rw [Cst.fence, Cst.text, Cst.text]; simp [bare, List.filter_cons] at ih ⊢; rw [ih]
  · intro x ws ih; rw [Cst.fence, Cst.text, Cst.text]; simp [bare] at ih ⊢; rw [ih]
  · intro l ws op r ihl ihr; rw [Cst.fence, Cst.text, Cst.text]; simp [bare, List.filter_cons] at ihl ihr ⊢; rw [ihl, ihr]
  · intro l r ihl ihr
    rw [Cst.fence, Cst.text, Cst.text, Cst.text, Cst.text, Cst.text]
    simp [bare] at ihl ihr ⊢; rw [ihl, ihr]
  · intro x ws ih; rw [CArgs.fence, CArgs.text, CArgs.text]; simp [bare] at ih ⊢; rw [ih]
  · intro x ws as ih ihs; rw [CArgs.fence, CArgs.text, CArgs.text]; simp [bare] at ih ihs ⊢; rw [ih, ihs]

/-! ### Without implicit products -/

theorem symb_not_name {c : UInt8} (h : symb c) : ¬ IsName [c] := by
  intro hh
  obtain ⟨d, hd, hl⟩ := hh.1
  cases hd
  exact absurd h ((starts c).2.1 hl).2.2

theorem Spec.ProductsWritten.sub {ts us p q : List Bytes} (h : ProductsWritten ctx ts) (hs : ts = p ++ us ++ q) :
    ProductsWritten ctx us := by
  intro p' a b q' he
  exact h (p ++ p') a b (q' ++ q) (by rw [hs, he]; simp)

/-- The last token of an expression is not the name of a function. -/
theorem toks_no_func : ∀ (x : Cst) {rest : Bytes}, x.wf cfg fin ctx rest → ∀ p o, x.toks = p ++ [o] →
    IsName o → ∀ f, lookup ctx o ≠ .func f
  | .num ws txt v, rest, h, p, o, he => by
    obtain ⟨_, he⟩ := List.append_inj' (s₁ := []) (t₁ := [txt]) he rfl
    cases he
    obtain ⟨c, h1, h2⟩ := literal_head h.2
    rintro ⟨⟨d, h3, h4⟩, _⟩
    rw [h1] at h3; cases h3
    exact absurd h2 ((starts c).2.1 h4).2.1
  | .name ws nm, rest, h, p, o, he => by
    obtain ⟨_, he⟩ := List.append_inj' (s₁ := []) (t₁ := [nm]) he rfl
    cases he
    exact fun _ => h.2.2
  | .call ws nm ws2 as, rest, h, p, o, he => by
    obtain ⟨_, he⟩ := List.append_inj' (s₁ := nm :: b!"(" :: as.toks) (t₁ := [b!")"]) he rfl
    cases he
    exact fun h => absurd h (symb_not_name (by decide))
  | .paren ws x ws2, rest, h, p, o, he => by
    obtain ⟨_, he⟩ := List.append_inj' (s₁ := b!"(" :: x.toks) (t₁ := [b!")"]) he rfl
    cases he
    exact fun h => absurd h (symb_not_name (by decide))
  | .sign ws neg x, rest, h, p, o, he => by
    obtain ⟨q, rfl, he'⟩ := append_last (a := [_]) (toks_ne.1 x) he
    exact toks_no_func x h.2.1 q o he'
  | .fact x ws, rest, h, p, o, he => by
    obtain ⟨_, he⟩ := List.append_inj' (s₁ := x.toks) (t₁ := [b!"!"]) he rfl
    cases he
    exact fun h => absurd h (symb_not_name (by decide))
  | .bin l ws op r, rest, h, p, o, he => by
    rw [Cst.toks, List.append_cons] at he
    obtain ⟨q, rfl, he'⟩ := append_last (toks_ne.1 r) he
    exact toks_no_func r h.2.2.2.1 q o he'
  | .juxt l r, rest, h, p, o, he => by
    obtain ⟨q, rfl, he'⟩ := append_last (toks_ne.1 r) he
    exact toks_no_func r h.2.2.1 q o he'

theorem fence_written :
    (∀ (x : Cst) (rest : Bytes) (ts : List Bytes), Lex rest ts → ProductsWritten ctx x.toks →
      x.wf cfg fin ctx rest → x.fence = x) ∧
    (∀ (as : CArgs) (rest : Bytes) (ts : List Bytes), Lex rest ts → ProductsWritten ctx as.toks →
      as.wf cfg fin ctx rest → as.fence = as) := by
  have sym0 : ∀ {ws : Bytes} {c : UInt8} {rest : Bytes} {ts : List Bytes}, spaces ws → symb c → Lex rest ts →
      Lex (ws ++ c :: rest) ([c] :: ts) := fun hw hc h => Lex.sym hw hc h
  refine cst_ind ?_ ?_ ?_ ?_ ?_ ?_ ?_ ?_ ?_ ?_
  · intro ws txt v rest ts hl hp h; rw [Cst.fence]
  · intro ws nm rest ts hl hp h; rw [Cst.fence]
  · intro ws nm ws2 as ih rest ts hl hp h
    rw [Cst.fence, ih _ _ hl (hp.sub (p := [nm, b!"("]) (q := [b!")"]) (by simp [Cst.toks])) h.2.2.2.2]
  · intro ws x ws2 ih rest ts hl hp h
    rw [Cst.fence, ih _ _ (sym0 h.2.1 (by decide) hl)
      (hp.sub (p := [b!"("]) (q := [b!")"]) (by simp [Cst.toks])) h.2.2]
  · intro ws neg x ih rest ts hl hp h
    rw [Cst.fence, ih _ _ hl (hp.sub (p := [_]) (q := []) (by simp [Cst.toks]; rfl)) h.2.1]
  · intro x ws ih rest ts hl hp h
    rw [Cst.fence, ih _ _ (sym0 h.2.1 (by decide) hl) (hp.sub (p := []) (q := [_]) (by simp [Cst.toks]; rfl)) h.2.2]
  · intro l ws op r ihl ihr rest ts hl hp h
    have hlr : Lex (ws ++ opChar op :: r.text ++ rest) ([opChar op] :: (r.toks ++ ts)) := by
      have := sym0 h.1 (symb_op op) (lex_text.1 r _ _ h.2.2.2.1 hl)
      simpa using this
    rw [Cst.fence, ihl _ _ hlr (hp.sub (p := []) (q := _) (by simp [Cst.toks]; rfl)) h.2.1,
      ihr _ _ hl (hp.sub (p := l.toks ++ [[opChar op]]) (q := []) (by simp [Cst.toks])) h.2.2.2.1]
  · intro l r ihl ihr rest ts hl hp h
    exfalso
    obtain ⟨h1, h2, h3, h4, c, hc, hh⟩ := h
    obtain ⟨p, o, hpo⟩ : ∃ p o, l.toks = p ++ [o] :=
      ⟨_, _, (List.dropLast_concat_getLast (toks_ne.1 l)).symm⟩
    have hlr := lex_text.1 r _ _ h3 hl
    rw [lex_firstTok hlr] at hc
    obtain ⟨b, q, hbq⟩ := List.exists_cons_of_ne_nil (toks_ne.1 r)
    rw [hbq] at hc
    refine hp p o b q ?_ (toks_ends l h1 p o hpo) (toks_no_func l h1 p o hpo) ⟨c, hc, ?_⟩
    · rw [Cst.toks, hpo, hbq]; simp
    · rcases hh with hh | hh | hh
      · exact .inl hh
      · exact .inr (.inr hh)
      · exact .inr (.inl hh.1)
  · intro x ws ih rest ts hl hp h
    rw [CArgs.fence, ih _ _ (sym0 h.1 (by decide) hl) hp h.2]
  · intro x ws as ih ihs rest ts hl hp h
    have hla := lex_text.2 as _ _ h.2.2 hl
    rw [CArgs.fence, ih _ _ (sym0 h.1 (by decide) (by simpa using hla))
      (hp.sub (p := []) (q := _) (by simp [CArgs.toks]; rfl)) h.2.1,
      ihs _ _ hl (hp.sub (p := x.toks ++ [b!","]) (q := []) (by simp [CArgs.toks])) h.2.2]

/-! ### The variables of a text -/

theorem token_occurs {n : Bytes} (hn : IsName n) (hv : lookup ctx n = .var n) :
    (∀ (x : Cst) (rest : Bytes) (e : Elem), x.wf cfg .ok ctx rest → x.den .ok ctx = .ok e → n ∈ x.toks → Occurs n e) ∧
    (∀ (as : CArgs) (rest : Bytes) (es : List Elem), as.wf cfg .ok ctx rest → as.den .ok ctx = .ok es → n ∈ as.toks →
      ∃ e ∈ es, Occurs n e) := by
  have nosym : ∀ {c : UInt8}, symb c → n ≠ [c] := by
    rintro c hc rfl; exact symb_not_name hc hn
  refine cst_ind ?_ ?_ ?_ ?_ ?_ ?_ ?_ ?_ ?_ ?_
  · intro ws txt v rest e hw _ hm
    rw [Cst.toks, List.mem_singleton] at hm
    subst hm
    obtain ⟨d, d1, d2⟩ := literal_head hw.2
    obtain ⟨d', d3, d4⟩ := hn.1
    rw [d1] at d3; cases d3
    exact absurd d2 ((starts d).2.1 d4).2.1
  · intro ws nm rest e hw hd hm
    rw [Cst.toks, List.mem_singleton] at hm
    subst hm
    rw [Cst.den, hv] at hd
    cases hd
    exact .here
  · intro ws nm ws2 as ih rest e hw hd hm
    rw [Cst.den] at hd
    cases ha : as.den .ok ctx with
    | error p => rw [ha] at hd; cases hd
    | ok es =>
      obtain ⟨f, hf, _⟩ := hw.2.2.2.1
      rw [ha, hf] at hd
      cases hd
      have : n ∈ as.toks := by
        simp only [Cst.toks, List.mem_cons, List.mem_append, List.not_mem_nil, or_false] at hm
        rcases hm with rfl | hm | hm | hm
        · rw [hv] at hf; cases hf
        · exact absurd hm (nosym (by decide))
        · exact hm
        · exact absurd hm (nosym (by decide))
      obtain ⟨a, h1, h2⟩ := ih _ _ hw.2.2.2.2 ha this
      exact .arg h1 h2
  · intro ws x ws2 ih rest e hw hd hm
    rw [Cst.den] at hd
    cases ha : x.den .ok ctx with
    | error p => rw [ha] at hd; cases hd
    | ok a =>
      rw [ha] at hd
      cases hd
      refine ih _ _ hw.2.2 ha ?_
      simp only [Cst.toks, List.mem_cons, List.mem_append, List.not_mem_nil, or_false] at hm
      rcases hm with hm | hm | hm
      · exact absurd hm (nosym (by decide))
      · exact hm
      · exact absurd hm (nosym (by decide))
  · intro ws neg x ih rest e hw hd hm
    rw [Cst.den] at hd
    cases ha : x.den .ok ctx with
    | error p => rw [ha] at hd; cases hd
    | ok a =>
      rw [ha] at hd
      cases hd
      refine .operand (ih _ _ hw.2.1 ha ?_)
      simp only [Cst.toks, List.mem_cons] at hm
      rcases hm with hm | hm
      · exact absurd hm (nosym (by cases neg <;> decide))
      · exact hm
  · intro x ws ih rest e hw hd hm
    rw [Cst.den] at hd
    cases ha : x.den .ok ctx with
    | error p => rw [ha] at hd; cases hd
    | ok a =>
      rw [ha] at hd
      cases hd
      refine .operand (ih _ _ hw.2.2 ha ?_)
      simp only [Cst.toks, List.mem_cons, List.mem_append, List.not_mem_nil, or_false] at hm
      rcases hm with hm | hm
      · exact hm
      · exact absurd hm (nosym (by decide))
  · intro l ws op r ihl ihr rest e hw hd hm
    rw [Cst.den] at hd
    cases ha : l.den .ok ctx with
    | error p => rw [ha] at hd; cases hd
    | ok a =>
      rw [ha] at hd
      simp only at hd
      cases hb : r.den .ok ctx with
      | error p => rw [hb] at hd; cases hd
      | ok b =>
        rw [hb] at hd
        cases hd
        simp only [Cst.toks, List.mem_cons, List.mem_append] at hm
        rcases hm with hm | hm | hm
        · exact .left (ihl _ _ hw.2.1 ha hm)
        · exact absurd hm (nosym (symb_op op))
        · exact .right (ihr _ _ hw.2.2.2.1 hb hm)
  · intro l r ihl ihr rest e hw hd hm
    rw [Cst.den] at hd
    cases ha : l.den .ok ctx with
    | error p => rw [ha] at hd; cases hd
    | ok a =>
      rw [ha] at hd
      simp only at hd
      cases hb : r.den .ok ctx with
      | error p => rw [hb] at hd; cases hd
      | ok b =>
        rw [hb] at hd
        cases hd
        simp only [Cst.toks, List.mem_append] at hm
        rcases hm with hm | hm
        · exact .left (ihl _ _ hw.1 ha hm)
        · exact .right (ihr _ _ hw.2.2.1 hb hm)
  · intro x ws ih rest es hw hd hm
    rw [CArgs.den] at hd
    cases ha : x.den .ok ctx with
    | error p => rw [ha] at hd; cases hd
    | ok a =>
      rw [ha] at hd
      cases hd
      refine ⟨a, by simp, ih _ _ hw.2 ha ?_⟩
      exact hm
  · intro x ws as ih ihs rest es hw hd hm
    rw [CArgs.den] at hd
    cases ha : x.den .ok ctx with
    | error p => rw [ha] at hd; cases hd
    | ok a =>
      rw [ha] at hd
      simp only at hd
      cases hb : as.den .ok ctx with
      | error p => rw [hb] at hd; cases hd
      | ok b =>
        rw [hb] at hd
        cases hd
        simp only [CArgs.toks, List.mem_cons, List.mem_append] at hm
        rcases hm with hm | hm | hm
        · exact ⟨a, by simp, ih _ _ hw.2.1 ha hm⟩
        · exact absurd hm (nosym (by decide))
        · obtain ⟨c, h1, h2⟩ := ihs _ _ hw.2.2 hb hm
          exact ⟨c, by simp [h1], h2⟩

end

end Xprs
