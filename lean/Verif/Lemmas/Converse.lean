import Verif.Lemmas.Forward
/-
Whatever the parser accepts is the text of a legal concrete syntax tree.
-/
namespace Xprs
open Spec
set_option linter.unusedSimpArgs false

section
variable {cfg : Cfg} {w : World} {ctx : Context}

local notation "fin" => finOf cfg w
local notation "rc" => elem cfg w ctx

theorem Eats.rest {s t : St} {a : Bytes} (h : Eats s a t) : s.rest = a ++ t.rest := h.1

theorem eats_trim (s : St) : ∃ ws, spaces ws ∧ Eats s ws (trim s) :=
  ⟨_, fun c hc => (isWs_iff c).1 (mem_takeWhile c hc), eats_skipWhile isWs s⟩

/-- What is known after reading a chain. -/
structure Chain (cfg : Cfg) (w : World) (ctx : Context) (p : Nat) (s : St) (x : Cst) (t : St)
    (a : Elem) : Prop where
  eats : Eats s x.text t
  wf : x.wf cfg (finOf cfg w) ctx t.rest
  closed : x.closed cfg (finOf cfg w) ctx t.rest
  lt : p < x.chain cfg
  den : x.den (finOf cfg w) ctx = .ok a

/-- The statement for `element`. -/
def ElemConv (cfg : Cfg) (w : World) (ctx : Context) (s : St) : Prop :=
  ∀ p e s', p < 7 → elem cfg w ctx p s = .ok e s' →
    ∃ x t a, Chain cfg w ctx p s x t a ∧ s' = trim t ∧
      stops cfg p (isNumber (finOf cfg w) ctx x) t.rest ∧ finOf cfg w a = .ok e

theorem stops_of_opInfo {el : Elem} {p : Nat} {x : Cst} {s : St}
    (hd : x.den fin ctx = .ok el) (h : opInfo cfg el p (trim s) = none) :
    stops cfg p (isNumber fin ctx x) s.rest := by
  intro c hc
  unfold opInfo at h
  rw [firstTok_trim, hc] at h
  simp only at h
  rw [isNum_iff hd]
  cases ho : opOfByte c with
  | some op =>
    simp only [ho] at h
    have hn : ¬ (lower c ∨ c = c!"(" ∨ digit c) := fun hh => by
      rw [juxt_head hh] at ho; cases ho
    refine ⟨?_, fun h => ?_, fun h => ?_⟩
    · intro op' h'
      have : op' = op := by
        have := (opOfByte_iff op' c).2 h'
        rw [ho] at this; cases this; rfl
      subst this
      rw [level_eq]
      by_cases hp : precOf op' ≤ p
      · exact hp
      · simp [hp] at h
    · exact absurd (by rcases h with h | h <;> simp [h]) hn
    · exact absurd (by simp [h]) hn
  | none =>
    simp only [ho] at h
    refine ⟨fun op h' => ?_, fun hh => ?_, fun hh => ?_⟩
    · rw [(opOfByte_iff op c).2 h'] at ho; cases ho
    · rw [implLevel_eq]
      by_cases hp : implPrec cfg ≤ p
      · exact hp
      · rw [if_neg hp, if_pos (by
          rw [Bool.or_eq_true, decide_eq_true_iff, isLower_iff]; exact hh)] at h
        cases h
    · rw [implLevel_eq]
      by_cases hp : implPrec cfg ≤ p
      · exact Or.inl hp
      · right
        rw [if_neg hp] at h
        split at h
        · cases h
        · rw [(isDigit_iff c).2 hh] at h
          cases hn : el.isNum with
          | true => rfl
          | false => simp [hn] at h

theorem opInfo_some {el : Elem} {p : Nat} {s : St} {op : Op} {q k : Nat}
    (h : opInfo cfg el p s = some (op, q, k)) :
    (k = 1 ∧ q = level op ∧ p < q ∧ s.rest.head? = some (opChar op)) ∨
    (k = 0 ∧ op = .times ∧ q = implLevel cfg ∧ p < q ∧ ∃ c, s.rest.head? = some c ∧
      (lower c ∨ c = c!"(" ∨ (digit c ∧ el.isNum = false))) := by
  unfold opInfo at h
  cases hc : s.rest.head? with
  | none => simp [hc] at h
  | some c =>
    simp only [hc] at h
    cases ho : opOfByte c with
    | some op' =>
      simp only [ho] at h
      by_cases hp : precOf op' ≤ p
      · simp [hp] at h
      · simp [hp] at h
        obtain ⟨rfl, rfl, rfl⟩ := h
        left
        refine ⟨rfl, (level_eq _).symm, by omega, ?_⟩
        rw [(opOfByte_iff op' c).1 ho]
    | none =>
      simp only [ho] at h
      by_cases hp : implPrec cfg ≤ p
      · simp [hp] at h
      · rw [if_neg hp] at h
        right
        split at h
        · rename_i hh
          simp at h
          obtain ⟨rfl, rfl, rfl⟩ := h
          rw [Bool.or_eq_true, decide_eq_true_iff, isLower_iff] at hh
          refine ⟨rfl, rfl, (implLevel_eq _).symm, by omega, c, rfl, ?_⟩
          rcases hh with hh | hh <;> simp [hh]
        · split at h
          · rename_i hh
            simp at h
            obtain ⟨rfl, rfl, rfl⟩ := h
            rw [Bool.and_eq_true, isDigit_iff] at hh
            refine ⟨rfl, rfl, (implLevel_eq _).symm, by omega, c, rfl, ?_⟩
            right; right; exact ⟨hh.1, by simpa using hh.2⟩
          · cases h

theorem text_ne_nil {fn : Elem → PM Elem} : ∀ (x : Cst) (rest : Bytes),
    x.wf cfg fn ctx rest → x.text ≠ []
  | .num ws txt v, rest, h => by
    obtain ⟨_, mant, ip, fp, ⟨c, h1, h2⟩, _, _, h⟩ := h
    cases mant with
    | nil => simp at h1
    | cons a t => rcases h with ⟨rfl, _⟩ | ⟨e, sg, ds, _, _, _, rfl, _⟩ <;> simp [Cst.text]
  | .name ws nm, rest, h => by
    obtain ⟨_, ⟨⟨c, h1, _⟩, _⟩, _⟩ := h
    cases nm <;> simp_all [Cst.text]
  | .call .., _, _ => by simp [Cst.text]
  | .paren .., _, _ => by simp [Cst.text]
  | .sign .., _, _ => by simp [Cst.text]
  | .fact .., _, _ => by simp [Cst.text]
  | .bin .., _, _ => by simp [Cst.text]
  | .juxt l r, rest, h => by
    have := text_ne_nil l _ h.1
    simp [Cst.text, this]

theorem eats_text_lt {fn : Elem → PM Elem} {s t : St} {x : Cst} (h : Eats s x.text t)
    (hw : x.wf cfg fn ctx t.rest) : t.rest.length < s.rest.length := by
  have h1 := h.len
  have h2 := List.length_pos_iff.2 (text_ne_nil x _ hw)
  omega

/-- The operator loop extends the chain. -/
theorem loop_conv {s : St} {p : Nat} {N : Nat}
    (ih : ∀ t : St, t.rest.length < N → ElemConv cfg w ctx t) :
    ∀ n (t : St), t.rest.length ≤ n → t.rest.length < N → ∀ l a e s',
      Chain cfg w ctx p s l t a → loop cfg rc p a t = .ok e s' →
      ∃ x t', Chain cfg w ctx p s x t' e ∧ s' = trim t' ∧
        stops cfg p (isNumber fin ctx x) t'.rest := by
  intro n
  induction n with
  | zero =>
    intro t hn hN l a e s' hc h
    rw [loop_unfold (elem_consumes cfg w ctx)] at h
    have ht : (trim t).rest = [] := by
      have := (le_trim t).len
      exact List.length_eq_zero_iff.1 (by omega)
    have ho : opInfo cfg a p (trim t) = none := by simp [opInfo, ht]
    simp only [ho] at h
    cases h
    exact ⟨l, t, hc, rfl, stops_of_opInfo hc.den ho⟩
  | succ n ihn =>
    intro t hn hN l a e s' hc h
    rw [loop_unfold (elem_consumes cfg w ctx)] at h
    cases ho : opInfo cfg a p (trim t) with
    | none =>
      simp only [ho] at h
      cases h
      exact ⟨l, t, hc, rfl, stops_of_opInfo hc.den ho⟩
    | some oqk =>
      obtain ⟨op, q, k⟩ := oqk
      simp only [ho] at h
      obtain ⟨rhs, s2, hr, hl⟩ := R.bind_eq_ok h
      have lt1 := (le_trim t).len
      rcases opInfo_some ho with ⟨rfl, rfl, hp, hc1⟩ | ⟨rfl, rfl, rfl, hp, c, hc1, hcc⟩
      · have l1 := (lt_one hc1).len
        obtain ⟨r, t2, b, hcr, rfl, hst, hf⟩ := ih _ (by omega) _ _ _ (level_lt op) hr
        have l2 := hcr.eats.len
        rw [loop_trim (elem_consumes cfg w ctx)] at hl
        obtain ⟨ws, hws, e1⟩ := eats_trim t
        have e2 := (e1.trans (eats_one hc1)).trans hcr.eats
        have hrest : t.rest = ws ++ opChar op :: r.text ++ t2.rest := by
          rw [e2.rest]; simp
        refine ihn t2 (by omega) (by omega) (.bin l ws op r) (.bin op a rhs) e s' ?_ hl
        refine ⟨?_, ?_, ⟨hst, hcr.closed⟩, ?_, ?_⟩
        · have := hc.eats.trans e2
          simpa [Cst.text] using this
        · refine ⟨hws, ?_, ?_, hcr.wf, hcr.lt⟩
          · rw [← hrest]; exact hc.wf
          · rw [← hrest]; exact hc.closed
        · rw [Cst.chain, Nat.lt_min]; exact ⟨hp, hc.lt⟩
        · simp [Cst.den, hc.den, hcr.den, hf]
      · simp only [adv, List.drop_zero, Nat.add_zero] at hr
        rw [elem_trim] at hr
        have l1 := (elem_consumes cfg w ctx _ _ _ _ hr).len
        obtain ⟨r, t2, b, hcr, rfl, hst, hf⟩ := ih t hN _ _ _ (implLevel_lt cfg) hr
        have l2 := hcr.eats.len
        have l3 := eats_text_lt hcr.eats hcr.wf
        rw [loop_trim (elem_consumes cfg w ctx)] at hl
        have e2 := hcr.eats
        refine ihn t2 (by omega) (by omega) (.juxt l r) (.bin .times a rhs) e s' ?_ hl
        refine ⟨?_, ?_, ⟨hst, hcr.closed⟩, ?_, ?_⟩
        · have := hc.eats.trans e2
          simpa [Cst.text] using this
        · refine ⟨?_, ?_, hcr.wf, hcr.lt, c, ?_, ?_⟩
          · rw [← e2.rest]; exact hc.wf
          · rw [← e2.rest]; exact hc.closed
          · rw [← e2.rest, ← firstTok_trim]; exact hc1
          · rw [isNum_iff hc.den]
            rcases hcc with h | h | h
            · exact Or.inl h
            · exact Or.inr (Or.inl h)
            · exact Or.inr (Or.inr ⟨h.1, by simp [h.2]⟩)
        · rw [Cst.chain, Nat.lt_min]; exact ⟨hp, hc.lt⟩
        · simp [Cst.den, hc.den, hcr.den, hf]

/-- The argument loop reads an argument list. -/
theorem args_conv {N : Nat} (ih : ∀ t : St, t.rest.length < N → ElemConv cfg w ctx t) :
    ∀ n (s : St), s.rest.length ≤ n → s.rest.length < N → ∀ acc es s',
      args cfg rc acc s = .ok es s' →
      ∃ (as : CArgs) (rest : Bytes) (es' : List Elem), Eats s as.text s' ∧
        s'.rest = c!")" :: rest ∧ as.wf cfg fin ctx rest ∧
        as.den fin ctx = .ok es' ∧ es = acc ++ es' := by
  intro n
  induction n with
  | zero =>
    intro s hn hN acc es s' h
    rw [args_unfold (elem_consumes cfg w ctx)] at h
    obtain ⟨arg, s1, ha, _⟩ := R.bind_eq_ok h
    have := (elem_consumes cfg w ctx _ _ _ _ (argument_ok ha)).len
    omega
  | succ n ihn =>
    intro s hn hN acc es s' h
    rw [args_unfold (elem_consumes cfg w ctx)] at h
    obtain ⟨arg, s1, ha, hb⟩ := R.bind_eq_ok h
    have ha := argument_ok ha
    have l0 := (elem_consumes cfg w ctx _ _ _ _ ha).len
    obtain ⟨x, t, a, hc, rfl, hst, hf⟩ := ih s hN _ _ _ (by decide) ha
    rw [trim_trim] at hb
    obtain ⟨ws, hws, e1⟩ := eats_trim t
    cases hh : (trim t).rest.head? with
    | none => simp only [hh] at hb; exact absurd hb errEnd_ne_ok
    | some c =>
      simp only [hh] at hb
      split at hb
      · rename_i hcomma
        subst hcomma
        have l1 := (lt_one hh).len
        obtain ⟨as, rest, es', e2, hr, hw, hd, hes⟩ :=
          ihn _ (by omega) (by omega) _ _ _ hb
        have e3 := (e1.trans (eats_one hh)).trans e2
        refine ⟨.more x ws as, rest, arg :: es', ?_, hr, ⟨hws, ?_, hw⟩, ?_, ?_⟩
        · have := hc.eats.trans e3
          simpa [CArgs.text] using this
        · have : t.rest = ws ++ c!"," :: (as.text ++ c!")" :: rest) := by
            rw [e3.rest, hr]; simp
          rw [← this]; exact hc.wf
        · simp [CArgs.den, hc.den, hf, hd]
        · rw [hes]; simp
      · split at hb
        · rename_i hpar
          subst hpar
          simp at hb
          obtain ⟨rfl, rfl⟩ := hb
          have hr := (eats_one hh).1
          refine ⟨.last x ws, (adv (trim t) 1).rest, [arg], ?_, hr, ⟨hws, ?_⟩, ?_, rfl⟩
          · simpa [CArgs.text] using hc.eats.trans e1
          · have : t.rest = ws ++ c!")" :: (adv (trim t) 1).rest := by
              rw [e1.rest, hr]; simp
            rw [← this]; exact hc.wf
          · simp [CArgs.den, hc.den, hf]
        · cases hb

/-- Operands. -/
theorem atom_conv {N : Nat} (ih : ∀ t : St, t.rest.length < N → ElemConv cfg w ctx t)
    {s : St} (hN : s.rest.length ≤ N) {a : Elem} {s1 : St}
    (h : atom cfg ctx rc s = .ok a s1) :
    ∃ (x : Cst) (t : St), Eats s x.text t ∧ x.wf cfg fin ctx t.rest ∧ x.den fin ctx = .ok a ∧
      x.chain cfg = 7 ∧
      ((x.primary ∧ s1 = t ∧ (noBang t.rest → x.closed cfg fin ctx t.rest)) ∨
        (s1 = trim t ∧ noBang t.rest ∧ x.closed cfg fin ctx t.rest)) := by
  obtain ⟨ws, hws, e0⟩ := eats_trim s
  have l0 := e0.len
  unfold atom at h
  cases hc : (trim s).rest.head? with
  | none => simp only [hc] at h; exact absurd h errEnd_ne_ok
  | some c =>
    simp only [hc] at h
    have l1 := (lt_one hc).len
    split at h
    · rename_i hd
      rw [Bool.or_eq_true, decide_eq_true_iff] at hd
      obtain ⟨txt, v, rfl, e1, hl⟩ := literal_of_parseNumber hc hd h
      exact ⟨.num ws txt v, s1, e0.trans e1, ⟨hws, hl⟩, rfl, rfl, Or.inl ⟨trivial, rfl, id⟩⟩
    · split at h
      · rename_i hid
        unfold parseIdent at h
        have hnm := name_of_takeWhile hc hid
        have e1 := eats_skipWhile isIdChar (trim s)
        generalize hnn : (trim s).rest.takeWhile isIdChar = nm at *
        cases hl : lookup ctx nm with
        | const x =>
          simp only [hl] at h
          cases h
          refine ⟨.name ws nm, _, e0.trans e1, ⟨hws, hnm, ?_⟩, ?_, rfl,
            Or.inl ⟨trivial, rfl, id⟩⟩
          · intro f hf; rw [hl] at hf; cases hf
          · simp [Cst.den, hl]
        | var n =>
          simp only [hl] at h
          cases h
          have := lookup_var hl
          subst this
          refine ⟨.name ws n, _, e0.trans e1, ⟨hws, hnm, ?_⟩, ?_, rfl,
            Or.inl ⟨trivial, rfl, id⟩⟩
          · intro f hf; rw [hl] at hf; cases hf
          · simp [Cst.den, hl]
        | func f =>
          simp only [hl] at h
          split at h
          · rename_i hp
            obtain ⟨as, s3, ha, hb⟩ := R.bind_eq_ok h
            obtain ⟨u, s4, hac, hca⟩ := R.bind_eq_ok hb
            have l2 := e1.len
            have l3 := (lt_consumeIf hp).len
            obtain ⟨hp1, hp2⟩ := consumeIf_true hp
            obtain ⟨cas, rest, es', e2, hr, hw, hd, hes⟩ :=
              args_conv ih _ _ (Nat.le_refl _) (by omega) _ _ _ ha
            obtain ⟨ws2, hws2, e3⟩ := eats_trim (skipWhile isIdChar (trim s))
            have hac' := assertConsume_ok hac
            have htr : trim s3 = s3 :=
              trim_of_trimmed (by intro d hd; rw [hr] at hd; simp at hd; subst hd; decide)
            rw [htr] at hac'
            have hs4 : Eats s3 [c!")"] s4 := by
              rw [hac'.2]; exact eats_one hac'.1
            have hs4r : s4.rest = rest := by
              have := hs4.1; rw [hr] at this; simpa using this.symm
            obtain ⟨rfl, hs14, har⟩ := checkArity_ok hca
            subst hs14
            rw [hp2] at e2
            have e4 := (((e1.trans e3).trans (eats_one hp1)).trans e2).trans hs4
            simp only [List.nil_append] at hes
            subst hes
            refine ⟨.call ws nm ws2 cas, s1, ?_, ?_, ?_, rfl, Or.inl ⟨trivial, rfl, id⟩⟩
            · have := e0.trans e4
              simpa [Cst.text] using this
            · refine ⟨hws, ⟨hnm.1, hnm.2.1, by intro c hc; simp at hc⟩, hws2, ⟨f, hl, ?_⟩, ?_⟩
              · intro n hn
                rw [← den_length cas hd]
                exact har n hn
              · rw [hs4r]; exact hw
            · simp [Cst.den, hd, hl]
          · cases h
      · have sign : ∀ (neg : Bool) (op : Op), (op = if neg then .minus else .plus) →
            c = (if neg then c!"-" else c!"+") →
            ((rc unopPrec (adv (trim s) 1)).bind fun e s' => .ok (.un op e) s') = .ok a s1 →
            ∃ (x : Cst) (t : St), Eats s x.text t ∧ x.wf cfg fin ctx t.rest ∧ x.den fin ctx = .ok a ∧
              x.chain cfg = 7 ∧
              ((x.primary ∧ s1 = t ∧ (noBang t.rest → x.closed cfg fin ctx t.rest)) ∨
                (s1 = trim t ∧ noBang t.rest ∧ x.closed cfg fin ctx t.rest)) := by
          intro neg op hop hcn hb
          obtain ⟨e, s', he, hk⟩ := R.bind_eq_ok hb
          cases hk
          obtain ⟨x, t, b, hcx, rfl, hst, hf⟩ := ih _ (by omega) _ _ _ (by decide) he
          refine ⟨.sign ws neg x, t, ?_, ⟨hws, hcx.wf, hcx.lt⟩, ?_, rfl,
            Or.inr ⟨rfl, noBang_of_stops (by decide) hst, hst, hcx.closed⟩⟩
          · have := (e0.trans (eats_one hc)).trans hcx.eats
            rw [hcn] at this
            simpa [Cst.text] using this
          · simp [Cst.den, hcx.den, hf, hop]
        split at h
        · rename_i hplus
          exact sign false .plus rfl (by simp [hplus]) h
        · split at h
          · rename_i hminus
            exact sign true .minus rfl (by simp [hminus]) h
          · split at h
            · rename_i hpar
              subst hpar
              obtain ⟨e, s', he, hk⟩ := R.bind_eq_ok h
              obtain ⟨u, s4, hac, hk⟩ := R.bind_eq_ok hk
              cases hk
              obtain ⟨x, t, b, hcx, rfl, hst, hf⟩ := ih _ (by omega) _ _ _ (by decide) he
              have hac' := assertConsume_ok hac
              rw [trim_trim] at hac'
              obtain ⟨ws2, hws2, e3⟩ := eats_trim t
              have hs4 : Eats (trim t) [c!")"] s1 := by
                rw [hac'.2]; exact eats_one hac'.1
              have e4 := e3.trans hs4
              refine ⟨.paren ws x ws2, s1, ?_, ⟨hws, hws2, ?_⟩, ?_, rfl,
                Or.inl ⟨trivial, rfl, id⟩⟩
              · have := ((e0.trans (eats_one hc)).trans hcx.eats).trans e4
                simpa [Cst.text] using this
              · have : t.rest = ws2 ++ c!")" :: s1.rest := by rw [e4.rest]; simp
                rw [← this]; exact hcx.wf
              · simp [Cst.den, hcx.den, hf]
            · split at h
              · cases h
              · cases h

/-- What `element` has read when it comes to the final simplification. -/
theorem pre_conv {N : Nat} (ih : ∀ t : St, t.rest.length < N → ElemConv cfg w ctx t) {s : St}
    (hN : s.rest.length ≤ N) {p : Nat} (hp : p < 7) {e1 : Elem} {s3 : St}
    (h1 : (atom cfg ctx rc s).bind (afterAtom cfg rc p) = .ok e1 s3) :
    ∃ x t, Chain cfg w ctx p s x t e1 ∧ s3 = trim t ∧ stops cfg p (isNumber fin ctx x) t.rest := by
  obtain ⟨a, s1, ha, hb⟩ := R.bind_eq_ok h1
  have latom := (atom_lt (elem_consumes cfg w ctx) ha).len
  obtain ⟨x, t, he, hw, hd, hch, hcase⟩ := atom_conv ih (by omega) ha
  have lt := he.len
  unfold afterAtom at hb
  have main : ∃ y u b, Chain cfg w ctx p s y u b ∧ u.rest.length < N ∧
      loop cfg (elem cfg w ctx) p b u = .ok e1 s3 := by
    cases hbang : (consumeIf c!"!" s1).1 with
    | true =>
      obtain ⟨hb1, hb2⟩ := consumeIf_true hbang
      rcases hcase with ⟨hprim, rfl, hcl⟩ | ⟨rfl, hnb, hcl⟩
      · simp only [hbang, if_true, hb2] at hb
        obtain ⟨ws, hws, e2⟩ := eats_trim s1
        have e3 := e2.trans (eats_one hb1)
        have l3 := e3.len
        refine ⟨.fact x ws, _, _, ⟨?_, ⟨hprim, hws, ?_⟩, trivial, ?_, ?_⟩, ?_, hb⟩
        · have := he.trans e3
          simpa [Cst.text] using this
        · have : s1.rest = ws ++ c!"!" :: (adv (trim s1) 1).rest := by rw [e3.rest]; simp
          rw [← this]; exact hw
        · exact hp
        · simp [Cst.den, hd]
        · simp at l3; omega
      · rw [trim_trim, firstTok_trim] at hb1
        exact absurd hb1 hnb
    | false =>
      obtain ⟨hb1, hb2⟩ := consumeIf_false hbang
      simp only [hbang, Bool.false_eq_true, if_false, hb2] at hb
      rw [loop_trim (elem_consumes cfg w ctx)] at hb
      rcases hcase with ⟨hprim, rfl, hcl⟩ | ⟨rfl, hnb, hcl⟩
      · refine ⟨x, s1, a, ⟨he, hw, hcl ?_, ?_, hd⟩, by omega, hb⟩
        · intro h; rw [firstTok_trim] at hb1; exact hb1 h
        · rw [hch]; exact hp
      · rw [loop_trim (elem_consumes cfg w ctx)] at hb
        have l4 := eats_text_lt he hw
        refine ⟨x, t, a, ⟨he, hw, hcl, ?_, hd⟩, ?_, hb⟩
        · rw [hch]; exact hp
        · omega
  obtain ⟨y, u, b, hch', hlen, hloop⟩ := main
  obtain ⟨z, t', hz, rfl, hst⟩ := loop_conv ih _ u (Nat.le_refl _) hlen y b e1 s3 hch' hloop
  exact ⟨z, t', hz, rfl, hst⟩

/-- **Converse theorem**, for `element`. -/
theorem elem_conv (cfg : Cfg) (w : World) (ctx : Context) (s : St) : ElemConv cfg w ctx s := by
  suffices H : ∀ N (s : St), s.rest.length < N → ElemConv cfg w ctx s from
    H _ s (Nat.lt_succ_self _)
  intro N
  induction N with
  | zero => intro s h; omega
  | succ N ih =>
    intro s hN p e s' hp h
    rw [elem_unfold, elementF_eq] at h
    obtain ⟨e1, s3, h1, hfin⟩ := R.bind_eq_ok h
    rw [finish_eq] at hfin
    have hfe : finOf cfg w e1 = .ok e ∧ s3 = s' := by
      cases hf : finOf cfg w e1 with
      | error p => simp [hf] at hfin
      | ok e2 => simp [hf] at hfin; simp [hfin]
    obtain ⟨x, t, hx, rfl, hst⟩ := pre_conv ih (by omega) hp h1
    exact ⟨x, t, e1, hx, hfe.2.symm, hst, hfe.1⟩

end
end Xprs

namespace Xprs
open Spec

/-- **Converse theorem**: an accepted input is the text of a legal tree followed by
whitespace, and the result is its meaning. -/
theorem parseImpl_ok {cfg : Cfg} {w : World} {ctx : Context} {input : Bytes} {x : Xpr}
    (h : parseImpl cfg w ctx input = .ok x) :
    ∃ (c : Cst) (tw : Bytes), input = c.text ++ tw ∧ spaces tw ∧ c.wf cfg (finOf cfg w) ctx tw ∧
      c.meaning (finOf cfg w) ctx = .ok x.root ∧ x.vars = findVars x.root [] := by
  unfold parseImpl at h
  have : element cfg w ctx (input.length + 1) noPrec ⟨0, input⟩ =
      elem cfg w ctx 0 ⟨0, input⟩ := rfl
  rw [this] at h
  cases he : elem cfg w ctx 0 ⟨0, input⟩ with
  | err e s => simp [he] at h
  | panic p => simp [he] at h
  | fuel => simp [he] at h
  | ok root s =>
    simp only [he] at h
    obtain ⟨c, t, a, hc, rfl, _, hf⟩ := elem_conv cfg w ctx _ _ _ _ (by decide) he
    cases hh : (trim (trim t)).rest.head? with
    | some d => simp [hh] at h
    | none =>
      simp only [hh] at h
      cases h
      rw [trim_trim] at hh
      obtain ⟨ws, hws, e1⟩ := eats_trim t
      have hr : (trim t).rest = [] := by
        cases hl : (trim t).rest with
        | nil => rfl
        | cons a b => rw [hl] at hh; simp at hh
      have ht : t.rest = ws := by rw [e1.rest, hr]; simp
      refine ⟨c, ws, ?_, hws, ?_, ?_, rfl⟩
      · have := hc.eats.1
        simpa [ht] using this
      · rw [← ht]; exact hc.wf
      · unfold Cst.meaning
        rw [hc.den]; exact hf

end Xprs
