import Mathlib.Logic.Equiv.Basic
import Mathlib.Data.Fintype.EquivFin
import Verif.Spec.Rename
import Verif.Lemmas.Layout
import Verif.Lemmas.Builds
import Verif.Lemmas.Binding
/-
Renaming (for C73).
-/
namespace Xprs
open Spec

/-! ### Trees -/

theorem substL_map (σ : Bytes → Elem) : ∀ es : List Elem, substL σ es = es.map (subst σ)
  | [] => rfl
  | a :: as => by rw [substL, substL_map σ as]; rfl

section
variable {σ : Bytes → Bytes}

theorem rename_num (x : F64) : rename σ (.num x) = .num x := by rw [rename, subst]
theorem rename_var (n : Bytes) : rename σ (.var n) = .var (σ n) := by rw [rename, subst]
theorem rename_bin (op : Op) (l r : Elem) : rename σ (.bin op l r) = .bin op (rename σ l) (rename σ r) := by
  rw [rename, subst]; rfl
theorem rename_un (op : Op) (e : Elem) : rename σ (.un op e) = .un op (rename σ e) := by
  rw [rename, subst]; rfl
theorem rename_call (f : Func) (as : List Elem) : rename σ (.call f as) = .call f (as.map (rename σ)) := by
  rw [rename, subst, substL_map]; rfl

theorem rename_is0 (e : Elem) : (rename σ e).is0 = e.is0 := by
  cases e <;> simp only [rename_num, rename_var, rename_bin, rename_un, rename_call] <;> rfl
theorem rename_is1 (e : Elem) : (rename σ e).is1 = e.is1 := by
  cases e <;> simp only [rename_num, rename_var, rename_bin, rename_un, rename_call] <;> rfl
theorem rename_negOf (e : Elem) : (rename σ e).negOf? = e.negOf?.map (rename σ) := by
  cases e <;> simp only [rename_num, rename_var, rename_bin, rename_un, rename_call] <;> try rfl
  rename_i op a
  cases op <;> rfl

theorem foldBin_rename (w : World) (op : Op) (l r : Elem) :
    foldBin w op (rename σ l) (rename σ r) = (foldBin w op l r).map (rename σ) := by
  cases l <;> cases r <;>
    simp only [rename_num, rename_var, rename_bin, rename_un, rename_call, foldBin, Except.map]
  rename_i a b
  cases binF w op a b <;> simp [rename_num]

mutual
theorem eqE_rename (hσ : Function.Injective σ) : ∀ a b : Elem, eqE (rename σ a) (rename σ b) = eqE a b
  | .num x, b => by cases b <;> simp only [rename_num, rename_var, rename_bin, rename_un, rename_call, eqE]
  | .var x, b => by
    cases b <;> simp only [rename_num, rename_var, rename_bin, rename_un, rename_call, eqE]
    simp only [hσ.eq_iff]
  | .bin o l r, b => by
    cases b with
    | bin o' l' r' =>
      simp only [rename_bin, eqE]
      rw [eqE_rename hσ l l', eqE_rename hσ r r', eqE_rename hσ l r', eqE_rename hσ r l']
    | _ => simp only [rename_num, rename_var, rename_bin, rename_un, rename_call, eqE]
  | .un o e, b => by
    cases b with
    | un o' e' =>
      simp only [rename_un, eqE]
      rw [eqE_rename hσ e e']
    | _ => simp only [rename_num, rename_var, rename_bin, rename_un, rename_call, eqE]
  | .call f as, b => by
    cases b with
    | call g bs =>
      simp only [rename_call, eqE, List.length_map]
      rw [eqEs_rename hσ as bs]
    | _ => simp only [rename_num, rename_var, rename_bin, rename_un, rename_call, eqE]
theorem eqEs_rename (hσ : Function.Injective σ) : ∀ as bs : List Elem,
    eqEs (as.map (rename σ)) (bs.map (rename σ)) = eqEs as bs
  | [], [] => rfl
  | [], _ :: _ => rfl
  | _ :: _, [] => rfl
  | a :: as, b :: bs => by
    simp only [List.map_cons, eqEs]
    rw [eqE_rename hσ a b, eqEs_rename hσ as bs]
end

theorem guardEq_rename (hσ : Function.Injective σ) (a b res : Elem) (rest : PM Elem) :
    guardEq (rename σ a) (rename σ b) (rename σ res) (rest.map (rename σ)) =
      (guardEq a b res rest).map (rename σ) := by
  unfold guardEq
  rw [eqE_rename hσ]
  cases eqE a b with
  | error p => rfl
  | ok t => cases t <;> rfl

theorem simpBin_rename (cfg : Cfg) (w : World) (hσ : Function.Injective σ) (op : Op) (l r : Elem) :
    simpBin cfg w op (rename σ l) (rename σ r) = (simpBin cfg w op l r).map (rename σ) := by
  have g := fun a b x rest => guardEq_rename hσ a b (.num x) rest
  simp only [rename_num] at g
  have ite : ∀ (c : Bool) (x y : PM Elem), (if c then x else y).map (rename σ) =
      if c then x.map (rename σ) else y.map (rename σ) := by
    intro c x y; cases c <;> rfl
  cases op with
  | plus =>
    show simpPlus cfg w _ _ = (simpPlus cfg w _ _).map _
    simp only [simpPlus, rename_is0, rename_negOf, ite]
    split
    · rfl
    · split
      · rfl
      · cases cfg.nightly
        · exact foldBin_rename w _ l r
        · cases l.negOf? <;> cases r.negOf? <;>
            simp only [Option.map, foldBin_rename, g]
  | minus =>
    show simpMinus cfg w _ _ = (simpMinus cfg w _ _).map _
    simp only [simpMinus, rename_is0, rename_negOf, ite]
    split
    · simp [Except.map, rename_un]
    · split
      · rfl
      · rw [← g]
        congr 1
        cases cfg.nightly
        · exact foldBin_rename w _ l r
        · cases r.negOf? <;> simp only [Option.map, foldBin_rename, Except.map, rename_bin]
  | times =>
    show simpTimes cfg w _ _ = (simpTimes cfg w _ _).map _
    simp only [simpTimes, rename_is0, rename_is1, rename_negOf, ite]
    split
    · simp [Except.map, rename_num]
    · split
      · simp [Except.map, rename_num]
      · split
        · rfl
        · split
          · rfl
          · cases cfg.nightly
            · exact foldBin_rename w _ l r
            · cases l.negOf? <;> cases r.negOf? <;>
                simp only [Option.map, foldBin_rename, Except.map, rename_bin]
  | divide =>
    show simpDivide cfg w _ _ = (simpDivide cfg w _ _).map _
    simp only [simpDivide, rename_is0, rename_is1, rename_negOf, ite]
    split
    · simp [Except.map, rename_num]
    · split
      · simp [Except.map, rename_num]
      · split
        · simp [Except.map, rename_num]
        · split
          · rfl
          · rw [← g]
            congr 1
            cases cfg.nightly
            · simp only [foldBin_rename, Except.map]
            · cases l.negOf? <;> cases r.negOf? <;>
                simp only [Option.map, foldBin_rename, Except.map, rename_bin]
  | power =>
    show simpPower w _ _ = (simpPower w _ _).map _
    simp only [simpPower, rename_is0, rename_is1, ite, foldBin_rename]
    simp only [Except.map, rename_num]
  | modulo =>
    show simpModulo w _ _ = (simpModulo w _ _).map _
    simp only [simpModulo, rename_is0, rename_is1, ite, foldBin_rename, ← g]
    simp only [Except.map, rename_num]
  | factorial => exact foldBin_rename w _ l r

theorem simpUn_rename (op : Op) (e : Elem) : simpUn op (rename σ e) = (simpUn op e).map (rename σ) := by
  cases op <;> cases e <;>
    simp only [rename_num, rename_var, rename_bin, rename_un, rename_call, simpUn, Except.map]
  rename_i x
  cases factorial x <;> simp [rename_num]

theorem numsOf_rename : ∀ as : List Elem, numsOf (as.map (rename σ)) = numsOf as
  | [] => rfl
  | a :: as => by
    rw [List.map_cons]
    cases a <;> simp only [rename_num, rename_var, rename_bin, rename_un, rename_call, numsOf] <;>
      rw [numsOf_rename as]

theorem simpCall_rename (w : World) (f : Func) (as : List Elem) :
    simpCall w f (as.map (rename σ)) = (simpCall w f as).map (rename σ) := by
  unfold simpCall
  rw [numsOf_rename, List.length_map]
  split
  · cases callFn w f (numsOf as) <;> simp [Except.map, rename_num]
  · simp [Except.map, rename_call]

mutual
theorem simplify_rename (cfg : Cfg) (w : World) (hσ : Function.Injective σ) : ∀ e : Elem,
    simplify cfg w (rename σ e) = (simplify cfg w e).map (rename σ)
  | .num x => by simp only [rename_num, simplify, Except.map]
  | .var x => by simp only [rename_var, simplify, Except.map]
  | .bin op l r => by
    rw [rename_bin, simplify, simplify, simplify_rename cfg w hσ l, simplify_rename cfg w hσ r]
    cases simplify cfg w l with
    | error p => rfl
    | ok l' =>
      cases simplify cfg w r with
      | error p => rfl
      | ok r' => exact simpBin_rename cfg w hσ op l' r'
  | .un op e => by
    rw [rename_un, simplify, simplify, simplify_rename cfg w hσ e]
    cases simplify cfg w e with
    | error p => rfl
    | ok e' => exact simpUn_rename op e'
  | .call f as => by
    rw [rename_call, simplify, simplify, simplifyL_rename cfg w hσ as]
    cases simplifyL cfg w as with
    | error p => rfl
    | ok as' => exact simpCall_rename w f as'
theorem simplifyL_rename (cfg : Cfg) (w : World) (hσ : Function.Injective σ) : ∀ es : List Elem,
    simplifyL cfg w (es.map (rename σ)) = (simplifyL cfg w es).map (List.map (rename σ))
  | [] => rfl
  | a :: as => by
    rw [List.map_cons, simplifyL, simplifyL, simplify_rename cfg w hσ a, simplifyL_rename cfg w hσ as]
    cases simplify cfg w a with
    | error p => rfl
    | ok a' =>
      cases simplifyL cfg w as with
      | error p => rfl
      | ok as' => rfl
end

mutual
theorem simplifyFor_rename (cfg : Cfg) (w : World) (hσ : Function.Injective σ) (x : Bytes) (v : F64) :
    ∀ e : Elem, simplifyFor cfg w (σ x) v (rename σ e) = (simplifyFor cfg w x v e).map (rename σ)
  | .num a => by simp only [rename_num, simplifyFor, Except.map]
  | .var n => by
    simp only [rename_var, simplifyFor, hσ.eq_iff]
    split <;> simp [Except.map, rename_num, rename_var]
  | .bin op l r => by
    rw [rename_bin, simplifyFor, simplifyFor, simplifyFor_rename cfg w hσ x v l,
      simplifyFor_rename cfg w hσ x v r]
    cases simplifyFor cfg w x v l with
    | error p => rfl
    | ok l' =>
      cases simplifyFor cfg w x v r with
      | error p => rfl
      | ok r' =>
        simp only [Except.map, ← rename_bin]
        exact simplify_rename cfg w hσ _
  | .un op e => by
    rw [rename_un, simplifyFor, simplifyFor, simplifyFor_rename cfg w hσ x v e]
    cases simplifyFor cfg w x v e with
    | error p => rfl
    | ok e' =>
      simp only [Except.map, ← rename_un]
      exact simplify_rename cfg w hσ _
  | .call f as => by
    rw [rename_call, simplifyFor, simplifyFor, simplifyForL_rename cfg w hσ x v as]
    cases simplifyForL cfg w x v as with
    | error p => rfl
    | ok as' =>
      simp only [Except.map, ← rename_call]
      exact simplify_rename cfg w hσ _
theorem simplifyForL_rename (cfg : Cfg) (w : World) (hσ : Function.Injective σ) (x : Bytes) (v : F64) :
    ∀ es : List Elem, simplifyForL cfg w (σ x) v (es.map (rename σ)) =
      (simplifyForL cfg w x v es).map (List.map (rename σ))
  | [] => rfl
  | a :: as => by
    rw [List.map_cons, simplifyForL, simplifyForL, simplifyFor_rename cfg w hσ x v a,
      simplifyForL_rename cfg w hσ x v as]
    cases simplifyFor cfg w x v a with
    | error p => rfl
    | ok a' =>
      cases simplifyForL cfg w x v as with
      | error p => rfl
      | ok as' => rfl
end

mutual
theorem findVars_rename (hσ : Function.Injective σ) : ∀ (e : Elem) (vs : List Bytes),
    findVars (rename σ e) (vs.map σ) = (findVars e vs).map σ
  | .num _, vs => by simp only [rename_num, findVars]
  | .var n, vs => by
    have hm : σ n ∈ vs.map σ ↔ n ∈ vs := by
      rw [List.mem_map]
      exact ⟨fun ⟨a, h1, h2⟩ => hσ h2 ▸ h1, fun h => ⟨n, h, rfl⟩⟩
    simp only [rename_var, findVars, hm]
    split <;> simp
  | .bin _ l r, vs => by
    rw [rename_bin, findVars, findVars, findVars_rename hσ l, findVars_rename hσ r]
  | .un _ e, vs => by rw [rename_un, findVars, findVars, findVars_rename hσ e]
  | .call _ as, vs => by rw [rename_call, findVars, findVars, findVarsL_rename hσ as]
theorem findVarsL_rename (hσ : Function.Injective σ) : ∀ (es : List Elem) (vs : List Bytes),
    findVarsL (es.map (rename σ)) (vs.map σ) = (findVarsL es vs).map σ
  | [], vs => rfl
  | a :: as, vs => by
    rw [List.map_cons, findVarsL, findVarsL, findVars_rename hσ a, findVarsL_rename hσ as]
end

/-! ### Texts -/

theorem renamed_name {τ : Bytes → Bytes} {nm : Bytes} (h : IsName nm) : renamed τ nm = τ nm := by
  obtain ⟨⟨c, hc, hl⟩, -⟩ := h
  cases nm with
  | nil => cases hc
  | cons d t => cases hc; rw [renamed, if_pos hl]

theorem renamed_num {τ : Bytes → Bytes} {t rest : Bytes} {v : F64} (h : Literal t rest v) : renamed τ t = t := by
  obtain ⟨c, hc, hn⟩ := literal_head h
  cases t with
  | nil => cases hc
  | cons d t => cases hc; rw [renamed, if_neg ((starts _).1 hn).2.1]

theorem renamed_sym {τ : Bytes → Bytes} {c : UInt8} (h : symb c) : renamed τ [c] = [c] := by
  rw [renamed, if_neg ((starts c).2.2 h).2.2]

/-- The first characters of a text and its renaming. -/
def TokLike (a b : Option UInt8) : Prop :=
  a = b ∨ ∃ c d, a = some c ∧ b = some d ∧ letter c ∧ letter d ∧ (lower c ↔ lower d)

/-- Under `τ`, the names among `ts` go to names that mean the same, and variables as under `σ`. -/
structure Renames (τ σ : Bytes → Bytes) (ctx ctx' : Context) (ts : List Bytes) : Prop where
  name : ∀ nm ∈ ts, IsName nm → IsName (τ nm)
  const : ∀ nm ∈ ts, IsName nm → ∀ v, lookup ctx nm = .const v → lookup ctx' (τ nm) = .const v
  func : ∀ nm ∈ ts, IsName nm → ∀ f, lookup ctx nm = .func f → lookup ctx' (τ nm) = .func f
  var : ∀ nm ∈ ts, IsName nm → lookup ctx nm = .var nm → lookup ctx' (τ nm) = .var (σ nm)

variable {τ : Bytes → Bytes} {cfg : Cfg} {fin : Elem → PM Elem} {ctx ctx' : Context}

theorem letter_ops : ∀ c, letter c → (∀ op, opChar op ≠ c) ∧ c ≠ c!"(" ∧ ¬ digit c ∧ c ≠ c!"!" := by
  intro c hc
  refine ⟨fun op h => ((starts c).2.1 hc).2.2 (h ▸ symb_op op), ?_, fun h => ((starts c).2.1 hc).2.1 (.inl h), ?_⟩
  · rintro rfl; revert hc; decide
  · rintro rfl; revert hc; decide

theorem stops_like {q : Nat} {P P' : Prop} {r r' : Bytes} (hP : P ↔ P')
    (h : TokLike (firstTok r) (firstTok r')) (hs : stops cfg q P r) : stops cfg q P' r' := by
  intro d hd
  rcases h with h | ⟨c, d', h1, h2, h3, h4, h5⟩
  · have := hs d (h.trans hd)
    exact ⟨this.1, this.2.1, fun hd => (this.2.2 hd).imp id hP.1⟩
  · rw [hd] at h2
    cases h2
    have h6 := letter_ops d h4
    have h7 := hs c h1
    refine ⟨fun op ho => absurd ho (h6.1 op), fun hl => ?_, fun hg => absurd hg h6.2.2.1⟩
    rcases hl with hl | hl
    · exact h7.2.1 (.inl (h5.2 hl))
    · exact absurd hl h6.2.1

theorem noBang_like {r r' : Bytes} (h : TokLike (firstTok r) (firstTok r')) (hn : noBang r) : noBang r' := by
  unfold noBang at hn ⊢
  rcases h with h | ⟨c, d, h1, h2, h3, h4, h5⟩
  · rwa [← h]
  · rw [h2]
    intro he
    exact (letter_ops d h4).2.2.2 (by simpa using he)

/-- `y` is `x`, renamed. -/
structure Renamed (σ : Bytes → Bytes) (cfg : Cfg) (fin : Elem → PM Elem) (ctx ctx' : Context) (x y : Cst) :
    Prop where
  den : y.den fin ctx' = (x.den fin ctx).map (rename σ)
  primary : x.primary → y.primary
  chain : y.chain cfg = x.chain cfg
  closed : ∀ r r', TokLike (firstTok r) (firstTok r') → x.closed cfg fin ctx r → y.closed cfg fin ctx' r'

theorem rename_eq_num {e : Elem} {v : F64} : rename σ e = .num v ↔ e = .num v := by
  cases e <;> simp only [rename_num, rename_var, rename_bin, rename_un, rename_call] <;> simp

theorem Renamed.isNumber {x y : Cst} (h : Renamed σ cfg fin ctx ctx' x y) :
    isNumber fin ctx x ↔ isNumber fin ctx' y := by
  unfold Spec.isNumber
  rw [h.den]
  cases x.den fin ctx with
  | error p => simp [Except.map]
  | ok e => simp [Except.map, rename_eq_num]

theorem renaming_right {a b : List Bytes} (h : Renames τ σ ctx ctx' (a ++ b)) : Renames τ σ ctx ctx' b :=
  ⟨fun nm hm => h.name nm (List.mem_append_right _ hm), fun nm hm => h.const nm (List.mem_append_right _ hm),
    fun nm hm => h.func nm (List.mem_append_right _ hm), fun nm hm => h.var nm (List.mem_append_right _ hm)⟩

theorem keepsCase_right {a b : List Bytes} (h : KeepsCase τ (a ++ b)) : KeepsCase τ b :=
  fun p o nm q he => h (a ++ p) o nm q (by rw [he, List.append_assoc])

/-- The first tokens of a text and its renaming. -/
theorem firstTok_like {r r' : Bytes} {ts : List Bytes} (h : Lex r ts) (h' : Lex r' (ts.map (renamed τ)))
    (hr : Renames τ σ ctx ctx' ts) {p : List Bytes} {o : Bytes} (ho : endsOperand o)
    (hk : KeepsCase τ (p ++ o :: ts)) : TokLike (firstTok r) (firstTok r') := by
  rw [lex_firstTok h, lex_firstTok h']
  cases h with
  | nil _ => exact .inl rfl
  | num _ hl _ =>
    refine .inl ?_
    rw [List.map_cons, renamed_num hl]
    rfl
  | @name ws nm rest ts _ hl _ =>
    have hn := name_isName hl
    obtain ⟨c, c1, c2⟩ := hn.1
    obtain ⟨⟨d, d1, d2⟩, -⟩ := hr.name nm (by simp) hn
    refine .inr ⟨c, d, c1, ?_, c2, d2, hk p o nm ts rfl ho hn c d c1 d1⟩
    rw [List.map_cons, renamed_name hn]
    exact d1
  | sym _ hc _ =>
    refine .inl ?_
    rw [List.map_cons, renamed_sym hc]
    rfl

theorem rerender (hfin : ∀ e, fin (rename σ e) = (fin e).map (rename σ)) :
    (∀ (x : Cst) (rest : Bytes) (ts : List Bytes) (s' : Bytes), x.wf cfg fin ctx rest → Lex rest ts →
      Renames τ σ ctx ctx' (x.toks ++ ts) → KeepsCase τ (x.toks ++ ts) →
      Lex s' ((x.toks ++ ts).map (renamed τ)) → ∃ (y : Cst) (rest' : Bytes), s' = y.text ++ rest' ∧
        Lex rest' (ts.map (renamed τ)) ∧ y.wf cfg fin ctx' rest' ∧ Renamed σ cfg fin ctx ctx' x y) ∧
    (∀ (as : CArgs) (rest : Bytes) (ts : List Bytes) (s' : Bytes), as.wf cfg fin ctx rest → Lex rest ts →
      Renames τ σ ctx ctx' (as.toks ++ b!")" :: ts) → KeepsCase τ (as.toks ++ b!")" :: ts) →
      Lex s' ((as.toks ++ b!")" :: ts).map (renamed τ)) → ∃ (bs : CArgs) (rest' : Bytes),
        s' = bs.text ++ c!")" :: rest' ∧ Lex rest' (ts.map (renamed τ)) ∧
        bs.wf cfg fin ctx' rest' ∧ bs.den fin ctx' = (as.den fin ctx).map (List.map (rename σ)) ∧
        bs.count = as.count) := by
  have sym : ∀ {c : UInt8} {ts : List Bytes}, symb c →
      ([c] :: ts).map (renamed τ) = [c] :: ts.map (renamed τ) := by
    intro c ts hc
    rw [List.map_cons, renamed_sym hc]
  refine cst_ind ?_ ?_ ?_ ?_ ?_ ?_ ?_ ?_ ?_ ?_
  · intro ws txt v rest ts s' hw h hr hk h'
    rw [Cst.toks, List.singleton_append, List.map_cons, renamed_num hw.2] at h'
    obtain ⟨ws', rest', rfl, h1, h2, h3⟩ := lex_cons_num (literal_nil hw.2) h'
    exact ⟨.num ws' txt v, rest', rfl, h3, ⟨h1, h2⟩,
      ⟨by rw [Cst.den, Cst.den, Except.map, rename_num], id, rfl, fun _ _ => noBang_like⟩⟩
  · intro ws nm rest ts s' hw h hr hk h'
    have hn := name_isName hw.2.1
    rw [Cst.toks, List.singleton_append, List.map_cons, renamed_name hn] at h'
    have hm : nm ∈ (Cst.name ws nm).toks ++ ts := by simp [Cst.toks]
    obtain ⟨ws', rest', rfl, h1, h2, h3⟩ := lex_cons_name (hr.name nm hm hn) h'
    have key : (∃ v, lookup ctx nm = .const v ∧ lookup ctx' (τ nm) = .const v) ∨
        (lookup ctx nm = .var nm ∧ lookup ctx' (τ nm) = .var (σ nm)) := by
      cases hl : lookup ctx nm with
      | const v => exact .inl ⟨v, rfl, hr.const nm hm hn v hl⟩
      | func f => exact absurd hl (hw.2.2 f)
      | var k =>
        have : k = nm := lookup_var hl
        subst this
        exact .inr ⟨rfl, hr.var _ hm hn hl⟩
    refine ⟨.name ws' (τ nm), rest', rfl, h3, ⟨h1, h2, ?_⟩, ⟨?_, id, rfl, fun _ _ => noBang_like⟩⟩
    · intro f hf
      rcases key with ⟨v, _, k⟩ | ⟨_, k⟩ <;> rw [k] at hf <;> cases hf
    · rw [Cst.den, Cst.den]
      rcases key with ⟨v, k1, k2⟩ | ⟨k1, k2⟩ <;> rw [k1, k2] <;>
        simp [Except.map, rename_num, rename_var]
      exact (lookup_var k2).symm
  · intro ws nm ws2 as ih rest ts s' hw h hr hk h'
    have hn := name_isName hw.2.1
    have e2 : (Cst.call ws nm ws2 as).toks ++ ts = nm :: b!"(" :: (as.toks ++ b!")" :: ts) := by
      simp [Cst.toks]
    rw [e2] at h' hr hk
    rw [List.map_cons, renamed_name hn, sym (by decide)] at h'
    have hm : nm ∈ nm :: b!"(" :: (as.toks ++ b!")" :: ts) := by simp
    obtain ⟨ws', rest1, rfl, h1, h2, h3⟩ := lex_cons_name (hr.name nm hm hn) h'
    obtain ⟨ws2', rest2, rfl, h4, h5⟩ := lex_cons_sym (by decide) h3
    obtain ⟨bs, rest3, rfl, h6, h7, h8, h9⟩ := ih _ _ _ hw.2.2.2.2 h
      (renaming_right (a := [nm, b!"("]) hr) (keepsCase_right (a := [nm, b!"("]) hk) h5
    obtain ⟨f, f1, f2⟩ := hw.2.2.2.1
    have f3 := hr.func nm hm hn f f1
    refine ⟨.call ws' (τ nm) ws2' bs, rest3, by simp [Cst.text], h6,
      ⟨h1, ⟨h2.1, h2.2.1, by intro c hc; cases hc⟩, h4, ⟨f, f3, by rw [h9]; exact f2⟩, h7⟩,
      ⟨?_, id, rfl, fun _ _ => noBang_like⟩⟩
    rw [Cst.den, Cst.den, h8, f1, f3]
    cases as.den fin ctx <;> simp [Except.map, rename_call]
  · intro ws x ws2 ih rest ts s' hw h hr hk h'
    have e2 : (Cst.paren ws x ws2).toks ++ ts = b!"(" :: (x.toks ++ b!")" :: ts) := by
      simp [Cst.toks]
    rw [e2] at h' hr hk
    rw [sym (by decide)] at h'
    obtain ⟨ws', rest1, rfl, h1, h2⟩ := lex_cons_sym (by decide) h'
    obtain ⟨y, rest2, rfl, h3, h4, h5⟩ := ih _ _ _ hw.2.2 (.sym hw.2.1 (by decide) h)
      (renaming_right (a := [b!"("]) hr) (keepsCase_right (a := [b!"("]) hk) h2
    rw [sym (by decide)] at h3
    obtain ⟨ws2', rest3, rfl, h6, h7⟩ := lex_cons_sym (by decide) h3
    refine ⟨.paren ws' y ws2', rest3, by simp [Cst.text], h7, ⟨h1, h6, h4⟩,
      ⟨?_, id, rfl, fun _ _ => noBang_like⟩⟩
    rw [Cst.den, Cst.den, h5.den]
    cases x.den fin ctx with
    | error p => rfl
    | ok e => exact hfin e
  · intro ws neg x ih rest ts s' hw h hr hk h'
    rw [Cst.toks, List.cons_append] at h' hr hk
    rw [sym (by cases neg <;> decide)] at h'
    obtain ⟨ws', rest1, rfl, h1, h2⟩ := lex_cons_sym (by cases neg <;> decide) h'
    obtain ⟨y, rest2, rfl, h3, h4, h5⟩ := ih _ _ _ hw.2.1 h
      (renaming_right (a := [[if neg then c!"-" else c!"+"]]) hr)
      (keepsCase_right (a := [[if neg then c!"-" else c!"+"]]) hk) h2
    refine ⟨.sign ws' neg y, rest2, by simp [Cst.text], h3, ⟨h1, h4, by rw [h5.chain]; exact hw.2.2⟩,
      ⟨?_, id, rfl, fun r r' hr hc => ⟨stops_like h5.isNumber hr hc.1, h5.closed r r' hr hc.2⟩⟩⟩
    rw [Cst.den, Cst.den, h5.den]
    cases x.den fin ctx with
    | error p => rfl
    | ok e =>
      simp only [Except.map]
      rw [hfin]
      cases fin e <;> simp [Except.map, rename_un]
  · intro x ws ih rest ts s' hw h hr hk h'
    have e2 : (Cst.fact x ws).toks ++ ts = x.toks ++ b!"!" :: ts := by simp [Cst.toks]
    rw [e2] at h' hr hk
    obtain ⟨y, rest1, rfl, h3, h4, h5⟩ := ih _ _ _ hw.2.2 (.sym hw.2.1 (by decide) h) hr hk h'
    rw [sym (by decide)] at h3
    obtain ⟨ws', rest2, rfl, h6, h7⟩ := lex_cons_sym (by decide) h3
    refine ⟨.fact y ws', rest2, by simp [Cst.text], h7, ⟨h5.primary hw.1, h6, h4⟩,
      ⟨?_, id, rfl, fun _ _ _ _ => trivial⟩⟩
    rw [Cst.den, Cst.den, h5.den]
    cases x.den fin ctx <;> simp [Except.map, rename_un]
  · intro l ws op r ihl ihr rest ts s' hw h hr hk h'
    have e2 : (Cst.bin l ws op r).toks ++ ts = l.toks ++ [opChar op] :: (r.toks ++ ts) := by
      simp [Cst.toks]
    rw [e2] at h' hr hk
    have e : ws ++ opChar op :: r.text ++ rest = ws ++ opChar op :: (r.text ++ rest) := by simp
    obtain ⟨w1, w2, w3, w4, w5⟩ := hw
    rw [e] at w2 w3
    have l0 := Lex.sym w1 (symb_op op) (lex_text.1 r _ _ w4 h)
    obtain ⟨a, rest1, rfl, a1, a2, a3⟩ := ihl _ _ _ w2 l0 hr hk h'
    have hr' : Renames τ σ ctx ctx' (r.toks ++ ts) :=
      renaming_right (a := l.toks ++ [[opChar op]]) (by simpa using hr)
    have hk' : KeepsCase τ (r.toks ++ ts) :=
      keepsCase_right (a := l.toks ++ [[opChar op]]) (by simpa using hk)
    rw [sym (symb_op op)] at a1
    obtain ⟨ws', rest2, rfl, h6, h7⟩ := lex_cons_sym (symb_op op) a1
    obtain ⟨b, rest3, rfl, b1, b2, b3⟩ := ihr _ _ _ w4 h hr' hk' h7
    have e' : ws' ++ opChar op :: b.text ++ rest3 = ws' ++ opChar op :: (b.text ++ rest3) := by simp
    refine ⟨.bin a ws' op b, rest3, by simp [Cst.text], b1, ⟨h6, ?_, ?_, b2, by rw [b3.chain]; exact w5⟩,
      ⟨?_, id, by rw [Cst.chain, Cst.chain, a3.chain],
        fun r r' hr hc => ⟨stops_like b3.isNumber hr hc.1, b3.closed r r' hr hc.2⟩⟩⟩
    · rw [e']; exact a2
    · rw [e']
      refine a3.closed _ _ (.inl ?_) w3
      rw [firstTok_spaces w1, firstTok_spaces h6, firstTok_cons (not_space_opChar op),
        firstTok_cons (not_space_opChar op)]
    · rw [Cst.den, Cst.den, a3.den, b3.den]
      cases l.den fin ctx with
      | error p => rfl
      | ok x =>
        cases r.den fin ctx with
        | error p => rfl
        | ok y =>
          simp only [Except.map]
          rw [hfin]
          cases fin y <;> simp [Except.map, rename_bin]
  · intro l r ihl ihr rest ts s' hw h hr hk h'
    rw [Cst.toks, List.append_assoc] at h' hr hk
    obtain ⟨w2, w3, w4, w5, c, hc, hl⟩ := hw
    have hlr := lex_text.1 r _ _ w4 h
    obtain ⟨a, rest1, rfl, a1, a2, a3⟩ := ihl _ _ _ w2 hlr hr hk h'
    obtain ⟨b, rest3, rfl, b1, b2, b3⟩ := ihr _ _ _ w4 h (renaming_right hr) (keepsCase_right hk) a1
    obtain ⟨p, o, ho⟩ : ∃ p o, l.toks = p ++ [o] := ⟨_, _, (List.dropLast_concat_getLast (toks_ne.1 l)).symm⟩
    have hf := firstTok_like (p := p) hlr a1 (renaming_right hr) (toks_ends l w2 p o ho)
      (by rw [ho] at hk; simpa using hk)
    refine ⟨.juxt a b, rest3, by simp [Cst.text], b1, ⟨a2, a3.closed _ _ hf w3, b2,
      by rw [b3.chain]; exact w5, ?_⟩,
      ⟨?_, id, by rw [Cst.chain, Cst.chain, a3.chain],
        fun r r' hr hc => ⟨stops_like b3.isNumber hr hc.1, b3.closed r r' hr hc.2⟩⟩⟩
    · rcases hf with hf | ⟨c', d, f1, f2, f3, f4, f5⟩
      · refine ⟨c, by rw [← hf]; exact hc, ?_⟩
        exact hl.imp id (Or.imp id (And.imp id fun h => by rwa [← a3.isNumber]))
      · rw [hc] at f1
        cases f1
        refine ⟨d, f2, ?_⟩
        have := letter_ops c f3
        rcases hl with hl | hl | hl
        · exact .inl (f5.1 hl)
        · exact absurd hl this.2.1
        · exact absurd hl.1 this.2.2.1
    · rw [Cst.den, Cst.den, a3.den, b3.den]
      cases l.den fin ctx with
      | error p => rfl
      | ok x =>
        cases r.den fin ctx with
        | error p => rfl
        | ok y =>
          simp only [Except.map]
          rw [hfin]
          cases fin y <;> simp [Except.map, rename_bin]
  · intro x ws ih rest ts s' hw h hr hk h'
    obtain ⟨y, rest1, rfl, h3, h4, h5⟩ := ih _ _ _ hw.2 (.sym hw.1 (by decide) h) hr hk h'
    rw [sym (by decide)] at h3
    obtain ⟨ws', rest2, rfl, h6, h7⟩ := lex_cons_sym (by decide) h3
    refine ⟨.last y ws', rest2, by simp [CArgs.text], h7, ⟨h6, h4⟩, ?_, rfl⟩
    rw [CArgs.den, CArgs.den, h5.den]
    cases x.den fin ctx with
    | error p => rfl
    | ok e =>
      simp only [Except.map]
      rw [hfin]
      cases fin e <;> simp [Except.map]
  · intro x ws as ih ihs rest ts s' hw h hr hk h'
    have e2 : (CArgs.more x ws as).toks ++ b!")" :: ts = x.toks ++ b!"," :: (as.toks ++ b!")" :: ts) := by
      simp [CArgs.toks]
    rw [e2] at h' hr hk
    obtain ⟨y, rest1, rfl, h3, h4, h5⟩ := ih _ _ _ hw.2.1
      (.sym hw.1 (by decide) (lex_text.2 as _ _ hw.2.2 h)) hr hk h'
    rw [sym (by decide)] at h3
    obtain ⟨ws', rest2, rfl, h6, h7⟩ := lex_cons_sym (by decide) h3
    have hr' : Renames τ σ ctx ctx' (as.toks ++ b!")" :: ts) :=
      renaming_right (a := x.toks ++ [b!","]) (by simpa using hr)
    have hk' : KeepsCase τ (as.toks ++ b!")" :: ts) :=
      keepsCase_right (a := x.toks ++ [b!","]) (by simpa using hk)
    obtain ⟨bs, rest3, rfl, b1, b2, b3, b4⟩ := ihs _ _ _ hw.2.2 h hr' hk' h7
    refine ⟨.more y ws' bs, rest3, by simp [CArgs.text], b1, ⟨h6, h4, b2⟩, ?_,
      by rw [CArgs.count, CArgs.count, b4]⟩
    rw [CArgs.den, CArgs.den, h5.den, b3]
    cases x.den fin ctx with
    | error p => rfl
    | ok e =>
      simp only [Except.map]
      rw [hfin]
      cases fin e with
      | error p => rfl
      | ok e' => cases as.den fin ctx <;> simp [Except.map]

end

theorem parseImpl_renames {τ σ : Bytes → Bytes} {cfg : Cfg} {w : World} {ctx ctx' : Context} {s s' : Bytes}
    {ts : List Bytes} {x : Xpr} (hσ : cfg.opt = true → Function.Injective σ)
    (hs : Lex s ts) (hs' : Lex s' (ts.map (renamed τ)))
    (hr : Renames τ σ ctx ctx' ts) (hk : KeepsCase τ ts) (h : parseImpl cfg w ctx s = .ok x) :
    parseImpl cfg w ctx' s' = .ok ⟨rename σ x.root, findVars (rename σ x.root) []⟩ := by
  have hfin : ∀ e, finOf cfg w (rename σ e) = (finOf cfg w e).map (rename σ) := by
    intro e
    unfold finOf
    split
    · exact simplify_rename cfg w (hσ ‹_›) e
    · rfl
  obtain ⟨c, tw, rfl, h2, h3, h4, h5⟩ := parseImpl_ok h
  have h6 := lex_text.1 c tw [] h3 (.nil h2)
  have e := lex_unique hs h6
  subst e
  obtain ⟨y, tw', rfl, h7, h8, h9⟩ := (rerender hfin).1 c tw [] s' h3 (.nil h2) hr hk hs'
  rw [parseImpl_text cfg w ctx' y tw' h8 (lex_done h7), Cst.meaning, h9.den]
  rw [Cst.meaning] at h4
  cases hd : c.den (finOf cfg w) ctx with
  | error p => rw [hd] at h4; cases h4
  | ok e =>
    rw [hd] at h4
    simp only at h4
    simp only [Except.map]
    rw [hfin, h4]
    rfl

/-! ### Injections -/

/-- A map that is injective on a list extends to an injection. -/
theorem exists_injective (τ : Bytes → Bytes) : ∀ l : List Bytes,
    (∀ a ∈ l, ∀ b ∈ l, τ a = τ b → a = b) →
    ∃ σ : Bytes → Bytes, Function.Injective σ ∧ ∀ a ∈ l, σ a = τ a
  | [], _ => ⟨id, fun _ _ h => h, fun _ h => absurd h (by simp)⟩
  | a :: l, h => by
    obtain ⟨σ, h1, h2⟩ := exists_injective τ l fun a ha b hb =>
      h a (List.mem_cons_of_mem _ ha) b (List.mem_cons_of_mem _ hb)
    by_cases hm : a ∈ l
    · exact ⟨σ, h1, by simpa using ⟨h2 a hm, h2⟩⟩
    · refine ⟨fun n => Equiv.swap (σ a) (τ a) (σ n), (Equiv.injective _).comp h1, ?_⟩
      intro b hb
      rcases List.mem_cons.1 hb with rfl | hb'
      · exact Equiv.swap_apply_left _ _
      · have e := h2 b hb'
        have hne : b ≠ a := fun hc => hm (hc ▸ hb')
        show Equiv.swap (σ a) (τ a) (σ b) = τ b
        rw [Equiv.swap_apply_of_ne_of_ne (fun hc => hne (h1 hc)) ?_, e]
        rw [e]
        exact fun hc => hne (h b hb a (by simp) hc)

mutual
/-- A renamed tree tells how its variables were renamed. -/
theorem rename_inj {σ τ : Bytes → Bytes} {n : Bytes} : ∀ e : Elem, rename σ e = rename τ e → Occurs n e → σ n = τ n
  | .num _, _, h => by simp at h
  | .var m, h, ho => by
    rw [rename_var, rename_var] at h
    rw [occurs_var] at ho
    subst ho
    exact Elem.var.inj h
  | .bin _ l r, h, ho => by
    rw [rename_bin, rename_bin] at h
    injection h with _ h1 h2
    cases ho with
    | left ho => exact rename_inj l h1 ho
    | right ho => exact rename_inj r h2 ho
  | .un _ e, h, ho => by
    rw [rename_un, rename_un] at h
    injection h with _ h1
    cases ho with
    | operand ho => exact rename_inj e h1 ho
  | .call _ as, h, ho => by
    rw [rename_call, rename_call] at h
    injection h with _ h1
    cases ho with
    | arg ha ho => exact rename_injL as h1 _ ha ho
theorem rename_injL {σ τ : Bytes → Bytes} {n : Bytes} : ∀ as : List Elem,
    as.map (rename σ) = as.map (rename τ) → ∀ a ∈ as, Occurs n a → σ n = τ n
  | [], _, _, h, _ => by simp at h
  | a :: as, h, b, hb, ho => by
    rw [List.map_cons, List.map_cons] at h
    injection h with h1 h2
    rcases List.mem_cons.1 hb with hb | hb
    · exact rename_inj a h1 (hb ▸ ho)
    · exact rename_injL as h2 b hb ho
end

mutual
theorem rename_congr {σ τ : Bytes → Bytes} : ∀ e : Elem, (∀ n, Occurs n e → σ n = τ n) → rename σ e = rename τ e
  | .num _, _ => by rw [rename_num, rename_num]
  | .var m, h => by rw [rename_var, rename_var, h m .here]
  | .bin _ l r, h => by
    rw [rename_bin, rename_bin, rename_congr l fun n hn => h n (.left hn), rename_congr r fun n hn => h n (.right hn)]
  | .un _ e, h => by rw [rename_un, rename_un, rename_congr e fun n hn => h n (.operand hn)]
  | .call _ as, h => by
    rw [rename_call, rename_call, rename_congrL as fun a ha n hn => h n (.arg ha hn)]
theorem rename_congrL {σ τ : Bytes → Bytes} : ∀ as : List Elem, (∀ a ∈ as, ∀ n, Occurs n a → σ n = τ n) →
    as.map (rename σ) = as.map (rename τ)
  | [], _ => rfl
  | a :: as, h => by
    rw [List.map_cons, List.map_cons, rename_congr a (h a (by simp)),
      rename_congrL as fun b hb => h b (List.mem_cons_of_mem _ hb)]
end

mutual
theorem rename_id : ∀ e : Elem, rename id e = e
  | .num _ => by rw [rename_num]
  | .var m => by rw [rename_var]; rfl
  | .bin _ l r => by rw [rename_bin, rename_id l, rename_id r]
  | .un _ e => by rw [rename_un, rename_id e]
  | .call _ as => by rw [rename_call, rename_idL as]
theorem rename_idL : ∀ as : List Elem, as.map (rename id) = as
  | [] => rfl
  | a :: as => by rw [List.map_cons, rename_id a, rename_idL as]
end

theorem renamed_id : ∀ t : Bytes, renamed id t = t
  | [] => rfl
  | c :: t => by rw [renamed]; split <;> rfl

/-- The variables of an accepted text are among its tokens. -/
theorem occurs_token {cfg : Cfg} {w : World} {ctx : Context} {s : Bytes} {ts : List Bytes} {x : Xpr} {n : Bytes}
    (hs : Lex s ts) (h : parseImpl cfg w ctx s = .ok x) (ho : Occurs n x.root) :
    n ∈ ts ∧ IsName n ∧ lookup ctx n = .var n := by
  refine Classical.byContradiction fun hn => ?_
  obtain ⟨k, hk⟩ := Infinite.exists_notMem_finset (n :: ts).toFinset
  have hk' : k ≠ n ∧ k ∉ ts := by simpa using hk
  have hid : ts.map (renamed id) = ts := by
    rw [List.map_congr_left (g := id) (fun a _ => renamed_id a), List.map_id]
  have p1 := parseImpl_renames (τ := id) (σ := Equiv.swap n k) (ctx' := ctx) (s' := s)
    (fun _ => Equiv.injective _) hs (by rw [hid]; exact hs)
    ⟨fun _ _ h => h, fun _ _ _ _ h => h, fun _ _ _ _ h => h, fun nm hm h1 h2 => by
      rw [Equiv.swap_apply_of_ne_of_ne]
      · exact h2
      · rintro rfl; exact hn ⟨hm, h1, h2⟩
      · rintro rfl; exact hk'.2 hm⟩
    (fun _ _ nm _ _ _ _ c d h1 h2 => by rw [id, h1] at h2; cases h2; rfl) h
  rw [h] at p1
  injection p1 with p1
  have p2 := congrArg Xpr.root p1
  simp only at p2
  have p3 : rename id x.root = rename (Equiv.swap n k) x.root := by rw [rename_id]; exact p2
  have := rename_inj _ p3 ho
  rw [Equiv.swap_apply_left] at this
  exact hk'.1 this.symm

theorem parseImpl_rename {σ : Bytes → Bytes} {cfg : Cfg} {w : World} {ctx ctx' : Context} {s s' : Bytes}
    {ts : List Bytes} {x : Xpr} (hs : Lex s ts) (hs' : Lex s' (ts.map (renamed σ)))
    (hr : Renaming σ ctx ctx' ts) (hi : Distinct σ ctx ts) (hk : KeepsCase σ ts)
    (h : parseImpl cfg w ctx s = .ok x) :
    parseImpl cfg w ctx' s' = .ok ⟨rename σ x.root, x.vars.map σ⟩ := by
  classical
  have hv := (parseImpl_ok h).choose_spec.choose_spec.2.2.2.2
  obtain ⟨ρ, hρ, hl⟩ := exists_injective σ (ts.filter fun n => decide (IsName n ∧ lookup ctx n = .var n)) (by
    intro a ha b hb
    simp only [List.mem_filter, decide_eq_true_eq] at ha hb
    exact hi a ha.1 ha.2.1 ha.2.2 b hb.1 hb.2.1 hb.2.2)
  have hl' : ∀ n ∈ ts, IsName n → lookup ctx n = .var n → ρ n = σ n := by
    intro n h1 h2 h3
    exact hl n (by simp only [List.mem_filter, decide_eq_true_eq]; exact ⟨h1, h2, h3⟩)
  have p := parseImpl_renames (τ := σ) (σ := ρ) (ctx' := ctx') (fun _ => hρ) hs hs'
    ⟨hr.name, hr.const, hr.func, fun nm hm h1 h2 => by rw [hl' nm hm h1 h2]; exact hr.var nm hm h1 h2⟩ hk h
  have hocc : ∀ n, Occurs n x.root → ρ n = σ n := by
    intro n ho
    obtain ⟨h1, h2, h3⟩ := occurs_token hs h ho
    exact hl' n h1 h2 h3
  rw [p, rename_congr _ hocc]
  have e1 := rename_congr _ hocc
  have e2 := findVars_rename hρ x.root []
  rw [List.map_nil, e1, ← hv] at e2
  rw [e2]
  congr 2
  refine List.map_congr_left fun n hn => hocc n ?_
  rw [hv] at hn
  exact (mem_findVars n x.root []).1 hn |>.resolve_left (by simp)

/-! ### The way back -/

/-- Undoing a renaming of tokens. -/
theorem renamed_back {σ ρ : Bytes → Bytes} {s : Bytes} {ts : List Bytes} (h : Lex s ts)
    (hn : ∀ nm ∈ ts, IsName nm → IsName (σ nm)) (hρ : ∀ nm ∈ ts, IsName nm → ρ (σ nm) = nm) :
    (ts.map (renamed σ)).map (renamed ρ) = ts := by
  induction h with
  | nil _ => rfl
  | num _ hl _ ih =>
    rw [List.map_cons, List.map_cons, renamed_num hl, renamed_num hl,
      ih (fun nm hm => hn nm (List.mem_cons_of_mem _ hm)) fun nm hm => hρ nm (List.mem_cons_of_mem _ hm)]
  | name _ hl _ ih =>
    have h1 := name_isName hl
    rw [List.map_cons, List.map_cons, renamed_name h1, renamed_name (hn _ (by simp) h1), hρ _ (by simp) h1,
      ih (fun nm hm => hn nm (List.mem_cons_of_mem _ hm)) fun nm hm => hρ nm (List.mem_cons_of_mem _ hm)]
  | sym _ hc _ ih =>
    rw [List.map_cons, List.map_cons, renamed_sym hc, renamed_sym hc,
      ih (fun nm hm => hn nm (List.mem_cons_of_mem _ hm)) fun nm hm => hρ nm (List.mem_cons_of_mem _ hm)]

theorem lex_kinds {s : Bytes} {ts : List Bytes} (h : Lex s ts) : ∀ t ∈ ts,
    (∃ r v, Literal t r v) ∨ IsName t ∨ ∃ c, symb c ∧ t = [c] := by
  induction h with
  | nil _ => simp
  | num _ hl _ ih => exact List.forall_mem_cons.2 ⟨.inl ⟨_, _, hl⟩, ih⟩
  | name _ hl _ ih => exact List.forall_mem_cons.2 ⟨.inr (.inl (name_isName hl)), ih⟩
  | sym _ hc _ ih => exact List.forall_mem_cons.2 ⟨.inr (.inr ⟨_, hc, rfl⟩), ih⟩

/-- A name among the renamed tokens is the new one of a name. -/
theorem name_of_renamed {σ : Bytes → Bytes} {s : Bytes} {ts : List Bytes} (h : Lex s ts) {k : Bytes}
    (hk : k ∈ ts.map (renamed σ)) (hn : IsName k) : ∃ nm ∈ ts, IsName nm ∧ σ nm = k := by
  obtain ⟨⟨c, c1, c2⟩, -⟩ := hn
  induction h with
  | nil _ => simp at hk
  | num _ hl _ ih =>
    rw [List.map_cons, renamed_num hl] at hk
    rcases List.mem_cons.1 hk with rfl | hk
    · obtain ⟨d, d1, d2⟩ := literal_head hl
      rw [c1] at d1
      cases d1
      exact absurd c2 ((starts _).1 d2).2.1
    · obtain ⟨nm, h1, h2⟩ := ih hk
      exact ⟨nm, List.mem_cons_of_mem _ h1, h2⟩
  | name _ hl _ ih =>
    have h1 := name_isName hl
    rw [List.map_cons, renamed_name h1] at hk
    rcases List.mem_cons.1 hk with rfl | hk
    · exact ⟨_, by simp, h1, rfl⟩
    · obtain ⟨nm, h1, h2⟩ := ih hk
      exact ⟨nm, List.mem_cons_of_mem _ h1, h2⟩
  | sym _ hc _ ih =>
    rw [List.map_cons, renamed_sym hc] at hk
    rcases List.mem_cons.1 hk with rfl | hk
    · cases c1
      exact absurd c2 ((starts _).2.2 hc).2.2
    · obtain ⟨nm, h1, h2⟩ := ih hk
      exact ⟨nm, List.mem_cons_of_mem _ h1, h2⟩

/-- Only names become names … -/
theorem isName_of_renamed {σ : Bytes → Bytes} {s : Bytes} {ts : List Bytes} (h : Lex s ts) {t : Bytes}
    (ht : t ∈ ts) (hn : IsName (renamed σ t)) : IsName t := by
  rcases lex_kinds h t ht with ⟨r, v, hl⟩ | hl | ⟨c, hc, rfl⟩
  · rwa [renamed_num hl] at hn
  · exact hl
  · rwa [renamed_sym hc] at hn

/-- … and only ends of operands become ends of operands. -/
theorem ends_of_renamed {σ : Bytes → Bytes} {s : Bytes} {ts : List Bytes} (h : Lex s ts) {t : Bytes}
    (ht : t ∈ ts) (hn : endsOperand (renamed σ t)) : endsOperand t := by
  rcases lex_kinds h t ht with ⟨r, v, hl⟩ | hl | ⟨c, hc, rfl⟩
  · rwa [renamed_num hl] at hn
  · obtain ⟨⟨c, h1, h2⟩, -⟩ := hl
    exact .inl ⟨c, h1, .inr (.inr h2)⟩
  · rwa [renamed_sym hc] at hn

/-- A renaming that keeps names apart has an inverse, and that is a renaming too. -/
theorem renaming_inverse {σ : Bytes → Bytes} {ctx ctx' : Context} {s : Bytes} {ts : List Bytes} (hs : Lex s ts)
    (hr : Renaming σ ctx ctx' ts) (hk : KeepsCase σ ts)
    (hi : ∀ a ∈ ts, IsName a → ∀ b ∈ ts, IsName b → σ a = σ b → a = b) :
    ∃ ρ : Bytes → Bytes, (∀ nm ∈ ts, IsName nm → ρ (σ nm) = nm) ∧
      Renaming ρ ctx' ctx (ts.map (renamed σ)) ∧ KeepsCase ρ (ts.map (renamed σ)) ∧
      Distinct ρ ctx' (ts.map (renamed σ)) := by
  classical
  let ρ : Bytes → Bytes := fun k => if h : ∃ nm ∈ ts, IsName nm ∧ σ nm = k then h.choose else k
  have h1 : ∀ nm ∈ ts, IsName nm → ρ (σ nm) = nm := by
    intro nm hm hn
    have h : ∃ nm' ∈ ts, IsName nm' ∧ σ nm' = σ nm := ⟨nm, hm, hn, rfl⟩
    show (if h : ∃ nm' ∈ ts, IsName nm' ∧ σ nm' = σ nm then h.choose else σ nm) = nm
    rw [dif_pos h]
    exact hi _ h.choose_spec.1 h.choose_spec.2.1 _ hm hn h.choose_spec.2.2
  refine ⟨ρ, h1, ⟨?_, ?_, ?_, ?_⟩, ?_, ?_⟩
  · intro k hm hn
    obtain ⟨nm, n1, n2, rfl⟩ := name_of_renamed hs hm hn
    rw [h1 nm n1 n2]; exact n2
  · intro k hm hn v hv
    obtain ⟨nm, n1, n2, rfl⟩ := name_of_renamed hs hm hn
    rw [h1 nm n1 n2]
    cases hl : lookup ctx nm with
    | const u => rw [hr.const nm n1 n2 u hl] at hv; cases hv; rfl
    | func f => rw [hr.func nm n1 n2 f hl] at hv; cases hv
    | var n =>
      rw [lookup_var hl] at hl
      rw [hr.var nm n1 n2 hl] at hv; cases hv
  · intro k hm hn f hv
    obtain ⟨nm, n1, n2, rfl⟩ := name_of_renamed hs hm hn
    rw [h1 nm n1 n2]
    cases hl : lookup ctx nm with
    | const u => rw [hr.const nm n1 n2 u hl] at hv; cases hv
    | func g => rw [hr.func nm n1 n2 g hl] at hv; cases hv; rfl
    | var n =>
      rw [lookup_var hl] at hl
      rw [hr.var nm n1 n2 hl] at hv; cases hv
  · intro k hm hn hv
    obtain ⟨nm, n1, n2, rfl⟩ := name_of_renamed hs hm hn
    rw [h1 nm n1 n2]
    cases hl : lookup ctx nm with
    | const u => rw [hr.const nm n1 n2 u hl] at hv; cases hv
    | func g => rw [hr.func nm n1 n2 g hl] at hv; cases hv
    | var n => rw [lookup_var hl]
  · intro p o k q he ho hn c d hc hd
    obtain ⟨p', q1, rfl, -, e1⟩ := List.map_eq_append_iff.1 he
    obtain ⟨o', q2, rfl, e2, e3⟩ := List.map_eq_cons_iff.1 e1
    obtain ⟨nm, q', rfl, e4, -⟩ := List.map_eq_cons_iff.1 e3
    have n1 : nm ∈ p' ++ o' :: nm :: q' := by simp
    have n2 : IsName nm := isName_of_renamed hs n1 (e4 ▸ hn)
    rw [renamed_name n2] at e4
    subst e4
    rw [h1 nm n1 n2] at hd
    exact (hk p' o' nm q' rfl (ends_of_renamed hs (by simp) (e2 ▸ ho)) n2 d c hd hc).symm
  · intro a ha a1 _ b hb b1 _ hab
    obtain ⟨m, m1, m2, rfl⟩ := name_of_renamed hs ha a1
    obtain ⟨n, n1, n2, rfl⟩ := name_of_renamed hs hb b1
    rw [h1 m m1 m2, h1 n n1 n2] at hab
    rw [hab]

/-! ### Evaluation -/

theorem liftP_rename {α : Type} (σ : Bytes → Bytes) (p : PM α) :
    liftP p = (liftP p).mapError (EvErr.rename σ) := by
  cases p <;> rfl

mutual
theorem eval_rename (w : World) (σ : Bytes → Bytes) (m : HMap F64) : ∀ e : Elem,
    eval w m (rename σ e) = (eval w (fun n => m (σ n)) e).mapError (EvErr.rename σ)
  | .num _ => by simp only [rename_num, eval]; rfl
  | .var n => by
    simp only [rename_var, eval, HMap.get]
    cases m (σ n) <;> rfl
  | .bin op l r => by
    simp only [rename_bin, eval, eval_rename w σ m l, eval_rename w σ m r]
    cases eval w (fun n => m (σ n)) l with
    | error p => rfl
    | ok a => cases eval w (fun n => m (σ n)) r <;> first | rfl | (simp only [Except.mapError]; exact liftP_rename _ _)
  | .un op e => by
    simp only [rename_un, eval, eval_rename w σ m e]
    cases eval w (fun n => m (σ n)) e <;> first | rfl | (simp only [Except.mapError]; exact liftP_rename _ _)
  | .call f as => by
    simp only [rename_call, eval, evalL_rename w σ m as]
    cases evalL w (fun n => m (σ n)) as <;> first | rfl | (simp only [Except.mapError]; exact liftP_rename _ _)
theorem evalL_rename (w : World) (σ : Bytes → Bytes) (m : HMap F64) : ∀ es : List Elem,
    evalL w m (es.map (rename σ)) = (evalL w (fun n => m (σ n)) es).mapError (EvErr.rename σ)
  | [] => by simp only [List.map_nil, evalL]; rfl
  | a :: as => by
    simp only [List.map_cons, evalL, eval_rename w σ m a, evalL_rename w σ m as]
    cases eval w (fun n => m (σ n)) a with
    | error p => rfl
    | ok a => cases evalL w (fun n => m (σ n)) as <;> rfl
end

/-! ### Names behind operands -/

/-- Names behind a number, a name or `)` begin with a small letter. -/
def SmallNames (ts : List Bytes) : Prop :=
  ∀ p o nm q, ts = p ++ o :: nm :: q → endsOperand o → o ≠ b!"!" → IsName nm → ∀ c, nm.head? = some c → lower c

theorem small_append {l r : List Bytes} (hl : SmallNames l) (hr : SmallNames r)
    (hm : ∀ p o nm q, l = p ++ [o] → r = nm :: q → endsOperand o → o ≠ b!"!" → IsName nm →
      ∀ c, nm.head? = some c → lower c) : SmallNames (l ++ r) := by
  intro p o nm q he
  rcases List.append_eq_append_iff.1 he with ⟨k, h1, h2⟩ | ⟨k, h1, h2⟩
  · exact hr k o nm q h2
  · match k, h1, h2 with
    | [], h1, h2 => exact hr [] o nm q (by simpa using h2.symm)
    | [c], h1, h2 =>
      simp only [List.cons_append, List.nil_append, List.cons.injEq] at h2
      obtain ⟨rfl, h2⟩ := h2
      exact hm p o nm q h1 h2.symm
    | c :: d :: k, h1, h2 =>
      simp only [List.cons_append, List.cons.injEq] at h2
      obtain ⟨rfl, rfl, _⟩ := h2
      exact hl p o nm k h1

theorem small_single (t : Bytes) : SmallNames [t] := by
  intro p o nm q h
  have := congrArg List.length h
  simp at this; omega

theorem small_nil : SmallNames [] := by
  intro p o nm q h
  have := congrArg List.length h
  simp at this

theorem small_sym {ts us : List Bytes} {c : UInt8} (hc : symb c)
    (he : ¬ endsOperand [c] ∨ us = [] ∨ c = c!"!") (h : SmallNames ts) (h2 : SmallNames us) :
    SmallNames (ts ++ [c] :: us) := by
  refine small_append h ?_ ?_
  · refine small_append (l := [[c]]) (small_single _) h2 ?_
    intro p o nm q h1 h3 ho hb
    obtain ⟨_, h1⟩ := List.append_inj' (s₁ := []) (t₁ := [[c]]) h1 rfl
    cases h1
    rcases he with he | he | rfl
    · exact absurd ho he
    · rw [he] at h3; cases h3
    · exact absurd rfl hb
  · intro p o nm q _ h1 _ _ hn
    cases h1
    obtain ⟨⟨d, d1, d2⟩, -⟩ := hn
    cases d1
    exact absurd d2 ((starts _).2.2 hc).2.2

theorem not_ends {c : UInt8} (hc : symb c) (h1 : c ≠ c!")") (h2 : c ≠ c!"!") : ¬ endsOperand [c] := by
  rintro (⟨d, d1, d2⟩ | h | h)
  · cases d1
    rcases d2 with d2 | d2 | d2
    · exact ((starts _).2.2 hc).2.1 (.inl d2)
    · exact ((starts _).2.2 hc).2.1 (.inr d2)
    · exact ((starts _).2.2 hc).2.2 d2
  · exact h1 (List.cons.inj h).1
  · exact h2 (List.cons.inj h).1

theorem toks_small {cfg : Cfg} {fin : Elem → PM Elem} {ctx : Context} :
    (∀ (x : Cst) (rest : Bytes) (ts : List Bytes), x.wf cfg fin ctx rest → Lex rest ts → SmallNames x.toks) ∧
    (∀ (as : CArgs) (rest : Bytes) (ts : List Bytes), as.wf cfg fin ctx rest → Lex rest ts →
      SmallNames as.toks) := by
  refine cst_ind ?_ ?_ ?_ ?_ ?_ ?_ ?_ ?_ ?_ ?_
  · intro ws txt v rest ts hw h; exact small_single _
  · intro ws nm rest ts hw h; exact small_single _
  · intro ws nm ws2 as ih rest ts hw h
    rw [Cst.toks]
    exact small_sym (ts := [nm]) (c := c!"(") (by decide) (.inl (not_ends (by decide) (by decide) (by decide)))
      (small_single _) (small_sym (c := c!")") (by decide) (.inr (.inl rfl)) (ih _ _ hw.2.2.2.2 h) small_nil)
  · intro ws x ws2 ih rest ts hw h
    rw [Cst.toks]
    exact small_sym (ts := []) (c := c!"(") (by decide) (.inl (not_ends (by decide) (by decide) (by decide)))
      small_nil (small_sym (c := c!")") (by decide) (.inr (.inl rfl)) (ih _ _ hw.2.2 (.sym hw.2.1 (by decide) h)) small_nil)
  · intro ws neg x ih rest ts hw h
    rw [Cst.toks]
    exact small_sym (ts := []) (by cases neg <;> decide)
      (.inl (not_ends (by cases neg <;> decide) (by cases neg <;> decide) (by cases neg <;> decide)))
      small_nil (ih _ _ hw.2.1 h)
  · intro x ws ih rest ts hw h
    rw [Cst.toks]
    exact small_sym (c := c!"!") (by decide) (.inr (.inl rfl)) (ih _ _ hw.2.2 (.sym hw.2.1 (by decide) h)) small_nil
  · intro l ws op r ihl ihr rest ts hw h
    have h1 := hw.2.1
    rw [show ws ++ opChar op :: r.text ++ rest = ws ++ opChar op :: (r.text ++ rest) by simp] at h1
    rw [Cst.toks]
    refine small_sym (symb_op op) ?_
      (ihl _ _ h1 (.sym hw.1 (symb_op op) (lex_text.1 r _ _ hw.2.2.2.1 h))) (ihr _ _ hw.2.2.2.1 h)
    by_cases he : opChar op = c!"!"
    · exact .inr (.inr he)
    · exact .inl (not_ends (symb_op op) (by cases op <;> decide) he)
  · intro l r ihl ihr rest ts hw h
    have hr := lex_text.1 r _ _ hw.2.2.1 h
    rw [Cst.toks]
    refine small_append (ihl _ _ hw.1 hr) (ihr _ _ hw.2.2.1 h) ?_
    intro p o nm q h1 h2 ho _ hn d hd
    obtain ⟨_, _, _, _, c, hc, hl⟩ := hw
    rw [lex_firstTok hr, h2] at hc
    simp only [List.cons_append, List.head?_cons, Option.bind_some] at hc
    rw [hd] at hc; cases hc
    obtain ⟨⟨d', e1, e2⟩, -⟩ := hn
    rw [hd] at e1; cases e1
    have := letter_ops _ e2
    rcases hl with hl | hl | hl
    · exact hl
    · exact absurd hl this.2.1
    · exact absurd hl.1 this.2.2.1
  · intro x ws ih rest ts hw h
    exact ih _ _ hw.2 (.sym hw.1 (by decide) h)
  · intro x ws as ih ihs rest ts hw h
    rw [CArgs.toks]
    exact small_sym (c := c!",") (by decide) (.inl (not_ends (by decide) (by decide) (by decide)))
      (ih _ _ hw.2.1 (.sym hw.1 (by decide) (lex_text.2 as _ _ hw.2.2 h))) (ihs _ _ hw.2.2 h)

/-- In an accepted text the names behind numbers, names and `)` begin with small letters. -/
theorem parseImpl_small {cfg : Cfg} {w : World} {ctx : Context} {s : Bytes} {ts : List Bytes} {x : Xpr}
    (hs : Lex s ts) (h : parseImpl cfg w ctx s = .ok x) : SmallNames ts := by
  obtain ⟨c, tw, rfl, h2, h3, h4, h5⟩ := parseImpl_ok h
  have h6 := lex_text.1 c tw [] h3 (.nil h2)
  have e := lex_unique hs h6
  rw [List.append_nil] at e
  subst e
  exact toks_small.1 c tw [] h3 (.nil h2)

end Xprs
