import Verif.Lemmas.Layout
import Verif.Lemmas.Simplify
import Verif.Spec.Reading
/-
Lemmas on reading a tree from left to right.
-/
namespace Xprs
namespace Spec

variable {cfg : Cfg} {ctx : Context}

/-- What has just ended matters to an implied `*` only. -/
theorem Covers.start {ts : List Bytes} {is : List Item} (h : Covers ctx false ts is) (p : Bool) :
    Covers ctx p ts is := by
  cases h with
  | done => exact .done
  | opening h => exact .opening h
  | closing h => exact .closing h
  | comma h => exact .comma h
  | literal h1 h => exact .literal h1 h
  | constant h1 h2 h => exact .constant h1 h2 h
  | named h1 h2 h => exact .named h1 h2 h
  | function h1 h2 h => exact .function h1 h2 h
  | bang h => exact .bang h
  | operator h1 h => exact .operator h1 h

theorem toks_ne_nil : (∀ x : Cst, x.toks ≠ []) ∧ (∀ as : CArgs, as.toks ≠ []) := by
  refine cst_ind ?_ ?_ ?_ ?_ ?_ ?_ ?_ ?_ ?_ ?_ <;> intros <;> simp_all [Cst.toks, CArgs.toks]

theorem isName_of {nm rest : Bytes} (h : Name nm rest) : IsName nm := ⟨h.1, h.2.1⟩

/-- The tokens of a written expression are covered by the tree it denotes. -/
theorem covers_toks :
    (∀ (x : Cst) (rest : Bytes) (e : Elem), x.wf cfg .ok ctx rest → x.den .ok ctx = .ok e →
      ∀ (ts' ts : List Bytes) (is : List Item), Lex rest ts' → Covers ctx true ts is →
        Covers ctx false (x.toks ++ ts) (items e ++ is)) ∧
    (∀ (as : CArgs) (rest : Bytes) (es : List Elem), as.wf cfg .ok ctx rest → as.den .ok ctx = .ok es →
      ∀ (ts' ts : List Bytes) (is : List Item), Lex rest ts' → Covers ctx true ts is →
        Covers ctx false (as.toks ++ ts) (itemsL es ++ is)) := by
  refine cst_ind ?_ ?_ ?_ ?_ ?_ ?_ ?_ ?_ ?_ ?_
  · intro ws txt v rest e hw hd ts' ts is hl h
    rw [Cst.den] at hd; cases hd
    exact .literal hw.2 h
  · intro ws nm rest e hw hd ts' ts is hl h
    rcases den_name hd with ⟨v, hv, rfl⟩ | ⟨hc, rfl⟩
    · exact .constant (isName_of hw.2.1) hv h
    · refine .named (isName_of hw.2.1) ?_ h
      cases hv : lookup ctx nm with
      | const v => exact absurd hv (hc v)
      | var n => rw [lookup_var hv]
      | func f => exact absurd hv (hw.2.2 f)
  · intro ws nm ws2 as ih rest e hw hd ts' ts is hl h
    obtain ⟨f, hf, -⟩ := hw.2.2.2.1
    obtain ⟨es, hes, rfl⟩ := den_call hf hd
    have e2 : (Cst.call ws nm ws2 as).toks ++ ts = nm :: b!"(" :: (as.toks ++ b!")" :: ts) := by
      simp [Cst.toks]
    rw [e2]
    refine .function (isName_of hw.2.1) hf (.opening ?_)
    exact ih _ _ hw.2.2.2.2 hes _ _ _ hl (.closing h)
  · intro ws x ws2 ih rest e hw hd ts' ts is hl h
    obtain ⟨a, ha, he⟩ := den_paren hd
    cases he
    have e2 : (Cst.paren ws x ws2).toks ++ ts = b!"(" :: (x.toks ++ b!")" :: ts) := by
      simp [Cst.toks]
    rw [e2]
    exact .opening (ih _ _ hw.2.2 ha _ _ _ (.sym hw.2.1 (by decide) hl) (.closing h))
  · intro ws neg x ih rest e hw hd ts' ts is hl h
    obtain ⟨a, a', ha, he, rfl⟩ := den_sign hd
    cases he
    have := ih _ _ hw.2.1 ha _ _ _ hl h
    cases neg
    · exact Covers.operator (o := .plus) (by decide) this
    · exact Covers.operator (o := .minus) (by decide) this
  · intro x ws ih rest e hw hd ts' ts is hl h
    obtain ⟨a, ha, rfl⟩ := den_fact hd
    have e2 : (Cst.fact x ws).toks ++ ts = x.toks ++ b!"!" :: ts := by simp [Cst.toks]
    have e3 : items (.un .factorial a) ++ is = items a ++ .op .factorial :: is := by simp [items]
    rw [e2, e3]
    exact ih _ _ hw.2.2 ha _ _ _ (.sym hw.2.1 (by decide) hl) (.bang h)
  · intro l ws op r ihl ihr rest e hw hd ts' ts is hl h
    obtain ⟨a, b, b', ha, hb, he, rfl⟩ := den_bin hd
    cases he
    have e2 : (Cst.bin l ws op r).toks ++ ts = l.toks ++ [opChar op] :: (r.toks ++ ts) := by
      simp [Cst.toks]
    have e3 : items (.bin op a b) ++ is = items a ++ .op op :: (items b ++ is) := by simp [items]
    have h1 := hw.2.1
    rw [show ws ++ opChar op :: r.text ++ rest = ws ++ opChar op :: (r.text ++ rest) by simp] at h1
    rw [e2, e3]
    have hr := ihr _ _ hw.2.2.2.1 hb _ _ _ hl h
    refine ihl _ _ h1 ha _ _ _ (.sym hw.1 (symb_op op) (lex_text.1 r _ _ hw.2.2.2.1 hl)) ?_
    by_cases ho : op = .factorial
    · subst ho; exact .bang (hr.start _)
    · exact .operator ho hr
  · intro l r ihl ihr rest e hw hd ts' ts is hl h
    obtain ⟨a, b, b', ha, hb, he, rfl⟩ := den_juxt hd
    cases he
    have e3 : items (.bin .times a b) ++ is = items a ++ .op .times :: (items b ++ is) := by simp [items]
    rw [Cst.toks, List.append_assoc, e3]
    have hr := ihr _ _ hw.2.2.1 hb _ _ _ hl h
    have hlr := lex_text.1 r _ _ hw.2.2.1 hl
    refine ihl _ _ hw.1 ha _ _ _ hlr ?_
    obtain ⟨c, hc, hcc⟩ := hw.2.2.2.2
    rw [lex_firstTok hlr] at hc
    cases hr' : r.toks with
    | nil => exact absurd hr' (toks_ne_nil.1 r)
    | cons t ts2 =>
      rw [hr'] at hc hr
      exact .implied ⟨c, hc, hcc.imp id (Or.imp id And.left)⟩ hr
  · intro x ws ih rest es hw hd ts' ts is hl h
    obtain ⟨a, a', ha, he, rfl⟩ := den_last hd
    cases he
    have e3 : itemsL [a] ++ is = items a ++ is := by simp [itemsL]
    rw [e3]
    exact ih _ _ hw.2 ha _ _ _ (.sym hw.1 (by decide) hl) h
  · intro x ws as ih ihs rest es hw hd ts' ts is hl h
    obtain ⟨a, a', es', ha, he, hes, rfl⟩ := den_more hd
    cases he
    have e2 : (CArgs.more x ws as).toks ++ ts = x.toks ++ b!"," :: (as.toks ++ ts) := by
      simp [CArgs.toks]
    have e3 : itemsL (a :: es') ++ is = items a ++ (itemsL es' ++ is) := by simp [itemsL]
    rw [e2, e3]
    refine ih _ _ hw.2.1 ha _ _ _ (.sym hw.1 (by decide) (lex_text.2 as _ _ hw.2.2 hl)) ?_
    exact .comma (ihs _ _ hw.2.2 hes _ _ _ hl h)

/-! ### Variables -/

/-- The variables among the items. -/
def varItems : List Item → List Bytes
  | [] => []
  | .var n :: is => n :: varItems is
  | _ :: is => varItems is

theorem varItems_append (a b : List Item) : varItems (a ++ b) = varItems a ++ varItems b := by
  induction a with
  | nil => rfl
  | cons i a ih => cases i <;> simp [varItems, ih]

mutual
theorem varItems_items : ∀ e : Elem, varItems (items e) = readVars e
  | .num v => rfl
  | .var n => rfl
  | .bin o l r => by
    rw [items, readVars, varItems_append, varItems, varItems_items l, varItems_items r]
    simp
  | .un o e => by
    have := varItems_items e
    cases o <;> simp [items, readVars, varItems_append, varItems, this]
  | .call f args => by rw [items, readVars, varItems, varItems_itemsL args]; simp
theorem varItems_itemsL : ∀ es : List Elem, varItems (itemsL es) = readVarsL es
  | [] => rfl
  | a :: as => by rw [itemsL, readVarsL, varItems_append, varItems_items a, varItems_itemsL as]
end

theorem opChar_not_letter (o : Op) : ¬ letter (opChar o) := by cases o <;> decide

theorem isName_letter {c : UInt8} (h : IsName [c]) : letter c := by
  obtain ⟨⟨d, hd, hl⟩, -⟩ := h
  cases hd; exact hl

theorem literal_not_name {t rest : Bytes} {v : F64} (h : Literal t rest v) : ¬ IsName t := by
  rintro ⟨⟨c, hc, hl⟩, -⟩
  obtain ⟨mant, ip, fp, ⟨d, hd, hd'⟩, -, -, h⟩ := h
  have : t.head? = some d := by
    rcases h with ⟨rfl, -⟩ | ⟨e, sg, ds, -, -, -, rfl, -⟩
    · exact hd
    · cases mant with
      | nil => cases hd
      | cons a l => simpa using hd
  rw [this] at hc; cases hc
  have h1 : ∀ c, digit c ∨ c = c!"." → ¬ letter c := forall_byte (by decide +kernel)
  exact h1 _ hd' hl

/-- The first variable without a value is met at the same place in the items and in the
tokens. -/
theorem Covers.first {m : HMap F64} {p : Bool} {ts : List Bytes} {is : List Item} (h : Covers ctx p ts is)
    (n : Bytes) :
    (∃ pre post, varItems is = pre ++ n :: post ∧ (∀ k ∈ pre, m k ≠ none) ∧ m n = none) ↔
    (∃ pre post, ts = pre ++ n :: post ∧ Unset ctx m n ∧ ∀ t ∈ pre, ¬ Unset ctx m t) := by
  have skip : ∀ {t : Bytes} {ts : List Bytes}, ¬ Unset ctx m t →
      ((∃ pre post, t :: ts = pre ++ n :: post ∧ Unset ctx m n ∧ ∀ t ∈ pre, ¬ Unset ctx m t) ↔
       (∃ pre post, ts = pre ++ n :: post ∧ Unset ctx m n ∧ ∀ t ∈ pre, ¬ Unset ctx m t)) := by
    intro t ts ht
    constructor
    · rintro ⟨pre, post, h1, h2, h3⟩
      cases pre with
      | nil => simp at h1; exact absurd (h1.1 ▸ h2) ht
      | cons a pre =>
        simp at h1
        exact ⟨pre, post, h1.2, h2, fun t ht => h3 t (by simp [ht])⟩
    · rintro ⟨pre, post, h1, h2, h3⟩
      refine ⟨t :: pre, post, by simp [h1], h2, ?_⟩
      intro t' ht'
      rcases List.mem_cons.1 ht' with rfl | h
      · exact ht
      · exact h3 _ h
  have sym : ∀ {c : UInt8}, ¬ letter c → ¬ Unset ctx m [c] := fun hc h => hc (isName_letter h.1)
  induction h with
  | done => constructor <;> (rintro ⟨pre, post, h, -⟩; simp [varItems] at h)
  | opening _ ih => exact ih.trans (skip (sym (by decide))).symm
  | closing _ ih => exact ih.trans (skip (sym (by decide))).symm
  | comma _ ih => exact ih.trans (skip (sym (by decide))).symm
  | literal hl _ ih => exact ih.trans (skip (fun h => literal_not_name hl h.1)).symm
  | constant _ hc _ ih =>
    exact ih.trans (skip (fun h => by rw [h.2.1] at hc; cases hc)).symm
  | @named p t ts is hn hv _ ih =>
    by_cases hm : m t = none
    · constructor
      · rintro ⟨pre, post, h1, h2, h3⟩
        cases pre with
        | nil =>
          simp [varItems] at h1
          obtain ⟨rfl, -⟩ := h1
          exact ⟨[], ts, rfl, ⟨hn, hv, hm⟩, by simp⟩
        | cons a pre =>
          simp [varItems] at h1
          exact absurd (h1.1 ▸ hm) (h2 a (by simp))
      · rintro ⟨pre, post, h1, h2, h3⟩
        cases pre with
        | nil =>
          simp at h1
          obtain ⟨rfl, -⟩ := h1
          exact ⟨[], varItems is, rfl, by simp, hm⟩
        | cons a pre =>
          simp at h1
          exact absurd (h1.1 ▸ ⟨hn, hv, hm⟩) (h3 a (by simp))
    · refine Iff.trans ?_ (ih.trans (skip (fun h => hm h.2.2)).symm)
      constructor
      · rintro ⟨pre, post, h1, h2, h3⟩
        cases pre with
        | nil => simp [varItems] at h1; exact absurd (h1.1 ▸ h3) hm
        | cons a pre =>
          simp [varItems] at h1
          exact ⟨pre, post, h1.2, fun k hk => h2 k (by simp [hk]), h3⟩
      · rintro ⟨pre, post, h1, h2, h3⟩
        refine ⟨t :: pre, post, by simp [varItems, h1], ?_, h3⟩
        intro k hk
        rcases List.mem_cons.1 hk with rfl | h
        · exact hm
        · exact h2 k h
  | function _ hf _ ih =>
    exact ih.trans (skip (fun h => by rw [h.2.1] at hf; cases hf)).symm
  | bang _ ih => exact ih.trans (skip (sym (by decide))).symm
  | operator _ _ ih => exact ih.trans (skip (sym (opChar_not_letter _))).symm
  | implied _ _ ih => exact ih

/-! ### Simplification keeps the order -/

theorem _root_.Xprs.BinShape.order {op : Op} {l r e : Elem} (h : BinShape op l r e) :
    (readVars e).Sublist (readVars l ++ readVars r) := by
  cases h with
  | left => exact List.sublist_append_left _ _
  | right => exact List.sublist_append_right _ _
  | num x => rw [readVars]; exact List.nil_sublist _
  | neg _ => rw [readVars]; exact List.sublist_append_right _ _
  | plus b _ hr => subst hr; simp [readVars]
  | both a b hl hr => subst hl hr; simp [readVars]
  | same => simp [readVars]

theorem _root_.Xprs.UnShape.order {op : Op} {a e : Elem} (h : UnShape op a e) :
    (readVars e).Sublist (readVars a) := by
  cases h with
  | same _ => simp [readVars]
  | operand => exact List.Sublist.refl _
  | num x => rw [readVars]; exact List.nil_sublist _

mutual
theorem simplify_order {w : World} : ∀ (e : Elem) {e' : Elem},
    simplify cfg w e = .ok e' → (readVars e').Sublist (readVars e)
  | .num x, e', h => by rw [simplify] at h; cases h; exact List.Sublist.refl _
  | .var x, e', h => by rw [simplify] at h; cases h; exact List.Sublist.refl _
  | .bin op l r, e', h => by
    obtain ⟨l', r', hl, hr, hb⟩ := simplify_bin_ok h
    rw [readVars]
    exact (simpBin_shape hb).order.trans ((simplify_order l hl).append (simplify_order r hr))
  | .un op a, e', h => by
    obtain ⟨a', ha, hb⟩ := simplify_un_ok h
    rw [readVars]
    exact (simpUn_shape hb).order.trans (simplify_order a ha)
  | .call f args, e', h => by
    obtain ⟨args', ha, hb⟩ := simplify_call_ok h
    rw [readVars]
    rcases simpCall_shape hb with rfl | ⟨x, rfl⟩
    · rw [readVars]; exact simplifyL_order args ha
    · rw [readVars]; exact List.nil_sublist _
theorem simplifyL_order {w : World} : ∀ (es : List Elem) {es' : List Elem},
    simplifyL cfg w es = .ok es' → (readVarsL es').Sublist (readVarsL es)
  | [], es', h => by rw [simplifyL] at h; cases h; exact List.Sublist.refl _
  | a :: as, es', h => by
    obtain ⟨a', as', ha, has, rfl⟩ := simplifyL_cons_ok h
    rw [readVarsL, readVarsL]
    exact (simplify_order a ha).append (simplifyL_order as has)
end

mutual
theorem simplifyFor_order {w : World} {x : Bytes} {v : F64} : ∀ (e : Elem) {e' : Elem},
    simplifyFor cfg w x v e = .ok e' → (readVars e').Sublist (readVars e)
  | .num y, e', h => by rw [simplifyFor] at h; cases h; exact List.Sublist.refl _
  | .var y, e', h => by
    rw [simplifyFor] at h
    split at h
    · cases h; exact List.nil_sublist _
    · cases h; exact List.Sublist.refl _
  | .bin op l r, e', h => by
    obtain ⟨l', r', hl, hr, hb⟩ := simplifyFor_bin_ok h
    have := simplify_order _ hb
    rw [readVars] at this ⊢
    exact this.trans ((simplifyFor_order l hl).append (simplifyFor_order r hr))
  | .un op a, e', h => by
    obtain ⟨a', ha, hb⟩ := simplifyFor_un_ok h
    have := simplify_order _ hb
    rw [readVars] at this ⊢
    exact this.trans (simplifyFor_order a ha)
  | .call f args, e', h => by
    obtain ⟨args', ha, hb⟩ := simplifyFor_call_ok h
    have := simplify_order _ hb
    rw [readVars] at this ⊢
    exact this.trans (simplifyForL_order args ha)
theorem simplifyForL_order {w : World} {x : Bytes} {v : F64} : ∀ (es : List Elem) {es' : List Elem},
    simplifyForL cfg w x v es = .ok es' → (readVarsL es').Sublist (readVarsL es)
  | [], es', h => by rw [simplifyForL] at h; cases h; exact List.Sublist.refl _
  | a :: as, es', h => by
    obtain ⟨a', as', ha, has, rfl⟩ := simplifyForL_cons_ok h
    rw [readVarsL, readVarsL]
    exact (simplifyFor_order a ha).append (simplifyForL_order as has)
end

/-- The variables of the denoted tree are tokens of the text, in the same order. -/
theorem order_toks {fin : Elem → PM Elem}
    (hf : ∀ e e', fin e = .ok e' → (readVars e').Sublist (readVars e)) :
    (∀ (x : Cst) (e : Elem) (rest : Bytes), x.wf cfg fin ctx rest → x.den fin ctx = .ok e →
      (readVars e).Sublist x.toks) ∧
    (∀ (as : CArgs) (es : List Elem) (rest : Bytes), as.wf cfg fin ctx rest → as.den fin ctx = .ok es →
      (readVarsL es).Sublist as.toks) := by
  refine cst_ind ?_ ?_ ?_ ?_ ?_ ?_ ?_ ?_ ?_ ?_
  · intro ws txt v e rest hw hd
    rw [Cst.den] at hd; cases hd; exact List.nil_sublist _
  · intro ws nm e rest hw hd
    rcases den_name hd with ⟨v, hv, rfl⟩ | ⟨hc, rfl⟩
    · exact List.nil_sublist _
    · exact List.Sublist.refl _
  · intro ws nm ws2 as ih e rest hw hd
    obtain ⟨f, hf, -⟩ := hw.2.2.2.1
    obtain ⟨es, hes, rfl⟩ := den_call hf hd
    rw [Cst.toks, readVars]
    exact (((ih _ _ hw.2.2.2.2 hes).trans (List.sublist_append_left _ _)).cons _).cons _
  · intro ws x ws2 ih e rest hw hd
    obtain ⟨a, ha, he⟩ := den_paren hd
    rw [Cst.toks]
    exact (((hf _ _ he).trans (ih _ _ hw.2.2 ha)).trans (List.sublist_append_left _ _)).cons _
  · intro ws neg x ih e rest hw hd
    obtain ⟨a, a', ha, he, rfl⟩ := den_sign hd
    rw [Cst.toks, readVars]
    exact ((hf _ _ he).trans (ih _ _ hw.2.1 ha)).cons _
  · intro x ws ih e rest hw hd
    obtain ⟨a, ha, rfl⟩ := den_fact hd
    rw [Cst.toks, readVars]
    exact (ih _ _ hw.2.2 ha).trans (List.sublist_append_left _ _)
  · intro l ws op r ihl ihr e rest hw hd
    obtain ⟨a, b, b', ha, hb, he, rfl⟩ := den_bin hd
    rw [Cst.toks, readVars]
    exact (ihl _ _ hw.2.1 ha).append (((hf _ _ he).trans (ihr _ _ hw.2.2.2.1 hb)).cons _)
  · intro l r ihl ihr e rest hw hd
    obtain ⟨a, b, b', ha, hb, he, rfl⟩ := den_juxt hd
    rw [Cst.toks, readVars]
    exact (ihl _ _ hw.1 ha).append ((hf _ _ he).trans (ihr _ _ hw.2.2.1 hb))
  · intro x ws ih es rest hw hd
    obtain ⟨a, a', ha, he, rfl⟩ := den_last hd
    have e3 : readVarsL [a'] = readVars a' := by simp [readVarsL]
    rw [CArgs.toks, e3]
    exact (hf _ _ he).trans (ih _ _ hw.2 ha)
  · intro x ws as ih ihs es rest hw hd
    obtain ⟨a, a', es', ha, he, hes, rfl⟩ := den_more hd
    rw [CArgs.toks, readVarsL]
    exact ((hf _ _ he).trans (ih _ _ hw.2.1 ha)).append ((ihs _ _ hw.2.2 hes).cons _)

end Spec
end Xprs
