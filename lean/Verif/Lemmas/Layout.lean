import Verif.Lemmas.Render
/-
Texts with the same tokens: a legal text stays legal, with the same meaning, under any
change of the whitespace between its tokens.
-/
namespace Xprs
open Spec

/-! ### Tokens of a text -/

theorem spaces_split : ∀ {ws ws' a b : Bytes} {c d : UInt8}, spaces ws → spaces ws' → a.head? = some c →
    ¬ space c → b.head? = some d → ¬ space d → ws ++ a = ws' ++ b → ws = ws' ∧ a = b
  | [], [], a, b, c, d, _, _, _, _, _, _, h => ⟨rfl, h⟩
  | [], e :: ws', a, b, c, d, _, h2, h3, h4, _, _, h => by
    exfalso
    simp only [List.nil_append] at h
    subst h
    simp only [List.cons_append, List.head?_cons, Option.some.injEq] at h3
    exact h4 (h3 ▸ h2 e (by simp))
  | e :: ws, [], a, b, c, d, h1, _, _, _, h5, h6, h => by
    exfalso
    simp only [List.nil_append] at h
    subst h
    simp only [List.cons_append, List.head?_cons, Option.some.injEq] at h5
    exact h6 (h5 ▸ h1 e (by simp))
  | e :: ws, f :: ws', a, b, c, d, h1, h2, h3, h4, h5, h6, h => by
    simp only [List.cons_append, List.cons.injEq] at h
    obtain ⟨rfl, h⟩ := h
    obtain ⟨rfl, rfl⟩ := spaces_split (fun c hc => h1 c (by simp [hc])) (fun c hc => h2 c (by simp [hc]))
      h3 h4 h5 h6 h
    exact ⟨rfl, rfl⟩

/-- First characters of numbers, names and symbols are apart. -/
def numStart (c : UInt8) : Prop := digit c ∨ c = c!"."
instance : DecidablePred numStart := fun _ => inferInstanceAs (Decidable (_ ∨ _))
def symb (c : UInt8) : Prop := c ∈ b!"(),+-*/^%!"
instance : DecidablePred symb := fun _ => inferInstanceAs (Decidable (_ ∈ _))

theorem starts : ∀ c, (numStart c → ¬ space c ∧ ¬ letter c ∧ ¬ symb c) ∧
    (letter c → ¬ space c ∧ ¬ numStart c ∧ ¬ symb c) ∧ (symb c → ¬ space c ∧ ¬ numStart c ∧ ¬ letter c) :=
  forall_byte (by decide +kernel)

theorem literal_head {txt rest : Bytes} {v : F64} (h : Literal txt rest v) :
    ∃ c, txt.head? = some c ∧ numStart c := by
  obtain ⟨mant, ip, fp, ⟨c, hc, hn⟩, _, _, h⟩ := h
  cases mant with
  | nil => cases hc
  | cons d mant =>
    cases hc
    rcases h with ⟨rfl, _⟩ | ⟨e, sg, ds, _, _, _, rfl, _⟩
    · exact ⟨c, rfl, hn⟩
    · exact ⟨c, rfl, hn⟩

theorem head_append {a b : Bytes} {c : UInt8} (h : a.head? = some c) : (a ++ b).head? = some c := by
  cases a with
  | nil => cases h
  | cons d a => exact h

theorem literal_unique {txt rest txt' rest' : Bytes} {v v' : F64} (h : Literal txt rest v)
    (h' : Literal txt' rest' v') (e : txt ++ rest = txt' ++ rest') : txt = txt' ∧ rest = rest' ∧ v = v' := by
  have h1 := parseNumber_literal 0 h
  have h2 := parseNumber_literal 0 h'
  rw [e, h2] at h1
  simp only [R.ok.injEq, Elem.num.injEq, St.mk.injEq, Nat.zero_add] at h1
  obtain ⟨rfl, hl, rfl⟩ := h1
  exact ⟨(List.append_inj e hl.symm).1, rfl, rfl⟩

theorem name_unique {nm rest nm' rest' : Bytes} (h : Name nm rest) (h' : Name nm' rest')
    (e : nm ++ rest = nm' ++ rest') : nm = nm' ∧ rest = rest' := by
  have h1 := name_takeWhile h
  rw [e, name_takeWhile h'] at h1
  subst h1
  exact ⟨rfl, List.append_cancel_left e⟩

theorem spaces_no_head {ws s ws' : Bytes} {c : UInt8} (h : spaces ws) (hs : s.head? = some c)
    (hc : ¬ space c) : ws ≠ ws' ++ s := by
  rintro rfl
  cases s with
  | nil => cases hs
  | cons d s => cases hs; exact hc (h c (by simp))

theorem lex_nil_inv {ws : Bytes} {ts : List Bytes} (hw : spaces ws) (h : Lex ws ts) : ts = [] := by
  generalize hs : ws = s at h
  cases h with
  | nil _ => rfl
  | @num ws' txt rest v ts _ hl _ =>
    obtain ⟨c, h1, h2⟩ := literal_head hl
    rw [List.append_assoc] at hs
    exact absurd hs (spaces_no_head hw (head_append h1) ((starts c).1 h2).1)
  | @name ws' nm rest ts _ hl _ =>
    obtain ⟨c, h1, h2⟩ := hl.1
    rw [List.append_assoc] at hs
    exact absurd hs (spaces_no_head hw (head_append h1) ((starts c).2.1 h2).1)
  | @sym ws' rest c ts _ hc _ => exact absurd hs (spaces_no_head hw rfl ((starts c).2.2 hc).1)

theorem lex_num_inv {ws txt rest : Bytes} {v : F64} {ts : List Bytes} (hw : spaces ws)
    (hl : Literal txt rest v) (h : Lex (ws ++ txt ++ rest) ts) : ∃ ts', ts = txt :: ts' ∧ Lex rest ts' := by
  obtain ⟨c, h1, h2⟩ := literal_head hl
  have hh : (txt ++ rest).head? = some c := head_append h1
  have hc := (starts c).1 h2
  rw [List.append_assoc] at h
  generalize hs : ws ++ (txt ++ rest) = s at h
  cases h with
  | nil h => exact absurd hs.symm (spaces_no_head h hh hc.1)
  | @num ws' txt' rest' v' ts hw' hl' h =>
    obtain ⟨d, d1, d2⟩ := literal_head hl'
    rw [List.append_assoc] at hs
    obtain ⟨rfl, e⟩ := spaces_split hw hw' hh hc.1 (head_append d1) ((starts d).1 d2).1 hs
    obtain ⟨rfl, rfl, _⟩ := literal_unique hl hl' e
    exact ⟨ts, rfl, h⟩
  | @name ws' nm' rest' ts hw' hl' h =>
    obtain ⟨d, d1, d2⟩ := hl'.1
    rw [List.append_assoc] at hs
    obtain ⟨rfl, e⟩ := spaces_split hw hw' hh hc.1 (head_append d1) ((starts d).2.1 d2).1 hs
    rw [e, head_append d1] at hh; cases hh
    exact absurd d2 hc.2.1
  | @sym ws' rest' d ts hw' hd h =>
    obtain ⟨rfl, e⟩ := spaces_split hw hw' hh hc.1 (b := d :: rest') rfl ((starts d).2.2 hd).1 hs
    rw [e] at hh; cases hh
    exact absurd hd hc.2.2

theorem lex_name_inv {ws nm rest : Bytes} {ts : List Bytes} (hw : spaces ws)
    (hl : Name nm rest) (h : Lex (ws ++ nm ++ rest) ts) : ∃ ts', ts = nm :: ts' ∧ Lex rest ts' := by
  obtain ⟨c, h1, h2⟩ := hl.1
  have hh : (nm ++ rest).head? = some c := head_append h1
  have hc := (starts c).2.1 h2
  rw [List.append_assoc] at h
  generalize hs : ws ++ (nm ++ rest) = s at h
  cases h with
  | nil h => exact absurd hs.symm (spaces_no_head h hh hc.1)
  | @num ws' txt' rest' v' ts hw' hl' h =>
    obtain ⟨d, d1, d2⟩ := literal_head hl'
    rw [List.append_assoc] at hs
    obtain ⟨rfl, e⟩ := spaces_split hw hw' hh hc.1 (head_append d1) ((starts d).1 d2).1 hs
    rw [e, head_append d1] at hh; cases hh
    exact absurd d2 hc.2.1
  | @name ws' nm' rest' ts hw' hl' h =>
    obtain ⟨d, d1, d2⟩ := hl'.1
    rw [List.append_assoc] at hs
    obtain ⟨rfl, e⟩ := spaces_split hw hw' hh hc.1 (head_append d1) ((starts d).2.1 d2).1 hs
    obtain ⟨rfl, rfl⟩ := name_unique hl hl' e
    exact ⟨ts, rfl, h⟩
  | @sym ws' rest' d ts hw' hd h =>
    obtain ⟨rfl, e⟩ := spaces_split hw hw' hh hc.1 (b := d :: rest') rfl ((starts d).2.2 hd).1 hs
    rw [e] at hh; cases hh
    exact absurd hd hc.2.2

theorem lex_sym_inv {ws rest : Bytes} {c : UInt8} {ts : List Bytes} (hw : spaces ws)
    (hl : symb c) (h : Lex (ws ++ c :: rest) ts) : ∃ ts', ts = [c] :: ts' ∧ Lex rest ts' := by
  have hc := (starts c).2.2 hl
  generalize hs : ws ++ (c :: rest) = s at h
  cases h with
  | nil h => exact absurd hs.symm (spaces_no_head (s := c :: rest) h rfl hc.1)
  | @num ws' txt' rest' v' ts hw' hl' h =>
    obtain ⟨d, d1, d2⟩ := literal_head hl'
    rw [List.append_assoc] at hs
    obtain ⟨rfl, e⟩ := spaces_split (a := c :: rest) hw hw' rfl hc.1 (head_append d1) ((starts d).1 d2).1 hs
    have := head_append (b := rest') d1
    rw [← e] at this; cases this
    exact absurd d2 hc.2.1
  | @name ws' nm' rest' ts hw' hl' h =>
    obtain ⟨d, d1, d2⟩ := hl'.1
    rw [List.append_assoc] at hs
    obtain ⟨rfl, e⟩ := spaces_split (a := c :: rest) hw hw' rfl hc.1 (head_append d1) ((starts d).2.1 d2).1 hs
    have := head_append (b := rest') d1
    rw [← e] at this; cases this
    exact absurd d2 hc.2.2
  | @sym ws' rest' d ts hw' hd h =>
    obtain ⟨rfl, e⟩ := spaces_split (a := c :: rest) hw hw' rfl hc.1 (b := d :: rest') rfl
      ((starts d).2.2 hd).1 hs
    cases e
    exact ⟨ts, rfl, h⟩

/-- The tokens of a text are determined. -/
theorem lex_unique {s : Bytes} {ts ts' : List Bytes} (h : Lex s ts) (h' : Lex s ts') : ts = ts' := by
  induction h generalizing ts' with
  | nil hw => exact (lex_nil_inv hw h').symm
  | num hw hl _ ih =>
    obtain ⟨t, rfl, h2⟩ := lex_num_inv hw hl h'
    rw [ih h2]
  | name hw hl _ ih =>
    obtain ⟨t, rfl, h2⟩ := lex_name_inv hw hl h'
    rw [ih h2]
  | sym hw hl _ ih =>
    obtain ⟨t, rfl, h2⟩ := lex_sym_inv hw hl h'
    rw [ih h2]

theorem lex_firstTok {s : Bytes} {ts : List Bytes} (h : Lex s ts) :
    firstTok s = ts.head?.bind (·.head?) := by
  have key : ∀ {ws t : Bytes} {c : UInt8}, spaces ws → t.head? = some c → ¬ space c →
      firstTok (ws ++ t) = some c := by
    intro ws t c hw ht hc
    rw [firstTok_spaces hw]
    cases t with
    | nil => cases ht
    | cons d t => cases ht; exact firstTok_cons hc
  cases h with
  | nil hw =>
    have := firstTok_spaces (t := []) hw
    rw [List.append_nil] at this; rw [this]; rfl
  | num hw hl _ =>
    obtain ⟨c, h1, h2⟩ := literal_head hl
    rw [List.append_assoc, key hw (head_append h1) ((starts c).1 h2).1]
    exact h1.symm
  | name hw hl _ =>
    obtain ⟨c, h1, h2⟩ := hl.1
    rw [List.append_assoc, key hw (head_append h1) ((starts c).2.1 h2).1]
    exact h1.symm
  | @sym ws rest c ts hw hl _ => rw [key (t := c :: rest) hw rfl ((starts c).2.2 hl).1]; rfl

/-! Inversion of a token sequence with a known first token. -/

theorem lex_cons_num {s txt : Bytes} {ts : List Bytes} {v : F64} (hv : Literal txt [] v)
    (h : Lex s (txt :: ts)) :
    ∃ ws rest, s = ws ++ txt ++ rest ∧ spaces ws ∧ Literal txt rest v ∧ Lex rest ts := by
  obtain ⟨c, h1, h2⟩ := literal_head hv
  generalize ht : txt :: ts = l at h
  cases h with
  | nil _ => cases ht
  | @num ws txt' rest v' ts hw hl h =>
    cases ht
    obtain ⟨_, _, rfl⟩ := literal_unique hv (literal_nil hl) rfl
    exact ⟨ws, rest, rfl, hw, hl, h⟩
  | name hw hl h =>
    cases ht
    obtain ⟨d, d1, d2⟩ := hl.1
    rw [d1] at h1; cases h1
    exact absurd d2 ((starts _).1 h2).2.1
  | @sym ws rest d ts hw hl h =>
    cases ht
    cases h1
    exact absurd hl ((starts _).1 h2).2.2

theorem lex_cons_name {s nm : Bytes} {ts : List Bytes} (hv : IsName nm) (h : Lex s (nm :: ts)) :
    ∃ ws rest, s = ws ++ nm ++ rest ∧ spaces ws ∧ Name nm rest ∧ Lex rest ts := by
  obtain ⟨c, h1, h2⟩ := hv.1
  generalize ht : nm :: ts = l at h
  cases h with
  | nil _ => cases ht
  | num hw hl h =>
    cases ht
    obtain ⟨d, d1, d2⟩ := literal_head hl
    rw [d1] at h1; cases h1
    exact absurd d2 ((starts _).2.1 h2).2.1
  | @name ws nm' rest ts hw hl h =>
    cases ht
    exact ⟨ws, rest, rfl, hw, hl, h⟩
  | @sym ws rest d ts hw hl h =>
    cases ht
    cases h1
    exact absurd hl ((starts _).2.1 h2).2.2

theorem lex_cons_sym {s : Bytes} {c : UInt8} {ts : List Bytes} (hc : symb c) (h : Lex s ([c] :: ts)) :
    ∃ ws rest, s = ws ++ c :: rest ∧ spaces ws ∧ Lex rest ts := by
  generalize ht : [c] :: ts = l at h
  cases h with
  | nil _ => cases ht
  | num hw hl h =>
    cases ht
    obtain ⟨d, d1, d2⟩ := literal_head hl
    cases d1
    exact absurd d2 ((starts _).2.2 hc).2.1
  | name hw hl h =>
    cases ht
    obtain ⟨d, d1, d2⟩ := hl.1
    cases d1
    exact absurd d2 ((starts _).2.2 hc).2.2
  | @sym ws rest d ts hw hl h =>
    cases ht
    exact ⟨ws, rest, rfl, hw, h⟩

theorem lex_done {s : Bytes} (h : Lex s []) : spaces s := by
  generalize ht : ([] : List Bytes) = l at h
  cases h with
  | nil h => exact h
  | _ => cases ht

/-! ### Tokens of a tree -/

mutual
def _root_.Xprs.Spec.Cst.toks : Cst → List Bytes
  | .num _ txt _ => [txt]
  | .name _ nm => [nm]
  | .call _ nm _ as => nm :: b!"(" :: (as.toks ++ [b!")"])
  | .paren _ x _ => b!"(" :: (x.toks ++ [b!")"])
  | .sign _ neg x => [if neg then c!"-" else c!"+"] :: x.toks
  | .fact x _ => x.toks ++ [b!"!"]
  | .bin l _ op r => l.toks ++ [opChar op] :: r.toks
  | .juxt l r => l.toks ++ r.toks
def _root_.Xprs.Spec.CArgs.toks : CArgs → List Bytes
  | .last x _ => x.toks
  | .more x _ as => x.toks ++ b!"," :: as.toks
end

section
variable {cfg : Cfg} {fin : Elem → PM Elem} {ctx : Context}

theorem symb_op (op : Op) : symb (opChar op) := by cases op <;> decide

theorem name_before {nm rest : Bytes} {c : UInt8} {ws : Bytes} (h : Name nm []) (hw : spaces ws)
    (hc : symb c) : Name nm (ws ++ c :: rest) := by
  refine ⟨h.1, h.2.1, ?_⟩
  have h1 : ∀ c, space c ∨ symb c → ¬ nameChar c := forall_byte (by decide +kernel)
  intro d hd
  cases ws with
  | nil => cases hd; exact h1 _ (.inr hc)
  | cons e ws => cases hd; exact h1 _ (.inl (hw d (by simp)))

/-- The text of a tree has the tokens of the tree. -/
theorem lex_text :
    (∀ (x : Cst) (rest : Bytes) (ts : List Bytes), x.wf cfg fin ctx rest → Lex rest ts →
      Lex (x.text ++ rest) (x.toks ++ ts)) ∧
    (∀ (as : CArgs) (rest : Bytes) (ts : List Bytes), as.wf cfg fin ctx rest → Lex rest ts →
      Lex (as.text ++ c!")" :: rest) (as.toks ++ b!")" :: ts)) := by
  have sym0 : ∀ {c : UInt8} {rest : Bytes} {ts : List Bytes}, symb c → Lex rest ts →
      Lex (c :: rest) ([c] :: ts) := fun hc h => Lex.sym (ws := []) (by decide) hc h
  refine cst_ind ?_ ?_ ?_ ?_ ?_ ?_ ?_ ?_ ?_ ?_
  · intro ws txt v rest ts hw h
    exact .num hw.1 hw.2 h
  · intro ws nm rest ts hw h
    exact .name hw.1 hw.2.1 h
  · intro ws nm ws2 as ih rest ts hw h
    have e : (Cst.call ws nm ws2 as).text ++ rest =
        ws ++ nm ++ (ws2 ++ c!"(" :: (as.text ++ c!")" :: rest)) := by simp [Cst.text]
    have e2 : (Cst.call ws nm ws2 as).toks ++ ts = nm :: b!"(" :: (as.toks ++ b!")" :: ts) := by
      simp [Cst.toks]
    rw [e, e2]
    exact .name hw.1 (name_before hw.2.1 hw.2.2.1 (by decide))
      (.sym hw.2.2.1 (by decide) (ih _ _ hw.2.2.2.2 h))
  · intro ws x ws2 ih rest ts hw h
    have e : (Cst.paren ws x ws2).text ++ rest =
        ws ++ c!"(" :: (x.text ++ (ws2 ++ c!")" :: rest)) := by simp [Cst.text]
    have e2 : (Cst.paren ws x ws2).toks ++ ts = b!"(" :: (x.toks ++ b!")" :: ts) := by
      simp [Cst.toks]
    rw [e, e2]
    exact .sym hw.1 (by decide) (ih _ _ hw.2.2 (.sym hw.2.1 (by decide) h))
  · intro ws neg x ih rest ts hw h
    have e : (Cst.sign ws neg x).text ++ rest =
        ws ++ (if neg then c!"-" else c!"+") :: (x.text ++ rest) := by simp [Cst.text]
    rw [e]
    exact .sym hw.1 (by cases neg <;> decide) (ih _ _ hw.2.1 h)
  · intro x ws ih rest ts hw h
    have e : (Cst.fact x ws).text ++ rest = x.text ++ (ws ++ c!"!" :: rest) := by simp [Cst.text]
    have e2 : (Cst.fact x ws).toks ++ ts = x.toks ++ b!"!" :: ts := by simp [Cst.toks]
    rw [e, e2]
    exact ih _ _ hw.2.2 (.sym hw.2.1 (by decide) h)
  · intro l ws op r ihl ihr rest ts hw h
    have e : (Cst.bin l ws op r).text ++ rest = l.text ++ (ws ++ opChar op :: (r.text ++ rest)) := by
      simp [Cst.text]
    have e2 : (Cst.bin l ws op r).toks ++ ts = l.toks ++ [opChar op] :: (r.toks ++ ts) := by
      simp [Cst.toks]
    have h1 := hw.2.1
    rw [show ws ++ opChar op :: r.text ++ rest = ws ++ opChar op :: (r.text ++ rest) by simp] at h1
    rw [e, e2]
    exact ihl _ _ h1 (.sym hw.1 (symb_op op) (ihr _ _ hw.2.2.2.1 h))
  · intro l r ihl ihr rest ts hw h
    rw [Cst.text, Cst.toks, List.append_assoc, List.append_assoc]
    exact ihl _ _ hw.1 (ihr _ _ hw.2.2.1 h)
  · intro x ws ih rest ts hw h
    rw [CArgs.text, CArgs.toks, List.append_assoc]
    exact ih _ _ hw.2 (.sym hw.1 (by decide) h)
  · intro x ws as ih ihs rest ts hw h
    have e : (CArgs.more x ws as).text ++ c!")" :: rest =
        x.text ++ (ws ++ c!"," :: (as.text ++ c!")" :: rest)) := by simp [CArgs.text]
    have e2 : (CArgs.more x ws as).toks ++ b!")" :: ts = x.toks ++ b!"," :: (as.toks ++ b!")" :: ts) := by
      simp [CArgs.toks]
    rw [e, e2]
    exact ih _ _ hw.2.1 (.sym hw.1 (by decide) (ihs _ _ hw.2.2 h))

/-! ### Re-layout -/

theorem stops_congr {q : Nat} {P P' : Prop} {r r' : Bytes} (hP : P ↔ P') (h : firstTok r = firstTok r')
    (hs : stops cfg q P r) : stops cfg q P' r' := by
  intro c hc
  rw [← h] at hc
  have := hs c hc
  exact ⟨this.1, this.2.1, fun hd => (this.2.2 hd).imp id hP.1⟩

/-- `y`, in front of `r'`, is a re-layout of `x`. -/
structure Relaid (cfg : Cfg) (fin : Elem → PM Elem) (ctx : Context) (x y : Cst) : Prop where
  den : y.den fin ctx = x.den fin ctx
  primary : x.primary → y.primary
  chain : y.chain cfg = x.chain cfg
  closed : ∀ r r', firstTok r = firstTok r' → x.closed cfg fin ctx r → y.closed cfg fin ctx r'

theorem Relaid.isNumber {x y : Cst} (h : Relaid cfg fin ctx x y) : isNumber fin ctx x ↔ isNumber fin ctx y := by
  unfold Spec.isNumber; rw [h.den]

theorem relayout :
    (∀ (x : Cst) (rest : Bytes) (ts : List Bytes) (s' : Bytes), x.wf cfg fin ctx rest → Lex rest ts →
      Lex s' (x.toks ++ ts) → ∃ (y : Cst) (rest' : Bytes), s' = y.text ++ rest' ∧ Lex rest' ts ∧
        y.wf cfg fin ctx rest' ∧ Relaid cfg fin ctx x y) ∧
    (∀ (as : CArgs) (rest : Bytes) (ts : List Bytes) (s' : Bytes), as.wf cfg fin ctx rest → Lex rest ts →
      Lex s' (as.toks ++ b!")" :: ts) → ∃ (bs : CArgs) (rest' : Bytes),
        s' = bs.text ++ c!")" :: rest' ∧ Lex rest' ts ∧
        bs.wf cfg fin ctx rest' ∧ bs.den fin ctx = as.den fin ctx ∧ bs.count = as.count) := by
  have nb : ∀ {r r' : Bytes}, firstTok r = firstTok r' → noBang r → noBang r' := by
    intro r r' h hn; unfold noBang at hn ⊢; rwa [← h]
  refine cst_ind ?_ ?_ ?_ ?_ ?_ ?_ ?_ ?_ ?_ ?_
  · intro ws txt v rest ts s' hw h h'
    obtain ⟨ws', rest', rfl, h1, h2, h3⟩ := lex_cons_num (literal_nil hw.2) h'
    exact ⟨.num ws' txt v, rest', rfl, h3, ⟨h1, h2⟩, ⟨rfl, id, rfl, fun _ _ => nb⟩⟩
  · intro ws nm rest ts s' hw h h'
    obtain ⟨ws', rest', rfl, h1, h2, h3⟩ := lex_cons_name (name_isName hw.2.1) h'
    exact ⟨.name ws' nm, rest', rfl, h3, ⟨h1, h2, hw.2.2⟩, ⟨rfl, id, rfl, fun _ _ => nb⟩⟩
  · intro ws nm ws2 as ih rest ts s' hw h h'
    have e2 : (Cst.call ws nm ws2 as).toks ++ ts = nm :: b!"(" :: (as.toks ++ b!")" :: ts) := by
      simp [Cst.toks]
    rw [e2] at h'
    obtain ⟨ws', rest1, rfl, h1, h2, h3⟩ := lex_cons_name (name_isName hw.2.1) h'
    obtain ⟨ws2', rest2, rfl, h4, h5⟩ := lex_cons_sym (by decide) h3
    obtain ⟨bs, rest3, rfl, h6, h7, h8, h9⟩ := ih _ _ _ hw.2.2.2.2 h h5
    refine ⟨.call ws' nm ws2' bs, rest3, by simp [Cst.text], h6,
      ⟨h1, ⟨h2.1, h2.2.1, by intro c hc; cases hc⟩, h4, by rw [h9]; exact hw.2.2.2.1, h7⟩,
      ⟨by rw [Cst.den, Cst.den, h8], id, rfl, fun _ _ => nb⟩⟩
  · intro ws x ws2 ih rest ts s' hw h h'
    have e2 : (Cst.paren ws x ws2).toks ++ ts = b!"(" :: (x.toks ++ b!")" :: ts) := by
      simp [Cst.toks]
    rw [e2] at h'
    obtain ⟨ws', rest1, rfl, h1, h2⟩ := lex_cons_sym (by decide) h'
    obtain ⟨y, rest2, rfl, h3, h4, h5⟩ := ih _ _ _ hw.2.2 (.sym hw.2.1 (by decide) h) h2
    obtain ⟨ws2', rest3, rfl, h6, h7⟩ := lex_cons_sym (by decide) h3
    exact ⟨.paren ws' y ws2', rest3, by simp [Cst.text], h7, ⟨h1, h6, h4⟩,
      ⟨by rw [Cst.den, Cst.den, h5.den], id, rfl, fun _ _ => nb⟩⟩
  · intro ws neg x ih rest ts s' hw h h'
    obtain ⟨ws', rest1, rfl, h1, h2⟩ := lex_cons_sym (by cases neg <;> decide) h'
    obtain ⟨y, rest2, rfl, h3, h4, h5⟩ := ih _ _ _ hw.2.1 h h2
    refine ⟨.sign ws' neg y, rest2, by simp [Cst.text], h3, ⟨h1, h4, by rw [h5.chain]; exact hw.2.2⟩,
      ⟨by rw [Cst.den, Cst.den, h5.den], id, rfl, fun r r' hr hc => ?_⟩⟩
    exact ⟨stops_congr h5.isNumber hr hc.1, h5.closed r r' hr hc.2⟩
  · intro x ws ih rest ts s' hw h h'
    have e2 : (Cst.fact x ws).toks ++ ts = x.toks ++ b!"!" :: ts := by simp [Cst.toks]
    rw [e2] at h'
    obtain ⟨y, rest1, rfl, h3, h4, h5⟩ := ih _ _ _ hw.2.2 (.sym hw.2.1 (by decide) h) h'
    obtain ⟨ws', rest2, rfl, h6, h7⟩ := lex_cons_sym (by decide) h3
    exact ⟨.fact y ws', rest2, by simp [Cst.text], h7, ⟨h5.primary hw.1, h6, h4⟩,
      ⟨by rw [Cst.den, Cst.den, h5.den], id, rfl, fun _ _ _ _ => trivial⟩⟩
  · intro l ws op r ihl ihr rest ts s' hw h h'
    have e2 : (Cst.bin l ws op r).toks ++ ts = l.toks ++ [opChar op] :: (r.toks ++ ts) := by
      simp [Cst.toks]
    rw [e2] at h'
    have e : ws ++ opChar op :: r.text ++ rest = ws ++ opChar op :: (r.text ++ rest) := by simp
    obtain ⟨w1, w2, w3, w4, w5⟩ := hw
    rw [e] at w2 w3
    obtain ⟨a, rest1, rfl, a1, a2, a3⟩ := ihl _ _ _ w2
      (.sym w1 (symb_op op) (lex_text.1 r _ _ w4 h)) h'
    obtain ⟨ws', rest2, rfl, h6, h7⟩ := lex_cons_sym (symb_op op) a1
    obtain ⟨b, rest3, rfl, b1, b2, b3⟩ := ihr _ _ _ w4 h h7
    have e' : ws' ++ opChar op :: b.text ++ rest3 = ws' ++ opChar op :: (b.text ++ rest3) := by simp
    refine ⟨.bin a ws' op b, rest3, by simp [Cst.text], b1, ⟨h6, ?_, ?_, b2, by rw [b3.chain]; exact w5⟩,
      ⟨by rw [Cst.den, Cst.den, a3.den, b3.den], id, by rw [Cst.chain, Cst.chain, a3.chain],
        fun r r' hr hc => ⟨stops_congr b3.isNumber hr hc.1, b3.closed r r' hr hc.2⟩⟩⟩
    · rw [e']; exact a2
    · rw [e']
      refine a3.closed _ _ ?_ w3
      rw [firstTok_spaces w1, firstTok_spaces h6, firstTok_cons (not_space_opChar op),
        firstTok_cons (not_space_opChar op)]
  · intro l r ihl ihr rest ts s' hw h h'
    rw [Cst.toks, List.append_assoc] at h'
    obtain ⟨w2, w3, w4, w5, c, hc, hl⟩ := hw
    have hlr := lex_text.1 r _ _ w4 h
    obtain ⟨a, rest1, rfl, a1, a2, a3⟩ := ihl _ _ _ w2 hlr h'
    obtain ⟨b, rest3, rfl, b1, b2, b3⟩ := ihr _ _ _ w4 h a1
    have hf : firstTok (r.text ++ rest) = firstTok (b.text ++ rest3) := by
      rw [lex_firstTok hlr, lex_firstTok a1]
    refine ⟨.juxt a b, rest3, by simp [Cst.text], b1, ⟨a2, a3.closed _ _ hf w3, b2,
      by rw [b3.chain]; exact w5, c, by rw [← hf]; exact hc, ?_⟩,
      ⟨by rw [Cst.den, Cst.den, a3.den, b3.den], id, by rw [Cst.chain, Cst.chain, a3.chain],
        fun r r' hr hc => ⟨stops_congr b3.isNumber hr hc.1, b3.closed r r' hr hc.2⟩⟩⟩
    exact hl.imp id (Or.imp id (And.imp id fun h => by rwa [← a3.isNumber]))
  · intro x ws ih rest ts s' hw h h'
    obtain ⟨y, rest1, rfl, h3, h4, h5⟩ := ih _ _ _ hw.2 (.sym hw.1 (by decide) h) h'
    obtain ⟨ws', rest2, rfl, h6, h7⟩ := lex_cons_sym (by decide) h3
    exact ⟨.last y ws', rest2, by simp [CArgs.text], h7, ⟨h6, h4⟩,
      by rw [CArgs.den, CArgs.den, h5.den], rfl⟩
  · intro x ws as ih ihs rest ts s' hw h h'
    have e2 : (CArgs.more x ws as).toks ++ b!")" :: ts = x.toks ++ b!"," :: (as.toks ++ b!")" :: ts) := by
      simp [CArgs.toks]
    rw [e2] at h'
    obtain ⟨y, rest1, rfl, h3, h4, h5⟩ := ih _ _ _ hw.2.1
      (.sym hw.1 (by decide) (lex_text.2 as _ _ hw.2.2 h)) h'
    obtain ⟨ws', rest2, rfl, h6, h7⟩ := lex_cons_sym (by decide) h3
    obtain ⟨bs, rest3, rfl, b1, b2, b3, b4⟩ := ihs _ _ _ hw.2.2 h h7
    exact ⟨.more y ws' bs, rest3, by simp [CArgs.text], b1, ⟨h6, h4, b2⟩,
      by rw [CArgs.den, CArgs.den, h5.den, b3], by rw [CArgs.count, CArgs.count, b4]⟩

end

/-- Accepted inputs consist of tokens. -/
theorem parseImpl_lex {cfg : Cfg} {w : World} {ctx : Context} {input : Bytes} {x : Xpr}
    (h : parseImpl cfg w ctx input = .ok x) : ∃ ts, Lex input ts := by
  obtain ⟨c, tw, rfl, h2, h3, h4, h5⟩ := parseImpl_ok h
  exact ⟨_, lex_text.1 c tw [] h3 (.nil h2)⟩

theorem parseImpl_layout {cfg : Cfg} {w : World} {ctx : Context} {s s' : Bytes} {ts : List Bytes} {x : Xpr}
    (hs : Lex s ts) (hs' : Lex s' ts) (h : parseImpl cfg w ctx s = .ok x) :
    parseImpl cfg w ctx s' = .ok x := by
  obtain ⟨c, tw, rfl, h2, h3, h4, h5⟩ := parseImpl_ok h
  have h6 := lex_text.1 c tw [] h3 (.nil h2)
  rw [lex_unique hs h6] at hs'
  obtain ⟨y, tw', rfl, h7, h8, h9⟩ := relayout.1 c tw [] s' h3 (.nil h2) hs'
  rw [parseImpl_text cfg w ctx y tw' h8 (lex_done h7), Cst.meaning, h9.den]
  rw [Cst.meaning] at h4
  cases hd : c.den (finOf cfg w) ctx with
  | error p => rw [hd] at h4; cases h4
  | ok e =>
    rw [hd] at h4
    simp only at h4 ⊢
    rw [h4]
    cases x; simp only at h5 ⊢; rw [h5]

end Xprs
