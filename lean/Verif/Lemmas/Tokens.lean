import Verif.Lemmas.Layout
import Verif.Lemmas.Nearest
import Verif.Lemmas.Written
/-
Texts in parentheses, adjacent literals, and the shape of literals.
-/
namespace Xprs
open Spec

/-! ### A closing parenthesis or a comma behind a text -/

/-- What ends the expression in front of it. -/
def Closer (d : UInt8) : Prop := d = c!")" ∨ d = c!","

theorem closer_paren : Closer c!")" := .inl rfl
theorem closer_comma : Closer c!"," := .inr rfl

theorem Closer.elim {P : UInt8 → Prop} {d : UInt8} (hd : Closer d) (h1 : P c!")") (h2 : P c!",") :
    P d := by
  rcases hd with rfl | rfl
  · exact h1
  · exact h2

theorem firstTok_close {d : UInt8} (hd : Closer d) (rest u : Bytes) :
    firstTok (rest ++ d :: u) = firstTok rest ∨
    (firstTok rest = none ∧ firstTok (rest ++ d :: u) = some d) := by
  induction rest with
  | nil => right; exact ⟨rfl, firstTok_cons (hd.elim (P := fun d => ¬ space d) (by decide) (by decide))⟩
  | cons c rest ih =>
    simp only [List.cons_append, firstTok]
    split
    · exact ih
    · left; rfl

theorem head_close {d : UInt8} {rest u : Bytes} {c : UInt8} (h : (rest ++ d :: u).head? = some c) :
    rest.head? = some c ∨ c = d := by
  cases rest with
  | nil => right; cases h; rfl
  | cons d rest => left; exact h

theorem expStart_close {d : UInt8} (hc : Closer d) :
    ∀ {rest u : Bytes}, expStart (rest ++ d :: u) → expStart rest := by
  have hnd : ¬ digit d := hc.elim (P := fun d => ¬ digit d) (by decide) (by decide)
  have hne : d ≠ c!"e" ∧ d ≠ c!"E" ∧ d ≠ c!"+" ∧ d ≠ c!"-" :=
    hc.elim (P := fun d => d ≠ c!"e" ∧ d ≠ c!"E" ∧ d ≠ c!"+" ∧ d ≠ c!"-") (by decide) (by decide)
  rintro rest u ⟨e, sg, d', t, he, hsg, hd, heq0⟩
  match rest, heq0 with
  | [], heq =>
    simp only [List.nil_append, List.cons_append, List.cons.injEq] at heq
    rcases he with rfl | rfl
    · exact absurd heq.1 hne.1
    · exact absurd heq.1 hne.2.1
  | [a], heq =>
    simp only [List.nil_append, List.cons_append, List.cons.injEq] at heq
    rcases hsg with rfl | rfl | rfl <;>
      simp only [List.nil_append, List.cons_append, List.cons.injEq] at heq
    · obtain ⟨_, rfl, _⟩ := heq; exact absurd hd hnd
    · exact absurd heq.2.1 hne.2.2.1
    · exact absurd heq.2.1 hne.2.2.2
  | a :: b :: rest, heq =>
    simp only [List.cons_append, List.cons.injEq] at heq
    obtain ⟨rfl, heq⟩ := heq
    by_cases hb : digit b
    · exact ⟨a, [], b, rest, he, .inl rfl, hb, rfl⟩
    · rcases hsg with rfl | rfl | rfl <;>
        simp only [List.nil_append, List.cons_append, List.cons.injEq] at heq
      · obtain ⟨rfl, _⟩ := heq; exact absurd hd hb
      all_goals
        obtain ⟨rfl, heq⟩ := heq
        cases rest with
        | nil =>
          simp only [List.nil_append, List.cons.injEq] at heq
          obtain ⟨rfl, _⟩ := heq; exact absurd hd hnd
        | cons f rest =>
          simp only [List.cons_append, List.cons.injEq] at heq
          obtain ⟨rfl, _⟩ := heq
          exact ⟨a, [_], f, rest, he, by simp, hd, rfl⟩

theorem literal_close {d : UInt8} (hd : Closer d) {txt rest u : Bytes} {v : F64}
    (h : Literal txt rest v) : Literal txt (rest ++ d :: u) v := by
  obtain ⟨mant, ip, fp, h1, h2, h3, h⟩ := h
  refine ⟨mant, ip, fp, h1, h2, h3, ?_⟩
  rcases h with ⟨ht, h4, h5, hv⟩ | ⟨e, sg, ds, he, hne, hds, ht, hr, h⟩
  · refine .inl ⟨ht, ?_, ?_, hv⟩
    · intro c hc
      rcases head_close hc with hc | rfl
      · exact h4 c hc
      · exact hd.elim (P := fun d => ¬ mantChar d) (by decide) (by decide)
    · exact fun h => h5 (expStart_close hd h)
  · refine .inr ⟨e, sg, ds, he, hne, hds, ht, ?_, h⟩
    intro c hc
    rcases head_close hc with hc | rfl
    · exact hr c hc
    · exact hd.elim (P := fun d => ¬ digit d) (by decide) (by decide)

theorem name_close {d : UInt8} (hd : Closer d) {nm rest u : Bytes} (h : Name nm rest) :
    Name nm (rest ++ d :: u) := by
  refine ⟨h.1, h.2.1, fun c hc => ?_⟩
  rcases head_close hc with hc | rfl
  · exact h.2.2 c hc
  · exact hd.elim (P := fun d => ¬ nameChar d) (by decide) (by decide)

section
variable {cfg : Cfg} {fin : Elem → PM Elem} {ctx : Context} {d : UInt8}

theorem stops_close (hd : Closer d) {q : Nat} {P : Prop} {rest u : Bytes} (h : stops cfg q P rest) :
    stops cfg q P (rest ++ d :: u) := by
  intro c hc
  rcases firstTok_close hd rest u with h1 | ⟨_, h1⟩
  · rw [h1] at hc; exact h c hc
  · rw [h1] at hc; cases hc
    refine ⟨?_, ?_, ?_⟩
    · intro op ho
      rcases hd with rfl | rfl <;> cases op <;> cases ho
    · intro h; exact absurd h (hd.elim (P := fun d => ¬ (lower d ∨ d = c!"(")) (by decide) (by decide))
    · intro h; exact absurd h (hd.elim (P := fun d => ¬ digit d) (by decide) (by decide))

theorem noBang_close (hd : Closer d) {rest u : Bytes} (h : noBang rest) : noBang (rest ++ d :: u) := by
  unfold noBang at h ⊢
  rcases firstTok_close hd rest u with h1 | ⟨_, h1⟩
  · rwa [h1]
  · rw [h1]; exact hd.elim (P := fun d => ¬ some d = some c!"!") (by decide) (by decide)

theorem closed_close (hd : Closer d) {rest u : Bytes} : ∀ x : Cst, x.closed cfg fin ctx rest →
    x.closed cfg fin ctx (rest ++ d :: u)
  | .num .., h => noBang_close hd h
  | .name .., h => noBang_close hd h
  | .call .., h => noBang_close hd h
  | .paren .., h => noBang_close hd h
  | .sign _ _ x, h => ⟨stops_close hd h.1, closed_close hd x h.2⟩
  | .fact _ _, _ => trivial
  | .bin _ _ _ r, h => ⟨stops_close hd h.1, closed_close hd r h.2⟩
  | .juxt _ r, h => ⟨stops_close hd h.1, closed_close hd r h.2⟩

/-- A legal text stays legal if a closing parenthesis or a comma follows somewhere behind
it. -/
theorem wf_close (hd : Closer d) (u : Bytes) :
    (∀ (x : Cst) (rest : Bytes), x.wf cfg fin ctx rest → x.wf cfg fin ctx (rest ++ d :: u)) ∧
    (∀ (as : CArgs) (rest : Bytes), as.wf cfg fin ctx rest → as.wf cfg fin ctx (rest ++ d :: u)) := by
  refine cst_ind ?_ ?_ ?_ ?_ ?_ ?_ ?_ ?_ ?_ ?_
  · intro ws txt v rest h; exact ⟨h.1, literal_close hd h.2⟩
  · intro ws nm rest h; exact ⟨h.1, name_close hd h.2.1, h.2.2⟩
  · intro ws nm ws2 as ih rest h
    exact ⟨h.1, h.2.1, h.2.2.1, h.2.2.2.1, ih _ h.2.2.2.2⟩
  · intro ws x ws2 ih rest h
    have := ih _ h.2.2
    rw [List.append_assoc, List.cons_append] at this
    exact ⟨h.1, h.2.1, this⟩
  · intro ws neg x ih rest h
    exact ⟨h.1, ih _ h.2.1, h.2.2⟩
  · intro x ws ih rest h
    have := ih _ h.2.2
    rw [List.append_assoc, List.cons_append] at this
    exact ⟨h.1, h.2.1, this⟩
  · intro l ws op r ihl ihr rest h
    obtain ⟨h1, h2, h3, h4, h5⟩ := h
    have a := ihl _ h2
    have b := closed_close hd (u := u) _ h3
    rw [List.append_assoc] at a b
    exact ⟨h1, a, b, ihr _ h4, h5⟩
  · intro l r ihl ihr rest h
    obtain ⟨h1, h2, h3, h4, c, hc, hl⟩ := h
    have a := ihl _ h1
    have b := closed_close hd (u := u) _ h2
    rw [List.append_assoc] at a b
    refine ⟨a, b, ihr _ h3, h4, c, ?_, hl⟩
    rw [← List.append_assoc]
    rcases firstTok_close hd (r.text ++ rest) u with h | ⟨h, _⟩
    · rw [h]; exact hc
    · rw [h] at hc; cases hc
  · intro x ws ih rest h
    have := ih _ h.2
    rw [List.append_assoc, List.cons_append] at this
    exact ⟨h.1, this⟩
  · intro x ws as ih ihs rest h
    have := ih _ h.2.1
    have e : ws ++ c!"," :: (as.text ++ c!")" :: rest) ++ d :: u =
        ws ++ c!"," :: (as.text ++ c!")" :: (rest ++ d :: u)) := by simp
    rw [e] at this
    exact ⟨h.1, this, ihs _ h.2.2⟩

end

/-- The result for a text in parentheses. -/
theorem parseImpl_paren {cfg : Cfg} {w : World} {ctx : Context} {s ws ws' : Bytes} {x : Xpr}
    (h : parseImpl cfg w ctx s = .ok x) (hw : spaces ws) (hw' : spaces ws') :
    parseImpl cfg w ctx (ws ++ c!"(" :: s ++ c!")" :: ws') =
      match finOf cfg w x.root with
      | .ok e => .ok ⟨e, findVars e []⟩
      | .error p => .panic p := by
  obtain ⟨c, tw, rfl, h2, h3, h4, h5⟩ := parseImpl_ok h
  have e : ws ++ c!"(" :: (c.text ++ tw) ++ c!")" :: ws' = (Cst.paren ws c tw).text ++ ws' := by
    simp [Cst.text]
  rw [e, parseImpl_text cfg w ctx (.paren ws c tw) ws' ⟨hw, h2, (wf_close closer_paren ws').1 c tw h3⟩ hw']
  have : (Cst.paren ws c tw).meaning (finOf cfg w) ctx = finOf cfg w x.root := by
    rw [Cst.meaning] at h4 ⊢
    rw [Cst.den]
    cases hd : c.den (finOf cfg w) ctx with
    | error p => rw [hd] at h4; cases h4
    | ok a =>
      rw [hd] at h4
      simp only at h4 ⊢
      rw [h4]
  rw [this]
  cases finOf cfg w x.root <;> rfl

/-! ### Adjacent literals -/

/-- The token is a number literal. -/
def numTok (t : Bytes) : Prop := ∃ c, t.head? = some c ∧ numStart c

/-- The tokens end where an operand is complete: the last one is no `(` and no `,`. -/
def opener (t : Bytes) : Prop := t = b!"(" ∨ t = b!","

/-- Nothing, or something that ends with `(` or `,`. -/
def fresh (pre : List Bytes) : Prop := ∀ p o, pre = p ++ [o] → opener o

theorem fresh_append {a b : List Bytes} (hb : b ≠ []) : fresh (a ++ b) ↔ fresh b := by
  obtain ⟨b', o, rfl⟩ : ∃ b' o, b = b' ++ [o] := ⟨_, _, (List.dropLast_concat_getLast hb).symm⟩
  constructor
  · intro h p q he
    exact h (a ++ p) q (by rw [he]; simp)
  · intro h p q he
    rw [← List.append_assoc] at he
    obtain ⟨_, he⟩ := List.append_inj' he rfl
    cases he
    exact h b' _ rfl

theorem toks_ne : (∀ x : Cst, x.toks ≠ []) ∧ (∀ as : CArgs, as.toks ≠ []) := by
  refine cst_ind ?_ ?_ ?_ ?_ ?_ ?_ ?_ ?_ ?_ ?_ <;> simp_all [Cst.toks, CArgs.toks]

theorem append_last {a b p : List Bytes} {o : Bytes} (hb : b ≠ []) (h : a ++ b = p ++ [o]) :
    ∃ q, p = a ++ q ∧ b = q ++ [o] := by
  obtain ⟨b', o', rfl⟩ : ∃ b' o, b = b' ++ [o] := ⟨_, _, (List.dropLast_concat_getLast hb).symm⟩
  rw [← List.append_assoc] at h
  obtain ⟨h1, h2⟩ := List.append_inj' h rfl
  cases h2
  exact ⟨b', h1.symm, rfl⟩

section
variable {cfg : Cfg} {fin : Elem → PM Elem} {ctx : Context}

/-- The last token of an expression is no `(` and no `,`. -/
theorem toks_last : ∀ (x : Cst) {rest : Bytes}, x.wf cfg fin ctx rest → ∀ p o, x.toks = p ++ [o] → ¬ opener o
  | .num ws txt v, rest, h, p, o, he => by
    obtain ⟨_, he⟩ := List.append_inj' (s₁ := []) (t₁ := [txt]) he rfl
    cases he
    obtain ⟨c, h1, h2⟩ := literal_head h.2
    rintro (rfl | rfl) <;> cases h1 <;> revert h2 <;> decide
  | .name ws nm, rest, h, p, o, he => by
    obtain ⟨_, he⟩ := List.append_inj' (s₁ := []) (t₁ := [nm]) he rfl
    cases he
    obtain ⟨c, h1, h2⟩ := h.2.1.1
    rintro (rfl | rfl) <;> cases h1 <;> revert h2 <;> decide
  | .call ws nm ws2 as, rest, h, p, o, he => by
    obtain ⟨_, he⟩ := List.append_inj' (s₁ := nm :: b!"(" :: as.toks) (t₁ := [b!")"]) he rfl
    cases he
    rintro (h | h) <;> cases h
  | .paren ws x ws2, rest, h, p, o, he => by
    obtain ⟨_, he⟩ := List.append_inj' (s₁ := b!"(" :: x.toks) (t₁ := [b!")"]) he rfl
    cases he
    rintro (h | h) <;> cases h
  | .sign ws neg x, rest, h, p, o, he => by
    obtain ⟨q, rfl, he'⟩ := append_last (a := [_]) (toks_ne.1 x) he
    exact toks_last x h.2.1 q o he'
  | .fact x ws, rest, h, p, o, he => by
    obtain ⟨_, he⟩ := List.append_inj' (s₁ := x.toks) (t₁ := [b!"!"]) he rfl
    cases he
    rintro (h | h) <;> cases h
  | .bin l ws op r, rest, h, p, o, he => by
    rw [Cst.toks, List.append_cons] at he
    obtain ⟨q, rfl, he'⟩ := append_last (toks_ne.1 r) he
    exact toks_last r h.2.2.2.1 q o he'
  | .juxt l r, rest, h, p, o, he => by
    obtain ⟨q, rfl, he'⟩ := append_last (toks_ne.1 r) he
    exact toks_last r h.2.2.1 q o he'

/-- An expression whose last token is a literal that begins an operand, at the start or
after `(` or `,`, is that literal. -/
theorem toks_num : ∀ (x : Cst) {rest : Bytes}, x.wf cfg fin ctx rest → ∀ pre a, x.toks = pre ++ [a] →
    numTok a → fresh pre → pre = [] ∧ ∃ ws v, x = .num ws a v
  | .num ws txt v, rest, h, p, o, he, _, _ => by
    obtain ⟨h1, he⟩ := List.append_inj' (s₁ := []) (t₁ := [txt]) he rfl
    cases he
    exact ⟨h1.symm, ws, v, rfl⟩
  | .name ws nm, rest, h, p, o, he, hn, _ => by
    obtain ⟨_, he⟩ := List.append_inj' (s₁ := []) (t₁ := [nm]) he rfl
    cases he
    obtain ⟨c, h1, h2⟩ := h.2.1.1
    obtain ⟨d, d1, d2⟩ := hn
    rw [h1] at d1; cases d1
    exact absurd h2 ((starts c).1 d2).2.1
  | .call ws nm ws2 as, rest, h, p, o, he, hn, _ => by
    obtain ⟨_, he⟩ := List.append_inj' (s₁ := nm :: b!"(" :: as.toks) (t₁ := [b!")"]) he rfl
    cases he
    obtain ⟨d, d1, d2⟩ := hn; cases d1; exact absurd d2 (by decide)
  | .paren ws x ws2, rest, h, p, o, he, hn, _ => by
    obtain ⟨_, he⟩ := List.append_inj' (s₁ := b!"(" :: x.toks) (t₁ := [b!")"]) he rfl
    cases he
    obtain ⟨d, d1, d2⟩ := hn; cases d1; exact absurd d2 (by decide)
  | .sign ws neg x, rest, h, p, o, he, hn, hf => by
    obtain ⟨q, rfl, he'⟩ := append_last (a := [_]) (toks_ne.1 x) he
    by_cases hq : q = []
    · subst hq
      rcases hf [] _ rfl with h | h <;> cases neg <;> exact absurd h (by decide)
    · obtain ⟨h, _⟩ := toks_num x h.2.1 q o he' hn ((fresh_append hq).1 hf)
      exact absurd h hq
  | .fact x ws, rest, h, p, o, he, hn, _ => by
    obtain ⟨_, he⟩ := List.append_inj' (s₁ := x.toks) (t₁ := [b!"!"]) he rfl
    cases he
    obtain ⟨d, d1, d2⟩ := hn; cases d1; exact absurd d2 (by decide)
  | .bin l ws op r, rest, h, p, o, he, hn, hf => by
    rw [Cst.toks, List.append_cons] at he
    obtain ⟨q, rfl, he'⟩ := append_last (toks_ne.1 r) he
    by_cases hq : q = []
    · subst hq
      rcases hf l.toks [opChar op] (by simp) with h | h <;> cases op <;> exact absurd h (by decide)
    · obtain ⟨h, _⟩ := toks_num r h.2.2.2.1 q o he' hn ((fresh_append hq).1 hf)
      exact absurd h hq
  | .juxt l r, rest, h, p, o, he, hn, hf => by
    obtain ⟨q, rfl, he'⟩ := append_last (toks_ne.1 r) he
    by_cases hq : q = []
    · subst hq
      obtain ⟨b', o, hb⟩ : ∃ b' o, l.toks = b' ++ [o] := ⟨_, _, (List.dropLast_concat_getLast (toks_ne.1 l)).symm⟩
      exact absurd (hf b' o (by rw [List.append_nil]; exact hb)) (toks_last l h.1 b' o hb)
    · obtain ⟨h, _⟩ := toks_num r h.2.2.1 q o he' hn ((fresh_append hq).1 hf)
      exact absurd h hq

/-- No two literals stand next to each other at the beginning of an operand. -/
def NoAdj (ts : List Bytes) : Prop :=
  ∀ pre a b post, ts = pre ++ a :: b :: post → numTok a → numTok b → ¬ fresh pre

theorem noAdj_append {l r : List Bytes} (hl : NoAdj l) (hr : NoAdj r)
    (hm : ∀ pre a b post, l = pre ++ [a] → r = b :: post → numTok a → numTok b → ¬ fresh pre) :
    NoAdj (l ++ r) := by
  intro pre a b post he ha hb hf
  rcases List.append_eq_append_iff.1 he with ⟨q, h1, h2⟩ | ⟨q, h1, h2⟩
  · -- pre = l ++ q
    by_cases hq : q = []
    · exact hr q a b post h2 ha hb (by subst hq; intro p o h; simp at h)
    · subst h1
      exact hr q a b post h2 ha hb ((fresh_append hq).1 hf)
  · match q, h1, h2 with
    | [], h1, h2 => exact hr [] a b post (by simpa using h2.symm) ha hb (by intro p o h; simp at h)
    | [c], h1, h2 =>
      simp only [List.cons_append, List.nil_append, List.cons.injEq] at h2
      obtain ⟨rfl, h2⟩ := h2
      exact hm pre a b post h1 h2.symm ha hb hf
    | c :: d :: q, h1, h2 =>
      simp only [List.cons_append, List.cons.injEq] at h2
      obtain ⟨rfl, rfl, _⟩ := h2
      exact hl pre a b q h1 ha hb hf

theorem noAdj_single (t : Bytes) : NoAdj [t] := by
  intro pre a b post h
  have := congrArg List.length h
  simp at this; omega

theorem noAdj_sym_right {ts us : List Bytes} {c : UInt8} (hc : symb c) (h : NoAdj ts) (h2 : NoAdj us) :
    NoAdj (ts ++ [c] :: us) := by
  have hn : ¬ numTok [c] := by
    rintro ⟨d, d1, d2⟩; cases d1; exact absurd hc ((starts c).1 d2).2.2
  refine noAdj_append h ?_ ?_
  · refine noAdj_append (l := [[c]]) (noAdj_single _) h2 ?_
    intro pre a b post h1 _ ha
    obtain ⟨_, h1⟩ := List.append_inj' (s₁ := []) (t₁ := [[c]]) h1 rfl
    cases h1
    exact absurd ha hn
  · intro pre a b post _ h1 _ hb
    cases h1; exact absurd hb hn

theorem toks_noAdj :
    (∀ (x : Cst) (rest : Bytes) (ts : List Bytes), x.wf cfg fin ctx rest → Lex rest ts → NoAdj x.toks) ∧
    (∀ (as : CArgs) (rest : Bytes) (ts : List Bytes), as.wf cfg fin ctx rest → Lex rest ts → NoAdj as.toks) := by
  have nil : NoAdj [] := by
    intro pre a b post h
    have := congrArg List.length h
    simp at this
  refine cst_ind ?_ ?_ ?_ ?_ ?_ ?_ ?_ ?_ ?_ ?_
  · intro ws txt v rest ts hw h; exact noAdj_single _
  · intro ws nm rest ts hw h; exact noAdj_single _
  · intro ws nm ws2 as ih rest ts hw h
    rw [Cst.toks]
    exact noAdj_sym_right (ts := [nm]) (c := c!"(") (by decide) (noAdj_single _)
      (noAdj_sym_right (c := c!")") (by decide) (ih _ _ hw.2.2.2.2 h) nil)
  · intro ws x ws2 ih rest ts hw h
    rw [Cst.toks]
    exact noAdj_sym_right (ts := []) (c := c!"(") (by decide) nil
      (noAdj_sym_right (c := c!")") (by decide) (ih _ _ hw.2.2 (.sym hw.2.1 (by decide) h)) nil)
  · intro ws neg x ih rest ts hw h
    rw [Cst.toks]
    exact noAdj_sym_right (ts := []) (by cases neg <;> decide) nil (ih _ _ hw.2.1 h)
  · intro x ws ih rest ts hw h
    rw [Cst.toks]
    exact noAdj_sym_right (c := c!"!") (by decide) (ih _ _ hw.2.2 (.sym hw.2.1 (by decide) h)) nil
  · intro l ws op r ihl ihr rest ts hw h
    have h1 := hw.2.1
    rw [show ws ++ opChar op :: r.text ++ rest = ws ++ opChar op :: (r.text ++ rest) by simp] at h1
    rw [Cst.toks]
    exact noAdj_sym_right (symb_op op)
      (ihl _ _ h1 (.sym hw.1 (symb_op op) (lex_text.1 r _ _ hw.2.2.2.1 h))) (ihr _ _ hw.2.2.2.1 h)
  · intro l r ihl ihr rest ts hw h
    have hr := lex_text.1 r _ _ hw.2.2.1 h
    rw [Cst.toks]
    refine noAdj_append (ihl _ _ hw.1 hr) (ihr _ _ hw.2.2.1 h) ?_
    intro pre a b post h1 h2 ha hb hf
    obtain ⟨_, ws, v, rfl⟩ := toks_num l hw.1 pre a h1 ha hf
    obtain ⟨_, _, _, _, c, hc, hl⟩ := hw
    rw [lex_firstTok hr, h2] at hc
    obtain ⟨d, d1, d2⟩ := hb
    simp only [List.cons_append, List.head?_cons, Option.bind_some] at hc
    rw [d1] at hc; cases hc
    rcases hl with hl | hl | ⟨_, hl⟩
    · exact absurd (Or.inl hl) ((starts _).1 d2).2.1
    · subst hl; exact absurd d2 (by decide)
    · exact hl ⟨v, rfl⟩
  · intro x ws ih rest ts hw h
    exact ih _ _ hw.2 (.sym hw.1 (by decide) h)
  · intro x ws as ih ihs rest ts hw h
    rw [CArgs.toks]
    exact noAdj_sym_right (c := c!",") (by decide)
      (ih _ _ hw.2.1 (.sym hw.1 (by decide) (lex_text.2 as _ _ hw.2.2 h))) (ihs _ _ hw.2.2 h)

end

/-! ### Literals -/

theorem literal_iff_decimal {txt rest : Bytes} {v : F64} :
    Literal txt rest v ↔
    ∃ M E, Decimal txt rest M E ∧ NearestF64 (decNum M E * 2 ^ 1074) (decDen E) v := by
  constructor
  · rintro ⟨mant, ip, fp, h1, h2, h3, h⟩
    rcases h with ⟨ht, h4, h5, rfl⟩ | ⟨e, sg, ds, he, hne, hd, ht, hr, ⟨hs, rfl⟩ | ⟨hs, rfl⟩⟩
    · exact ⟨_, _, ⟨mant, ip, fp, h1, h2, h3, rfl, .inl ⟨ht, h4, h5, rfl⟩⟩, ofDecimal_nearest _ _⟩
    · exact ⟨_, _, ⟨mant, ip, fp, h1, h2, h3, rfl, .inr ⟨e, sg, ds, he, hne, hd, ht, hr, .inl ⟨hs, rfl⟩⟩⟩,
        ofDecimal_nearest _ _⟩
    · exact ⟨_, _, ⟨mant, ip, fp, h1, h2, h3, rfl, .inr ⟨e, sg, ds, he, hne, hd, ht, hr, .inr ⟨hs, rfl⟩⟩⟩,
        ofDecimal_nearest _ _⟩
  · rintro ⟨M, E, ⟨mant, ip, fp, h1, h2, h3, rfl, h⟩, hv⟩
    have := nearestF64_unique hv (ofDecimal_nearest _ _)
    subst this
    rcases h with ⟨ht, h4, h5, rfl⟩ | ⟨e, sg, ds, he, hne, hd, ht, hr, ⟨hs, rfl⟩ | ⟨hs, rfl⟩⟩
    · exact ⟨mant, ip, fp, h1, h2, h3, .inl ⟨ht, h4, h5, rfl⟩⟩
    · exact ⟨mant, ip, fp, h1, h2, h3, .inr ⟨e, sg, ds, he, hne, hd, ht, hr, .inl ⟨hs, rfl⟩⟩⟩
    · exact ⟨mant, ip, fp, h1, h2, h3, .inr ⟨e, sg, ds, he, hne, hd, ht, hr, .inr ⟨hs, rfl⟩⟩⟩

theorem mantShape_of_ok {mant : Bytes} (hm : ∀ c ∈ mant, mantChar c) (h : mantOk mant) :
    ∃ ip fp, MantShape mant ip fp := by
  obtain ⟨⟨d, hd1, hd2⟩, hc⟩ := h
  generalize hf : mant.filter (fun c => decide (c ≠ c!"_")) = f
  have hd' : d ∈ f := by
    rw [← hf, List.mem_filter]
    exact ⟨hd1, decide_eq_true (digit_no_underscore hd2)⟩
  have hall : ∀ c ∈ f, digit c ∨ c = c!"." := by
    intro c hc
    rw [← hf, List.mem_filter] at hc
    rcases hm c hc.1 with h | h | h
    · exact .inl h
    · exact .inr h
    · subst h; exact absurd hc.2 (by decide)
  have hcount : f.count c!"." ≤ 1 := by
    rw [← hf, List.count_filter (by decide)]; exact hc
  by_cases hdot : c!"." ∈ f
  · obtain ⟨ip, fp, rfl⟩ := List.append_of_mem hdot
    rw [List.count_append, List.count_cons_self] at hcount
    have h1 : c!"." ∉ ip := fun h => by have := List.count_pos_iff.2 h; omega
    have h2 : c!"." ∉ fp := fun h => by have := List.count_pos_iff.2 h; omega
    have g1 : ∀ c ∈ ip, digit c := fun c hc => (hall c (by simp [hc])).resolve_right fun h => h1 (h ▸ hc)
    have g2 : ∀ c ∈ fp, digit c := fun c hc => (hall c (by simp [hc])).resolve_right fun h => h2 (h ▸ hc)
    refine ⟨ip, fp, g1, g2, ?_, .inl (by rw [hf]; simp)⟩
    intro hn
    simp only [List.append_eq_nil_iff] at hn
    obtain ⟨rfl, rfl⟩ := hn
    simp only [List.nil_append, List.mem_singleton] at hd'
    subst hd'
    exact absurd hd2 (by decide)
  · refine ⟨f, [], fun c hc => (hall c hc).resolve_right fun h => hdot (h ▸ hc), by simp, ?_, .inr ⟨rfl, hf⟩⟩
    simpa using List.ne_nil_of_mem hd'

theorem ok_of_mantShape {mant ip fp : Bytes} (h : MantShape mant ip fp) : mantOk mant := by
  obtain ⟨h1, h2, h3, h⟩ := h
  have nd : ∀ l : Bytes, (∀ c ∈ l, digit c) → l.count c!"." = 0 := fun l hl =>
    List.count_eq_zero.2 fun h => absurd (hl _ h) (by decide)
  have hcount : mant.count c!"." = (mant.filter (fun c => decide (c ≠ c!"_"))).count c!"." :=
    (List.count_filter (by decide)).symm
  have hsub : ∀ c, c ∈ mant.filter (fun c => decide (c ≠ c!"_")) → c ∈ mant := fun c hc =>
    (List.mem_filter.1 hc).1
  unfold mantOk
  rw [hcount]
  obtain ⟨d, hd⟩ := List.exists_mem_of_ne_nil _ h3
  have hdd : digit d := (List.mem_append.1 hd).elim (h1 d) (h2 d)
  rcases h with h | ⟨rfl, h⟩
  · refine ⟨⟨d, hsub d ?_, hdd⟩, ?_⟩
    · rw [h]
      rcases List.mem_append.1 hd with hd | hd <;> simp [hd]
    · rw [h, List.count_append, List.count_append, nd ip h1, nd fp h2]; decide
  · refine ⟨⟨d, hsub d ?_, hdd⟩, ?_⟩
    · rw [h]; simpa using hd
    · rw [h, nd ip h1]; decide

/-- A mantissa that is fine begins a literal; the exponent belongs to it just if what
follows begins with one. -/
theorem exists_decimal {mant rest : Bytes} (h : Mantissa mant rest) (hok : mantOk mant) :
    (¬ expStart rest → ∃ M E, Decimal mant rest M E) ∧
    (expStart rest → ∃ ex rest' M E, ex ≠ [] ∧ rest = ex ++ rest' ∧ Decimal (mant ++ ex) rest' M E) := by
  obtain ⟨h1, h2, h3⟩ := h
  obtain ⟨ip, fp, hs⟩ := mantShape_of_ok h2 hok
  refine ⟨fun hn => ⟨_, _, mant, ip, fp, h1, h2, hs, rfl, .inl ⟨rfl, h3, hn, rfl⟩⟩, ?_⟩
  rintro ⟨e, sg, d, t, he, hsg, hd, rfl⟩
  have hds : ∀ c ∈ t.takeWhile isDigit, digit c := fun c hc => (isDigit_iff c).1 (mem_takeWhile c hc)
  have hrest : notHead digit (t.dropWhile isDigit) := by
    intro c hc
    have := head_dropWhile hc
    rw [← isDigit_iff, this]; decide
  have hap : t = t.takeWhile isDigit ++ t.dropWhile isDigit := (List.takeWhile_append_dropWhile).symm
  generalize t.takeWhile isDigit = ds at *
  generalize t.dropWhile isDigit = r at *
  subst hap
  have hdd : ∀ c ∈ d :: ds, digit c := by
    intro c hc
    rcases List.mem_cons.1 hc with rfl | hc
    · exact hd
    · exact hds c hc
  rcases hsg with hsg | hsg | hsg
  · exact ⟨e :: (sg ++ d :: ds), r, _, _, by simp, by simp, mant, ip, fp, h1, h2, hs, rfl,
      .inr ⟨e, sg, d :: ds, he, by simp, hdd, rfl, hrest, .inl ⟨.inl hsg, rfl⟩⟩⟩
  · exact ⟨e :: (sg ++ d :: ds), r, _, _, by simp, by simp, mant, ip, fp, h1, h2, hs, rfl,
      .inr ⟨e, sg, d :: ds, he, by simp, hdd, rfl, hrest, .inl ⟨.inr hsg, rfl⟩⟩⟩
  · exact ⟨e :: (sg ++ d :: ds), r, _, _, by simp, by simp, mant, ip, fp, h1, h2, hs, rfl,
      .inr ⟨e, sg, d :: ds, he, by simp, hdd, rfl, hrest, .inr ⟨hsg, rfl⟩⟩⟩

/-- A literal has a fine mantissa. -/
theorem mantissa_of_literal {mant rest txt rest' : Bytes} {v : F64} (h : Mantissa mant rest)
    (hl : Literal txt rest' v) (e : mant ++ rest = txt ++ rest') : mantOk mant := by
  obtain ⟨m, ip, fp, h1, h2, h3, hl⟩ := hl
  have : ∃ r, txt ++ rest' = m ++ r ∧ notHead mantChar r := by
    rcases hl with ⟨rfl, h4, _⟩ | ⟨f, sg, ds, he, _, _, rfl, _⟩
    · exact ⟨_, rfl, h4⟩
    · refine ⟨f :: (sg ++ ds) ++ rest', by simp, ?_⟩
      intro c hc
      cases hc
      rcases he with rfl | rfl <;> decide
  obtain ⟨r, hr, hn⟩ := this
  rw [hr] at e
  have key : ∀ {a r : Bytes}, (∀ c ∈ a, mantChar c) → notHead mantChar r →
      (a ++ r).takeWhile isNumChar = a := by
    intro a r ha hr
    refine takeWhile_append_stop (fun c hc => (isNumChar_iff c).2 (ha c hc)) fun c hc => ?_
    have := hr c hc
    rw [← isNumChar_iff] at this
    simpa using this
  have e1 := key h.2.1 h.2.2
  rw [e, key h2 hn] at e1
  subst e1
  exact ok_of_mantShape h3

end Xprs
