import Verif.Spec.Inline
import Verif.Lemmas.Rename
import Verif.Lemmas.Compose
import Verif.Lemmas.Constant
/-
Replacing names by texts in parentheses.
-/
namespace Xprs
open Spec

/-- The tokens with the names that `E` gives a piece for replaced by its tokens. -/
def inlined (E : Bytes → Option Cst) : List Bytes → List Bytes
  | [] => []
  | t :: ts => match E t with
    | some c => c.toks ++ inlined E ts
    | none => t :: inlined E ts

theorem inlined_append (E : Bytes → Option Cst) : ∀ a b : List Bytes,
    inlined E (a ++ b) = inlined E a ++ inlined E b
  | [], b => rfl
  | t :: a, b => by
    rw [List.cons_append, inlined, inlined]
    cases E t <;> simp [inlined_append E a b]

/-- The pieces are primary, in parentheses, and mean what `σ` says. -/
structure Pieces (cfg : Cfg) (ctx : Context) (E : Bytes → Option Cst) (σ : Bytes → Elem) : Prop where
  name : ∀ n c, E n = some c → IsName n
  var : ∀ n c, E n = some c → lookup ctx n = .var n
  primary : ∀ n c, E n = some c → c.primary
  chain : ∀ n c, E n = some c → c.chain cfg = 7
  wf : ∀ n c, E n = some c → ∀ rest, c.wf cfg .ok ctx rest
  closed : ∀ n c, E n = some c → ∀ rest, noBang rest → c.closed cfg .ok ctx rest
  den : ∀ n c, E n = some c → c.den .ok ctx = .ok (σ n)
  head : ∀ n c, E n = some c → ∃ t, c.toks = b!"(" :: t
  other : ∀ n, E n = none → σ n = .var n

/-- No piece is a number, or no number follows a replaced name or `)`. -/
def Clear (E : Bytes → Option Cst) (σ : Bytes → Elem) (ts : List Bytes) : Prop :=
  (∀ n c, E n = some c → ∀ v, σ n ≠ .num v) ∨
  ∀ p a b q, ts = p ++ a :: b :: q → digitTok b → E a = none ∧ a ≠ b!")"

theorem Clear.right {E : Bytes → Option Cst} {σ : Bytes → Elem} {a b : List Bytes}
    (h : Clear E σ (a ++ b)) : Clear E σ b :=
  h.imp id fun h p x y q he => h (a ++ p) x y q (by rw [he]; simp)

/-- The first characters of a text and the text with its names replaced. -/
def TokIn (a b : Option UInt8) : Prop :=
  a = b ∨ ∃ c, a = some c ∧ lower c ∧ b = some c!"("

theorem noBang_in {r r' : Bytes} (h : TokIn (firstTok r) (firstTok r')) (hn : noBang r) : noBang r' := by
  unfold noBang at hn ⊢
  rcases h with h | ⟨c, _, _, h⟩
  · rwa [← h]
  · rw [h]; decide

section
variable {cfg : Cfg} {ctx : Context} {E : Bytes → Option Cst} {σ : Bytes → Elem}

/-- `y` is `x`, with names replaced. -/
structure InlinedAs (cfg : Cfg) (ctx : Context) (E : Bytes → Option Cst) (σ : Bytes → Elem) (x y : Cst) :
    Prop where
  den : y.den .ok ctx = (x.den .ok ctx).map (subst σ)
  primary : x.primary → y.primary
  chain : y.chain cfg = x.chain cfg
  number : ∀ p o, x.toks = p ++ [o] → E o = none → o ≠ b!")" → (isNumber .ok ctx x ↔ isNumber .ok ctx y)
  closed : ∀ r r' ts, Lex r ts → TokIn (firstTok r) (firstTok r') → Clear E σ (x.toks ++ ts) →
    x.closed cfg .ok ctx r → y.closed cfg .ok ctx r'

theorem subst_num_iff (hp : Pieces cfg ctx E σ) (hn : ∀ n c, E n = some c → ∀ v, σ n ≠ .num v)
    {e : Elem} {v : F64} : subst σ e = .num v ↔ e = .num v := by
  cases e with
  | var n =>
    rw [subst]
    cases h : E n with
    | none => rw [hp.other n h]
    | some c => exact ⟨fun k => absurd k (hn n c h v), fun k => by cases k⟩
  | _ => simp [subst]

theorem InlinedAs.digit (hp : Pieces cfg ctx E σ) {x y : Cst} (h : InlinedAs cfg ctx E σ x y)
    {r : Bytes} {ts : List Bytes} (hl : Lex r ts) (hc : Clear E σ (x.toks ++ ts)) {c : UInt8}
    (h1 : firstTok r = some c) (h2 : digit c) : isNumber .ok ctx x ↔ isNumber .ok ctx y := by
  rcases hc with hc | hc
  · unfold isNumber
    rw [h.den]
    cases x.den .ok ctx with
    | error p => simp [Except.map]
    | ok e => simp [Except.map, subst_num_iff hp hc]
  · obtain ⟨p, o, ho⟩ : ∃ p o, x.toks = p ++ [o] :=
      ⟨_, _, (List.dropLast_concat_getLast (toks_ne.1 x)).symm⟩
    rw [lex_firstTok hl] at h1
    cases ts with
    | nil => cases h1
    | cons b q =>
      obtain ⟨k1, k2⟩ := hc p o b q (by rw [ho]; simp) ⟨c, h1, h2⟩
      exact h.number p o ho k1 k2

theorem InlinedAs.stops (hp : Pieces cfg ctx E σ) {x y : Cst} (h : InlinedAs cfg ctx E σ x y) {q : Nat}
    {r r' : Bytes} {ts : List Bytes} (hl : Lex r ts) (ht : TokIn (firstTok r) (firstTok r'))
    (hc : Clear E σ (x.toks ++ ts)) (hs : stops cfg q (isNumber .ok ctx x) r) :
    stops cfg q (isNumber .ok ctx y) r' := by
  intro d hd
  rcases ht with ht | ⟨c, h1, h2, h3⟩
  · have := hs d (ht.trans hd)
    exact ⟨this.1, this.2.1, fun hg => (this.2.2 hg).imp id (h.digit hp hl hc (ht.trans hd) hg).1⟩
  · rw [hd] at h3
    cases h3
    refine ⟨fun op ho => ?_, fun _ => (hs c h1).2.1 (.inl h2), fun hg => ?_⟩
    · exact absurd ho (by cases op <;> decide)
    · exact absurd hg (by decide)

/-- The first tokens of a text and the text with its names replaced. -/
theorem firstTok_in (hp : Pieces cfg ctx E σ) {r r' : Bytes} {ts : List Bytes} (h : Lex r ts)
    (h' : Lex r' (inlined E ts)) {c : UInt8} (hc : firstTok r = some c)
    (hl : lower c ∨ c = c!"(" ∨ Spec.digit c) : TokIn (firstTok r) (firstTok r') := by
  rw [lex_firstTok h] at hc ⊢
  rw [lex_firstTok h']
  cases ts with
  | nil => exact .inl rfl
  | cons t ts =>
    rw [inlined]
    cases he : E t with
    | none => exact .inl rfl
    | some d =>
      obtain ⟨u, hu⟩ := hp.head t d he
      obtain ⟨b, b1, b2⟩ := (hp.name t d he).1
      simp only [List.head?_cons, Option.bind_some] at hc ⊢
      obtain rfl : b = c := by rw [b1] at hc; exact Option.some.inj hc
      refine .inr ⟨b, b1, ?_, by rw [hu]; rfl⟩
      have := letter_ops b b2
      rcases hl with hl | hl | hl
      · exact hl
      · exact absurd hl this.2.1
      · exact absurd hl this.2.2.1

theorem none_of_not_name (hp : Pieces cfg ctx E σ) {t : Bytes} (h : ¬ IsName t) : E t = none := by
  cases he : E t with
  | none => rfl
  | some c => exact absurd (hp.name t c he) h

theorem none_sym (hp : Pieces cfg ctx E σ) {c : UInt8} (h : symb c) : E [c] = none := by
  refine none_of_not_name hp fun hn => ?_
  obtain ⟨⟨d, h1, h2⟩, -⟩ := hn
  cases h1
  exact ((starts c).2.2 h).2.2 h2

theorem none_num (hp : Pieces cfg ctx E σ) {t rest : Bytes} {v : F64} (h : Literal t rest v) : E t = none := by
  refine none_of_not_name hp fun hn => ?_
  obtain ⟨⟨d, h1, h2⟩, -⟩ := hn
  obtain ⟨c, h3, h4⟩ := literal_head h
  rw [h1] at h3
  cases h3
  exact ((starts d).1 h4).2.1 h2

theorem inlined_cons {t : Bytes} {ts : List Bytes} (h : E t = none) :
    inlined E (t :: ts) = t :: inlined E ts := by rw [inlined, h]

/-- What is left of a sequence of tokens is the sequence of tokens of some text. -/
theorem lex_right : ∀ {a : List Bytes} {s : Bytes} {b : List Bytes}, Lex s (a ++ b) → ∃ r, Lex r b
  | [], s, b, h => ⟨s, h⟩
  | t :: a, s, b, h => by
    rw [List.cons_append] at h
    cases h with
    | num _ _ h => exact lex_right h
    | name _ _ h => exact lex_right h
    | sym _ _ h => exact lex_right h

theorem inline_cst (hp : Pieces cfg ctx E σ) :
    (∀ (x : Cst) (rest : Bytes) (ts : List Bytes) (s' : Bytes), x.wf cfg .ok ctx rest → Lex rest ts →
      Clear E σ (x.toks ++ ts) → Lex s' (inlined E (x.toks ++ ts)) →
      ∃ (y : Cst) (rest' : Bytes), s' = y.text ++ rest' ∧
        Lex rest' (inlined E ts) ∧ y.wf cfg .ok ctx rest' ∧ InlinedAs cfg ctx E σ x y) ∧
    (∀ (as : CArgs) (rest : Bytes) (ts : List Bytes) (s' : Bytes), as.wf cfg .ok ctx rest → Lex rest ts →
      Clear E σ (as.toks ++ b!")" :: ts) → Lex s' (inlined E (as.toks ++ b!")" :: ts)) →
      ∃ (bs : CArgs) (rest' : Bytes),
        s' = bs.text ++ c!")" :: rest' ∧ Lex rest' (inlined E ts) ∧
        bs.wf cfg .ok ctx rest' ∧ bs.den .ok ctx = (as.den .ok ctx).map (List.map (subst σ)) ∧
        bs.count = as.count) := by
  have nosign : ∀ ws neg x, ¬ isNumber .ok ctx (.sign ws neg x) := by
    rintro ws neg x ⟨v, hv⟩
    rw [Cst.den] at hv
    cases hd : x.den .ok ctx <;> rw [hd] at hv <;> cases hv
  have nofact : ∀ x ws, ¬ isNumber .ok ctx (.fact x ws) := by
    rintro x ws ⟨v, hv⟩
    rw [Cst.den] at hv
    cases hd : x.den .ok ctx <;> rw [hd] at hv <;> cases hv
  have nobin : ∀ l ws op r, ¬ isNumber .ok ctx (.bin l ws op r) := by
    rintro l ws op r ⟨v, hv⟩
    rw [Cst.den] at hv
    cases hd : l.den .ok ctx <;> rw [hd] at hv
    · cases hv
    · cases hd : r.den .ok ctx <;> rw [hd] at hv <;> cases hv
  have nojuxt : ∀ l r, ¬ isNumber .ok ctx (.juxt l r) := by
    rintro l r ⟨v, hv⟩
    rw [Cst.den] at hv
    cases hd : l.den .ok ctx <;> rw [hd] at hv
    · cases hv
    · cases hd : r.den .ok ctx <;> rw [hd] at hv <;> cases hv
  refine cst_ind ?_ ?_ ?_ ?_ ?_ ?_ ?_ ?_ ?_ ?_
  · intro ws txt v rest ts s' hw h hk h'
    rw [Cst.toks, List.singleton_append, inlined_cons (none_num hp hw.2)] at h'
    obtain ⟨ws', rest', rfl, h1, h2, h3⟩ := lex_cons_num (literal_nil hw.2) h'
    exact ⟨.num ws' txt v, rest', rfl, h3, ⟨h1, h2⟩,
      ⟨by simp [Cst.den, Except.map, subst], id, rfl, fun _ _ _ _ _ => Iff.rfl, fun _ _ _ _ ht _ => noBang_in ht⟩⟩
  · intro ws nm rest ts s' hw h hk h'
    rw [Cst.toks, List.singleton_append] at h'
    cases he : E nm with
    | none =>
      rw [inlined_cons he] at h'
      obtain ⟨ws', rest', rfl, h1, h2, h3⟩ := lex_cons_name (name_isName hw.2.1) h'
      refine ⟨.name ws' nm, rest', rfl, h3, ⟨h1, h2, hw.2.2⟩,
        ⟨?_, id, rfl, fun _ _ _ _ _ => Iff.rfl, fun _ _ _ _ ht _ => noBang_in ht⟩⟩
      rw [Cst.den, Cst.den]
      cases hl : lookup ctx nm with
      | const v => simp [Except.map, subst]
      | func f => exact absurd hl (hw.2.2 f)
      | var k =>
        simp [Except.map, subst, hp.other nm he]
    | some c =>
      rw [inlined, he] at h'
      simp only at h'
      obtain ⟨r, hr⟩ := lex_right h'
      obtain ⟨y, rest', rfl, h1, h2, h3⟩ := relayout.1 c r _ s' (hp.wf nm c he r) hr h'
      refine ⟨y, rest', rfl, h1, h2, ⟨?_, fun _ => h3.primary (hp.primary nm c he), ?_, ?_, ?_⟩⟩
      · rw [h3.den, hp.den nm c he, Cst.den, hp.var nm c he]
        simp [Except.map, subst]
      · rw [h3.chain, hp.chain nm c he]; rfl
      · intro p o ho hn
        obtain ⟨_, ho⟩ := List.append_inj' (s₁ := []) (t₁ := [nm]) ho rfl
        cases ho
        rw [hn] at he; cases he
      · intro r r' ts hl ht hc hx
        exact h3.closed r' r' rfl (hp.closed nm c he r' (noBang_in ht hx))
  · intro ws nm ws2 as ih rest ts s' hw h hk h'
    have e2 : (Cst.call ws nm ws2 as).toks ++ ts = nm :: b!"(" :: (as.toks ++ b!")" :: ts) := by
      simp [Cst.toks]
    obtain ⟨f, f1, f2⟩ := hw.2.2.2.1
    have he : E nm = none := by
      cases he : E nm with
      | none => rfl
      | some c => have := hp.var nm c he; rw [f1] at this; cases this
    rw [e2] at h' hk
    rw [inlined_cons he, inlined_cons (none_sym hp (by decide))] at h'
    obtain ⟨ws', rest1, rfl, h1, h2, h3⟩ := lex_cons_name (name_isName hw.2.1) h'
    obtain ⟨ws2', rest2, rfl, h4, h5⟩ := lex_cons_sym (by decide) h3
    obtain ⟨bs, rest3, rfl, h6, h7, h8, h9⟩ := ih _ _ _ hw.2.2.2.2 h (Clear.right (a := [nm, b!"("]) hk) h5
    refine ⟨.call ws' nm ws2' bs, rest3, by simp [Cst.text], h6,
      ⟨h1, ⟨h2.1, h2.2.1, by intro c hc; cases hc⟩, h4, ⟨f, f1, by rw [h9]; exact f2⟩, h7⟩,
      ⟨?_, id, rfl, ?_, fun _ _ _ _ ht _ => noBang_in ht⟩⟩
    · rw [Cst.den, Cst.den, h8, f1]
      cases as.den .ok ctx <;> simp [Except.map, subst, substL_map]
    · intro p o ho _ h0
      obtain ⟨_, ho⟩ := List.append_inj' (s₁ := nm :: b!"(" :: as.toks) (t₁ := [b!")"]) ho rfl
      cases ho
      exact absurd rfl h0
  · intro ws x ws2 ih rest ts s' hw h hk h'
    have e2 : (Cst.paren ws x ws2).toks ++ ts = b!"(" :: (x.toks ++ b!")" :: ts) := by
      simp [Cst.toks]
    rw [e2] at h' hk
    rw [inlined_cons (none_sym hp (by decide))] at h'
    obtain ⟨ws', rest1, rfl, h1, h2⟩ := lex_cons_sym (by decide) h'
    obtain ⟨y, rest2, rfl, h3, h4, h5⟩ := ih _ _ _ hw.2.2 (.sym hw.2.1 (by decide) h)
      (Clear.right (a := [b!"("]) hk) h2
    rw [inlined_cons (none_sym hp (by decide))] at h3
    obtain ⟨ws2', rest3, rfl, h6, h7⟩ := lex_cons_sym (by decide) h3
    refine ⟨.paren ws' y ws2', rest3, by simp [Cst.text], h7, ⟨h1, h6, h4⟩,
      ⟨?_, id, rfl, ?_, fun _ _ _ _ ht _ => noBang_in ht⟩⟩
    · rw [Cst.den, Cst.den, h5.den]
      cases x.den .ok ctx <;> rfl
    · intro p o ho _ h0
      obtain ⟨_, ho⟩ := List.append_inj' (s₁ := b!"(" :: x.toks) (t₁ := [b!")"]) ho rfl
      cases ho
      exact absurd rfl h0
  · intro ws neg x ih rest ts s' hw h hk h'
    rw [Cst.toks, List.cons_append] at h' hk
    rw [inlined_cons (none_sym hp (by cases neg <;> decide))] at h'
    obtain ⟨ws', rest1, rfl, h1, h2⟩ := lex_cons_sym (by cases neg <;> decide) h'
    obtain ⟨y, rest2, rfl, h3, h4, h5⟩ := ih _ _ _ hw.2.1 h
      (Clear.right (a := [[if neg then c!"-" else c!"+"]]) hk) h2
    refine ⟨.sign ws' neg y, rest2, by simp [Cst.text], h3, ⟨h1, h4, by rw [h5.chain]; exact hw.2.2⟩,
      ⟨?_, id, rfl, fun _ _ _ _ _ => ⟨fun h => absurd h (nosign _ _ _), fun h => absurd h (nosign _ _ _)⟩, ?_⟩⟩
    · rw [Cst.den, Cst.den, h5.den]
      cases x.den .ok ctx <;> simp [Except.map, subst]
    · intro r r' us hl ht hc hx
      have hc' : Clear E σ (x.toks ++ us) :=
        Clear.right (a := [[if neg then c!"-" else c!"+"]]) (by simpa [Cst.toks] using hc)
      exact ⟨h5.stops hp hl ht hc' hx.1, h5.closed r r' us hl ht hc' hx.2⟩
  · intro x ws ih rest ts s' hw h hk h'
    have e2 : (Cst.fact x ws).toks ++ ts = x.toks ++ b!"!" :: ts := by simp [Cst.toks]
    rw [e2] at h' hk
    obtain ⟨y, rest1, rfl, h3, h4, h5⟩ := ih _ _ _ hw.2.2 (.sym hw.2.1 (by decide) h) hk h'
    rw [inlined_cons (none_sym hp (by decide))] at h3
    obtain ⟨ws', rest2, rfl, h6, h7⟩ := lex_cons_sym (by decide) h3
    refine ⟨.fact y ws', rest2, by simp [Cst.text], h7, ⟨h5.primary hw.1, h6, h4⟩,
      ⟨?_, id, rfl, fun _ _ _ _ _ => ⟨fun h => absurd h (nofact _ _), fun h => absurd h (nofact _ _)⟩,
        fun _ _ _ _ _ _ _ => trivial⟩⟩
    rw [Cst.den, Cst.den, h5.den]
    cases x.den .ok ctx <;> simp [Except.map, subst]
  · intro l ws op r ihl ihr rest ts s' hw h hk h'
    have e2 : (Cst.bin l ws op r).toks ++ ts = l.toks ++ [opChar op] :: (r.toks ++ ts) := by
      simp [Cst.toks]
    rw [e2] at h' hk
    have e : ws ++ opChar op :: r.text ++ rest = ws ++ opChar op :: (r.text ++ rest) := by simp
    obtain ⟨w1, w2, w3, w4, w5⟩ := hw
    rw [e] at w2 w3
    have l0 := Lex.sym w1 (symb_op op) (lex_text.1 r _ _ w4 h)
    obtain ⟨a, rest1, rfl, a1, a2, a3⟩ := ihl _ _ _ w2 l0 hk h'
    have hk' : Clear E σ (r.toks ++ ts) :=
      Clear.right (a := l.toks ++ [[opChar op]]) (by simpa using hk)
    rw [inlined_cons (none_sym hp (symb_op op))] at a1
    obtain ⟨ws', rest2, rfl, h6, h7⟩ := lex_cons_sym (symb_op op) a1
    obtain ⟨b, rest3, rfl, b1, b2, b3⟩ := ihr _ _ _ w4 h hk' h7
    have e' : ws' ++ opChar op :: b.text ++ rest3 = ws' ++ opChar op :: (b.text ++ rest3) := by simp
    refine ⟨.bin a ws' op b, rest3, by simp [Cst.text], b1, ⟨h6, ?_, ?_, b2, by rw [b3.chain]; exact w5⟩,
      ⟨?_, id, by rw [Cst.chain, Cst.chain, a3.chain],
        fun _ _ _ _ _ => ⟨fun h => absurd h (nobin _ _ _ _), fun h => absurd h (nobin _ _ _ _)⟩, ?_⟩⟩
    · rw [e']; exact a2
    · rw [e']
      refine a3.closed _ _ _ l0 (.inl ?_) hk w3
      rw [firstTok_spaces w1, firstTok_spaces h6, firstTok_cons (not_space_opChar op),
        firstTok_cons (not_space_opChar op)]
    · rw [Cst.den, Cst.den, a3.den, b3.den]
      cases l.den .ok ctx with
      | error p => rfl
      | ok x => cases r.den .ok ctx <;> simp [Except.map, subst]
    · intro s s' us hl ht hc hx
      have hc' : Clear E σ (r.toks ++ us) :=
        Clear.right (a := l.toks ++ [[opChar op]]) (by simpa [Cst.toks] using hc)
      exact ⟨b3.stops hp hl ht hc' hx.1, b3.closed s s' us hl ht hc' hx.2⟩
  · intro l r ihl ihr rest ts s' hw h hk h'
    rw [Cst.toks, List.append_assoc] at h' hk
    obtain ⟨w2, w3, w4, w5, c, hc, hl⟩ := hw
    have hlr := lex_text.1 r _ _ w4 h
    obtain ⟨a, rest1, rfl, a1, a2, a3⟩ := ihl _ _ _ w2 hlr hk h'
    obtain ⟨b, rest3, rfl, b1, b2, b3⟩ := ihr _ _ _ w4 h hk.right a1
    have hf := firstTok_in hp hlr a1 hc (hl.imp id (Or.imp id And.left))
    refine ⟨.juxt a b, rest3, by simp [Cst.text], b1, ⟨a2, a3.closed _ _ _ hlr hf hk w3, b2,
      by rw [b3.chain]; exact w5, ?_⟩,
      ⟨?_, id, by rw [Cst.chain, Cst.chain, a3.chain],
        fun _ _ _ _ _ => ⟨fun h => absurd h (nojuxt _ _), fun h => absurd h (nojuxt _ _)⟩, ?_⟩⟩
    · rcases hf with hf | ⟨c', f1, f2, f3⟩
      · refine ⟨c, by rw [← hf]; exact hc, ?_⟩
        rcases hl with hl | hl | hl
        · exact .inl hl
        · exact .inr (.inl hl)
        · exact .inr (.inr ⟨hl.1, fun hm => hl.2 ((a3.digit hp hlr hk hc hl.1).2 hm)⟩)
      · exact ⟨_, f3, .inr (.inl rfl)⟩
    · rw [Cst.den, Cst.den, a3.den, b3.den]
      cases l.den .ok ctx with
      | error p => rfl
      | ok x => cases r.den .ok ctx <;> simp [Except.map, subst]
    · intro s s' us hl ht hc hx
      have hc' : Clear E σ (r.toks ++ us) :=
        Clear.right (a := l.toks) (by simpa [Cst.toks] using hc)
      exact ⟨b3.stops hp hl ht hc' hx.1, b3.closed s s' us hl ht hc' hx.2⟩
  · intro x ws ih rest ts s' hw h hk h'
    obtain ⟨y, rest1, rfl, h3, h4, h5⟩ := ih _ _ _ hw.2 (.sym hw.1 (by decide) h) hk h'
    rw [inlined_cons (none_sym hp (by decide))] at h3
    obtain ⟨ws', rest2, rfl, h6, h7⟩ := lex_cons_sym (by decide) h3
    refine ⟨.last y ws', rest2, by simp [CArgs.text], h7, ⟨h6, h4⟩, ?_, rfl⟩
    rw [CArgs.den, CArgs.den, h5.den]
    cases x.den .ok ctx <;> simp [Except.map]
  · intro x ws as ih ihs rest ts s' hw h hk h'
    have e2 : (CArgs.more x ws as).toks ++ b!")" :: ts = x.toks ++ b!"," :: (as.toks ++ b!")" :: ts) := by
      simp [CArgs.toks]
    rw [e2] at h' hk
    obtain ⟨y, rest1, rfl, h3, h4, h5⟩ := ih _ _ _ hw.2.1
      (.sym hw.1 (by decide) (lex_text.2 as _ _ hw.2.2 h)) hk h'
    rw [inlined_cons (none_sym hp (by decide))] at h3
    obtain ⟨ws', rest2, rfl, h6, h7⟩ := lex_cons_sym (by decide) h3
    have hk' : Clear E σ (as.toks ++ b!")" :: ts) :=
      Clear.right (a := x.toks ++ [b!","]) (by simpa using hk)
    obtain ⟨bs, rest3, rfl, b1, b2, b3, b4⟩ := ihs _ _ _ hw.2.2 h hk' h7
    refine ⟨.more y ws' bs, rest3, by simp [CArgs.text], b1, ⟨h6, h4, b2⟩, ?_,
      by rw [CArgs.count, CArgs.count, b4]⟩
    rw [CArgs.den, CArgs.den, h5.den, b3]
    cases x.den .ok ctx with
    | error p => rfl
    | ok e => cases as.den .ok ctx <;> simp [Except.map]

/-- The tree of a text with names replaced. -/
theorem parseImpl_inline {w : World} {s s' : Bytes} {ts : List Bytes} {x : Xpr} (ho : cfg.opt = false)
    (hp : Pieces cfg ctx E σ) (hs : Lex s ts) (hs' : Lex s' (inlined E ts)) (hc : Clear E σ ts)
    (h : parseImpl cfg w ctx s = .ok x) :
    parseImpl cfg w ctx s' = .ok ⟨subst σ x.root, findVars (subst σ x.root) []⟩ := by
  obtain ⟨c, tw, e, rfl, h2, h3, h4, h5, h6⟩ := parseImpl_den h
  rw [finOf_plain ho] at h3 h4 h5
  cases h5
  have h7 := lex_text.1 c tw [] h3 (.nil h2)
  have := lex_unique hs h7
  subst this
  obtain ⟨y, tw', rfl, k1, k2, k3⟩ := (inline_cst hp).1 c tw [] s' h3 (.nil h2) hc hs'
  rw [parseImpl_text cfg w ctx y tw' (by rw [finOf_plain ho]; exact k2) (lex_done k1), Cst.meaning,
    finOf_plain ho, k3.den, h4]
  rfl

end

end Xprs
