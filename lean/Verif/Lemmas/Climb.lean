import Verif.Lemmas.Flat
/-
Precedence climbing: a row of operands can be read as a tree, whatever the precedences.
-/
namespace Xprs
open Spec

/-- An operand with signs in front of it. -/
abbrev Item := List (Bytes × Bool) × Cst

/-- What is between two operands: an operator, or nothing. -/
abbrev Link := Option (Bytes × Op)

def signsText : List (Bytes × Bool) → Bytes
  | [] => []
  | (ws, neg) :: sg => ws ++ (if neg then c!"-" else c!"+") :: signsText sg

def itemText (it : Item) : Bytes := signsText it.1 ++ it.2.text

def linksText : List (Link × Item) → Bytes
  | [] => []
  | (some (ws, op), it) :: ls => ws ++ opChar op :: (itemText it ++ linksText ls)
  | (none, it) :: ls => itemText it ++ linksText ls

def linksSize : List (Link × Item) → Nat
  | [] => 0
  | (_, it) :: ls => 1 + it.1.length + linksSize ls

/-- Nothing follows, or a closing parenthesis or a comma. -/
def AtEnd (tail : Bytes) : Prop := ∀ c, firstTok tail = some c → Closer c

section
variable (cfg : Cfg) (fin : Elem → PM Elem) (ctx : Context)

def ItemOk (it : Item) (rest : Bytes) : Prop :=
  (∀ p ∈ it.1, spaces p.1) ∧ it.2.wf cfg fin ctx rest ∧
    ((it.2.primary ∧ noBang rest) ∨ ∃ x ws, it.2 = .fact x ws)

def LinksOk : List (Link × Item) → Bytes → Prop
  | [], _ => True
  | (some (ws, _), it) :: ls, tail =>
    spaces ws ∧ ItemOk cfg fin ctx it (linksText ls ++ tail) ∧ LinksOk ls tail
  | (none, it) :: ls, tail =>
    (∃ c, firstTok (itemText it ++ (linksText ls ++ tail)) = some c ∧ (lower c ∨ c = c!"(" ∨ digit c)) ∧
    ItemOk cfg fin ctx it (linksText ls ++ tail) ∧ LinksOk ls tail

/-- `x` is read from `done ++ rest`, up to `rest`. -/
structure Climbed (prec : Nat) (x : Cst) (rest : Bytes) : Prop where
  wf : x.wf cfg fin ctx rest
  closed : x.closed cfg fin ctx rest
  chain : prec < x.chain cfg
  stops : stops cfg prec (isNumber fin ctx x) rest

variable {cfg fin ctx}

theorem stops_end {tail : Bytes} (h : AtEnd tail) {q : Nat} {P : Prop} : stops cfg q P tail := by
  intro c hc
  have h1 : (∀ op, opChar op ≠ c) ∧ ¬ lower c ∧ c ≠ c!"(" ∧ ¬ digit c :=
    (h c hc).elim (P := fun c => (∀ op, opChar op ≠ c) ∧ ¬ lower c ∧ c ≠ c!"(" ∧ ¬ digit c)
      ⟨by intro op; cases op <;> decide, by decide⟩ ⟨by intro op; cases op <;> decide, by decide⟩
  exact ⟨fun op ho => absurd ho (h1.1 op), fun h => (h.elim h1.2.1 h1.2.2.1).elim, fun h => absurd h h1.2.2.2⟩

theorem opChar_facts : ∀ op : Op, ¬ lower (opChar op) ∧ opChar op ≠ c!"(" ∧ ¬ digit (opChar op) ∧ ¬ space (opChar op) := by
  intro op; cases op <;> decide

theorem opChar_inj' : ∀ op op' : Op, opChar op' = opChar op → op' = op := by
  intro op op'; cases op <;> cases op' <;> decide

theorem firstTok_op {ws rest : Bytes} {op : Op} (hw : spaces ws) :
    firstTok (ws ++ opChar op :: rest) = some (opChar op) := by
  rw [firstTok_spaces hw, firstTok, if_neg (opChar_facts op).2.2.2]

theorem juxt_chars {c : UInt8} (h : lower c ∨ c = c!"(" ∨ digit c) :
    (∀ op, opChar op ≠ c) ∧ (digit c → ¬ lower c ∧ c ≠ c!"(") := by
  have key : ∀ c : UInt8, (lower c ∨ c = c!"(" ∨ digit c) → (∀ op ∈ [Op.plus, .minus, .times, .divide, .power, .modulo, .factorial], opChar op ≠ c) ∧
    (digit c → ¬ lower c ∧ c ≠ c!"(") := forall_byte (by decide +kernel)
  refine ⟨fun op => (key c h).1 op (by cases op <;> decide), (key c h).2⟩

/-- Reading goes on with a link of a higher level. -/
theorem climb (n : Nat) :
    (∀ (el : Cst) (ls : List (Link × Item)) (tail : Bytes) (prec : Nat), linksSize ls ≤ n →
      el.wf cfg fin ctx (linksText ls ++ tail) → el.closed cfg fin ctx (linksText ls ++ tail) →
      prec < el.chain cfg → LinksOk cfg fin ctx ls tail → AtEnd tail →
      ∃ x ls', linksSize ls' ≤ linksSize ls ∧ x.text ++ linksText ls' = el.text ++ linksText ls ∧
        LinksOk cfg fin ctx ls' tail ∧ Climbed cfg fin ctx prec x (linksText ls' ++ tail) ∧
        (isNumber fin ctx x → ls' = ls ∧ x = el)) ∧
    (∀ (it : Item) (ls : List (Link × Item)) (tail : Bytes) (prec : Nat), it.1.length + linksSize ls ≤ n →
      prec < 7 → ItemOk cfg fin ctx it (linksText ls ++ tail) → LinksOk cfg fin ctx ls tail → AtEnd tail →
      ∃ x ls', linksSize ls' ≤ linksSize ls ∧ x.text ++ linksText ls' = itemText it ++ linksText ls ∧
        LinksOk cfg fin ctx ls' tail ∧ Climbed cfg fin ctx prec x (linksText ls' ++ tail) ∧
        (isNumber fin ctx x → ls' = ls ∧ it.1 = [] ∧ x = it.2)) := by
  induction n using Nat.strongRecOn with
  | _ n ih =>
  have loop : ∀ (el : Cst) (ls : List (Link × Item)) (tail : Bytes) (prec : Nat), linksSize ls ≤ n →
      el.wf cfg fin ctx (linksText ls ++ tail) → el.closed cfg fin ctx (linksText ls ++ tail) →
      prec < el.chain cfg → LinksOk cfg fin ctx ls tail → AtEnd tail →
      ∃ x ls', linksSize ls' ≤ linksSize ls ∧ x.text ++ linksText ls' = el.text ++ linksText ls ∧
        LinksOk cfg fin ctx ls' tail ∧ Climbed cfg fin ctx prec x (linksText ls' ++ tail) ∧
        (isNumber fin ctx x → ls' = ls ∧ x = el) := by
    intro el ls tail prec hn hw hc hp hl he
    by_cases hs : stops cfg prec (isNumber fin ctx el) (linksText ls ++ tail)
    · exact ⟨el, ls, le_refl _, rfl, hl, ⟨hw, hc, hp, hs⟩, fun _ => ⟨rfl, rfl⟩⟩
    match ls, hl with
    | [], _ => exact absurd (stops_end he) hs
    | (some (ws, op), it) :: ls, hl =>
      obtain ⟨h1, h2, h3⟩ := hl
      have hlev : prec < level op := by
        refine Classical.byContradiction fun hh => hs ?_
        intro c hc
        rw [linksText, List.append_assoc, List.cons_append, firstTok_op h1] at hc
        cases hc
        obtain ⟨f1, f2, f3, _⟩ := opChar_facts op
        refine ⟨fun op' ho => ?_, fun h => (h.elim f1 f2).elim, fun h => absurd h f3⟩
        rw [opChar_inj' _ _ ho]; omega
      have h7 : level op < 7 := by cases op <;> decide
      have hsz : linksSize ((some (ws, op), it) :: ls) = 1 + it.1.length + linksSize ls := rfl
      obtain ⟨r, ls3, k1, k2, k3, ⟨r1, r2, r3, r4⟩, _⟩ :=
        (ih (it.1.length + linksSize ls) (by omega)).2 it ls tail (level op) (le_refl _) h7 h2 h3 he
      have et : linksText ((some (ws, op), it) :: ls) ++ tail =
          ws ++ opChar op :: r.text ++ (linksText ls3 ++ tail) := by
        rw [linksText, ← k2]; simp
      rw [et] at hw hc
      have hw' : (Cst.bin el ws op r).wf cfg fin ctx (linksText ls3 ++ tail) := ⟨h1, hw, hc, r1, r3⟩
      obtain ⟨x, ls', q1, q2, q3, q4, q5⟩ := (ih (linksSize ls3) (by omega)).1 (.bin el ws op r) ls3 tail prec
        (le_refl _) hw' ⟨r4, r2⟩ (by rw [Cst.chain]; omega) k3 he
      refine ⟨x, ls', by omega, ?_, q3, q4, fun hx => ?_⟩
      · rw [q2, linksText, ← k2]; simp [Cst.text]
      · obtain ⟨_, rfl⟩ := q5 hx
        exact absurd hx not_number_bin
    | (none, it) :: ls, hl =>
      obtain ⟨⟨c, hc1, hc2⟩, h2, h3⟩ := hl
      obtain ⟨f1, f2⟩ := juxt_chars hc2
      have ec : firstTok (linksText ((none, it) :: ls) ++ tail) = some c := by
        rw [linksText, List.append_assoc]; exact hc1
      have hlev : prec < implLevel cfg := by
        refine Classical.byContradiction fun hh => hs ?_
        intro c' hc'
        rw [ec] at hc'
        cases hc'
        exact ⟨fun op ho => absurd ho (f1 op), fun _ => by omega, fun _ => .inl (by omega)⟩
      have hnum : digit c → ¬ isNumber fin ctx el := by
        intro hd hnum
        refine hs ?_
        intro c' hc'
        rw [ec] at hc'
        cases hc'
        exact ⟨fun op ho => absurd ho (f1 op), fun h => (h.elim (f2 hd).1 (f2 hd).2).elim, fun _ => .inr hnum⟩
      have h7 : implLevel cfg < 7 := by unfold implLevel; split <;> decide
      have hsz : linksSize ((none, it) :: ls) = 1 + it.1.length + linksSize ls := rfl
      obtain ⟨r, ls3, k1, k2, k3, ⟨r1, r2, r3, r4⟩, _⟩ :=
        (ih (it.1.length + linksSize ls) (by omega)).2 it ls tail (implLevel cfg) (le_refl _) h7 h2 h3 he
      have et : linksText ((none, it) :: ls) ++ tail = r.text ++ (linksText ls3 ++ tail) := by
        rw [linksText, ← k2]; simp
      rw [et] at hw hc ec
      have hw' : (Cst.juxt el r).wf cfg fin ctx (linksText ls3 ++ tail) := by
        refine ⟨hw, hc, r1, r3, c, ec, ?_⟩
        rcases hc2 with h | h | h
        · exact .inl h
        · exact .inr (.inl h)
        · exact .inr (.inr ⟨h, hnum h⟩)
      obtain ⟨x, ls', q1, q2, q3, q4, q5⟩ := (ih (linksSize ls3) (by omega)).1 (.juxt el r) ls3 tail prec
        (le_refl _) hw' ⟨r4, r2⟩ (by rw [Cst.chain]; omega) k3 he
      refine ⟨x, ls', by omega, ?_, q3, q4, fun hx => ?_⟩
      · rw [q2, linksText, ← k2]; simp [Cst.text]
      · obtain ⟨_, rfl⟩ := q5 hx
        exact absurd hx not_number_juxt
  refine ⟨loop, ?_⟩
  rintro ⟨sg, b⟩ ls tail prec hn hp hi hl he
  match sg with
  | [] =>
    have hb : b.chain cfg = 7 ∧ b.closed cfg fin ctx (linksText ls ++ tail) := by
      rcases hi.2.2 with ⟨h1, h2⟩ | ⟨x, ws, rfl⟩
      · cases b with
        | num => exact ⟨rfl, h2⟩
        | name => exact ⟨rfl, h2⟩
        | call => exact ⟨rfl, h2⟩
        | paren => exact ⟨rfl, h2⟩
        | _ => exact h1.elim
      · exact ⟨rfl, trivial⟩
    obtain ⟨x, ls', q1, q2, q3, q4, q5⟩ := loop b ls tail prec (by simpa using hn) hi.2.1 hb.2 (by rw [hb.1]; exact hp) hl he
    exact ⟨x, ls', q1, q2, q3, q4, fun hx => ⟨(q5 hx).1, rfl, (q5 hx).2⟩⟩
  | (ws, neg) :: sg =>
    have hn' : sg.length + 1 + linksSize ls ≤ n := hn
    obtain ⟨x, ls1, k1, k2, k3, ⟨r1, r2, r3, r4⟩, _⟩ := (ih (sg.length + linksSize ls) (by omega)).2 (sg, b) ls tail
      signLevel (le_refl _) (by decide) ⟨fun p hp => hi.1 p (List.mem_cons_of_mem _ hp), hi.2⟩ hl he
    have hw' : (Cst.sign ws neg x).wf cfg fin ctx (linksText ls1 ++ tail) := ⟨hi.1 (ws, neg) (by simp), r1, r3⟩
    obtain ⟨y, ls', q1, q2, q3, q4, q5⟩ := loop (.sign ws neg x) ls1 tail prec (by omega) hw' ⟨r4, r2⟩
      hp k3 he
    refine ⟨y, ls', by omega, ?_, q3, q4, fun hx => ?_⟩
    · rw [q2]
      have : (Cst.sign ws neg x).text ++ linksText ls1 = ws ++ (if neg then c!"-" else c!"+") :: (x.text ++ linksText ls1) := by
        simp [Cst.text]
      rw [this, k2]
      simp [itemText, signsText]
    · obtain ⟨_, rfl⟩ := q5 hx
      exact absurd hx not_number_un

/-- The number in front is not followed by a number. -/
def NumFree (fin : Elem → PM Elem) (ctx : Context) (it : Item) (ls : List (Link × Item)) (tail : Bytes) : Prop :=
  it.1 = [] → isNumber fin ctx it.2 → ∀ it' ls', ls = (none, it') :: ls' →
    ∀ c, firstTok (itemText it' ++ (linksText ls' ++ tail)) = some c → ¬ digit c

/-- A whole row is read. -/
theorem climb_all {it : Item} {ls : List (Link × Item)} {tail : Bytes}
    (hi : ItemOk cfg fin ctx it (linksText ls ++ tail)) (hl : LinksOk cfg fin ctx ls tail) (he : AtEnd tail)
    (hf : NumFree fin ctx it ls tail) :
    ∃ x : Cst, x.text = itemText it ++ linksText ls ∧ x.wf cfg fin ctx tail ∧
      (isNumber fin ctx x ↔ ls = [] ∧ it.1 = [] ∧ isNumber fin ctx it.2) := by
  by_cases h0 : ls = [] ∧ it.1 = []
  · obtain ⟨rfl, h0⟩ := h0
    exact ⟨it.2, by simp [itemText, h0, signsText, linksText], by simpa [linksText] using hi.2.1, by simp [h0]⟩
  obtain ⟨x, ls', h1, h2, h3, ⟨r1, r2, r3, r4⟩, h5⟩ := (climb (cfg := cfg) (fin := fin) (ctx := ctx)
    (it.1.length + linksSize ls)).2 it ls tail 0 (le_refl _) (by decide) hi hl he
  have hnil : ls' = [] := by
    match ls', h3 with
    | [], _ => rfl
    | (some (ws, op), it') :: ls2, h3 =>
      have := (r4 _ (by rw [linksText, List.append_assoc, List.cons_append, firstTok_op h3.1])).1 op rfl
      cases op <;> exact absurd this (by decide)
    | (none, it') :: ls2, h3 =>
      obtain ⟨⟨c, c1, c2⟩, -, -⟩ := h3
      have hpos : ¬ implLevel cfg ≤ 0 := by unfold implLevel; split <;> decide
      have := r4 c (by rw [linksText, List.append_assoc]; exact c1)
      rcases c2 with c2 | c2 | c2
      · exact absurd (this.2.1 (.inl c2)) hpos
      · exact absurd (this.2.1 (.inr c2)) hpos
      · rcases this.2.2 c2 with h | h
        · exact absurd h hpos
        · obtain ⟨e1, e2, e3⟩ := h5 h
          exact absurd c2 (hf e2 (e3 ▸ h) _ _ e1.symm c c1)
  subst hnil
  refine ⟨x, by simpa [linksText] using h2, r1, fun hx => ?_, ?_⟩
  · obtain ⟨e1, e2, e3⟩ := h5 hx
    exact ⟨e1.symm, e2, e3 ▸ hx⟩
  · rintro ⟨e1, e2, _⟩
    exact absurd ⟨e1, e2⟩ h0

end

end Xprs
