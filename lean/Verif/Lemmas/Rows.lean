import Verif.Lemmas.Climb
/-
Texts whose tokens form a row are read as a tree.
-/
namespace Xprs
open Spec

section
variable {cfg : Cfg} {fin : Elem → PM Elem} {ctx : Context}

theorem linksText_append : ∀ (a b : List (Link × Item)), linksText (a ++ b) = linksText a ++ linksText b
  | [], b => rfl
  | (some (ws, op), it) :: a, b => by simp [linksText, linksText_append a b]
  | (none, it) :: a, b => by simp [linksText, linksText_append a b]

theorem linksOk_append {b : List (Link × Item)} {tail : Bytes} (hb : LinksOk cfg fin ctx b tail) :
    ∀ a : List (Link × Item), LinksOk cfg fin ctx a (linksText b ++ tail) → LinksOk cfg fin ctx (a ++ b) tail
  | [], _ => hb
  | (some (ws, op), it) :: a, h => by
    refine ⟨h.1, ?_, linksOk_append hb a h.2.2⟩
    rw [List.append_eq, linksText_append, List.append_assoc]; exact h.2.1
  | (none, it) :: a, h => by
    refine ⟨?_, ?_, linksOk_append hb a h.2.2⟩
    · rw [List.append_eq, linksText_append, List.append_assoc (linksText a)]; exact h.1
    · rw [List.append_eq, linksText_append, List.append_assoc]; exact h.2.1

/-- The row `ts` is not followed by a `!` that belongs to its last operand. -/
def BangOk (ts us : List Bytes) : Prop :=
  us.head?.bind (·.head?) = some c!"!" → ts.getLast? = some b!"!"

theorem bangOk_sym {ts us : List Bytes} {c : UInt8} (h : c ≠ c!"!") : BangOk ts ([c] :: us) := by
  intro hh; exact absurd (Option.some.inj hh) h

theorem bangOk_nil {ts : List Bytes} : BangOk ts [] := by intro h; cases h

/-- What each kind of token list is read as. -/
def Readable (cfg : Cfg) (ctx : Context) : Shape → List Bytes → Prop
  | .operand n, ts => ∀ s us, Lex s (ts ++ us) → ∃ (x : Cst) (s2 : Bytes), s = x.text ++ s2 ∧ Lex s2 us ∧
      x.primary ∧ x.wf cfg .ok ctx s2 ∧ (isNumber .ok ctx x ↔ n = true)
  | .signed n, ts => ∀ s us, Lex s (ts ++ us) → BangOk ts us → ∃ (it : Item) (s2 : Bytes), s = itemText it ++ s2 ∧
      Lex s2 us ∧ ItemOk cfg .ok ctx it s2 ∧ (n = true ↔ it.1 = [] ∧ isNumber .ok ctx it.2)
  | .row n, ts => ∀ s us, Lex s (ts ++ us) → BangOk ts us → ∃ (it : Item) (ls : List (Link × Item)) (s2 : Bytes),
      s = itemText it ++ (linksText ls ++ s2) ∧ Lex s2 us ∧ ItemOk cfg .ok ctx it (linksText ls ++ s2) ∧
      LinksOk cfg .ok ctx ls s2 ∧ NumFree .ok ctx it ls s2 ∧
      (n = true ↔ ls = [] ∧ it.1 = [] ∧ isNumber .ok ctx it.2)
  | .args k, ts => ∀ s us, Lex s (ts ++ b!")" :: us) → ∃ (as : CArgs) (s2 : Bytes), s = as.text ++ c!")" :: s2 ∧
      Lex s2 us ∧ as.wf cfg .ok ctx s2 ∧ as.count = k

theorem atEnd_lex {s : Bytes} {c : UInt8} {us : List Bytes} (h : Lex s ([c] :: us)) (hc : Closer c) : AtEnd s := by
  intro d hd
  rw [lex_firstTok h] at hd
  cases hd
  exact hc

theorem atEnd_spaces {s : Bytes} (h : Lex s []) : AtEnd s := by
  intro d hd
  rw [lex_firstTok h] at hd
  cases hd

/-- A row that ends with the text or before a closing parenthesis or a comma is a tree. -/
theorem row_tree {n : Bool} {ts us : List Bytes} (h : Readable cfg ctx (.row n) ts) {s : Bytes}
    (hs : Lex s (ts ++ us)) (hb : BangOk ts us) (he : ∀ s2, Lex s2 us → AtEnd s2) :
    ∃ (x : Cst) (s2 : Bytes), s = x.text ++ s2 ∧ Lex s2 us ∧ x.wf cfg .ok ctx s2 ∧
      (isNumber .ok ctx x ↔ n = true) := by
  obtain ⟨it, ls, s2, rfl, h2, h3, h4, h5, h6⟩ := h s us hs hb
  obtain ⟨x, x1, x2, x3⟩ := climb_all h3 h4 (he s2 h2) h5
  exact ⟨x, s2, by rw [x1]; simp, h2, x2, x3.trans h6.symm⟩

theorem operand_last {sh : Shape} {ts : List Bytes} (h : Flat ctx sh ts) : ∀ n, sh = .operand n →
    ts.getLast? ≠ some b!"!" := by
  intro n hn hl
  cases h with
  | num h =>
    obtain ⟨v, h⟩ := h
    obtain ⟨c, h1, h2⟩ := literal_head h
    cases hl
    cases h1
    exact absurd h2 (by decide)
  | const h _ =>
    obtain ⟨c, h1, h2⟩ := h.1
    cases hl
    cases h1
    exact absurd h2 (by decide)
  | var h _ _ =>
    obtain ⟨c, h1, h2⟩ := h.1
    cases hl
    cases h1
    exact absurd h2 (by decide)
  | @call t f k ts _ _ _ _ =>
    rw [show t :: b!"(" :: (ts ++ [b!")"]) = (t :: b!"(" :: ts) ++ [b!")"] by simp, last_append_ne (by simp)] at hl
    exact absurd hl (by decide)
  | @paren n ts _ =>
    rw [show b!"(" :: (ts ++ [b!")"]) = (b!"(" :: ts) ++ [b!")"] by simp, last_append_ne (by simp)] at hl
    exact absurd hl (by decide)
  | _ => cases hn

theorem sym_read {s : Bytes} {c : UInt8} {us : List Bytes} (hc : symb c) (h : Lex s ([c] :: us)) :
    ∃ ws s2, s = ws ++ c :: s2 ∧ spaces ws ∧ Lex s2 us := lex_cons_sym hc h

theorem readable {sh : Shape} {ts : List Bytes} (h : Flat ctx sh ts) : Readable cfg ctx sh ts := by
  induction h with
  | num h =>
    obtain ⟨v, h⟩ := h
    intro s us hs
    obtain ⟨ws, rest, rfl, h1, h2, h3⟩ := lex_cons_num h hs
    exact ⟨.num ws _ v, rest, rfl, h3, trivial, ⟨h1, h2⟩, by simp [isNumber, Cst.den]⟩
  | @const t x h hl =>
    intro s us hs
    obtain ⟨ws, rest, rfl, h1, h2, h3⟩ := lex_cons_name h hs
    exact ⟨.name ws t, rest, rfl, h3, trivial, ⟨h1, h2, by simp [hl]⟩, by simp [isNumber, Cst.den, hl]⟩
  | @var t h h1 h2 =>
    intro s us hs
    obtain ⟨ws, rest, rfl, k1, k2, k3⟩ := lex_cons_name h hs
    refine ⟨.name ws t, rest, rfl, k3, trivial, ⟨k1, k2, h1⟩, ?_⟩
    simp only [isNumber, Cst.den]
    cases hl : lookup ctx t with
    | const x => exact absurd hl (h2 x)
    | _ => simp
  | @call t f k ts h hf _ hk ih =>
    intro s us hs
    obtain ⟨ws, rest, rfl, k1, k2, k3⟩ := lex_cons_name h hs
    obtain ⟨ws2, s3, rfl, k4, k5⟩ := sym_read (c := c!"(") (by decide) k3
    rw [List.append_eq, List.append_assoc] at k5
    obtain ⟨as, s2, rfl, q2, q3, q4⟩ := ih s3 us k5
    refine ⟨.call ws t ws2 as, s2, by simp [Cst.text], q2, trivial, ⟨k1, ⟨h.1, h.2, by intro c hc; cases hc⟩, k4, ⟨f, hf, ?_⟩, q3⟩,
      by simp [not_number_call]⟩
    intro n hn; rw [q4]; exact hk n hn
  | @paren n ts _ ih =>
    intro s us hs
    obtain ⟨ws, s3, rfl, k4, k5⟩ := sym_read (c := c!"(") (by decide) hs
    rw [List.append_eq, List.append_assoc] at k5
    obtain ⟨x, s4, rfl, x1, x2, x3⟩ := row_tree ih k5 (bangOk_sym (by decide))
      (fun s2 h => atEnd_lex h closer_paren)
    obtain ⟨ws2, s2, rfl, y1, y2⟩ := sym_read (c := c!")") (by decide) x1
    exact ⟨.paren ws x ws2, s2, by simp [Cst.text], y2, trivial, ⟨k4, y1, x2⟩, number_paren.trans x3⟩
  | @plain n ts h ih =>
    intro s us hs hb
    obtain ⟨x, s2, rfl, x1, x2, x3, x4⟩ := ih s us hs
    refine ⟨([], x), s2, by simp [itemText, signsText], x1, ⟨by simp, x3, .inl ⟨x2, ?_⟩⟩, by simp [x4]⟩
    intro hf
    rw [lex_firstTok x1] at hf
    exact absurd (hb hf) (operand_last h _ rfl)
  | @bang n ts h ih =>
    intro s us hs hb
    rw [List.append_assoc] at hs
    obtain ⟨x, s3, rfl, x1, x2, x3, x4⟩ := ih s _ hs
    obtain ⟨ws, s2, rfl, y1, y2⟩ := sym_read (c := c!"!") (by decide) x1
    refine ⟨([], .fact x ws), s2, by simp [itemText, signsText, Cst.text], y2,
      ⟨by simp, ⟨x2, y1, x3⟩, .inr ⟨x, ws, rfl⟩⟩, by simp [not_number_fact]⟩
  | @sign n neg ts h ih =>
    intro s us hs hb
    obtain ⟨ws, s3, rfl, y1, y2⟩ := sym_read (c := if neg then c!"-" else c!"+") (by cases neg <;> decide) hs
    have hb' : BangOk ts us := by
      intro hh
      have := hb hh
      rwa [show [if neg then c!"-" else c!"+"] :: ts = [[if neg then c!"-" else c!"+"]] ++ ts from rfl,
        last_append_ne (flat_ne h)] at this
    obtain ⟨⟨sg, b⟩, s2, rfl, x1, x2, x3⟩ := ih s3 us y2 hb'
    refine ⟨((ws, neg) :: sg, b), s2, by simp [itemText, signsText], x1, ⟨?_, x2.2⟩, by simp⟩
    intro p hp
    rcases List.mem_cons.1 hp with rfl | hp
    · exact y1
    · exact x2.1 p hp
  | @one n ts h ih =>
    intro s us hs hb
    obtain ⟨it, s2, rfl, x1, x2, x3⟩ := ih s us hs hb
    exact ⟨it, [], s2, rfl, x1, x2, trivial, (by intro _ _ it' ls' h; cases h), by simp [x3]⟩
  | @oper n k o ts us' h1 ho h2 ih1 ih2 =>
    intro s us hs hb
    rw [List.append_assoc] at hs
    have ho' : ∃ op, opChar op = o ∧ o ≠ c!"!" := by
      have : ∀ o : UInt8, o ∈ b!"+-*/^%" → (∃ op ∈ [Op.plus, .minus, .times, .divide, .power, .modulo], opChar op = o) ∧ o ≠ c!"!" :=
        forall_byte (by decide +kernel)
      obtain ⟨⟨op, _, h⟩, h'⟩ := this o ho
      exact ⟨op, h, h'⟩
    obtain ⟨op, rfl, hne⟩ := ho'
    obtain ⟨it, ls, s3, rfl, x1, x2, x3, x4, x5⟩ := ih1 s _ hs (bangOk_sym hne)
    obtain ⟨ws, s4, rfl, y1, y2⟩ := sym_read (symb_op op) x1
    have hb' : BangOk us' us := by
      intro hh
      have := hb hh
      rwa [show ts ++ [opChar op] :: us' = (ts ++ [[opChar op]]) ++ us' by simp, last_append_ne (flat_ne h2)] at this
    obtain ⟨it', s2, rfl, z1, z2, z3⟩ := ih2 s4 us y2 hb'
    have e : linksText [(some (ws, op), it')] ++ s2 = ws ++ opChar op :: (itemText it' ++ s2) := by simp [linksText]
    have hl : LinksOk cfg .ok ctx [(some (ws, op), it')] s2 := ⟨y1, by simpa [linksText] using z2, trivial⟩
    refine ⟨it, ls ++ [(some (ws, op), it')], s2, ?_, z1, ?_, linksOk_append hl ls ?_, ?_, by simp⟩
    · rw [linksText_append, List.append_assoc, e]
    · rw [linksText_append, List.append_assoc, e]; exact x2
    · rw [e]; exact x3
    · intro q1 q2 it2 ls2 q3 c q4
      cases ls with
      | nil => cases q3
      | cons l ls =>
        cases q3
        refine x4 q1 q2 it2 ls rfl c ?_
        rw [List.append_eq, linksText_append, List.append_assoc, e] at q4
        exact q4
  | @bangs n k ts us' h1 ho h2 ih1 ih2 =>
    intro s us hs hb
    rw [List.append_assoc] at hs
    obtain ⟨it, ls, s3, rfl, x1, x2, x3, x4, x5⟩ := ih1 s _ hs (fun _ => ho)
    obtain ⟨ws, s4, rfl, y1, y2⟩ := sym_read (symb_op .factorial) x1
    have hb' : BangOk us' us := by
      intro hh
      have := hb hh
      rwa [show ts ++ b!"!" :: us' = (ts ++ [b!"!"]) ++ us' by simp, last_append_ne (flat_ne h2)] at this
    obtain ⟨it', s2, rfl, z1, z2, z3⟩ := ih2 s4 us y2 hb'
    have e : linksText [(some (ws, .factorial), it')] ++ s2 = ws ++ opChar .factorial :: (itemText it' ++ s2) := by
      simp [linksText]
    have hl : LinksOk cfg .ok ctx [(some (ws, .factorial), it')] s2 := ⟨y1, by simpa [linksText] using z2, trivial⟩
    refine ⟨it, ls ++ [(some (ws, .factorial), it')], s2, ?_, z1, ?_, linksOk_append hl ls ?_, ?_, by simp⟩
    · rw [linksText_append, List.append_assoc, e]
    · rw [linksText_append, List.append_assoc, e]; exact x2
    · rw [e]; exact x3
    · intro q1 q2 it2 ls2 q3 c q4
      cases ls with
      | nil => cases q3
      | cons l ls =>
        cases q3
        refine x4 q1 q2 it2 ls rfl c ?_
        rw [List.append_eq, linksText_append, List.append_assoc, e] at q4
        exact q4
  | @juxt n k t c ts us' h1 h2 h3 h4 h5 ih1 ih2 =>
    intro s us hs hb
    rw [List.append_assoc] at hs
    have hc : (us' ++ us).head?.bind (·.head?) = some c := by
      rw [head_append_ne (flat_ne h2), h3]; exact h4
    have hb1 : BangOk ts (us' ++ us) := by
      intro hh
      rw [hc] at hh
      cases hh
      rcases h5 with h | h | h
      · exact absurd h (by decide)
      · exact absurd h (by decide)
      · exact absurd h.1 (by decide)
    obtain ⟨it, ls, s3, rfl, x1, x2, x3, x4, x5⟩ := ih1 s _ hs hb1
    have hb' : BangOk us' us := by
      intro hh
      have := hb hh
      rwa [last_append_ne (flat_ne h2)] at this
    obtain ⟨it', s2, rfl, z1, z2, z3⟩ := ih2 s3 us x1 hb'
    have e : linksText [(none, it')] ++ s2 = itemText it' ++ s2 := by simp [linksText]
    have hf : firstTok (itemText it' ++ s2) = some c := (lex_firstTok x1).trans hc
    have hl : LinksOk cfg .ok ctx [(none, it')] s2 := by
      refine ⟨⟨c, by simpa [linksText] using hf, ?_⟩, by simpa [linksText] using z2, trivial⟩
      rcases h5 with h | h | h
      · exact .inl h
      · exact .inr (.inl h)
      · exact .inr (.inr h.1)
    refine ⟨it, ls ++ [(none, it')], s2, ?_, z1, ?_, linksOk_append hl ls ?_, ?_, by simp⟩
    · rw [linksText_append, List.append_assoc, e]
    · rw [linksText_append, List.append_assoc, e]; exact x2
    · rw [e]; exact x3
    · intro q1 q2 it2 ls2 q3 c' q4
      cases ls with
      | nil =>
        cases q3
        have : c' = c := by
          have := q4.symm.trans (by simpa [linksText] using hf)
          exact Option.some.inj this
        subst this
        intro hd
        have hn : n = true := x5.2 ⟨rfl, q1, q2⟩
        have key : ∀ c : UInt8, digit c → ¬ lower c ∧ c ≠ c!"(" := forall_byte (by decide +kernel)
        rcases h5 with h | h | h
        · exact (key _ hd).1 h
        · exact (key _ hd).2 h
        · rw [hn] at h; cases h.2
      | cons l ls =>
        cases q3
        refine x4 q1 q2 it2 ls rfl c' ?_
        rw [List.append_eq, linksText_append, List.append_assoc, e] at q4
        exact q4
  | @last n ts h ih =>
    intro s us hs
    obtain ⟨x, s4, rfl, x1, x2, x3⟩ := row_tree ih hs (bangOk_sym (by decide)) (fun s2 h => atEnd_lex h closer_paren)
    obtain ⟨ws2, s2, rfl, y1, y2⟩ := sym_read (c := c!")") (by decide) x1
    exact ⟨.last x ws2, s2, by simp [CArgs.text], y2, ⟨y1, x2⟩, rfl⟩
  | @more n k ts us' h1 h2 ih1 ih2 =>
    intro s us hs
    rw [List.append_assoc] at hs
    obtain ⟨x, s4, rfl, x1, x2, x3⟩ := row_tree ih1 hs (bangOk_sym (by decide)) (fun s2 h => atEnd_lex h closer_comma)
    obtain ⟨ws2, s5, rfl, y1, y2⟩ := sym_read (c := c!",") (by decide) x1
    obtain ⟨as, s2, rfl, z1, z2, z3⟩ := ih2 s5 us y2
    exact ⟨.more x ws2 as, s2, by simp [CArgs.text], z1, ⟨y1, x2, z2⟩, by simp [CArgs.count, z3]⟩

/-- Exactly the texts that are rows are legal, in builds without optimizations. -/
theorem flat_iff (s : Bytes) : (∃ ts n, Lex s ts ∧ Flat ctx (.row n) ts) ↔
    ∃ (x : Cst) (tw : Bytes), s = x.text ++ tw ∧ spaces tw ∧ x.wf cfg .ok ctx tw := by
  constructor
  · rintro ⟨ts, n, h1, h2⟩
    obtain ⟨x, s2, rfl, h3, h4, _⟩ := row_tree (cfg := cfg) (us := []) (readable h2) (by simpa using h1) bangOk_nil
      (fun s2 h => atEnd_spaces h)
    exact ⟨x, s2, rfl, lex_done h3, h4⟩
  · rintro ⟨x, tw, rfl, h1, h2⟩
    obtain ⟨n, _, h3, _⟩ := (flat_of_cst (fun _ => rfl)).1 x tw [] (.nil h1) h2
    exact ⟨_, n, lex_text.1 x tw [] h2 (.nil h1), by simpa using h3⟩

end

end Xprs
