import Verif.Debug
import Verif.Spec.Doc
import Verif.Spec.Tree
import Verif.Lemmas.Tree
/-
Printed expressions can be read in one way only.
-/
namespace Xprs
open Spec

/-- What ends a word of a printed expression. -/
def sepChar (c : UInt8) : Prop := c ∈ b!" (),\""

instance : DecidablePred sepChar := fun _ => inferInstanceAs (Decidable (_ ∈ _))

/-- A text without separators. -/
def Word (t : Bytes) : Prop := ∀ c ∈ t, ¬ sepChar c

/-- A text that starts with a separator, or is empty. -/
def Stops (r : Bytes) : Prop := ∀ c, r.head? = some c → sepChar c

theorem word_eq : ∀ {a b r r' : Bytes}, Word a → Word b → Stops r → Stops r' → a ++ r = b ++ r' → a = b ∧ r = r'
  | [], [], _, _, _, _, _, _, h => ⟨rfl, h⟩
  | [], c :: b, r, r', _, hb, hr, _, h => by
    rw [List.nil_append] at h
    exact absurd (hr c (by rw [h]; rfl)) (hb c (by simp))
  | c :: a, [], r, r', ha, _, _, hr, h => by
    rw [List.nil_append] at h
    exact absurd (hr c (by rw [← h]; rfl)) (ha c (by simp))
  | c :: a, d :: b, r, r', ha, hb, hr, hr', h => by
    rw [List.cons_append, List.cons_append, List.cons.injEq] at h
    obtain ⟨rfl, h⟩ := h
    obtain ⟨rfl, h'⟩ := word_eq (fun x hx => ha x (List.mem_cons_of_mem _ hx))
      (fun x hx => hb x (List.mem_cons_of_mem _ hx)) hr hr' h
    exact ⟨rfl, h'⟩

theorem stops_cons {c : UInt8} {r : Bytes} (h : sepChar c) : Stops (c :: r) := by
  intro d hd; cases hd; exact h

theorem word_name {n : Bytes} (h : IsName n) : Word n := by
  intro c hc hs
  have := h.2 c hc
  revert this
  simp only [sepChar, List.mem_cons, List.not_mem_nil, or_false] at hs
  rcases hs with rfl | rfl | rfl | rfl | rfl <;> decide

theorem name_ne {n : Bytes} (h : IsName n) : n ≠ [] := by
  rintro rfl; obtain ⟨⟨c, hc, -⟩, -⟩ := h; cases hc

/-- How numbers have to be printed: as words that differ for different numbers. -/
structure Distinct (fmt : F64 → Bytes) : Prop where
  word : ∀ v, Word (fmt v)
  ne : ∀ v, fmt v ≠ []
  inj : ∀ v v', fmt v = fmt v' → v = v'

/-- What is needed of a printed tree: names are names, and functions are told apart by `F`. -/
structure Legible (F : Func → Prop) (e : Elem) : Prop where
  vars : ∀ n, Occurs n e → IsName n
  calls : Calls F e

section
variable {F : Func → Prop}

theorem Legible.un {op : Op} {a : Elem} (h : Legible F (.un op a)) : Legible F a :=
  ⟨fun n hn => h.vars n (.operand hn), fun f as hs => h.calls f as (.operand hs)⟩
theorem Legible.left {op : Op} {l r : Elem} (h : Legible F (.bin op l r)) : Legible F l :=
  ⟨fun n hn => h.vars n (.left hn), fun f as hs => h.calls f as (.left hs)⟩
theorem Legible.right {op : Op} {l r : Elem} (h : Legible F (.bin op l r)) : Legible F r :=
  ⟨fun n hn => h.vars n (.right hn), fun f as hs => h.calls f as (.right hs)⟩
theorem Legible.arg {f : Func} {as : List Elem} (h : Legible F (.call f as)) {a : Elem} (ha : a ∈ as) : Legible F a :=
  ⟨fun n hn => h.vars n (.arg ha hn), fun f as hs => h.calls f as (.arg ha hs)⟩
theorem Legible.fn {f : Func} {as : List Elem} (h : Legible F (.call f as)) : F f ∧ as ≠ [] := by
  obtain ⟨h1, h2, -⟩ := h.calls f as .refl
  exact ⟨h1, by rintro rfl; simp at h2⟩
theorem Legible.name {n : Bytes} (h : Legible F (.var n)) : IsName n := h.vars n .here
end

/-! ### `Display` -/

section
variable {fmt : F64 → Bytes} {F : Func → Prop}

theorem opText_one (op : Op) : ∃ c, opText op = [c] ∧ ¬ sepChar c ∧ ¬ letter c ∧ ¬ (digit c ∨ c = c!".") := by
  cases op <;> exact ⟨_, rfl, by decide⟩

theorem opText_inj {op op' : Op} (h : opText op = opText op') : op = op' := by
  revert h; cases op <;> cases op' <;> decide

/-- A printed tree starts with a parenthesis, or with a word that ends at one or at its end. -/
theorem show_start (hc : Distinct fmt) (hF : ∀ f, F f → IsName f.name) (e : Elem) (he : Legible F e) :
    (∃ q, showE fmt e = c!"(" :: q) ∨
    ∃ p q, showE fmt e = p ++ q ∧ p ≠ [] ∧ Word p ∧ (q = [] ∨ ∃ q', q = c!"(" :: q') ∧
      ((∃ v, e = .num v ∧ q = []) ∨ IsName p) := by
  cases e with
  | num v => exact .inr ⟨fmt v, [], by simp [showE], hc.ne v, hc.word v, .inl rfl, .inl ⟨v, rfl, rfl⟩⟩
  | var n => exact .inr ⟨n, [], by simp [showE], name_ne he.name, word_name he.name, .inl rfl, .inr he.name⟩
  | un op a => exact .inl ⟨opText op ++ showE fmt a ++ b!")", by rw [showE]; simp⟩
  | bin op l r => exact .inl ⟨showE fmt l ++ b!" " ++ opText op ++ b!" " ++ showE fmt r ++ b!")", by rw [showE]; simp⟩
  | call f as =>
    have h1 := hF f he.fn.1
    exact .inr ⟨f.name, c!"(" :: (joinWith b!", " (showL fmt as) ++ b!")"), by rw [showE]; simp, name_ne h1, word_name h1,
      .inr ⟨_, rfl⟩, .inr h1⟩

/-- Lists in print: if entries can be told apart, so can lists. -/
theorem join_eq {α : Type} {sh : α → Bytes} {Ok : Bytes → Prop} {close : UInt8} (hc : close ≠ c!",")
    (h1 : ∀ t, Ok (c!"," :: t)) (h2 : ∀ t, Ok (close :: t)) : ∀ (as as' : List α), as ≠ [] → as' ≠ [] →
    (∀ a ∈ as, ∀ a' ∈ as', ∀ r r', Ok r → Ok r' → sh a ++ r = sh a' ++ r' → a = a' ∧ r = r') → ∀ r r',
    joinWith b!", " (as.map sh) ++ close :: r = joinWith b!", " (as'.map sh) ++ close :: r' → as = as' ∧ r = r'
  | [], _, h, _, _, _, _, _ => absurd rfl h
  | _, [], _, h, _, _, _, _ => absurd rfl h
  | [a], [a'], _, _, ih, r, r', h => by
    obtain ⟨rfl, h'⟩ := ih a (by simp) a' (by simp) _ _ (h2 r) (h2 r') h
    cases h'; exact ⟨rfl, rfl⟩
  | [a], a' :: b' :: as', _, _, ih, r, r', h => by
    simp only [List.map_cons, List.map_nil, joinWith, List.append_assoc] at h
    obtain ⟨-, h⟩ := ih a (by simp) a' (by simp) _ _ (h2 r) (h1 _) h
    exact absurd (List.cons.inj h).1 hc
  | a :: b :: as, [a'], _, _, ih, r, r', h => by
    simp only [List.map_cons, List.map_nil, joinWith, List.append_assoc] at h
    obtain ⟨-, h⟩ := ih a (by simp) a' (by simp) _ _ (h1 _) (h2 r') h
    exact absurd (List.cons.inj h).1.symm hc
  | a :: b :: as, a' :: b' :: as', _, _, ih, r, r', h => by
    simp only [List.map_cons, joinWith, List.append_assoc] at h
    obtain ⟨rfl, h'⟩ := ih a (by simp) a' (by simp) _ _ (h1 _) (h1 _) h
    obtain ⟨h3, h4⟩ := join_eq hc h1 h2 (b :: as) (b' :: as') (by simp) (by simp)
      (fun x hx y hy => ih x (List.mem_cons_of_mem _ hx) y (List.mem_cons_of_mem _ hy)) r r' (List.cons.inj (List.cons.inj h').2).2
    exact ⟨by rw [h3], h4⟩

theorem showL_map (as : List Elem) : showL fmt as = as.map (showE fmt) := by
  induction as with
  | nil => rfl
  | cons a as ih => rw [showL, ih]; rfl

/-- What can stand behind a printed tree. -/
def Behind (r : Bytes) : Prop := ∀ c, r.head? = some c → c ∈ b!" ),"

theorem Behind.stops {r : Bytes} (h : Behind r) : Stops r := by
  intro c hc
  have := h c hc
  simp only [List.mem_cons, List.not_mem_nil, or_false] at this
  rcases this with rfl | rfl | rfl <;> decide

theorem behind_cons {c : UInt8} (h : c ∈ b!" ),") (r : Bytes) : Behind (c :: r) := by
  intro d hd; cases hd; exact h

theorem Behind.not_open {r q : Bytes} (h : Behind r) : r ≠ c!"(" :: q := by
  rintro rfl
  exact absurd (h _ rfl) (by decide)

/-- A number is never printed as a sign only. -/
def NoSign (fmt : F64 → Bytes) : Prop := ∀ v c, fmt v = [c] → digit c ∨ c = c!"."

theorem not_word_open {q : Bytes} (h : Word (c!"(" :: q)) : False :=
  h c!"(" (by simp) (by decide)

/-- A sign in front of an operand is not taken for the left side of an operation. -/
theorem un_ne_bin (hc : Distinct fmt) (hs : NoSign fmt) (hF : ∀ f, F f → IsName f.name) {op : Op} {a l : Elem}
    (ha : Legible F a) (hl : Legible F l) (r r' : Bytes) :
    opText op ++ (showE fmt a ++ c!")" :: r) ≠ showE fmt l ++ c!" " :: r' := by
  intro h
  obtain ⟨c, h1, h2, h3, h4⟩ := opText_one op
  rw [h1] at h
  rcases show_start hc hF l hl with ⟨q, hq⟩ | ⟨p, q, hq, hp, hw, hq', hn⟩
  · rw [hq] at h
    cases (List.cons.inj h).1
    exact h2 (by decide)
  · rw [hq] at h
    obtain ⟨d, p, rfl⟩ := List.exists_cons_of_ne_nil hp
    simp only [List.cons_append, List.nil_append, List.cons.injEq] at h
    obtain ⟨rfl, h⟩ := h
    rcases hn with ⟨v, rfl, rfl⟩ | ⟨⟨x, hx, hx'⟩, -⟩
    · rw [showE, List.append_nil] at hq
      rw [List.append_nil] at h
      have hp' : p ≠ [] := by
        rintro rfl
        exact h4 (hs v c hq)
      have hw' : Word p := fun x hx => hw x (List.mem_cons_of_mem _ hx)
      rcases show_start hc hF a ha with ⟨q, hq⟩ | ⟨p2, q, hq, -, hw2, rfl | ⟨q', rfl⟩, -⟩
      · rw [hq] at h
        obtain ⟨d, p, rfl⟩ := List.exists_cons_of_ne_nil hp'
        cases (List.cons.inj h).1
        exact not_word_open hw'
      · rw [hq, List.append_nil] at h
        have := (word_eq hw2 hw' (stops_cons (by decide)) (stops_cons (by decide)) h).2
        cases this
      · rw [hq, List.append_assoc] at h
        have := (word_eq hw2 hw' (stops_cons (by decide)) (stops_cons (by decide)) h).2
        cases this
    · cases hx; exact h3 hx'

/-- No variable of the tree is called like a number. -/
def NoClash (fmt : F64 → Bytes) (e : Elem) : Prop := ∀ n, Occurs n e → ∀ v, fmt v ≠ n

theorem open_ne {n q r : Bytes} (hn : IsName n) (h : c!"(" :: q = n ++ r) : False := by
  obtain ⟨d, p, rfl⟩ := List.exists_cons_of_ne_nil (name_ne hn)
  cases (List.cons.inj h).1
  exact not_word_open (word_name hn)

/-- Printed trees can be told apart, whatever follows. -/
theorem show_eq (hc : Distinct fmt) (hs : NoSign fmt) (hF : ∀ f, F f → IsName f.name)
    (hn : ∀ f f', F f → F f' → f.name = f'.name → f = f') (e : Elem) :
    ∀ e' r r', Legible F e → Legible F e' → NoClash fmt e → NoClash fmt e' → Behind r → Behind r' →
      showE fmt e ++ r = showE fmt e' ++ r' → e = e' ∧ r = r' := by
  have start := fun e (h : Legible F e) => show_start hc hF e h
  -- a word is not what starts with a parenthesis, and does not go on with one
  have word : ∀ {p : Bytes}, Word p → p ≠ [] → ∀ e' r r', Legible F e' → Behind r → Behind r' →
      p ++ r = showE fmt e' ++ r' → (∃ v, e' = .num v) ∨ ∃ n, e' = .var n := by
    intro p hp hp' e' r r' he hr hr' h
    cases e' with
    | num v => exact .inl ⟨v, rfl⟩
    | var n => exact .inr ⟨n, rfl⟩
    | un op a =>
      rw [showE] at h
      obtain ⟨d, p, rfl⟩ := List.exists_cons_of_ne_nil hp'
      cases (List.cons.inj h).1
      exact absurd hp not_word_open
    | bin op l r =>
      rw [showE] at h
      obtain ⟨d, p, rfl⟩ := List.exists_cons_of_ne_nil hp'
      cases (List.cons.inj h).1
      exact absurd hp not_word_open
    | call f as =>
      rw [showE] at h
      simp only [List.append_assoc] at h
      exact absurd (word_eq hp (word_name (hF f he.fn.1)) hr.stops (stops_cons (by decide)) h).2 hr.not_open
  induction e using Elem.ind with
  | num v =>
    intro e' r r' he he' hv hv' hr hr' h
    rw [showE] at h
    rcases word (hc.word v) (hc.ne v) e' r r' he' hr hr' h with ⟨v', rfl⟩ | ⟨n, rfl⟩
    · rw [showE] at h
      obtain ⟨h1, h2⟩ := word_eq (hc.word v) (hc.word v') hr.stops hr'.stops h
      exact ⟨by rw [hc.inj _ _ h1], h2⟩
    · rw [showE] at h
      exact absurd (word_eq (hc.word v) (word_name he'.name) hr.stops hr'.stops h).1 (hv' n .here v)
  | var n =>
    intro e' r r' he he' hv hv' hr hr' h
    rw [showE] at h
    rcases word (word_name he.name) (name_ne he.name) e' r r' he' hr hr' h with ⟨v', rfl⟩ | ⟨n', rfl⟩
    · rw [showE] at h
      exact absurd (word_eq (word_name he.name) (hc.word v') hr.stops hr'.stops h).1.symm (hv n .here v')
    · rw [showE] at h
      obtain ⟨rfl, h2⟩ := word_eq (word_name he.name) (word_name he'.name) hr.stops hr'.stops h
      exact ⟨rfl, h2⟩
  | un op a ih =>
    intro e' r r' he he' hv hv' hr hr' h
    have hva : NoClash fmt a := fun n hn => hv n (.operand hn)
    cases e' with
    | num v' =>
      rw [showE.eq_1] at h
      rcases word (hc.word v') (hc.ne v') _ r' r he hr' hr h.symm with ⟨_, h⟩ | ⟨_, h⟩ <;> cases h
    | var n =>
      rw [showE.eq_2] at h
      rcases word (word_name he'.name) (name_ne he'.name) _ r' r he hr' hr h.symm with ⟨_, h⟩ | ⟨_, h⟩ <;> cases h
    | un op' b =>
      simp only [showE, List.append_assoc] at h
      obtain ⟨c, h1, -⟩ := opText_one op
      obtain ⟨c', h1', -⟩ := opText_one op'
      rw [h1, h1'] at h
      have h2 := (List.cons.inj h).2
      obtain ⟨rfl, h3⟩ := List.cons.inj h2
      obtain ⟨rfl, h4⟩ := ih b (c!")" :: r) (c!")" :: r') he.un he'.un hva (fun n hn => hv' n (.operand hn))
        (behind_cons (by decide) _) (behind_cons (by decide) _) h3
      cases h4
      exact ⟨by rw [opText_inj (h1.trans h1'.symm)], rfl⟩
    | bin op' x y =>
      simp only [showE, List.append_assoc] at h
      exact absurd (List.cons.inj h).2 (un_ne_bin hc hs hF he.un he'.left _ _)
    | call f as =>
      simp only [showE, List.append_assoc] at h
      exact (open_ne (hF f he'.fn.1) h).elim
  | bin op x y ihl ihr =>
    intro e' r r' he he' hv hv' hr hr' h
    cases e' with
    | num v' =>
      rw [showE.eq_1] at h
      rcases word (hc.word v') (hc.ne v') _ r' r he hr' hr h.symm with ⟨_, h⟩ | ⟨_, h⟩ <;> cases h
    | var n =>
      rw [showE.eq_2] at h
      rcases word (word_name he'.name) (name_ne he'.name) _ r' r he hr' hr h.symm with ⟨_, h⟩ | ⟨_, h⟩ <;> cases h
    | un op' b =>
      simp only [showE, List.append_assoc] at h
      exact absurd (List.cons.inj h).2.symm (un_ne_bin hc hs hF he'.un he.left _ _)
    | bin op' x' y' =>
      simp only [showE, List.append_assoc] at h
      obtain ⟨rfl, h1⟩ := ihl x' _ _ he.left he'.left (fun n hn => hv n (.left hn)) (fun n hn => hv' n (.left hn))
        (behind_cons (by decide) _) (behind_cons (by decide) _) (List.cons.inj h).2
      obtain ⟨c, h2, -⟩ := opText_one op
      obtain ⟨c', h2', -⟩ := opText_one op'
      rw [h2, h2'] at h1
      obtain ⟨rfl, h3⟩ := List.cons.inj (List.cons.inj h1).2
      obtain ⟨rfl, h4⟩ := ihr y' (c!")" :: r) (c!")" :: r') he.right he'.right (fun n hn => hv n (.right hn))
        (fun n hn => hv' n (.right hn)) (behind_cons (by decide) _) (behind_cons (by decide) _) (List.cons.inj h3).2
      cases h4
      exact ⟨by rw [opText_inj (h2.trans h2'.symm)], rfl⟩
    | call f as =>
      simp only [showE, List.append_assoc] at h
      exact (open_ne (hF f he'.fn.1) h).elim
  | call f as ih =>
    intro e' r r' he he' hv hv' hr hr' h
    cases e' with
    | num v' =>
      rw [showE.eq_1] at h
      rcases word (hc.word v') (hc.ne v') _ r' r he hr' hr h.symm with ⟨_, h⟩ | ⟨_, h⟩ <;> cases h
    | var n =>
      rw [showE.eq_2] at h
      rcases word (word_name he'.name) (name_ne he'.name) _ r' r he hr' hr h.symm with ⟨_, h⟩ | ⟨_, h⟩ <;> cases h
    | un op' b =>
      simp only [showE, List.append_assoc] at h
      exact (open_ne (hF f he.fn.1) h.symm).elim
    | bin op' x' y' =>
      simp only [showE, List.append_assoc] at h
      exact (open_ne (hF f he.fn.1) h.symm).elim
    | call f' as' =>
      simp only [showE, List.append_assoc, showL_map] at h
      obtain ⟨h1, h2⟩ := word_eq (word_name (hF f he.fn.1)) (word_name (hF f' he'.fn.1)) (stops_cons (by decide))
        (stops_cons (by decide)) h
      obtain ⟨rfl, h3⟩ := join_eq (Ok := Behind) (by decide) (behind_cons (by decide)) (behind_cons (by decide)) as as'
        he.fn.2 he'.fn.2 (fun a ha a' ha' r r' hr hr' h => ih a ha a' r r' (he.arg ha) (he'.arg ha')
          (fun n hn => hv n (.arg ha hn)) (fun n hn => hv' n (.arg ha' hn)) hr hr' h) r r' (List.cons.inj h2).2
      exact ⟨by rw [hn f f' he.fn.1 he'.fn.1 h1], h3⟩

end

/-! ### `Debug` -/

section
variable {F : Func → Prop}

theorem word_opDebug (op : Op) : Word (opDebug op) := by cases op <;> unfold Word <;> decide
theorem opDebug_inj {op op' : Op} (h : opDebug op = opDebug op') : op = op' := by
  revert h; cases op <;> cases op' <;> decide

theorem quoted_eq {n n' r r' : Bytes} (hn : Word n) (hn' : Word n') (h : quoted n ++ r = quoted n' ++ r') :
    n = n' ∧ r = r' := by
  simp only [quoted, List.append_assoc] at h
  obtain ⟨h1, h2⟩ := word_eq hn hn' (stops_cons (by decide)) (stops_cons (by decide)) (List.cons.inj h).2
  exact ⟨h1, (List.cons.inj h2).2⟩

theorem funcDebug_eq (hF : ∀ f, F f → IsName f.name) (hn : ∀ f f', F f → F f' → f.name = f'.name → f = f')
    {f f' : Func} (h1 : F f) (h2 : F f') {r r' : Bytes} (h : funcDebug f ++ r = funcDebug f' ++ r') : f = f' ∧ r = r' := by
  have h3 := h
  simp only [funcDebug, List.append_assoc] at h3
  obtain ⟨h4, -⟩ := quoted_eq (word_name (hF f h1)) (word_name (hF f' h2)) (List.append_cancel_left h3)
  obtain rfl := hn f f' h1 h2 h4
  exact ⟨rfl, List.append_cancel_left h⟩

theorem debugL_map (as : List Elem) : debugL as = as.map debugE := by
  induction as with
  | nil => rfl
  | cons a as ih => rw [debugL, ih]; rfl

/-- Trees printed with `Debug` can be told apart, whatever follows. -/
theorem debug_eq (hc : Distinct debugF64) (hF : ∀ f, F f → IsName f.name)
    (hn : ∀ f f', F f → F f' → f.name = f'.name → f = f') (e : Elem) :
    ∀ e' r r', Legible F e → Legible F e' → debugE e ++ r = debugE e' ++ r' → e = e' ∧ r = r' := by
  induction e using Elem.ind with
  | num v =>
    intro e' r r' he he' h
    cases e' with
    | num v' =>
      simp only [debugE, List.append_assoc] at h
      obtain ⟨h1, h2⟩ := word_eq (hc.word v) (hc.word v') (stops_cons (by decide)) (stops_cons (by decide))
        (List.append_cancel_left h)
      exact ⟨by rw [hc.inj _ _ h1], (List.cons.inj h2).2⟩
    | _ => simp [debugE] at h
  | var n =>
    intro e' r r' he he' h
    cases e' with
    | var n' =>
      simp only [debugE, List.append_assoc] at h
      obtain ⟨rfl, h2⟩ := quoted_eq (word_name he.name) (word_name he'.name) (List.append_cancel_left h)
      exact ⟨rfl, (List.cons.inj h2).2⟩
    | _ => simp [debugE] at h
  | un op a ih =>
    intro e' r r' he he' h
    cases e' with
    | un op' b =>
      simp only [debugE, List.append_assoc] at h
      obtain ⟨h1, h2⟩ := word_eq (word_opDebug op) (word_opDebug op') (stops_cons (by decide)) (stops_cons (by decide))
        (List.append_cancel_left h)
      obtain ⟨rfl, h3⟩ := ih b _ _ he.un he'.un (List.append_cancel_left (as := b!", operand: ") h2)
      exact ⟨by rw [opDebug_inj h1], List.append_cancel_left h3⟩
    | _ => simp [debugE] at h
  | bin op x y ihl ihr =>
    intro e' r r' he he' h
    cases e' with
    | bin op' x' y' =>
      simp only [debugE, List.append_assoc] at h
      obtain ⟨h1, h2⟩ := word_eq (word_opDebug op) (word_opDebug op') (stops_cons (by decide)) (stops_cons (by decide))
        (List.append_cancel_left h)
      obtain ⟨rfl, h3⟩ := ihl x' _ _ he.left he'.left (List.append_cancel_left (as := b!", lhs: ") h2)
      obtain ⟨rfl, h4⟩ := ihr y' _ _ he.right he'.right (List.append_cancel_left h3)
      exact ⟨by rw [opDebug_inj h1], List.append_cancel_left h4⟩
    | _ => simp [debugE] at h
  | call f as ih =>
    intro e' r r' he he' h
    cases e' with
    | call f' as' =>
      simp only [debugE, List.append_assoc, debugL_map] at h
      obtain ⟨rfl, h2⟩ := funcDebug_eq hF hn he.fn.1 he'.fn.1 (List.append_cancel_left h)
      obtain ⟨rfl, h3⟩ := join_eq (Ok := fun _ => True) (close := c!"]") (by decide) (fun _ => trivial) (fun _ => trivial) as as'
        he.fn.2 he'.fn.2 (fun a ha a' ha' r r' _ _ h => ih a ha a' r r' (he.arg ha) (he'.arg ha') h) _ _
        (List.append_cancel_left h2)
      exact ⟨rfl, List.append_cancel_left (as := b!" })") h3⟩
    | _ => simp [debugE] at h

/-- Quoted names in a row can be told apart. -/
theorem quotes_eq {ns ns' : List Bytes} (hn : ∀ n ∈ ns, Word n) (hn' : ∀ n ∈ ns', Word n)
    (h : joinWith b!", " (ns.map quoted) ++ b!"} }" = joinWith b!", " (ns'.map quoted) ++ b!"} }") : ns = ns' := by
  have key : ∀ {n : Bytes} {ns : List Bytes} {r : Bytes}, joinWith b!", " ((n :: ns).map quoted) ++ r ≠ b!"} }" := by
    intro n ns r h
    cases ns <;> simp [joinWith, quoted] at h
  cases ns with
  | nil =>
    cases ns' with
    | nil => rfl
    | cons a as => exact absurd h.symm key
  | cons b bs =>
    cases ns' with
    | nil => exact absurd h key
    | cons a as =>
      exact (join_eq (Ok := fun _ => True) (close := c!"}") (by decide) (fun _ => trivial) (fun _ => trivial) _ _
        (by simp) (by simp) (fun a ha a' ha' r r' _ _ h => quoted_eq (hn a ha) (hn' a' ha') h) _ _ h).1

end
end Xprs
