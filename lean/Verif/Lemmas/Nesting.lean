import Verif.Spec.Nesting
import Verif.Lemmas.ParserBasics
import Verif.Lemmas.Lexer
import Mathlib.Tactic.Conv
/-
The recursion of the parser and the nesting of the text.
-/
namespace Xprs
open Spec

/-- The largest number of parentheses that are open at a place of the text. -/
def openMax : Bytes → Nat
  | [] => 0
  | c :: r => if c = c!"(" then openMax r + 1 else if c = c!")" then openMax r - 1 else openMax r

theorem openMax_opens : ∀ {l : Bytes} {d : Nat}, Opens d l → openMax l ≤ d := by
  have key : ∀ (l : Bytes) (d : Int), 0 ≤ d → (∀ p, p <+: l → depth p ≤ d) → (openMax l : Int) ≤ d := by
    intro l
    induction l with
    | nil => intro d h _; exact h
    | cons c r ih =>
      intro d hd h
      have hc : ∀ p : Bytes, p <+: r → depth (c :: p) ≤ d := fun p hp => h _ ((List.prefix_cons_inj c).2 hp)
      have h0 := hc [] (List.nil_prefix)
      rw [openMax]
      split
      · rename_i e
        subst e
        have e1 : ∀ p : Bytes, depth (c!"(" :: p) = depth p + 1 := by
          intro p; simp [depth]; omega
        have := ih (d - 1) (by have := e1 []; rw [this] at h0; simp [depth] at h0; omega)
          fun p hp => by have := hc p hp; rw [e1] at this; omega
        omega
      · rename_i n1
        split
        · rename_i e
          subst e
          have e1 : ∀ p : Bytes, depth (c!")" :: p) = depth p - 1 := by
            intro p; simp [depth]; omega
          have := ih (d + 1) (by omega) fun p hp => by have := hc p hp; rw [e1] at this; omega
          omega
        · rename_i n2
          have e1 : ∀ p : Bytes, depth (c :: p) = depth p := by
            intro p; simp [depth, n1, n2]
          exact ih d hd fun p hp => by have := hc p hp; rw [e1] at this; exact this
  intro l d h
  have := key l d (by omega) h
  omega

theorem openMax_cons {c : UInt8} {r : Bytes} (h : c ≠ c!")") : openMax r ≤ openMax (c :: r) := by
  rw [openMax]; split
  · omega
  · exact Nat.le_refl _

theorem openMax_append {r : Bytes} : ∀ {u : Bytes}, (∀ c ∈ u, c ≠ c!")") → openMax r ≤ openMax (u ++ r)
  | [], _ => Nat.le_refl _
  | c :: u, h => Nat.le_trans (openMax_append fun d hd => h d (List.mem_cons_of_mem _ hd))
      (openMax_cons (h c List.mem_cons_self))

theorem signs_mono : ∀ (b : Bool) (l : Bytes), frontSigns false l ≤ frontSigns b l
  | false, _ => Nat.le_refl _
  | true, [] => Nat.le_refl _
  | true, c :: r => by
    rw [frontSigns, frontSigns]
    split
    · exact signs_mono true r
    · split
      · simp
      · exact Nat.le_refl _

theorem signs_cons (b : Bool) (c : UInt8) (r : Bytes) : frontSigns false r ≤ frontSigns b (c :: r) := by
  rw [frontSigns]
  split
  · exact signs_mono b r
  · split
    · exact Nat.le_trans (signs_mono true r) (Nat.le_add_left _ _)
    · exact signs_mono _ r

theorem signs_suffix (b : Bool) (r : Bytes) : ∀ u : Bytes, frontSigns false r ≤ frontSigns b (u ++ r)
  | [] => signs_mono b r
  | c :: u => Nat.le_trans (signs_suffix false r u) (signs_cons b c _)

theorem signs_le {s s' : St} (h : Le s s') (b : Bool) : frontSigns false s'.rest ≤ frontSigns b s.rest := by
  obtain ⟨u, hu, _⟩ := h
  rw [hu]; exact signs_suffix b _ u

theorem signs_trim (b : Bool) (s : St) : frontSigns b (trim s).rest = frontSigns b s.rest := by
  rw [trim_rest]
  induction s.rest with
  | nil => rfl
  | cons c r ih =>
    rw [List.dropWhile_cons]
    split
    · rename_i h
      rw [ih, frontSigns, if_pos ((isWs_iff c).1 h)]
    · rfl

/-- `s'` is reached from `s` without passing a closing parenthesis. -/
def Inside (s s' : St) : Prop := ∃ u, s.rest = u ++ s'.rest ∧ ∀ c ∈ u, c ≠ c!")"

theorem Inside.open {s s' : St} (h : Inside s s') : openMax s'.rest ≤ openMax s.rest := by
  obtain ⟨u, hu, hc⟩ := h
  rw [hu]; exact openMax_append hc

theorem Inside.trans {a b c : St} (h : Inside a b) (h' : Inside b c) : Inside a c := by
  obtain ⟨u, hu, k⟩ := h
  obtain ⟨v, hv, k'⟩ := h'
  refine ⟨u ++ v, by rw [hu, hv, List.append_assoc], fun c hc => ?_⟩
  rcases List.mem_append.1 hc with h | h
  · exact k c h
  · exact k' c h

theorem inside_skip {p : UInt8 → Bool} (h : p c!")" = false) (s : St) : Inside s (skipWhile p s) :=
  ⟨_, (eats_skipWhile p s).1, fun c hc e => by
    have := List.all_takeWhile (p := p) (l := s.rest)
    rw [List.all_eq_true] at this
    rw [e] at hc
    exact absurd (this _ hc) (by rw [h]; simp)⟩

theorem inside_trim (s : St) : Inside s (trim s) := inside_skip (by decide) s

theorem inside_one {s : St} {c : UInt8} (h : s.rest.head? = some c) (hc : c ≠ c!")") :
    Inside s (adv s 1) := by
  refine ⟨[c], (eats_one h).1, fun d hd => ?_⟩
  rw [List.mem_singleton.1 hd]; exact hc

theorem inside_consume {c : UInt8} (hc : c ≠ c!")") (s : St) : Inside s (consumeIf c s).2 := by
  unfold consumeIf
  split
  · rename_i h; exact (inside_trim s).trans (inside_one h hc)
  · exact inside_trim s

theorem inside_exp (s : St) : Inside s (adv s (expLen s.rest)) := by
  refine ⟨s.rest.take (expLen s.rest), by simp [adv], fun d hd => ?_⟩
  unfold expLen at hd
  revert hd
  split
  · rename_i c c1 t h
    rw [h]
    split
    · rename_i he
      have h1 : c ≠ c!")" := by rcases he with rfl | rfl <;> decide
      simp only
      by_cases hp : isDigit c1 = true
      · have : (decide (c1 = c!"+") || decide (c1 = c!"-")) = false := by
          cases hq : (decide (c1 = c!"+") || decide (c1 = c!"-")) with
          | false => rfl
          | true =>
            rw [Bool.or_eq_true, decide_eq_true_eq, decide_eq_true_eq] at hq
            rcases hq with rfl | rfl <;> exact absurd hp (by decide)
        rw [this, hp]
        simp only [Bool.false_and, Bool.toNat_false, Bool.toNat_true, Nat.zero_mul, Nat.zero_add,
          List.take_succ_cons, List.take_zero, List.mem_singleton]
        rintro rfl; exact h1
      · rw [Bool.not_eq_true] at hp
        rw [hp]
        cases hq : (decide (c1 = c!"+") || decide (c1 = c!"-")) with
        | false => simp
        | true =>
          have h2 : c1 ≠ c!")" := by
            rw [Bool.or_eq_true, decide_eq_true_eq, decide_eq_true_eq] at hq
            rcases hq with rfl | rfl <;> decide
          intro hd
          have : d ∈ (c :: c1 :: t).take 2 := List.take_subset_take_left _ (by
            have key : ∀ b : Bool, (true && b).toNat * 2 + false.toNat ≤ 2 := by decide
            exact key _) hd
          simp only [List.take_succ_cons, List.take_zero, List.mem_cons, List.not_mem_nil,
            or_false] at this
          rcases this with rfl | rfl
          · exact h1
          · exact h2
    · simp
  · simp

theorem inside_num (s : St) : Inside s (numEnd s) :=
  (inside_skip (by decide) s).trans ((inside_exp _).trans (inside_skip (by decide) _))

/-! ### Successful calls close what they open -/

/-- A successful call does not leave more parentheses open. -/
def Closes (rec : Nat → St → R Elem) : Prop :=
  ∀ p s e s', rec p s = .ok e s' → openMax s'.rest ≤ openMax s.rest

section
variable {cfg : Cfg} {w : World} {ctx : Context} {rec : Nat → St → R Elem}

theorem parseArgs_closes (hr : Closes rec) :
    ∀ (n : Nat) (args : List Elem) (s : St) (as : List Elem) (s' : St),
      parseArgs cfg rec n args s = .ok as s' → openMax s'.rest ≤ openMax s.rest
  | 0, _, _, _, _, h => by simp [parseArgs] at h
  | n + 1, args, s, as, s', h => by
    rw [parseArgs] at h
    obtain ⟨arg, s1, h1, h2⟩ := R.bind_eq_ok h
    have l1 := hr _ _ _ _ (argument_ok h1)
    have l2 := (inside_trim s1).open
    simp only at h2
    split at h2
    · rename_i c hc
      split at h2
      · rename_i e
        have l3 := (inside_one hc (by rw [e]; decide)).open
        have := parseArgs_closes hr n _ _ _ _ h2
        omega
      · split at h2
        · simp at h2; rw [← h2.2]; omega
        · simp [errTok] at h2
    · exact absurd h2 errEnd_ne_ok

theorem assertConsume_closes {s : St} {u : Unit} {s' : St} (h : assertConsume c!")" s = .ok u s') :
    openMax s'.rest ≤ openMax s.rest + 1 := by
  obtain ⟨h1, rfl⟩ := assertConsume_ok h
  have l1 := (inside_trim s).open
  have e := (eats_one h1).1
  have : openMax (trim s).rest = openMax (adv (trim s) 1).rest - 1 := by
    rw [e, List.singleton_append, openMax, if_neg (by decide), if_pos rfl]
  omega

theorem open_paren {s : St} (h : s.rest.head? = some c!"(") :
    openMax (adv s 1).rest + 1 = openMax s.rest := by
  have e := (eats_one h).1
  rw [e, List.singleton_append, openMax, if_pos rfl]

theorem consume_paren {s : St} (h : (consumeIf c!"(" s).1 = true) :
    openMax (consumeIf c!"(" s).2.rest + 1 ≤ openMax s.rest := by
  obtain ⟨h1, h2⟩ := consumeIf_true h
  rw [h2, open_paren h1]
  exact (inside_trim s).open

theorem parseIdent_closes (hr : Closes rec) {s : St} {e : Elem} {s' : St}
    (h : parseIdent cfg ctx rec s = .ok e s') : openMax s'.rest ≤ openMax s.rest := by
  have l1 := (inside_skip (p := isIdChar) (by decide) s).open
  unfold parseIdent at h
  simp only at h
  split at h
  · simp at h; rw [← h.2]; exact l1
  · simp at h; rw [← h.2]; exact l1
  · split at h
    · rename_i hp
      obtain ⟨as, s3, h3, h4⟩ := R.bind_eq_ok h
      obtain ⟨u, s4, h5, h6⟩ := R.bind_eq_ok h4
      rw [(checkArity_ok h6).2.1]
      have := consume_paren hp
      have := parseArgs_closes hr _ _ _ _ _ h3
      have := assertConsume_closes h5
      omega
    · simp [errExpected] at h

theorem atom_closes (hr : Closes rec) {s : St} {e : Elem} {s' : St}
    (h : atom cfg ctx rec s = .ok e s') : openMax s'.rest ≤ openMax s.rest := by
  have l0 := (inside_trim s).open
  unfold atom at h
  simp only at h
  split at h
  · exact absurd h errEnd_ne_ok
  · rename_i c hc
    split at h
    · rw [(parseNumber_ok h).1]; exact Nat.le_trans (inside_num _).open l0
    · split at h
      · exact Nat.le_trans (parseIdent_closes hr h) l0
      · split at h
        · rename_i e
          obtain ⟨a, s1, h1, h2⟩ := R.bind_eq_ok h
          simp at h2; rw [← h2.2]
          have := hr _ _ _ _ h1
          have := (inside_one hc (by rw [e]; decide)).open
          omega
        · split at h
          · rename_i e
            obtain ⟨a, s1, h1, h2⟩ := R.bind_eq_ok h
            simp at h2; rw [← h2.2]
            have := hr _ _ _ _ h1
            have := (inside_one hc (by rw [e]; decide)).open
            omega
          · split at h
            · rename_i e
              obtain ⟨a, s1, h1, h2⟩ := R.bind_eq_ok h
              obtain ⟨u, s2, h3, h4⟩ := R.bind_eq_ok h2
              simp at h4; rw [← h4.2]
              have := hr _ _ _ _ h1
              have := assertConsume_closes h3
              have := open_paren (e ▸ hc)
              omega
            · split at h <;> simp [errTok, errIllegal] at h

theorem op_not_space : ∀ c, c ∈ b!"!+-*/^%" → ¬ space c := forall_byte (by decide +kernel)
theorem op_front : ∀ c, c ∈ b!"!+-*/^%" → ¬ (c = c!"+" ∨ c = c!"-") → decide (c ∈ b!"(,*/%^!") = true :=
  forall_byte (by decide +kernel)
theorem juxt_byte : ∀ c, (isLower c || decide (c = c!"(")) = true ∨ isDigit c = true →
    ¬ space c ∧ c ≠ c!"+" ∧ c ≠ c!"-" := forall_byte (by decide +kernel)

/-- What an operator asks for. -/
theorem opInfo_nest {el : Elem} {p : Nat} {s : St} {op : Op} {q k : Nat}
    (h : opInfo cfg el p s = some (op, q, k)) :
    p < q ∧ q ≤ 5 ∧ Inside s (adv s k) ∧ frontSigns true (adv s k).rest ≤ frontSigns false s.rest := by
  unfold opInfo at h
  split at h
  · cases h
  · rename_i c hc
    have hi : implPrec cfg ≤ 5 := by unfold implPrec; split <;> decide
    split at h
    · rename_i op' ho
      split at h
      · cases h
      · rename_i hp
        cases h
        have hm : c ∈ b!"!+-*/^%" := by
          unfold opOfByte at ho
          repeat' split at ho
          all_goals first | (rename_i e; subst e; decide) | cases ho
        have e := (eats_one hc).1
        refine ⟨Nat.lt_of_not_le hp, by cases op <;> decide, inside_one hc ?_, ?_⟩
        · rintro rfl; revert hm; decide
        · conv_rhs => rw [e, List.singleton_append, frontSigns]
          have : ¬ space c := op_not_space c hm
          rw [if_neg this]
          split
          · exact Nat.le_add_left _ _
          · have : decide (c ∈ b!"(,*/%^!") = true := by
              rename_i hn
              exact op_front c hm hn
            rw [this]
            exact Nat.le_refl _
    · split at h
      · cases h
      · rename_i hn
        have key : ∀ {c : UInt8}, s.rest.head? = some c → ¬ space c → c ≠ c!"+" → c ≠ c!"-" → 
            frontSigns true (adv s 0).rest ≤ frontSigns false s.rest := by
          intro c hc h1 h2 h3
          have e : (adv s 0).rest = s.rest := by simp [adv]
          rw [e]
          obtain ⟨r, hr⟩ : ∃ r, s.rest = c :: r := by
            cases hs : s.rest with
            | nil => rw [hs] at hc; cases hc
            | cons d r => rw [hs] at hc; cases hc; exact ⟨r, rfl⟩
          rw [hr, frontSigns, frontSigns, if_neg h1, if_neg h1, if_neg (by simp [h2, h3]),
            if_neg (by simp [h2, h3])]
          exact Nat.le_refl _
        have hin : Inside s (adv s 0) := ⟨[], by simp [adv], by simp⟩
        split at h
        · rename_i hl
          cases h
          refine ⟨Nat.lt_of_not_le hn, hi, hin, key hc ?_ ?_ ?_⟩ <;>
            first | exact (juxt_byte c (.inl hl)).1 | exact (juxt_byte c (.inl hl)).2.1 | exact (juxt_byte c (.inl hl)).2.2
        · split at h
          · rename_i hl
            cases h
            refine ⟨Nat.lt_of_not_le hn, hi, hin, key hc ?_ ?_ ?_⟩ <;>
              first
                | exact (juxt_byte c (.inr (Bool.and_eq_true .. ▸ hl).1)).1
                | exact (juxt_byte c (.inr (Bool.and_eq_true .. ▸ hl).1)).2.1
                | exact (juxt_byte c (.inr (Bool.and_eq_true .. ▸ hl).1)).2.2
          · cases h

theorem opLoop_closes (hr : Closes rec) (p : Nat) :
    ∀ (n : Nat) (el : Elem) (s : St) (e : Elem) (s' : St),
      opLoop cfg rec p n el s = .ok e s' → openMax s'.rest ≤ openMax s.rest
  | 0, _, _, _, _, h => by simp [opLoop] at h
  | n + 1, el, s, e, s', h => by
    rw [opLoop] at h
    have l0 := (inside_trim s).open
    split at h
    · simp at h; rw [← h.2]; exact l0
    · rename_i op q k hk
      obtain ⟨rhs, s2, h1, h2⟩ := R.bind_eq_ok h
      have := (opInfo_nest hk).2.2.1.open
      have := hr _ _ _ _ h1
      have := opLoop_closes hr p n _ _ _ _ h2
      omega

theorem elementF_closes (hr : Closes rec) : Closes (elementF cfg w ctx rec) := by
  intro p s e s' h
  obtain ⟨a, s1, el, h1, h2, _⟩ := elementF_ok h
  have := atom_closes hr h1
  have := (inside_consume (c := c!"!") (by decide) s1).open
  have := opLoop_closes hr _ _ _ _ _ _ h2
  omega

theorem element_closes (cfg : Cfg) (w : World) (ctx : Context) : ∀ n, Closes (element cfg w ctx n)
  | 0 => by intro p s e s' h; simp [element] at h
  | n + 1 => by
    intro p s e s' h
    rw [element] at h
    exact elementF_closes (element_closes cfg w ctx n) p s e s' h

/-! ### The recursion follows the nesting -/

/-- What is left to nest in front of an operand (`true`) or behind one. -/
def left (b : Bool) (s : St) : Nat := openMax s.rest + frontSigns b s.rest

/-- `N` calls are enough for what needs no more. -/
def Enough (rec : Nat → St → R Elem) (N : Nat) : Prop :=
  ∀ p s, p ≤ 5 → (6 - p) + 6 * left true s ≤ N → rec p s ≠ .fuel

theorem argument_enough {N : Nat} (hn : Enough rec N) {s : St} (h : 6 + 6 * left true s ≤ N) :
    argument cfg rec s ≠ .fuel := by
  unfold argument
  have := hn noPrec s (by decide) h
  split
  · split
    · unfold errMissing; split <;> simp
    · simp
  · exact this

theorem parseArgs_enough {N : Nat} (hr : Consumes rec) (hc : Closes rec) (hn : Enough rec N) :
    ∀ (n : Nat) (args : List Elem) (s : St), 6 + 6 * left true s ≤ N → s.rest.length < n →
      parseArgs cfg rec n args s ≠ .fuel
  | 0, _, _, _, h => by omega
  | n + 1, args, s, hN, h => by
    rw [parseArgs]
    apply R.bind_ne_fuel (argument_enough hn hN)
    intro arg s1 h1
    have l1 := hr _ _ _ _ (argument_ok h1)
    have l2 := hc _ _ _ _ (argument_ok h1)
    have l3 := (inside_trim s1).open
    have l4 := (le_trim s1).len
    have l5 := signs_le l1.le true
    simp only
    split
    · rename_i c hc1
      split
      · rename_i e
        have l6 := (inside_one hc1 (by rw [e]; decide)).open
        have l7 : frontSigns true (adv (trim s1) 1).rest ≤ frontSigns false s1.rest := by
          rw [← signs_trim false s1]
          have e1 := (eats_one hc1).1
          conv_rhs => rw [e1, List.singleton_append, frontSigns, e]
          exact Nat.le_refl _
        have l8 := (lt_one hc1).len
        have l9 := l1.len
        unfold left at hN
        exact parseArgs_enough hr hc hn n _ _ (by unfold left; omega) (by omega)
      · split <;> simp [errTok]
    · exact errEnd_ne_fuel

theorem signs_front {s : St} {c : UInt8} (hc : s.rest.head? = some c) (h : c = c!"+" ∨ c = c!"-") :
    frontSigns true (adv s 1).rest + 1 = frontSigns true s.rest := by
  have e := (eats_one hc).1
  conv_rhs => rw [e, List.singleton_append, frontSigns]
  rw [if_neg (by rcases h with rfl | rfl <;> decide), if_pos h]
  simp [Nat.add_comm]

theorem signs_paren {s : St} (b : Bool) (hc : s.rest.head? = some c!"(") :
    frontSigns true (adv s 1).rest = frontSigns b s.rest := by
  have e := (eats_one hc).1
  conv_rhs => rw [e, List.singleton_append, frontSigns]
  rfl

theorem parseIdent_enough {N : Nat} (hr : Consumes rec) (hcl : Closes rec) (hn : Enough rec N) {s : St}
    (hN : 6 * left true s ≤ N) : parseIdent cfg ctx rec s ≠ .fuel := by
  have l1 := (inside_skip (p := isIdChar) (by decide) s).open
  have l2 := signs_le (le_skipWhile isIdChar s) true
  unfold parseIdent
  simp only
  split
  · simp
  · simp
  · split
    · rename_i hp
      have l3 := consume_paren hp
      have l4 : frontSigns true (consumeIf c!"(" (skipWhile isIdChar s)).2.rest =
          frontSigns false (skipWhile isIdChar s).rest := by
        obtain ⟨h1, h2⟩ := consumeIf_true hp
        rw [h2, signs_paren false h1, signs_trim]
      unfold left at hN
      apply R.bind_ne_fuel (parseArgs_enough hr hcl hn _ _ _ (by unfold left; omega) (by omega))
      intro as s3 _
      apply R.bind_ne_fuel assertConsume_ne_fuel
      intro u s4 _
      exact checkArity_ne_fuel
    · simp [errExpected]

theorem atom_enough {N : Nat} (hr : Consumes rec) (hcl : Closes rec) (hn : Enough rec N) {s : St}
    (hN : 6 * left true s ≤ N) : atom cfg ctx rec s ≠ .fuel := by
  have l0 := (inside_trim s).open
  have l1 := signs_trim true s
  unfold left at hN
  unfold atom
  simp only
  split
  · exact errEnd_ne_fuel
  · rename_i c hc
    split
    · unfold parseNumber; simp only; split <;> simp [errNum]
    · split
      · exact parseIdent_enough hr hcl hn (by unfold left; omega)
      · have sign : (c = c!"+" ∨ c = c!"-") → rec unopPrec (adv (trim s) 1) ≠ .fuel := by
          intro e
          have l2 := signs_front hc e
          have l3 := (inside_one hc (by rcases e with rfl | rfl <;> decide)).open
          exact hn _ _ (by decide) (by unfold left; simp only [unopPrec]; omega)
        split
        · rename_i e; apply R.bind_ne_fuel (sign (.inl e)); intros; simp
        · split
          · rename_i e; apply R.bind_ne_fuel (sign (.inr e)); intros; simp
          · split
            · rename_i e
              have l2 := open_paren (e ▸ hc)
              have l3 := signs_paren true (e ▸ hc)
              apply R.bind_ne_fuel (hn _ _ (by decide) (by unfold left; simp only [noPrec]; omega))
              intro a s1 _
              apply R.bind_ne_fuel assertConsume_ne_fuel; intros; simp
            · split <;> simp [errTok, errIllegal]

theorem opLoop_enough {N p : Nat} (hr : Consumes rec) (hcl : Closes rec) (hn : Enough rec N) :
    ∀ (n : Nat) (el : Elem) (s : St), (5 - p) + 6 * left false s ≤ N → s.rest.length < n →
      opLoop cfg rec p n el s ≠ .fuel
  | 0, _, _, _, h => by omega
  | n + 1, el, s, hN, h => by
    rw [opLoop]
    have l1 := (le_trim s).len
    have l2 := (inside_trim s).open
    have l3 := signs_trim false s
    split
    · simp
    · rename_i op q k hk
      obtain ⟨h1, h2, h3, h4⟩ := opInfo_nest hk
      have l4 := h3.open
      unfold left at hN
      apply R.bind_ne_fuel (hn _ _ h2 (by unfold left; omega))
      intro rhs s2 h5
      have l5 := hr _ _ _ _ h5
      have l6 := (opInfo_le hk).len
      have l7 := l5.len
      have l8 := hcl _ _ _ _ h5
      have l9 := signs_le l5.le true
      exact opLoop_enough hr hcl hn n _ _ (by unfold left; omega) (by omega)

theorem elementF_enough {N p : Nat} (hr : Consumes rec) (hcl : Closes rec) (hn : Enough rec N) {s : St}
    (hN : (5 - p) + 6 * left true s ≤ N) : elementF cfg w ctx rec p s ≠ .fuel := by
  unfold elementF
  apply R.bind_ne_fuel (atom_enough hr hcl hn (by omega))
  intro a s1 h1
  have l1 := atom_closes hcl h1
  have l2 := (inside_consume (c := c!"!") (by decide) s1).open
  have l3 := signs_le ((atom_lt hr h1).le.trans (le_consumeIf c!"!" s1)) true
  unfold left at hN
  simp only
  apply R.bind_ne_fuel (opLoop_enough hr hcl hn _ _ _ (by unfold left; omega) (by omega))
  intro e s2 _
  exact finish_ne_fuel

theorem element_enough (cfg : Cfg) (w : World) (ctx : Context) : ∀ n, Enough (element cfg w ctx n) n
  | 0 => by intro p s hp h; omega
  | n + 1 => by
    intro p s hp h
    rw [element]
    exact elementF_enough (element_consumes cfg w ctx n) (element_closes cfg w ctx n)
      (element_enough cfg w ctx n) (by omega)

/-! ### A result does not depend on the bound -/

/-- `r'` is `r`, unless `r` ran out of calls. -/
def Upto {α : Type} (r r' : R α) : Prop := r ≠ .fuel → r' = r

theorem Upto.bind {α β : Type} {r r' : R α} {f f' : α → St → R β} (h : Upto r r')
    (hf : ∀ a s, Upto (f a s) (f' a s)) : Upto (r.bind f) (r'.bind f') := by
  intro hn
  cases r with
  | ok a s => rw [h (by simp)]; exact hf a s hn
  | err e s => rw [h (by simp)]; rfl
  | panic p => rw [h (by simp)]; rfl
  | fuel => exact absurd rfl hn

theorem Upto.refl {α : Type} (r : R α) : Upto r r := fun _ => rfl

variable {rec' : Nat → St → R Elem}

theorem argument_upto (h : ∀ p s, Upto (rec p s) (rec' p s)) (s : St) :
    Upto (argument cfg rec s) (argument cfg rec' s) := by
  intro hn
  unfold argument at hn ⊢
  rw [h noPrec s (by
    intro e
    rw [e] at hn
    exact hn rfl)]

theorem parseArgs_upto (h : ∀ p s, Upto (rec p s) (rec' p s)) :
    ∀ (n : Nat) (as : List Elem) (s : St), Upto (parseArgs cfg rec n as s) (parseArgs cfg rec' n as s)
  | 0, _, _ => .refl _
  | n + 1, as, s => by
    rw [parseArgs, parseArgs]
    refine (argument_upto h s).bind fun arg s1 => ?_
    simp only
    split
    · split
      · exact parseArgs_upto h n _ _
      · exact .refl _
    · exact .refl _

theorem atom_upto (h : ∀ p s, Upto (rec p s) (rec' p s)) (s : St) :
    Upto (atom cfg ctx rec s) (atom cfg ctx rec' s) := by
  unfold atom
  simp only
  split
  · exact .refl _
  · split
    · exact .refl _
    · split
      · unfold parseIdent
        simp only
        split
        · exact .refl _
        · exact .refl _
        · split
          · exact (parseArgs_upto h _ _ _).bind fun _ _ => .refl _
          · exact .refl _
      · split
        · exact (h _ _).bind fun _ _ => .refl _
        · split
          · exact (h _ _).bind fun _ _ => .refl _
          · split
            · exact (h _ _).bind fun _ _ => .refl _
            · exact .refl _

theorem opLoop_upto (h : ∀ p s, Upto (rec p s) (rec' p s)) (p : Nat) :
    ∀ (n : Nat) (el : Elem) (s : St), Upto (opLoop cfg rec p n el s) (opLoop cfg rec' p n el s)
  | 0, _, _ => .refl _
  | n + 1, el, s => by
    rw [opLoop, opLoop]
    split
    · exact .refl _
    · exact (h _ _).bind fun _ _ => opLoop_upto h p n _ _

theorem element_upto (cfg : Cfg) (w : World) (ctx : Context) :
    ∀ (n m p : Nat) (s : St), n ≤ m → Upto (element cfg w ctx n p s) (element cfg w ctx m p s)
  | 0, _, _, _, _ => fun h => absurd rfl h
  | n + 1, 0, _, _, h => absurd h (by omega)
  | n + 1, m + 1, p, s, h => by
    rw [element, element]
    have ih := fun q t => element_upto cfg w ctx n m q t (by omega)
    exact (atom_upto ih s).bind fun a s1 => (opLoop_upto ih p _ _ _).bind fun _ _ => .refl _

end
end Xprs
