import Verif.Spec.Mention
import Verif.Lemmas.Lexer
/-
The parser looks up only names that the text mentions.
-/
namespace Xprs
open Spec

/-! ### Names are read as a whole -/

/-- From `s` to `s'` without stopping inside a name. -/
def Whole (s s' : St) : Prop :=
  ∃ pre, Eats s pre s' ∧ (pre = [] ∨ (∃ c, pre.getLast? = some c ∧ ¬ wordChar c) ∨
    notHead letter s'.rest)

theorem Whole.refl (s : St) : Whole s s := ⟨[], Eats.refl s, .inl rfl⟩

theorem Whole.trans {a b c : St} (h : Whole a b) (h' : Whole b c) : Whole a c := by
  obtain ⟨p, hp, hp'⟩ := h
  obtain ⟨q, hq, hq'⟩ := h'
  refine ⟨p ++ q, hp.trans hq, ?_⟩
  rcases hq' with rfl | ⟨x, hx, hx'⟩ | h
  · have : c.rest = b.rest := by simpa using hq.1.symm
    rw [List.append_nil, this]; exact hp'
  · refine .inr (.inl ⟨x, ?_, hx'⟩)
    rw [List.getLast?_append, hx]; rfl
  · exact .inr (.inr h)

theorem Whole.le {s s' : St} (h : Whole s s') : Le s s' := ⟨h.choose, h.choose_spec.1⟩

theorem whole_skipWhile {p : UInt8 → Bool} (hp : ∀ c, p c = true → ¬ wordChar c) (s : St) :
    Whole s (skipWhile p s) := by
  refine ⟨_, eats_skipWhile p s, ?_⟩
  cases h : (s.rest.takeWhile p).getLast? with
  | none => left; simpa using h
  | some c => exact .inr (.inl ⟨c, rfl, hp c (mem_takeWhile c (List.mem_of_getLast? h))⟩)

theorem isWs_soft : ∀ c, isWs c = true → ¬ wordChar c := forall_byte (by decide +kernel)
theorem isNumChar_soft : ∀ c, isNumChar c = true → ¬ wordChar c := forall_byte (by decide +kernel)
theorem isDigit_soft : ∀ c, isDigit c = true → ¬ wordChar c := forall_byte (by decide +kernel)

theorem whole_trim (s : St) : Whole s (trim s) := whole_skipWhile isWs_soft s

theorem whole_one {s : St} {c : UInt8} (h : s.rest.head? = some c) (hc : ¬ wordChar c) :
    Whole s (adv s 1) := ⟨[c], eats_one h, .inr (.inl ⟨c, rfl, hc⟩)⟩

theorem whole_consumeIf {c : UInt8} (hc : ¬ wordChar c) (s : St) : Whole s (consumeIf c s).2 := by
  unfold consumeIf
  split
  · rename_i h; exact (whole_trim s).trans (whole_one h hc)
  · exact whole_trim s

theorem whole_name (s : St) : Whole s (skipWhile isIdChar s) := by
  refine ⟨_, eats_skipWhile _ s, .inr (.inr ?_)⟩
  intro d hd hl
  have h1 := head_skipWhile hd
  rw [isIdStart_isIdChar ((isIdStart_iff d).2 hl)] at h1
  simp at h1

theorem expLen_digit {l : Bytes} (h : expLen l ≠ 0) :
    ∃ c t, l.drop (expLen l) = c :: t ∧ isDigit c = true := by
  unfold expLen at h ⊢
  split at h
  · rename_i c c1 t
    split at h
    · rename_i he
      simp only [he, if_true]
      cases t with
      | nil =>
        cases hd : isDigit c1 with
        | false => simp [hd] at h
        | true => exact ⟨c1, [], by simp, hd⟩
      | cons a t =>
        have hx : isDigit c1 = true → ¬ (c1 = c!"+" ∨ c1 = c!"-") :=
          forall_byte (P := fun c1 => isDigit c1 = true → ¬ (c1 = c!"+" ∨ c1 = c!"-"))
            (by decide +kernel) c1
        cases hd : isDigit c1 with
        | true =>
          have := hx hd
          refine ⟨c1, a :: t, ?_, hd⟩
          simp only [not_or] at this
          simp [this.1, this.2]
        | false =>
          rw [hd] at h
          simp only [Bool.toNat_false, Nat.add_zero] at h ⊢
          cases ha : isDigit a with
          | false => simp [ha] at h
          | true =>
            refine ⟨a, t, ?_, ha⟩
            rw [ha] at h
            cases hs : (decide (c1 = c!"+") || decide (c1 = c!"-")) with
            | false => simp [hs] at h
            | true => simp
    · simp at h
  · simp at h

theorem whole_numEnd (s : St) : Whole s (numEnd s) := by
  unfold numEnd
  simp only
  refine (whole_skipWhile isNumChar_soft s).trans ?_
  generalize skipWhile isNumChar s = s1
  by_cases h : expLen s1.rest = 0
  · rw [h]
    have : adv s1 0 = s1 := by simp [adv]
    rw [this]
    exact whole_skipWhile isDigit_soft s1
  · obtain ⟨c, t, hc, hd⟩ := expLen_digit h
    have e1 : Eats s1 _ (adv s1 (expLen s1.rest)) := eats_adv (expLen_le s1.rest)
    have e2 := eats_skipWhile isDigit (adv s1 (expLen s1.rest))
    refine ⟨_, e1.trans e2, .inr (.inl ?_)⟩
    have hne : (adv s1 (expLen s1.rest)).rest.takeWhile isDigit ≠ [] := by
      simp [adv, hc, hd]
    cases hl : ((adv s1 (expLen s1.rest)).rest.takeWhile isDigit).getLast? with
    | none => simp at hl; simp [hl] at hne
    | some x =>
      refine ⟨x, ?_, isDigit_soft x (mem_takeWhile x (List.mem_of_getLast? hl))⟩
      rw [List.getLast?_append, hl]; rfl

/-- A successful call does not stop inside a name. -/
def Keeping (rec : Nat → St → R Elem) : Prop := ∀ p s e s', rec p s = .ok e s' → Whole s s'

section
variable {cfg : Cfg} {w : World} {c : Context} {rec : Nat → St → R Elem}

theorem parseArgs_whole (hr : Keeping rec) :
    ∀ (n : Nat) (args : List Elem) (s : St) (as : List Elem) (s' : St),
      parseArgs cfg rec n args s = .ok as s' → Whole s s'
  | 0, _, _, _, _, h => by simp [parseArgs] at h
  | n + 1, args, s, as, s', h => by
    rw [parseArgs] at h
    obtain ⟨arg, s1, h1, h2⟩ := R.bind_eq_ok h
    have l1 := (hr _ _ _ _ (argument_ok h1)).trans (whole_trim s1)
    simp only at h2
    split at h2
    · rename_i b hb
      split at h2
      · rename_i he
        exact l1.trans ((whole_one hb (by rw [he]; decide +kernel)).trans
          (parseArgs_whole hr n _ _ _ _ h2))
      · split at h2
        · simp at h2; rw [← h2.2]; exact l1
        · simp [errTok] at h2
    · exact absurd h2 errEnd_ne_ok

theorem assertConsume_whole {b : UInt8} (hb : ¬ wordChar b) {s : St} {u : Unit} {s' : St}
    (h : assertConsume b s = .ok u s') : Whole s s' := by
  obtain ⟨h1, rfl⟩ := assertConsume_ok h
  exact (whole_trim s).trans (whole_one h1 hb)

theorem parseIdent_whole (hr : Keeping rec) {s : St} {e : Elem} {s' : St}
    (h : parseIdent cfg c rec s = .ok e s') : Whole s s' := by
  have l1 := whole_name s
  unfold parseIdent at h
  simp only at h
  split at h
  · simp at h; rw [← h.2]; exact l1
  · simp at h; rw [← h.2]; exact l1
  · split at h
    · obtain ⟨as, s3, h3, h4⟩ := R.bind_eq_ok h
      obtain ⟨u, s4, h5, h6⟩ := R.bind_eq_ok h4
      rw [(checkArity_ok h6).2.1]
      exact l1.trans ((whole_consumeIf (by decide +kernel) _).trans
        ((parseArgs_whole hr _ _ _ _ _ h3).trans (assertConsume_whole (by decide +kernel) h5)))
    · simp [errExpected] at h

theorem atom_whole (hr : Keeping rec) {s : St} {e : Elem} {s' : St}
    (h : atom cfg c rec s = .ok e s') : Whole s s' := by
  refine (whole_trim s).trans ?_
  unfold atom at h
  simp only at h
  split at h
  · exact absurd h errEnd_ne_ok
  · rename_i b hb
    split at h
    · rw [(parseNumber_ok h).1]; exact whole_numEnd _
    · split at h
      · exact parseIdent_whole hr h
      · split at h
        · rename_i he
          obtain ⟨a, s1, h1, h2⟩ := R.bind_eq_ok h
          simp at h2; rw [← h2.2]
          exact (whole_one hb (by rw [he]; decide +kernel)).trans (hr _ _ _ _ h1)
        · split at h
          · rename_i he
            obtain ⟨a, s1, h1, h2⟩ := R.bind_eq_ok h
            simp at h2; rw [← h2.2]
            exact (whole_one hb (by rw [he]; decide +kernel)).trans (hr _ _ _ _ h1)
          · split at h
            · rename_i he
              obtain ⟨a, s1, h1, h2⟩ := R.bind_eq_ok h
              obtain ⟨u, s2, h3, h4⟩ := R.bind_eq_ok h2
              simp at h4; rw [← h4.2]
              exact (whole_one hb (by rw [he]; decide +kernel)).trans
                ((hr _ _ _ _ h1).trans (assertConsume_whole (by decide +kernel) h3))
            · split at h <;> simp [errTok, errIllegal] at h

theorem opOfByte_soft : ∀ b, (opOfByte b).isSome → ¬ wordChar b :=
  forall_byte (by decide +kernel)

theorem opInfo_whole {el : Elem} {p : Nat} {s : St} {op : Op} {q k : Nat}
    (h : opInfo cfg el p s = some (op, q, k)) : Whole s (adv s k) := by
  unfold opInfo at h
  split at h
  · simp at h
  · rename_i b hb
    have h0 : Whole s (adv s 0) := by simp [adv]; exact Whole.refl s
    split at h
    · rename_i o ho
      have h1 := whole_one hb (opOfByte_soft b (by rw [ho]; rfl))
      split at h
      · simp at h
      · simp at h; rw [← h.2.2]; exact h1
    · split at h
      · simp at h
      · split at h
        · simp at h; rw [← h.2.2]; exact h0
        · split at h
          · simp at h; rw [← h.2.2]; exact h0
          · simp at h

theorem opLoop_whole (hr : Keeping rec) (p : Nat) :
    ∀ (n : Nat) (el : Elem) (s : St) (e : Elem) (s' : St),
      opLoop cfg rec p n el s = .ok e s' → Whole s s'
  | 0, _, _, _, _, h => by simp [opLoop] at h
  | n + 1, el, s, e, s', h => by
    rw [opLoop] at h
    split at h
    · simp at h; rw [← h.2]; exact whole_trim s
    · rename_i op q k hk
      obtain ⟨rhs, s2, h1, h2⟩ := R.bind_eq_ok h
      exact (whole_trim s).trans ((opInfo_whole hk).trans
        ((hr _ _ _ _ h1).trans (opLoop_whole hr p n _ _ _ _ h2)))

theorem element_whole (cfg : Cfg) (w : World) (c : Context) : ∀ n, Keeping (element cfg w c n)
  | 0 => by intro p s e s' h; simp [element] at h
  | n + 1 => by
    have hr := element_whole cfg w c n
    intro p s e s' h
    obtain ⟨a, s1, el, h1, h2, _⟩ := elementF_ok h
    exact (atom_whole hr h1).trans
      ((whole_consumeIf (by decide +kernel) _).trans (opLoop_whole hr _ _ _ _ _ _ h2))

end

/-! ### Contexts that agree on the names of the text -/

/-- What is left to read is the end of the input, and does not start inside a name. -/
def Within (input : Bytes) (s : St) : Prop :=
  ∃ a, input = a ++ s.rest ∧
    (notHead letter s.rest ∨ ∀ x, a.getLast? = some x → ¬ wordChar x)

theorem Within.step {input : Bytes} {s s' : St} (h : Within input s) (hw : Whole s s') :
    Within input s' := by
  obtain ⟨a, ha, h⟩ := h
  obtain ⟨p, hp, hp'⟩ := hw
  refine ⟨a ++ p, by rw [List.append_assoc, ← hp.1]; exact ha, ?_⟩
  rcases hp' with rfl | ⟨x, hx, hx'⟩ | h'
  · have : s'.rest = s.rest := by simpa using hp.1.symm
    rw [List.append_nil, this]; exact h
  · right
    intro y hy
    rw [List.getLast?_append, hx] at hy
    simp at hy; rw [← hy]; exact hx'
  · exact .inl h'

/-- Two parsers agree on what is left of the input. -/
def AgreeOn (input : Bytes) (rec rec' : Nat → St → R Elem) : Prop :=
  ∀ p s, Within input s → rec p s = rec' p s

/-- Two contexts give the same meaning to all the names a text mentions. -/
def AgreeCtx (input : Bytes) (c c' : Context) : Prop :=
  ∀ nm, Mentions input nm → lookup c nm = lookup c' nm

variable {cfg : Cfg} {w : World} {c c' : Context} {input : Bytes}
  {rec rec' : Nat → St → R Elem}

theorem parseArgs_agree (hr : Keeping rec) (ha : AgreeOn input rec rec') :
    ∀ (n : Nat) (args : List Elem) (s : St), Within input s →
      parseArgs cfg rec n args s = parseArgs cfg rec' n args s
  | 0, _, _, _ => rfl
  | n + 1, args, s, hs => by
    rw [parseArgs, parseArgs]
    apply R.bind_congr (by unfold argument; rw [ha _ _ hs])
    intro arg s1 h1
    have l1 := (hr _ _ _ _ (argument_ok h1)).trans (whole_trim s1)
    simp only
    split
    · rename_i b hb
      split
      · rename_i he
        exact parseArgs_agree hr ha n _ _
          (hs.step (l1.trans (whole_one hb (by rw [he]; decide +kernel))))
      · rfl
    · rfl

theorem parseIdent_agree (hr : Keeping rec) (ha : AgreeOn input rec rec')
    (hc : AgreeCtx input c c') {s : St} {b : UInt8} (hb : s.rest.head? = some b)
    (hi : isIdStart b = true) (hs : Within input s) :
    parseIdent cfg c rec s = parseIdent cfg c' rec' s := by
  have l1 := whole_name s
  have hm : Mentions input (s.rest.takeWhile isIdChar) := by
    obtain ⟨a, hs, hs'⟩ := hs
    have hn := name_of_takeWhile hb hi
    rw [skipWhile_rest] at hn
    refine ⟨a, s.rest.dropWhile isIdChar, ?_, hn, ?_⟩
    · rw [List.takeWhile_append_dropWhile, hs]
    · rcases hs' with h | h
      · exact absurd ((isIdStart_iff b).1 hi) (h b hb)
      · exact h
  unfold parseIdent
  simp only
  rw [hc _ hm]
  split
  · rfl
  · rfl
  · split
    · have l2 := whole_consumeIf (c := c!"(") (by decide +kernel) (skipWhile isIdChar s)
      rw [parseArgs_agree hr ha _ _ _ (hs.step (l1.trans l2))]
    · rfl

theorem atom_agree (hr : Keeping rec) (ha : AgreeOn input rec rec')
    (hc : AgreeCtx input c c') {s : St} (hs : Within input s) :
    atom cfg c rec s = atom cfg c' rec' s := by
  have l0 := whole_trim s
  unfold atom
  simp only
  split
  · rfl
  · rename_i b hb
    split
    · rfl
    · split
      · rename_i hi
        exact parseIdent_agree hr ha hc hb hi (hs.step l0)
      · have l1 : ¬ wordChar b → Within input (adv (trim s) 1) :=
          fun h => hs.step (l0.trans (whole_one hb h))
        split
        · rename_i he; rw [ha _ _ (l1 (by rw [he]; decide +kernel))]
        · split
          · rename_i he; rw [ha _ _ (l1 (by rw [he]; decide +kernel))]
          · split
            · rename_i he; rw [ha _ _ (l1 (by rw [he]; decide +kernel))]
            · rfl

theorem opLoop_agree (hr : Keeping rec) (ha : AgreeOn input rec rec') (p : Nat) :
    ∀ (n : Nat) (el : Elem) (s : St), Within input s →
      opLoop cfg rec p n el s = opLoop cfg rec' p n el s
  | 0, _, _, _ => rfl
  | n + 1, el, s, hs => by
    rw [opLoop, opLoop]
    split
    · rfl
    · rename_i op q k hk
      have l2 := (whole_trim s).trans (opInfo_whole hk)
      apply R.bind_congr (ha _ _ (hs.step l2))
      intro rhs s2 h2
      exact opLoop_agree hr ha p n _ _ (hs.step (l2.trans (hr _ _ _ _ h2)))

theorem element_agree (hc : AgreeCtx input c c') :
    ∀ n, AgreeOn input (element cfg w c n) (element cfg w c' n)
  | 0 => fun _ _ _ => rfl
  | n + 1 => by
    have ha := element_agree hc n
    have hr := element_whole cfg w c n
    intro p s hs
    show elementF cfg w c _ p s = elementF cfg w c' _ p s
    unfold elementF
    apply R.bind_congr (atom_agree hr ha hc hs)
    intro a s1 h1
    simp only
    rw [opLoop_agree hr ha _ _ _ _
      (hs.step ((atom_whole hr h1).trans (whole_consumeIf (by decide +kernel) _)))]

theorem parseImpl_agree (hc : AgreeCtx input c c') :
    parseImpl cfg w c input = parseImpl cfg w c' input := by
  unfold parseImpl
  rw [element_agree hc _ _ ⟨0, input⟩ ⟨[], rfl, .inr (by simp)⟩]

end Xprs
