import Verif.Parser
/-
Structural facts about the parser: what it consumes, independence of fuel.
-/
namespace Xprs

set_option linter.unusedSimpArgs false

/-- `s'` is reached from `s` by consuming `pre`. -/
def Eats (s : St) (pre : Bytes) (s' : St) : Prop :=
  s.rest = pre ++ s'.rest ∧ s'.pos = s.pos + pre.length

theorem Eats.refl (s : St) : Eats s [] s := by simp [Eats]

theorem Eats.trans {s s' s'' : St} {a b : Bytes} (h : Eats s a s') (h' : Eats s' b s'') :
    Eats s (a ++ b) s'' := by
  obtain ⟨h1, h2⟩ := h
  obtain ⟨h3, h4⟩ := h'
  constructor
  · rw [h1, h3, List.append_assoc]
  · rw [h4, h2, List.length_append, Nat.add_assoc]

theorem Eats.len {s s' : St} {a : Bytes} (h : Eats s a s') :
    s.rest.length = a.length + s'.rest.length := by
  rw [h.1, List.length_append]

/-- Some bytes are consumed. -/
def Le (s s' : St) : Prop := ∃ pre, Eats s pre s'
/-- At least one byte is consumed. -/
def Lt (s s' : St) : Prop := ∃ pre, pre ≠ [] ∧ Eats s pre s'

theorem Le.refl (s : St) : Le s s := ⟨[], Eats.refl s⟩
theorem Lt.le {s s' : St} (h : Lt s s') : Le s s' := ⟨h.choose, h.choose_spec.2⟩
theorem Le.trans {a b c : St} (h : Le a b) (h' : Le b c) : Le a c := by
  obtain ⟨p, hp⟩ := h; obtain ⟨q, hq⟩ := h'; exact ⟨_, hp.trans hq⟩
theorem Lt.trans_le {a b c : St} (h : Lt a b) (h' : Le b c) : Lt a c := by
  obtain ⟨p, hn, hp⟩ := h; obtain ⟨q, hq⟩ := h'
  exact ⟨_, by simp [hn], hp.trans hq⟩
theorem Le.trans_lt {a b c : St} (h : Le a b) (h' : Lt b c) : Lt a c := by
  obtain ⟨p, hp⟩ := h; obtain ⟨q, hn, hq⟩ := h'
  exact ⟨_, by simp [hn], hp.trans hq⟩
theorem Le.len {s s' : St} (h : Le s s') : s'.rest.length ≤ s.rest.length := by
  obtain ⟨p, hp⟩ := h; have := hp.len; omega
theorem Lt.len {s s' : St} (h : Lt s s') : s'.rest.length < s.rest.length := by
  obtain ⟨p, hn, hp⟩ := h; have := hp.len; have := List.length_pos_iff.2 hn; omega
theorem Le.pos {s s' : St} (h : Le s s') : s.pos ≤ s'.pos := by
  obtain ⟨p, hp⟩ := h; have := hp.2; omega
theorem Le.total {s s' : St} (h : Le s s') :
    s'.pos + s'.rest.length = s.pos + s.rest.length := by
  obtain ⟨p, hp⟩ := h; have := hp.2; have := hp.len; omega
theorem Lt.pos {s s' : St} (h : Lt s s') : s.pos < s'.pos := by
  obtain ⟨p, hn, hp⟩ := h; have := hp.2; have := List.length_pos_iff.2 hn; omega

/-! ### Lexing helpers -/

theorem takeWhile_append_drop (p : UInt8 → Bool) (l : Bytes) :
    l.takeWhile p ++ l.drop (l.takeWhile p).length = l := by
  induction l with
  | nil => rfl
  | cons a t ih =>
    by_cases h : p a
    · simp [List.takeWhile_cons, h, ih]
    · simp [List.takeWhile_cons, h]

theorem drop_takeWhile (p : UInt8 → Bool) (l : Bytes) :
    l.drop (l.takeWhile p).length = l.dropWhile p := by
  induction l with
  | nil => rfl
  | cons a t ih =>
    by_cases h : p a
    · simp [List.takeWhile_cons, List.dropWhile_cons, h, ih]
    · simp [List.takeWhile_cons, List.dropWhile_cons, h]

theorem eats_adv {s : St} {n : Nat} (h : n ≤ s.rest.length) :
    Eats s (s.rest.take n) (adv s n) := by
  constructor
  · simp [adv]
  · simp [adv, Nat.min_eq_left h]

theorem eats_skipWhile (p : UInt8 → Bool) (s : St) :
    Eats s (s.rest.takeWhile p) (skipWhile p s) := by
  constructor
  · exact (takeWhile_append_drop p s.rest).symm
  · rfl

theorem skipWhile_rest (p : UInt8 → Bool) (s : St) :
    (skipWhile p s).rest = s.rest.dropWhile p := drop_takeWhile p s.rest

theorem le_skipWhile (p : UInt8 → Bool) (s : St) : Le s (skipWhile p s) :=
  ⟨_, eats_skipWhile p s⟩

theorem le_trim (s : St) : Le s (trim s) := le_skipWhile _ s

theorem trim_rest (s : St) : (trim s).rest = s.rest.dropWhile isWs := skipWhile_rest _ s

theorem head_dropWhile {p : UInt8 → Bool} {l : Bytes} {c : UInt8}
    (h : (l.dropWhile p).head? = some c) : p c = false := by
  induction l with
  | nil => simp at h
  | cons a t ih =>
    by_cases ha : p a
    · exact ih (by simpa [List.dropWhile_cons, ha] using h)
    · simp [List.dropWhile_cons, ha] at h; subst h; simpa using ha

theorem head_trim {s : St} {c : UInt8} (h : (trim s).rest.head? = some c) : isWs c = false := by
  rw [trim_rest] at h; exact head_dropWhile h

theorem head_skipWhile {p : UInt8 → Bool} {s : St} {c : UInt8}
    (h : (skipWhile p s).rest.head? = some c) : p c = false := by
  rw [skipWhile_rest] at h; exact head_dropWhile h

/-- A state whose next byte is not whitespace. -/
def Trimmed (s : St) : Prop := ∀ c, s.rest.head? = some c → isWs c = false

theorem trimmed_trim (s : St) : Trimmed (trim s) := fun _ => head_trim

theorem trim_of_trimmed {s : St} (h : Trimmed s) : trim s = s := by
  rcases s with ⟨pos, rest⟩
  cases rest with
  | nil => rfl
  | cons a t =>
    have : isWs a = false := h a rfl
    simp [trim, skipWhile, List.takeWhile_cons, this, adv]

theorem trim_trim (s : St) : trim (trim s) = trim s := trim_of_trimmed (trimmed_trim s)

theorem eats_one {s : St} {c : UInt8} (h : s.rest.head? = some c) : Eats s [c] (adv s 1) := by
  rcases s with ⟨pos, rest⟩
  cases rest with
  | nil => simp at h
  | cons a t => simp at h; subst h; simp [Eats, adv]

theorem lt_one {s : St} {c : UInt8} (h : s.rest.head? = some c) : Lt s (adv s 1) :=
  ⟨[c], by simp, eats_one h⟩

theorem le_consumeIf (c : UInt8) (s : St) : Le s (consumeIf c s).2 := by
  unfold consumeIf
  split
  · rename_i h; exact (le_trim s).trans (lt_one h).le
  · exact le_trim s

theorem consumeIf_true {c : UInt8} {s : St} (h : (consumeIf c s).1 = true) :
    (trim s).rest.head? = some c ∧ (consumeIf c s).2 = adv (trim s) 1 := by
  unfold consumeIf at *
  split at h
  · rename_i h'; simp [h']
  · simp at h

theorem consumeIf_false {c : UInt8} {s : St} (h : (consumeIf c s).1 = false) :
    (trim s).rest.head? ≠ some c ∧ (consumeIf c s).2 = trim s := by
  unfold consumeIf at *
  split at h
  · simp at h
  · rename_i h'; simp [h']

theorem lt_consumeIf {c : UInt8} {s : St} (h : (consumeIf c s).1 = true) :
    Lt s (consumeIf c s).2 := by
  have := consumeIf_true h
  rw [this.2]; exact (le_trim s).trans_lt (lt_one this.1)

theorem expLen_le (l : Bytes) : expLen l ≤ l.length := by
  unfold expLen
  split
  · rename_i c c1 t
    split
    · cases t with
      | nil => simp; cases isDigit c1 <;> simp
      | cons a t =>
        simp only [List.length_cons]
        generalize ((decide (c1 = c!"+") || decide (c1 = c!"-")) && isDigit a) = b
        cases b <;> cases isDigit c1 <;> simp
    · simp
  · simp

theorem le_numEnd (s : St) : Le s (numEnd s) := by
  unfold numEnd
  exact (le_skipWhile _ s).trans
    (Le.trans ⟨_, eats_adv (expLen_le _)⟩ (le_skipWhile _ _))

theorem isDigit_isNumChar {c : UInt8} (h : isDigit c = true) : isNumChar c = true := by
  simp [isNumChar, h]

theorem lt_skipWhile {p : UInt8 → Bool} {s : St} {c : UInt8} (h : s.rest.head? = some c)
    (hp : p c = true) : Lt s (skipWhile p s) := by
  refine ⟨_, ?_, eats_skipWhile p s⟩
  rcases s with ⟨pos, rest⟩
  cases rest with
  | nil => simp at h
  | cons a t => simp at h; subst h; simp [List.takeWhile_cons, hp]

theorem lt_numEnd {s : St} {c : UInt8} (h : s.rest.head? = some c)
    (hc : (isDigit c || decide (c = c!".")) = true) : Lt s (numEnd s) := by
  have h1 : Lt s (skipWhile isNumChar s) := by
    apply lt_skipWhile h
    simp [isNumChar]; simp at hc; rcases hc with hc | hc <;> simp [hc]
  unfold numEnd
  exact h1.trans_le (Le.trans ⟨_, eats_adv (expLen_le _)⟩ (le_skipWhile _ _))

/-! ### `R.bind` -/

@[simp] theorem R.bind_ok {α β : Type} (a : α) (s : St) (f : α → St → R β) :
    (R.ok a s).bind f = f a s := rfl
@[simp] theorem R.bind_err {α β : Type} (e : PErr) (s : St) (f : α → St → R β) :
    (R.err e s).bind f = .err e s := rfl
@[simp] theorem R.bind_panic {α β : Type} (p : Panic) (f : α → St → R β) :
    (R.panic p).bind f = .panic p := rfl
@[simp] theorem R.bind_fuel {α β : Type} (f : α → St → R β) :
    (R.fuel : R α).bind f = .fuel := rfl

theorem R.bind_eq_ok {α β : Type} {x : R α} {f : α → St → R β} {b : β} {s' : St}
    (h : x.bind f = .ok b s') : ∃ a s, x = .ok a s ∧ f a s = .ok b s' := by
  cases x with
  | ok a s => exact ⟨a, s, rfl, h⟩
  | err e s => simp at h
  | panic p => simp at h
  | fuel => simp at h

theorem R.bind_ne_fuel {α β : Type} {x : R α} {f : α → St → R β} (hx : x ≠ .fuel)
    (hf : ∀ a s, x = .ok a s → f a s ≠ .fuel) : x.bind f ≠ .fuel := by
  cases x with
  | ok a s => exact hf a s rfl
  | err e s => simp
  | panic p => simp
  | fuel => exact absurd rfl hx

theorem R.bind_congr {α β : Type} {x y : R α} {f g : α → St → R β} (hxy : x = y)
    (hf : ∀ a s, x = .ok a s → f a s = g a s) : x.bind f = y.bind g := by
  subst hxy
  cases x with
  | ok a s => exact hf a s rfl
  | err e s => rfl
  | panic p => rfl
  | fuel => rfl

/-! ### Consumption -/

/-- A successful call consumes at least one byte. -/
def Consumes (rec : Nat → St → R Elem) : Prop :=
  ∀ p s e s', rec p s = .ok e s' → Lt s s'

theorem parseNumber_ok {s : St} {e : Elem} {s' : St} (h : parseNumber s = .ok e s') :
    s' = numEnd s ∧ ∃ x, e = .num x ∧
      parseF64 ((s.rest.take ((numEnd s).pos - s.pos)).filter (· ≠ c!"_")) = some x := by
  unfold parseNumber at h
  simp only at h
  split at h
  · rename_i x hx
    simp at h
    exact ⟨h.2.symm, x, h.1.symm, hx⟩
  · simp [errNum] at h

theorem argument_ok {cfg : Cfg} {rec : Nat → St → R Elem} {s : St} {e : Elem} {s' : St}
    (h : argument cfg rec s = .ok e s') : rec noPrec s = .ok e s' := by
  unfold argument at h
  split at h
  · split at h
    · unfold errMissing at h; split at h <;> simp at h
    · simp at h
  · exact h

theorem errEnd_ne_ok {α : Type} {cfg : Cfg} {s : St} {a : α} {s' : St} :
    errEnd cfg s ≠ .ok a s' := by
  unfold errEnd; split <;> simp

theorem errMissing_ne_ok {α : Type} {cfg : Cfg} {s : St} {a : α} {s' : St} :
    errMissing cfg s ≠ .ok a s' := by
  unfold errMissing; split <;> simp

theorem parseArgs_lt {cfg : Cfg} {rec : Nat → St → R Elem} (hr : Consumes rec) :
    ∀ (n : Nat) (args : List Elem) (s : St) (as : List Elem) (s' : St),
      parseArgs cfg rec n args s = .ok as s' → Lt s s'
  | 0, _, _, _, _, h => by simp [parseArgs] at h
  | n + 1, args, s, as, s', h => by
    rw [parseArgs] at h
    obtain ⟨arg, s1, h1, h2⟩ := R.bind_eq_ok h
    have l1 := hr _ _ _ _ (argument_ok h1)
    simp only at h2
    split at h2
    · rename_i c hc
      split at h2
      · exact (l1.trans_le (le_trim s1)).trans_le
          ((lt_one hc).le.trans (parseArgs_lt hr n _ _ _ _ h2).le)
      · split at h2
        · simp at h2; rw [← h2.2]; exact l1.trans_le (le_trim s1)
        · simp [errTok] at h2
    · exact absurd h2 errEnd_ne_ok

theorem assertConsume_ok {c : UInt8} {s : St} {u : Unit} {s' : St}
    (h : assertConsume c s = .ok u s') :
    (trim s).rest.head? = some c ∧ s' = adv (trim s) 1 := by
  unfold assertConsume at h
  split at h
  · rename_i hc
    have := consumeIf_true hc
    simp at h
    exact ⟨this.1, by rw [← h, this.2]⟩
  · simp [errExpected] at h

theorem assertConsume_lt {c : UInt8} {s : St} {u : Unit} {s' : St}
    (h : assertConsume c s = .ok u s') : Lt s s' := by
  obtain ⟨h1, rfl⟩ := assertConsume_ok h
  exact (le_trim s).trans_lt (lt_one h1)

theorem checkArity_ok {f : Func} {args : List Elem} {st : Nat} {s : St} {e : Elem} {s' : St}
    (h : checkArity f args st s = .ok e s') :
    e = .call f args ∧ s' = s ∧ ∀ n, f.nbArgs = some n → args.length = n := by
  unfold checkArity at h
  split at h
  · rename_i n hn
    split at h
    · simp at h; refine ⟨h.1.symm, h.2.symm, ?_⟩
      intro m hm; rw [hn] at hm; simp at hm; omega
    · split at h <;> simp [errTooFew, errTooMany] at h
  · rename_i hn
    simp at h; exact ⟨h.1.symm, h.2.symm, by simp [hn]⟩

theorem parseIdent_lt {cfg : Cfg} {ctx : Context} {rec : Nat → St → R Elem}
    (hr : Consumes rec) {s : St} {c : UInt8} (hc : s.rest.head? = some c)
    (hi : isIdChar c = true) {e : Elem} {s' : St}
    (h : parseIdent cfg ctx rec s = .ok e s') : Lt s s' := by
  have l1 : Lt s (skipWhile isIdChar s) := lt_skipWhile hc hi
  unfold parseIdent at h
  simp only at h
  split at h
  · simp at h; rw [← h.2]; exact l1
  · simp at h; rw [← h.2]; exact l1
  · split at h
    · rename_i hp
      obtain ⟨as, s3, h3, h4⟩ := R.bind_eq_ok h
      obtain ⟨u, s4, h5, h6⟩ := R.bind_eq_ok h4
      rw [(checkArity_ok h6).2.1]
      exact l1.trans_le ((lt_consumeIf hp).le.trans
        ((parseArgs_lt hr _ _ _ _ _ h3).le.trans (assertConsume_lt h5).le))
    · simp [errExpected] at h

theorem isIdStart_isIdChar {c : UInt8} (h : isIdStart c = true) : isIdChar c = true := by
  simp [isIdStart] at h; simp [isIdChar]; rcases h with h | h <;> simp [h]

theorem atom_lt {cfg : Cfg} {ctx : Context} {rec : Nat → St → R Elem}
    (hr : Consumes rec) {s : St} {e : Elem} {s' : St}
    (h : atom cfg ctx rec s = .ok e s') : Lt s s' := by
  refine (le_trim s).trans_lt ?_
  unfold atom at h
  simp only at h
  split at h
  · exact absurd h errEnd_ne_ok
  · rename_i c hc
    split at h
    · rename_i hd; rw [(parseNumber_ok h).1]; exact lt_numEnd hc hd
    · split at h
      · rename_i hi; exact parseIdent_lt hr hc (isIdStart_isIdChar hi) h
      · split at h
        · obtain ⟨a, s1, h1, h2⟩ := R.bind_eq_ok h
          simp at h2; rw [← h2.2]; exact (lt_one hc).trans_le (hr _ _ _ _ h1).le
        · split at h
          · obtain ⟨a, s1, h1, h2⟩ := R.bind_eq_ok h
            simp at h2; rw [← h2.2]; exact (lt_one hc).trans_le (hr _ _ _ _ h1).le
          · split at h
            · obtain ⟨a, s1, h1, h2⟩ := R.bind_eq_ok h
              obtain ⟨u, s2, h3, h4⟩ := R.bind_eq_ok h2
              simp at h4; rw [← h4.2]
              exact (lt_one hc).trans_le ((hr _ _ _ _ h1).le.trans (assertConsume_lt h3).le)
            · split at h <;> simp [errTok, errIllegal] at h

theorem opInfo_le {cfg : Cfg} {el : Elem} {p : Nat} {s : St} {op : Op} {q k : Nat}
    (h : opInfo cfg el p s = some (op, q, k)) : Le s (adv s k) := by
  unfold opInfo at h
  split at h
  · simp at h
  · rename_i c hc
    have h1 : Le s (adv s 1) := (lt_one hc).le
    have h0 : Le s (adv s 0) := by simp [adv]; exact Le.refl s
    grind

theorem opLoop_le {cfg : Cfg} {rec : Nat → St → R Elem} (hr : Consumes rec) (p : Nat) :
    ∀ (n : Nat) (el : Elem) (s : St) (e : Elem) (s' : St),
      opLoop cfg rec p n el s = .ok e s' → Le s s'
  | 0, _, _, _, _, h => by simp [opLoop] at h
  | n + 1, el, s, e, s', h => by
    rw [opLoop] at h
    split at h
    · simp at h; rw [← h.2]; exact le_trim s
    · rename_i op q k hk
      obtain ⟨rhs, s2, h1, h2⟩ := R.bind_eq_ok h
      exact (le_trim s).trans ((opInfo_le hk).trans
        ((hr _ _ _ _ h1).le.trans (opLoop_le hr p n _ _ _ _ h2)))

theorem finish_ok {cfg : Cfg} {w : World} {el : Elem} {s : St} {e : Elem} {s' : St}
    (h : finish cfg w el s = .ok e s') :
    s' = s ∧ ((cfg.opt = true ∧ simplify cfg w el = .ok e) ∨ (cfg.opt = false ∧ e = el)) := by
  unfold finish at h
  split at h
  · split at h
    · rename_i h1 _ e1 h2; simp at h; exact ⟨h.2.symm, Or.inl ⟨h1, by rw [h2, h.1]⟩⟩
    · simp at h
  · rename_i h1
    simp at h; exact ⟨h.2.symm, Or.inr ⟨by simpa using h1, h.1.symm⟩⟩

theorem elementF_ok {cfg : Cfg} {w : World} {ctx : Context} {rec : Nat → St → R Elem}
    {p : Nat} {s : St} {e : Elem} {s' : St}
    (h : elementF cfg w ctx rec p s = .ok e s') :
    ∃ a s1 el, atom cfg ctx rec s = .ok a s1 ∧
      opLoop cfg rec p ((consumeIf c!"!" s1).2.rest.length + 1)
        (if (consumeIf c!"!" s1).1 then .un .factorial a else a) (consumeIf c!"!" s1).2
        = .ok el s' ∧
      finish cfg w el s' = .ok e s' := by
  unfold elementF at h
  obtain ⟨a, s1, h1, h2⟩ := R.bind_eq_ok h
  obtain ⟨el, s2, h3, h4⟩ := R.bind_eq_ok h2
  have := (finish_ok h4).1
  subst this
  exact ⟨a, s1, el, h1, h3, h4⟩

theorem elementF_consumes {cfg : Cfg} {w : World} {ctx : Context} {rec : Nat → St → R Elem}
    (hr : Consumes rec) : Consumes (elementF cfg w ctx rec) := by
  intro p s e s' h
  obtain ⟨a, s1, el, h1, h2, _⟩ := elementF_ok h
  exact (atom_lt hr h1).trans_le ((le_consumeIf _ _).trans (opLoop_le hr _ _ _ _ _ _ h2))

theorem element_consumes (cfg : Cfg) (w : World) (ctx : Context) :
    ∀ n, Consumes (element cfg w ctx n)
  | 0 => by intro p s e s' h; simp [element] at h
  | n + 1 => by
    have := elementF_consumes (cfg := cfg) (w := w) (ctx := ctx) (element_consumes cfg w ctx n)
    intro p s e s' h
    exact this p s e s' h

/-! ### The fuel is enough -/

/-- `rec` does not run out of fuel on states with fewer than `N` remaining bytes. -/
def NoFuel (rec : Nat → St → R Elem) (N : Nat) : Prop :=
  ∀ p s, s.rest.length < N → rec p s ≠ .fuel

theorem argument_ne_fuel {cfg : Cfg} {rec : Nat → St → R Elem} {N : Nat} (hn : NoFuel rec N)
    {s : St} (h : s.rest.length < N) : argument cfg rec s ≠ .fuel := by
  unfold argument
  have := hn noPrec s h
  split
  · split
    · unfold errMissing; split <;> simp
    · simp
  · exact this

theorem errEnd_ne_fuel {α : Type} {cfg : Cfg} {s : St} : (errEnd cfg s : R α) ≠ .fuel := by
  unfold errEnd; split <;> simp

theorem parseArgs_ne_fuel {cfg : Cfg} {rec : Nat → St → R Elem} {N : Nat}
    (hr : Consumes rec) (hn : NoFuel rec N) :
    ∀ (n : Nat) (args : List Elem) (s : St), s.rest.length < N → s.rest.length < n →
      parseArgs cfg rec n args s ≠ .fuel
  | 0, _, s, _, h => by omega
  | n + 1, args, s, hN, h => by
    rw [parseArgs]
    apply R.bind_ne_fuel (argument_ne_fuel hn hN)
    intro arg s1 h1
    have l1 := (hr _ _ _ _ (argument_ok h1)).len
    have l2 := (le_trim s1).len
    simp only
    split
    · rename_i c hc
      have l3 := (lt_one hc).len
      split
      · exact parseArgs_ne_fuel hr hn n _ _ (by omega) (by omega)
      · split <;> simp [errTok]
    · exact errEnd_ne_fuel

theorem checkArity_ne_fuel {f : Func} {args : List Elem} {st : Nat} {s : St} :
    checkArity f args st s ≠ .fuel := by
  unfold checkArity
  split
  · split
    · simp
    · split <;> simp [errTooFew, errTooMany]
  · simp

theorem assertConsume_ne_fuel {c : UInt8} {s : St} : assertConsume c s ≠ .fuel := by
  unfold assertConsume; split <;> simp [errExpected]

theorem parseIdent_ne_fuel {cfg : Cfg} {ctx : Context} {rec : Nat → St → R Elem} {N : Nat}
    (hr : Consumes rec) (hn : NoFuel rec N) {s : St} {c : UInt8}
    (hc : s.rest.head? = some c) (hi : isIdChar c = true) (hN : s.rest.length ≤ N) :
    parseIdent cfg ctx rec s ≠ .fuel := by
  have l1 := (lt_skipWhile hc hi).len
  unfold parseIdent
  simp only
  split
  · simp
  · simp
  · split
    · have l2 := (le_consumeIf c!"(" (skipWhile isIdChar s)).len
      apply R.bind_ne_fuel (parseArgs_ne_fuel hr hn _ _ _ (by omega) (by omega))
      intro as s3 _
      apply R.bind_ne_fuel assertConsume_ne_fuel
      intro u s4 _
      exact checkArity_ne_fuel
    · simp [errExpected]

theorem atom_ne_fuel {cfg : Cfg} {ctx : Context} {rec : Nat → St → R Elem} {N : Nat}
    (hr : Consumes rec) (hn : NoFuel rec N) {s : St} (hN : s.rest.length ≤ N) :
    atom cfg ctx rec s ≠ .fuel := by
  have l0 := (le_trim s).len
  unfold atom
  simp only
  split
  · exact errEnd_ne_fuel
  · rename_i c hc
    have l1 := (lt_one hc).len
    split
    · unfold parseNumber; simp only; split <;> simp [errNum]
    · split
      · rename_i hi
        exact parseIdent_ne_fuel hr hn hc (isIdStart_isIdChar hi) (by omega)
      · split
        · apply R.bind_ne_fuel (hn _ _ (by omega)); intros; simp
        · split
          · apply R.bind_ne_fuel (hn _ _ (by omega)); intros; simp
          · split
            · apply R.bind_ne_fuel (hn _ _ (by omega)); intro a s1 _
              apply R.bind_ne_fuel assertConsume_ne_fuel; intros; simp
            · split <;> simp [errTok, errIllegal]

theorem opLoop_ne_fuel {cfg : Cfg} {rec : Nat → St → R Elem} {N : Nat} (hr : Consumes rec)
    (hn : NoFuel rec N) (p : Nat) :
    ∀ (n : Nat) (el : Elem) (s : St), s.rest.length < N → s.rest.length < n →
      opLoop cfg rec p n el s ≠ .fuel
  | 0, _, _, _, h => by omega
  | n + 1, el, s, hN, h => by
    rw [opLoop]
    have l1 := (le_trim s).len
    split
    · simp
    · rename_i op q k hk
      have l2 := (opInfo_le hk).len
      apply R.bind_ne_fuel (hn _ _ (by omega))
      intro rhs s2 h2
      have l3 := (hr _ _ _ _ h2).len
      exact opLoop_ne_fuel hr hn p n _ _ (by omega) (by omega)

theorem finish_ne_fuel {cfg : Cfg} {w : World} {el : Elem} {s : St} :
    finish cfg w el s ≠ .fuel := by
  unfold finish
  split
  · split <;> simp
  · simp

theorem elementF_ne_fuel {cfg : Cfg} {w : World} {ctx : Context} {rec : Nat → St → R Elem}
    {N : Nat} (hr : Consumes rec) (hn : NoFuel rec N) {p : Nat} {s : St}
    (hN : s.rest.length ≤ N) : elementF cfg w ctx rec p s ≠ .fuel := by
  unfold elementF
  apply R.bind_ne_fuel (atom_ne_fuel hr hn hN)
  intro a s1 h1
  have l1 := (atom_lt hr h1).len
  have l2 := (le_consumeIf c!"!" s1).len
  simp only
  apply R.bind_ne_fuel (opLoop_ne_fuel hr hn _ _ _ _ (by omega) (by omega))
  intro e s2 _
  exact finish_ne_fuel

theorem element_noFuel (cfg : Cfg) (w : World) (ctx : Context) :
    ∀ n, NoFuel (element cfg w ctx n) n
  | 0 => by intro p s h; omega
  | n + 1 => by
    intro p s h
    exact elementF_ne_fuel (element_consumes cfg w ctx n) (element_noFuel cfg w ctx n)
      (by omega)

/-! ### Independence of fuel -/

/-- `rec` and `rec'` agree below `N` remaining bytes. -/
def Agree (rec rec' : Nat → St → R Elem) (N : Nat) : Prop :=
  ∀ p s, s.rest.length < N → rec p s = rec' p s

theorem argument_congr {cfg : Cfg} {rec rec' : Nat → St → R Elem} {N : Nat}
    (ha : Agree rec rec' N) {s : St} (h : s.rest.length < N) :
    argument cfg rec s = argument cfg rec' s := by
  unfold argument; rw [ha _ _ h]

theorem parseArgs_congr {cfg : Cfg} {rec rec' : Nat → St → R Elem} {N : Nat}
    (hr : Consumes rec) (ha : Agree rec rec' N) :
    ∀ (n : Nat) (args : List Elem) (s : St), s.rest.length < N →
      parseArgs cfg rec n args s = parseArgs cfg rec' n args s
  | 0, _, _, _ => rfl
  | n + 1, args, s, hN => by
    rw [parseArgs, parseArgs]
    apply R.bind_congr (argument_congr ha hN)
    intro arg s1 h1
    have l1 := (hr _ _ _ _ (argument_ok h1)).len
    have l2 := (le_trim s1).len
    simp only
    split
    · rename_i c hc
      have l3 := (lt_one hc).len
      split
      · exact parseArgs_congr hr ha n _ _ (by omega)
      · rfl
    · rfl

theorem parseIdent_congr {cfg : Cfg} {ctx : Context} {rec rec' : Nat → St → R Elem} {N : Nat}
    (hr : Consumes rec) (ha : Agree rec rec' N) {s : St} {c : UInt8}
    (hc : s.rest.head? = some c) (hi : isIdChar c = true) (hN : s.rest.length ≤ N) :
    parseIdent cfg ctx rec s = parseIdent cfg ctx rec' s := by
  have l1 := (lt_skipWhile hc hi).len
  unfold parseIdent
  simp only
  split
  · rfl
  · rfl
  · split
    · have l2 := (le_consumeIf c!"(" (skipWhile isIdChar s)).len
      rw [parseArgs_congr hr ha _ _ _ (by omega)]
    · rfl

theorem atom_congr {cfg : Cfg} {ctx : Context} {rec rec' : Nat → St → R Elem} {N : Nat}
    (hr : Consumes rec) (ha : Agree rec rec' N) {s : St} (hN : s.rest.length ≤ N) :
    atom cfg ctx rec s = atom cfg ctx rec' s := by
  have l0 := (le_trim s).len
  unfold atom
  simp only
  split
  · rfl
  · rename_i c hc
    have l1 := (lt_one hc).len
    split
    · rfl
    · split
      · rename_i hi
        exact parseIdent_congr hr ha hc (isIdStart_isIdChar hi) (by omega)
      · rw [ha _ _ (by omega), ha _ _ (by omega)]

theorem opLoop_congr {cfg : Cfg} {rec rec' : Nat → St → R Elem} {N : Nat}
    (hr : Consumes rec) (ha : Agree rec rec' N) (p : Nat) :
    ∀ (n : Nat) (el : Elem) (s : St), s.rest.length < N →
      opLoop cfg rec p n el s = opLoop cfg rec' p n el s
  | 0, _, _, _ => rfl
  | n + 1, el, s, hN => by
    rw [opLoop, opLoop]
    have l1 := (le_trim s).len
    split
    · rfl
    · rename_i op q k hk
      have l2 := (opInfo_le hk).len
      apply R.bind_congr (ha _ _ (by omega))
      intro rhs s2 h2
      have l3 := (hr _ _ _ _ h2).len
      exact opLoop_congr hr ha p n _ _ (by omega)

theorem opLoop_fuel {cfg : Cfg} {rec : Nat → St → R Elem} (hr : Consumes rec) (p : Nat) :
    ∀ (n m : Nat) (el : Elem) (s : St), s.rest.length < n → s.rest.length < m →
      opLoop cfg rec p n el s = opLoop cfg rec p m el s
  | 0, _, _, _, h, _ => by omega
  | _, 0, _, _, _, h => by omega
  | n + 1, m + 1, el, s, hn, hm => by
    rw [opLoop, opLoop]
    have l1 := (le_trim s).len
    split
    · rfl
    · rename_i op q k hk
      have l2 := (opInfo_le hk).len
      apply R.bind_congr rfl
      intro rhs s2 h2
      have l3 := (hr _ _ _ _ h2).len
      exact opLoop_fuel hr p n m _ _ (by omega) (by omega)

theorem parseArgs_fuel {cfg : Cfg} {rec : Nat → St → R Elem} (hr : Consumes rec) :
    ∀ (n m : Nat) (args : List Elem) (s : St), s.rest.length < n → s.rest.length < m →
      parseArgs cfg rec n args s = parseArgs cfg rec m args s
  | 0, _, _, _, h, _ => by omega
  | _, 0, _, _, _, h => by omega
  | n + 1, m + 1, args, s, hn, hm => by
    rw [parseArgs, parseArgs]
    apply R.bind_congr rfl
    intro arg s1 h1
    have l1 := (hr _ _ _ _ (argument_ok h1)).len
    have l2 := (le_trim s1).len
    simp only
    split
    · rename_i c hc
      have l3 := (lt_one hc).len
      split
      · exact parseArgs_fuel hr n m _ _ (by omega) (by omega)
      · rfl
    · rfl

theorem elementF_congr {cfg : Cfg} {w : World} {ctx : Context} {rec rec' : Nat → St → R Elem}
    {N : Nat} (hr : Consumes rec) (ha : Agree rec rec' N) {p : Nat} {s : St}
    (hN : s.rest.length ≤ N) : elementF cfg w ctx rec p s = elementF cfg w ctx rec' p s := by
  unfold elementF
  apply R.bind_congr (atom_congr hr ha hN)
  intro a s1 h1
  have l1 := (atom_lt hr h1).len
  have l2 := (le_consumeIf c!"!" s1).len
  simp only
  rw [opLoop_congr hr ha _ _ _ _ (by omega)]

theorem element_fuel (cfg : Cfg) (w : World) (ctx : Context) :
    ∀ (n m p : Nat) (s : St), s.rest.length < n → s.rest.length < m →
      element cfg w ctx n p s = element cfg w ctx m p s
  | 0, _, _, _, h, _ => by omega
  | _, 0, _, _, _, h => by omega
  | n + 1, m + 1, p, s, hn, hm => by
    rw [element, element]
    apply elementF_congr (element_consumes cfg w ctx n) (N := s.rest.length) _ (Nat.le_refl _)
    intro q t ht
    exact element_fuel cfg w ctx n m q t (by omega) (by omega)

/-- `element` with enough fuel. -/
def elem (cfg : Cfg) (w : World) (ctx : Context) (p : Nat) (s : St) : R Elem :=
  element cfg w ctx (s.rest.length + 1) p s

/-- The operator loop with enough fuel. -/
def loop (cfg : Cfg) (rec : Nat → St → R Elem) (p : Nat) (el : Elem) (s : St) : R Elem :=
  opLoop cfg rec p (s.rest.length + 1) el s

/-- The argument loop with enough fuel. -/
def args (cfg : Cfg) (rec : Nat → St → R Elem) (as : List Elem) (s : St) : R (List Elem) :=
  parseArgs cfg rec (s.rest.length + 1) as s

theorem elem_consumes (cfg : Cfg) (w : World) (ctx : Context) : Consumes (elem cfg w ctx) :=
  fun _ _ _ _ h => element_consumes cfg w ctx _ _ _ _ _ h

theorem elem_unfold (cfg : Cfg) (w : World) (ctx : Context) (p : Nat) (s : St) :
    elem cfg w ctx p s = elementF cfg w ctx (elem cfg w ctx) p s := by
  rw [elem, element]
  apply elementF_congr (element_consumes cfg w ctx _) (N := s.rest.length) _ (Nat.le_refl _)
  intro q t ht
  exact element_fuel cfg w ctx _ _ q t ht (by omega)

theorem loop_unfold {cfg : Cfg} {rec : Nat → St → R Elem} (hr : Consumes rec) (p : Nat)
    (el : Elem) (s : St) :
    loop cfg rec p el s =
      match opInfo cfg el p (trim s) with
      | none => .ok el (trim s)
      | some (op, q, k) =>
        (rec q (adv (trim s) k)).bind fun rhs s2 => loop cfg rec p (.bin op el rhs) s2 := by
  rw [loop, opLoop]
  have l1 := (le_trim s).len
  split
  · rename_i h; simp [h]
  · rename_i op q k hk
    simp only [hk]
    have l2 := (opInfo_le hk).len
    apply R.bind_congr rfl
    intro rhs s2 h2
    have l3 := (hr _ _ _ _ h2).len
    exact opLoop_fuel hr p _ _ _ _ (by omega) (by omega)

theorem args_unfold {cfg : Cfg} {rec : Nat → St → R Elem} (hr : Consumes rec)
    (as : List Elem) (s : St) :
    args cfg rec as s =
      (argument cfg rec s).bind fun arg s1 =>
        match (trim s1).rest.head? with
        | some c =>
          if c = c!"," then args cfg rec (as ++ [arg]) (adv (trim s1) 1)
          else if c = c!")" then .ok (as ++ [arg]) (trim s1)
          else errTok (trim s1) c
        | none => errEnd cfg (trim s1) := by
  rw [args, parseArgs]
  apply R.bind_congr rfl
  intro arg s1 h1
  have l1 := (hr _ _ _ _ (argument_ok h1)).len
  have l2 := (le_trim s1).len
  cases hc : (trim s1).rest.head? with
  | none => simp only [hc]
  | some c =>
    have l3 := (lt_one hc).len
    simp only [hc]
    split
    · exact parseArgs_fuel hr _ _ _ _ (by omega) (by omega)
    · rfl

end Xprs
