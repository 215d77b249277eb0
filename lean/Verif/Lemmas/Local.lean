import Verif.Lemmas.ParserBasics
/-
What the parser has read when it stops: two texts that agree up to three bytes behind
the cursor give the same outcome; one byte is enough if no exponent marker is there.
-/
namespace Xprs

/-- None of the two bytes in front of place `K` is an exponent marker. -/
def NoE (K : Nat) (s : St) : Prop :=
  ∀ i c, s.rest[i]? = some c → (s.pos + i + 1 = K ∨ s.pos + i + 2 = K) →
    c ≠ c!"e" ∧ c ≠ c!"E"

/-- The two states are at the same place and see the same bytes up to place `K`; the
number `d` says how far behind the cursor `K` will be. -/
structure Ag (d K : Nat) (s t : St) : Prop where
  pos : s.pos = t.pos
  see : s.rest.take (K - s.pos) = t.rest.take (K - s.pos)
  gap : 1 ≤ d
  exp : 3 ≤ d ∨ NoE K s

/-- How the place an error names depends on the cursor. -/
def Tells (e : PErr) (s : St) : Prop :=
  match e.kind with
  | .unexpectedEnd => s.rest = [] ∧ s.pos ≤ e.off + 1
  | .unexpectedToken _ | .illegalCharacter _ | .expectedToken _ => e.off = s.pos ∧ e.len = 0
  | .malformedNumber _ => e.off ≤ s.pos ∧ s.pos ≤ e.off + e.len
  | .tooFew _ _ | .tooMany _ _ => e.off + e.len = s.pos
  | .missingArgument => e.off + 1 = s.pos ∧ e.len = 2
  | .variableNotDeclared _ _ => False

/-- Started in `s`, the outcome `x` only depends on the bytes up to `K`. -/
def Out {α : Type} (d K : Nat) (s : St) (x y : R α) : Prop :=
  match x with
  | .ok a s' => Le s s' ∧ (s'.pos + d ≤ K → ∃ t', y = .ok a t' ∧ Ag d K s' t')
  | .err e s' => Le s s' ∧ Tells e s' ∧ (s'.pos + d ≤ K → ∃ t', y = .err e t' ∧ Ag d K s' t')
  | _ => True

theorem Ag.same (K : Nat) (s : St) : Ag 3 K s s :=
  ⟨Eq.refl _, Eq.refl _, by omega, .inl (Nat.le_refl _)⟩

theorem NoE.adv {K : Nat} {s : St} (h : NoE K s) (n : Nat) : NoE K (Xprs.adv s n) := by
  intro i c hi hk
  simp only [Xprs.adv, List.getElem?_drop] at hi hk
  exact h (n + i) c hi (by omega)

theorem Ag.adv {d K : Nat} {s t : St} (h : Ag d K s t) (n : Nat) : Ag d K (adv s n) (adv t n) := by
  refine ⟨by simp [Xprs.adv, h.1], ?_, h.gap, h.exp.imp_right fun h => h.adv n⟩
  simp only [Xprs.adv]
  rw [Nat.sub_add_eq, ← List.drop_take, ← List.drop_take, h.2]

theorem Ag.le {d K : Nat} {s t : St} (h : Ag d K s t) {n : Nat} (hn : s.pos + n ≤ K) :
    s.rest.take n = t.rest.take n := by
  have := congrArg (List.take n) h.2
  rw [List.take_take, List.take_take, Nat.min_eq_left (by omega)] at this
  exact this

theorem Ag.head {d K : Nat} {s t : St} (h : Ag d K s t) (hk : s.pos + 1 ≤ K) :
    s.rest.head? = t.rest.head? := by
  have := h.le hk
  cases h1 : s.rest <;> cases h2 : t.rest <;> simp_all

theorem take_while_eq (p : UInt8 → Bool) : ∀ (l l' : Bytes) (k : Nat), l.take k = l'.take k →
    (l.takeWhile p).length + 1 ≤ k → l.takeWhile p = l'.takeWhile p
  | [], [], _, _, _ => rfl
  | [], b :: l', 0, _, hk => by omega
  | [], b :: l', k + 1, h, _ => by simp at h
  | a :: l, [], 0, _, hk => by omega
  | a :: l, [], k + 1, h, _ => by simp at h
  | a :: l, b :: l', 0, _, hk => by omega
  | a :: l, b :: l', k + 1, h, hk => by
    simp only [List.take_succ_cons, List.cons.injEq] at h
    obtain ⟨h1, h2⟩ := h
    subst h1
    by_cases ha : p a = true
    · simp only [List.takeWhile_cons, ha, if_true, List.length_cons] at hk ⊢
      rw [take_while_eq p l l' k h2 (by omega)]
    · simp [ha]

theorem Ag.takeWhile {d K : Nat} {s t : St} (h : Ag d K s t) (p : UInt8 → Bool)
    (hk : (skipWhile p s).pos + 1 ≤ K) : s.rest.takeWhile p = t.rest.takeWhile p := by
  apply take_while_eq p _ _ _ h.2
  simp only [skipWhile, Xprs.adv] at hk
  omega

theorem Ag.skip {d K : Nat} {s t : St} (h : Ag d K s t) (p : UInt8 → Bool)
    (hk : (skipWhile p s).pos + 1 ≤ K) : Ag d K (skipWhile p s) (skipWhile p t) := by
  have := h.takeWhile p hk
  unfold skipWhile
  rw [← this]
  exact h.adv _

theorem Ag.trim {d K : Nat} {s t : St} (h : Ag d K s t) (hk : (trim s).pos + 1 ≤ K) :
    Ag d K (trim s) (trim t) := h.skip isWs hk

theorem take3_expLen (l : Bytes) : expLen l = expLen (l.take 3) := by
  cases l with
  | nil => rfl
  | cons a l =>
    cases l with
    | nil => rfl
    | cons b l =>
      cases l with
      | nil => rfl
      | cons c l => rfl

theorem expLen_zero {l : Bytes} (h : ∀ c, l.head? = some c → c ≠ c!"e" ∧ c ≠ c!"E") :
    expLen l = 0 := by
  unfold expLen
  split
  · rename_i c c1 t
    have := h c rfl
    rw [if_neg (by simp [this])]
  · rfl

theorem Ag.expLen {d K : Nat} {s t : St} (h : Ag d K s t) (hk : s.pos + d ≤ K) :
    expLen s.rest = expLen t.rest := by
  by_cases h3 : s.pos + 3 ≤ K
  · rw [take3_expLen s.rest, take3_expLen t.rest, h.le h3]
  · rcases h.exp with he | he
    · omega
    · have hg := h.gap
      have h0 : ∀ c, s.rest.head? = some c → c ≠ c!"e" ∧ c ≠ c!"E" := by
        intro c hc
        exact he 0 c (by rw [← List.head?_eq_getElem?]; exact hc) (by omega)
      rw [expLen_zero h0, expLen_zero (by rw [← h.head (by omega)]; exact h0)]

theorem Ag.numEnd {d K : Nat} {s t : St} (h : Ag d K s t) (hk : (numEnd s).pos + d ≤ K) :
    Ag d K (numEnd s) (numEnd t) := by
  have l1 := (le_skipWhile isDigit
    (Xprs.adv (skipWhile isNumChar s) (Xprs.expLen (skipWhile isNumChar s).rest))).pos
  have hp : (Xprs.adv (skipWhile isNumChar s) (Xprs.expLen (skipWhile isNumChar s).rest)).pos
      = (skipWhile isNumChar s).pos + Xprs.expLen (skipWhile isNumChar s).rest := rfl
  unfold Xprs.numEnd at hk ⊢
  simp only at hk ⊢
  have hg := h.gap
  have h1 := h.skip isNumChar (by omega)
  have h2 := h1.expLen (by omega)
  rw [← h2]
  exact (h1.adv _).skip isDigit (by omega)

variable {α β : Type} {d K : Nat}

theorem out_bind {s : St} {x y : R α} {f g : α → St → R β} (h : Out d K s x y)
    (hf : ∀ d K a s1 t1, Le s s1 → Ag d K s1 t1 → Out d K s1 (f a s1) (g a t1)) :
    Out d K s (x.bind f) (y.bind g) := by
  cases x with
  | ok a s1 =>
    obtain ⟨l, h⟩ := h
    by_cases hk : s1.pos + d ≤ K
    · obtain ⟨t1, hy, ha⟩ := h hk
      subst hy
      have h2 := hf d K a s1 t1 l ha
      simp only [R.bind_ok]
      unfold Out at h2 ⊢
      split at h2
      · exact ⟨l.trans h2.1, h2.2⟩
      · exact ⟨l.trans h2.1, h2.2⟩
      · trivial
    · have h2 := hf 3 K a s1 s1 l (Ag.same K s1)
      simp only [R.bind_ok]
      unfold Out at h2 ⊢
      split at h2
      · rename_i b s2 _
        exact ⟨l.trans h2.1, fun h3 => by have := h2.1.pos; omega⟩
      · exact ⟨l.trans h2.1, h2.2.1, fun h3 => by have := h2.1.pos; omega⟩
      · trivial
  | err e s1 =>
    obtain ⟨l, ht, h⟩ := h
    refine ⟨l, ht, fun hk => ?_⟩
    obtain ⟨t1, hy, ha⟩ := h hk
    exact ⟨t1, by rw [hy]; rfl, ha⟩
  | panic p => trivial
  | fuel => trivial

/-- The outcome may be described from an earlier state. -/
theorem Out.mono {s s1 : St} {x y : R α} (l : Le s s1) (h : Out d K s1 x y) : Out d K s x y := by
  unfold Out at h ⊢
  split at h
  · exact ⟨l.trans h.1, h.2⟩
  · exact ⟨l.trans h.1, h.2⟩
  · trivial

theorem out_ok {s s1 t1 : St} (a : α) (l : Le s s1) (h : s1.pos + d ≤ K → Ag d K s1 t1) :
    Out d K s (.ok a s1) (.ok a t1) := ⟨l, fun hk => ⟨t1, rfl, h hk⟩⟩

theorem out_err {s s1 t1 : St} (e : PErr) (l : Le s s1) (ht : Tells e s1)
    (h : s1.pos + d ≤ K → Ag d K s1 t1) : Out d K s (.err e s1 : R α) (.err e t1) :=
  ⟨l, ht, fun hk => ⟨t1, rfl, h hk⟩⟩

theorem out_errEnd {cfg : Cfg} {s s1 t1 : St} (l : Le s s1) (hr : s1.rest = [])
    (h : s1.pos + d ≤ K → Ag d K s1 t1) : Out d K s (errEnd cfg s1 : R α) (errEnd cfg t1) := by
  unfold errEnd
  cases hs : subOne cfg s1.pos with
  | error p => trivial
  | ok o =>
    have ho : s1.pos ≤ o + 1 := by
      unfold subOne at hs
      split at hs
      · omega
      · cases hs; omega
    refine ⟨l, ⟨hr, ho⟩, fun hk => ⟨t1, ?_, h hk⟩⟩
    rw [← (h hk).1, hs]

theorem out_errMissing {cfg : Cfg} {s s1 t1 : St} (l : Le s s1) (h0 : 0 < s1.pos)
    (h : s1.pos + d ≤ K → Ag d K s1 t1) : Out d K s (errMissing cfg s1 : R α) (errMissing cfg t1) := by
  unfold errMissing
  cases hs : subOne cfg s1.pos with
  | error p => trivial
  | ok o =>
    have ho : o + 1 = s1.pos := by
      unfold subOne at hs
      split at hs
      · omega
      · cases hs; omega
    refine ⟨l, ⟨ho, rfl⟩, fun hk => ⟨t1, ?_, h hk⟩⟩
    · rw [← (h hk).1, hs]

theorem out_number {s t : St} (h : Ag d K s t) (l : Le s (numEnd s)) :
    Out d K s (parseNumber s) (parseNumber t) := by
  by_cases hk : (numEnd s).pos + d ≤ K
  · have h1 := h.numEnd hk
    have ht : s.rest.take ((numEnd s).pos - s.pos) = t.rest.take ((numEnd t).pos - t.pos) := by
      rw [← h.1, ← h1.1]
      exact h.le (by have := l.pos; omega)
    unfold parseNumber
    simp only [← ht]
    split
    · exact out_ok _ l fun _ => h1
    · refine ⟨l, ?_, fun hk => ⟨numEnd t, ?_, h1⟩⟩
      · simp only [Tells]; omega
      · simp only [errNum, h1.1]
  · unfold parseNumber
    simp only
    split
    · exact ⟨l, fun h3 => absurd h3 hk⟩
    · exact ⟨l, by simp only [Tells]; omega, fun h3 => absurd h3 hk⟩

/-! ### The recursive functions -/

/-- Behind `K` nothing has to be shown about the second outcome. -/
theorem out_beyond {d' K' : Nat} {s s1 : St} {x y y' : R α} (h : Out d' K' s1 x y') (l : Le s s1)
    (hp : K < s1.pos + d) : Out d K s x y := by
  unfold Out at h ⊢
  split at h
  · exact ⟨l.trans h.1, fun h3 => by have := h.1.pos; omega⟩
  · exact ⟨l.trans h.1, h.2.1, fun h3 => by have := h.1.pos; omega⟩
  · trivial

/-- Skipping: the continuation may look at what is skipped and at the next byte. -/
theorem out_skip (p : UInt8 → Bool) {f g : Bytes → St → R α}
    {s t : St} (F : ∀ d K n s1 t1, Le s s1 → Ag d K s1 t1 → s1.pos + 1 ≤ K →
      Out d K s1 (f n s1) (g n t1)) (h : Ag d K s t) : Out d K s (f (s.rest.takeWhile p) (skipWhile p s))
      (g (t.rest.takeWhile p) (skipWhile p t)) := by
  by_cases hk : (skipWhile p s).pos + 1 ≤ K
  · rw [← h.takeWhile p hk]
    exact (F d K _ _ _ (le_skipWhile p s) (h.skip p hk) hk).mono (le_skipWhile p s)
  · exact out_beyond (F 3 ((skipWhile p s).pos + 1) _ _ _ (le_skipWhile p s) (Ag.same _ _) (Nat.le_refl _))
      (le_skipWhile p s) (by have := h.gap; omega)

theorem out_trim {f g : St → R α}
    {s t : St} (F : ∀ d K s1 t1, Le s s1 → Ag d K s1 t1 → s1.pos + 1 ≤ K →
      Out d K s1 (f s1) (g t1)) (h : Ag d K s t) : Out d K s (f (trim s)) (g (trim t)) :=
  out_skip isWs (f := fun _ s => f s) (g := fun _ s => g s) (fun d K _ s t => F d K s t) h

/-- The two parsers agree on texts that agree. -/
def Locals (rec rec' : Nat → St → R Elem) : Prop :=
  ∀ d K p s t, Ag d K s t → Out d K s (rec p s) (rec' p t)

variable {cfg : Cfg} {w : World} {ctx : Context} {rec rec' : Nat → St → R Elem}

theorem out_consumeIf (c : UInt8) {f g : Bool → St → R α}
    {s t : St} (F : ∀ d K b s1 t1, Le s s1 → (b = true → 0 < s1.pos) → Ag d K s1 t1 →
      Out d K s1 (f b s1) (g b t1)) (h : Ag d K s t) :
    Out d K s (f (consumeIf c s).1 (consumeIf c s).2) (g (consumeIf c t).1 (consumeIf c t).2) := by
  have := out_trim (α := α) (K := K)
    (f := fun s => if s.rest.head? = some c then f true (adv s 1) else f false s)
    (g := fun s => if s.rest.head? = some c then g true (adv s 1) else g false s) ?_ h
  · unfold consumeIf
    split at this <;> split at this <;> simp_all
  · intro d K s t l h hk
    simp only [← h.head hk]
    split
    · rename_i hc
      exact (F d K true _ _ (l.trans (lt_one hc).le)
        (fun _ => by have := (lt_one hc).pos; omega) (h.adv 1)).mono (lt_one hc).le
    · exact F d K false _ _ l (by simp) h

theorem out_assert (c : UInt8) {s t : St} (h : Ag d K s t) :
    Out d K s (assertConsume c s) (assertConsume c t) := by
  refine out_consumeIf c (f := fun b s => if b then .ok () s else errExpected s c)
    (g := fun b s => if b then .ok () s else errExpected s c) ?_ h
  intro d K b s t l hb h
  cases b
  · simp only [errExpected, h.1]
    exact out_err _ (Le.refl _) (by simp [Tells, h.1]) fun _ => h
  · exact out_ok () (Le.refl _) fun _ => h

theorem out_argument (hr : Locals rec rec') {s t : St} (h0 : 0 < s.pos) (h : Ag d K s t) :
    Out d K s (argument cfg rec s) (argument cfg rec' t) := by
  have h1 := hr d K noPrec s t h
  unfold argument
  cases hx : rec noPrec s with
  | ok a s1 =>
    rw [hx] at h1
    refine ⟨h1.1, fun hk => ?_⟩
    obtain ⟨t1, hy, ha⟩ := h1.2 hk
    exact ⟨t1, by rw [hy], ha⟩
  | err e s1 =>
    rw [hx] at h1
    obtain ⟨l, ht, h2⟩ := h1
    simp only
    by_cases hk : s1.pos + d ≤ K
    · obtain ⟨t1, hy, ha⟩ := h2 hk
      rw [hy]
      simp only
      split
      · exact out_errMissing l (by have := l.pos; omega) fun _ => ha
      · exact out_err _ l ht fun _ => ha
    · split
      · exact out_beyond (out_errMissing (Le.refl s1) (by have := l.pos; omega) fun _ => Ag.same (s1.pos + 3) s1) l
          (by omega)
      · exact ⟨l, ht, fun h3 => absurd h3 hk⟩
  | panic p => trivial
  | fuel => trivial

theorem out_args (hc' : Consumes rec') (hr : Locals rec rec') : ∀ (n : Nat) (d K : Nat)
    (as : List Elem) (s t : St), 0 < s.pos → Ag d K s t →
      Out d K s (parseArgs cfg rec n as s) (args cfg rec' as t)
  | 0, _, _, _, _, _, _, _ => trivial
  | n + 1, d, K, as, s, t, h0, h => by
    rw [parseArgs, args_unfold hc']
    apply out_bind (out_argument hr h0 h)
    intro d K arg s1 t1 l1 h1
    refine out_trim (f := fun s2 => match s2.rest.head? with
      | some c =>
        if c = c!"," then parseArgs cfg rec n (as ++ [arg]) (adv s2 1)
        else if c = c!")" then .ok (as ++ [arg]) s2
        else errTok s2 c
      | none => errEnd cfg s2)
      (g := fun s2 => match s2.rest.head? with
      | some c =>
        if c = c!"," then args cfg rec' (as ++ [arg]) (adv s2 1)
        else if c = c!")" then .ok (as ++ [arg]) s2
        else errTok s2 c
      | none => errEnd cfg s2) ?_ h1
    intro d K s t l h hk
    simp only [← h.head hk]
    cases hc : s.rest.head? with
    | none => exact out_errEnd (Le.refl _) (by simpa using hc) fun _ => h
    | some c =>
      simp only
      split
      · exact (out_args hc' hr n _ _ _ _ _ (Nat.succ_pos _) (h.adv 1)).mono (lt_one hc).le
      · split
        · exact out_ok _ (Le.refl _) fun _ => h
        · simp only [errTok, h.1]
          exact out_err _ (Le.refl _) (by simp [Tells, h.1]) fun _ => h

theorem out_checkArity (f : Func) (as : List Elem) (start : Nat) {s t : St} (hs : start ≤ s.pos)
    (h : Ag d K s t) : Out d K s (checkArity f as start s) (checkArity f as start t) := by
  unfold checkArity
  split
  · split
    · exact out_ok _ (Le.refl _) fun _ => h
    · split
      · simp only [errTooFew, h.1]
        exact out_err _ (Le.refl _) (by simp only [Tells, h.1]; rw [h.1] at hs; omega) fun _ => h
      · simp only [errTooMany, h.1]
        exact out_err _ (Le.refl _) (by simp only [Tells, h.1]; rw [h.1] at hs; omega) fun _ => h
  · exact out_ok _ (Le.refl _) fun _ => h

theorem out_ident (hc' : Consumes rec') (hr : Locals rec rec') {s t : St} (h : Ag d K s t) :
    Out d K s (parseIdent cfg ctx rec s) (parseIdent cfg ctx rec' t) := by
  refine out_skip isIdChar (f := fun name s1 => match lookup ctx name with
    | .const x => .ok (.num x) s1
    | .var n => .ok (.var n) s1
    | .func f =>
      if (consumeIf c!"(" s1).1 then
        let s2 := (consumeIf c!"(" s1).2
        (parseArgs cfg rec (s2.rest.length + 1) [] s2).bind fun args s3 =>
          (assertConsume c!")" s3).bind fun _ s4 =>
            checkArity f args s.pos s4
      else errExpected (consumeIf c!"(" s1).2 c!"(")
    (g := fun name s1 => match lookup ctx name with
    | .const x => .ok (.num x) s1
    | .var n => .ok (.var n) s1
    | .func f =>
      if (consumeIf c!"(" s1).1 then
        let s2 := (consumeIf c!"(" s1).2
        (parseArgs cfg rec' (s2.rest.length + 1) [] s2).bind fun args s3 =>
          (assertConsume c!")" s3).bind fun _ s4 =>
            checkArity f args t.pos s4
      else errExpected (consumeIf c!"(" s1).2 c!"(") ?_ h
  have h0 := h.1
  rw [h0]
  intro d K name s t l0 h hk
  simp only
  split
  · exact out_ok _ (Le.refl _) fun _ => h
  · exact out_ok _ (Le.refl _) fun _ => h
  · rename_i f _
    refine out_consumeIf c!"(" (f := fun b s2 => if b then
        (parseArgs cfg rec (s2.rest.length + 1) [] s2).bind fun args s3 =>
          (assertConsume c!")" s3).bind fun _ s4 => checkArity f args _ s4
        else errExpected s2 c!"(")
      (g := fun b s2 => if b then
        (parseArgs cfg rec' (s2.rest.length + 1) [] s2).bind fun args s3 =>
          (assertConsume c!")" s3).bind fun _ s4 => checkArity f args _ s4
        else errExpected s2 c!"(") ?_ h
    intro d K b s t l hb h
    cases b
    · simp only [errExpected, h.1]
      exact out_err _ (Le.refl _) (by simp [Tells, h.1]) fun _ => h
    · apply out_bind (out_args hc' hr _ _ _ _ _ _ (hb rfl) h)
      intro d K as s3 t3 l3 h3
      apply out_bind (out_assert _ h3)
      intro d K _ s4 t4 l4 h4
      exact out_checkArity f as _
        (by have := l0.pos; have := l.pos; have := l3.pos; have := l4.pos; omega) h4

theorem out_atom (hc' : Consumes rec') (hr : Locals rec rec') {s t : St} (h : Ag d K s t) :
    Out d K s (atom cfg ctx rec s) (atom cfg ctx rec' t) := by
  let F (rec : Nat → St → R Elem) (s : St) : R Elem :=
    match s.rest.head? with
    | none => errEnd cfg s
    | some c =>
      if isDigit c || decide (c = c!".") then parseNumber s
      else if isIdStart c then parseIdent cfg ctx rec s
      else if c = c!"+" then
        (rec unopPrec (adv s 1)).bind fun e s' => .ok (.un .plus e) s'
      else if c = c!"-" then
        (rec unopPrec (adv s 1)).bind fun e s' => .ok (.un .minus e) s'
      else if c = c!"(" then
        (rec noPrec (adv s 1)).bind fun e s' =>
          (assertConsume c!")" s').bind fun _ s'' => .ok e s''
      else if c = c!")" then errTok s c
      else errIllegal s c
  refine out_trim (f := F rec) (g := F rec') ?_ h
  intro d K s t l h hk
  simp only [F, ← h.head hk]
  cases hc : s.rest.head? with
  | none => exact out_errEnd (Le.refl _) (by simpa using hc) fun _ => h
  | some c =>
    have l1 := (lt_one hc).le
    simp only
    split
    · exact out_number h (le_numEnd s)
    split
    · exact out_ident hc' hr h
    split
    · refine Out.mono l1 (out_bind (hr _ _ _ _ _ (h.adv 1)) ?_)
      intro d K a s1 t1 l1 h1
      exact out_ok _ (Le.refl _) fun _ => h1
    split
    · refine Out.mono l1 (out_bind (hr _ _ _ _ _ (h.adv 1)) ?_)
      intro d K a s1 t1 l1 h1
      exact out_ok _ (Le.refl _) fun _ => h1
    split
    · refine Out.mono l1 (out_bind (hr _ _ _ _ _ (h.adv 1)) ?_)
      intro d K a s1 t1 l1 h1
      apply out_bind (out_assert _ h1)
      intro d K _ s2 t2 l2 h2
      exact out_ok _ (Le.refl _) fun _ => h2
    split
    · simp only [errTok, h.1]
      exact out_err _ (Le.refl _) (by simp [Tells, h.1]) fun _ => h
    · simp only [errIllegal, h.1]
      exact out_err _ (Le.refl _) (by simp [Tells, h.1]) fun _ => h

theorem Ag.opInfo {s t : St} (h : Ag d K s t) (hk : s.pos + 1 ≤ K) (el : Elem) (p : Nat) :
    opInfo cfg el p s = opInfo cfg el p t := by
  unfold Xprs.opInfo
  rw [h.head hk]

theorem out_loop (hc' : Consumes rec') (hr : Locals rec rec') (p : Nat) : ∀ (n : Nat) (d K : Nat)
    (el : Elem) (s t : St), Ag d K s t →
      Out d K s (opLoop cfg rec p n el s) (loop cfg rec' p el t)
  | 0, _, _, _, _, _, _ => trivial
  | n + 1, d, K, el, s, t, h => by
    rw [opLoop, loop_unfold hc']
    refine out_trim (f := fun s1 => match opInfo cfg el p s1 with
      | none => .ok el s1
      | some (op, q, k) =>
        (rec q (adv s1 k)).bind fun rhs s2 => opLoop cfg rec p n (.bin op el rhs) s2)
      (g := fun s1 => match opInfo cfg el p s1 with
      | none => .ok el s1
      | some (op, q, k) =>
        (rec' q (adv s1 k)).bind fun rhs s2 => loop cfg rec' p (.bin op el rhs) s2) ?_ h
    intro d K s t l h hk
    simp only [← h.opInfo hk]
    cases hi : opInfo cfg el p s with
    | none => exact out_ok _ (Le.refl _) fun _ => h
    | some x =>
      obtain ⟨op, q, k⟩ := x
      simp only
      refine Out.mono (opInfo_le hi) (out_bind (hr _ _ _ _ _ (h.adv k)) ?_)
      intro d K rhs s2 t2 l2 h2
      exact out_loop hc' hr p n _ _ _ _ _ h2

theorem out_finish (el : Elem) {s t : St} (h : Ag d K s t) :
    Out d K s (finish cfg w el s) (finish cfg w el t) := by
  unfold finish
  split
  · split
    · exact out_ok _ (Le.refl _) fun _ => h
    · trivial
  · exact out_ok _ (Le.refl _) fun _ => h

theorem out_elementF (hc' : Consumes rec') (hr : Locals rec rec') (p : Nat) {s t : St}
    (h : Ag d K s t) : Out d K s (elementF cfg w ctx rec p s) (elementF cfg w ctx rec' p t) := by
  unfold elementF
  apply out_bind (out_atom hc' hr h)
  intro d K a s1 t1 l1 h1
  let F (rec : Nat → St → R Elem) (b : Bool) (s : St) : R Elem :=
    (opLoop cfg rec p (s.rest.length + 1) (if b then .un .factorial a else a) s).bind
      fun el' s3 => finish cfg w el' s3
  refine out_consumeIf c!"!" (f := F rec) (g := F rec') ?_ h1
  intro d K b s t l hb h
  refine out_bind (out_loop hc' hr p _ _ _ _ _ _ h) ?_
  intro d K el s2 t2 l2 h2
  exact out_finish el h2

/-- The parser only reads three bytes behind the place where it stops. -/
theorem out_element (cfg : Cfg) (w : World) (ctx : Context) :
    ∀ n, Locals (element cfg w ctx n) (elem cfg w ctx)
  | 0 => fun _ _ _ _ _ _ => trivial
  | n + 1 => by
    intro d K p s t h
    rw [element, elem_unfold]
    exact out_elementF (elem_consumes cfg w ctx) (out_element cfg w ctx n) p h

end Xprs
