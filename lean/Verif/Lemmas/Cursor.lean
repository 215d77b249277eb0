import Verif.Cursor
/-
The parser on a whole text and a machine cursor does what the parser on the remaining bytes
does: the cursor never passes the end of the text, so that no sum overflows and no slice is
out of range, and what is sliced is ASCII.
-/
namespace Xprs.Cur

/-- The state of `Parser.lean` at a cursor. -/
def st (input : Bytes) (c : Nat) : St := ⟨c, input.drop c⟩

/-- The same outcome, with the cursor inside the text. -/
inductive Sim {α : Type} (input : Bytes) : CR α → R α → Prop where
  | ok (a : α) (c : Nat) (h : c ≤ input.length) : Sim input (.ok a c) (.ok a (st input c))
  | err (e : PErr) (c : Nat) (h : c ≤ input.length) : Sim input (.err e c) (.err e (st input c))
  | panic (p : Panic) : Sim input (.panic p) (.panic p)
  | fuel : Sim input .fuel .fuel

theorem Sim.bind {α β : Type} {input : Bytes} {x : CR α} {y : R α} {f : α → Nat → CR β} {g : α → St → R β}
    (h : Sim input x y) (hf : ∀ a c, c ≤ input.length → Sim input (f a c) (g a (st input c))) :
    Sim input (x.bind f) (y.bind g) := by
  cases h with
  | ok a c h => exact hf a c h
  | err e c h => exact .err e c h
  | panic p => exact .panic p
  | fuel => exact .fuel

/-- `element` on both sides, as the recursive call. -/
def SimRec (input : Bytes) (f : Nat → Nat → CR Elem) (g : Nat → St → R Elem) : Prop :=
  ∀ p c, c ≤ input.length → Sim input (f p c) (g p (st input c))

variable {cfg : Cfg} {input : Bytes}

/-- A text is at most `isize::MAX` bytes long. -/
theorem fits (h : input.length < 2 ^ (cfg.usize.bits - 1)) : 2 * input.length < 2 ^ cfg.usize.bits := by
  have : 2 ^ cfg.usize.bits = 2 * 2 ^ (cfg.usize.bits - 1) := by cases cfg.usize <;> rfl
  omega

theorem addU_ok {a b : Nat} (h : a + b < 2 ^ cfg.usize.bits) : addU cfg a b = .ok (a + b) := by
  unfold addU; rw [if_pos h]

theorem moveU_ok {a b : Nat} (h : a + b < 2 ^ cfg.usize.bits) : moveU cfg a b = .ok () (a + b) := by
  unfold moveU; rw [addU_ok h]

theorem subU_one (a : Nat) : subU cfg a 1 = subOne cfg a := by
  unfold subU subOne
  by_cases h : a = 0
  · subst h; simp
  · rw [if_pos (by omega), if_neg h]

theorem subU_ok {a b : Nat} (h : b ≤ a) : subU cfg a b = .ok (a - b) := by
  unfold subU; rw [if_pos h]

theorem adv_st (c n : Nat) : adv (st input c) n = st input (c + n) := by
  simp [adv, st]

theorem head_st (c : Nat) : (st input c).rest.head? = input[c]? := by
  simp [st]

theorem length_takeWhile_le' (p : UInt8 → Bool) (l : Bytes) : (l.takeWhile p).length ≤ l.length :=
  (List.takeWhile_prefix p).length_le

/-- Where `skip_while` stops. -/
def stop (input : Bytes) (p : UInt8 → Bool) (c : Nat) : Nat := c + ((input.drop c).takeWhile p).length

theorem stop_le (p : UInt8 → Bool) {c : Nat} (h : c ≤ input.length) : stop input p c ≤ input.length := by
  have := length_takeWhile_le' p (input.drop c)
  rw [List.length_drop] at this
  unfold stop; omega

theorem skipWhile_st (p : UInt8 → Bool) (c : Nat) : skipWhile p (st input c) = st input (stop input p c) := by
  unfold skipWhile; rw [adv_st]; rfl

theorem skipWhileU_eq (hl : 2 * input.length < 2 ^ cfg.usize.bits) (p : UInt8 → Bool) : ∀ (k c : Nat), c ≤ input.length →
    input.length - c < k → skipWhileU cfg input p k c = .ok () (stop input p c)
  | 0, c, _, hk => by omega
  | k + 1, c, hc, hk => by
    unfold skipWhileU
    cases he : input[c]? with
    | none =>
      have : input.drop c = [] := by
        have := List.getElem?_eq_none_iff.mp he
        exact List.drop_eq_nil_of_le this
      simp [stop, this]
    | some b =>
      have hlt : c < input.length := (List.getElem?_eq_some_iff.mp he).1
      have hd : input.drop c = b :: input.drop (c + 1) := by
        rw [List.drop_eq_getElem_cons hlt]
        congr 1
        exact (List.getElem?_eq_some_iff.mp he).2
      by_cases hp : p b = true
      · simp only [hp, if_true]
        rw [moveU_ok (by omega)]
        show skipWhileU cfg input p k (c + 1) = _
        rw [skipWhileU_eq hl p k (c + 1) (by omega) (by omega)]
        simp [stop, hd, hp]
        omega
      · simp [stop, hd, hp]

theorem skipU_eq (hl : 2 * input.length < 2 ^ cfg.usize.bits) (p : UInt8 → Bool) {c : Nat} (hc : c ≤ input.length) :
    skipU cfg input p c = .ok () (stop input p c) :=
  skipWhileU_eq hl p _ c hc (by omega)

theorem nextTrimU_eq (hl : 2 * input.length < 2 ^ cfg.usize.bits) {c : Nat} (hc : c ≤ input.length) :
    nextTrimU cfg input c = .ok input[stop input isWs c]? (stop input isWs c) := by
  unfold nextTrimU; rw [skipU_eq hl _ hc]; rfl

theorem trim_st (c : Nat) : trim (st input c) = st input (stop input isWs c) := skipWhile_st _ _

theorem lt_of_get {c : Nat} {b : UInt8} (h : input[c]? = some b) : c < input.length :=
  (List.getElem?_eq_some_iff.mp h).1

/-- `consume_if_eq` on both sides. -/
theorem consumeIfU_eq (hl : 2 * input.length < 2 ^ cfg.usize.bits) (tok : UInt8) {c : Nat} (hc : c ≤ input.length) :
    ∃ c', c' ≤ input.length ∧ consumeIfU cfg input tok c = .ok (consumeIf tok (st input c)).1 c'
      ∧ (consumeIf tok (st input c)).2 = st input c' := by
  have hs := stop_le isWs hc
  unfold consumeIfU consumeIf
  rw [nextTrimU_eq hl hc, trim_st, head_st]
  by_cases h : input[stop input isWs c]? = some tok
  · have hlt := lt_of_get h
    refine ⟨stop input isWs c + 1, hlt, ?_, ?_⟩
    · simp only [CR.bind, h, decide_true, Bool.toNat_true, if_true]
      rw [moveU_ok (by omega)]
    · rw [if_pos h, adv_st]
  · refine ⟨stop input isWs c, hs, ?_, ?_⟩
    · simp only [CR.bind, h, decide_false, Bool.toNat_false, if_false]
      rw [moveU_ok (by omega)]
      rfl
    · rw [if_neg h]

theorem sim_errEnd {α : Type} {c : Nat} (hc : c ≤ input.length) :
    Sim input (errEndU cfg c : CR α) (errEnd cfg (st input c)) := by
  unfold errEndU errEnd
  rw [subU_one]
  show Sim input _ (match subOne cfg c with | .error p => .panic p | .ok o => _)
  cases subOne cfg c with
  | error p => exact .panic p
  | ok o => exact .err _ c hc

theorem sim_errMissing {α : Type} {c : Nat} (hc : c ≤ input.length) :
    Sim input (errMissingU cfg c : CR α) (errMissing cfg (st input c)) := by
  unfold errMissingU errMissing
  rw [subU_one]
  show Sim input _ (match subOne cfg c with | .error p => .panic p | .ok o => _)
  cases subOne cfg c with
  | error p => exact .panic p
  | ok o => exact .err _ c hc

theorem sim_assertConsume (hl : 2 * input.length < 2 ^ cfg.usize.bits) (tok : UInt8) {c : Nat} (hc : c ≤ input.length) :
    Sim input (assertConsumeU cfg input tok c) (assertConsume tok (st input c)) := by
  obtain ⟨c', hc', h1, h2⟩ := consumeIfU_eq (cfg := cfg) hl tok hc
  unfold assertConsumeU assertConsume
  rw [h1, h2]
  show Sim input (if _ then _ else _) _
  cases (consumeIf tok (st input c)).1 with
  | true => exact .ok () c' hc'
  | false => exact .err _ c' hc'

/-! ### Numbers -/

theorem nextIs_eq (hl : 2 * input.length < 2 ^ cfg.usize.bits) (p : UInt8 → Bool) {c k : Nat} (hc : c ≤ input.length) (hk : k ≤ 2) :
    nextIs cfg input p c k = .ok (match input[c + k]? with | some b => p b | none => false) := by
  have : 2 ^ 16 ≤ 2 ^ cfg.usize.bits := by cases cfg.usize <;> decide
  unfold nextIs; rw [addU_ok (by omega)]; rfl

theorem drop_cases (c : Nat) :
    (input[c]? = none ∧ input.drop c = [])
      ∨ (∃ b, input[c]? = some b ∧ input.drop c = b :: input.drop (c + 1)) := by
  cases he : input[c]? with
  | none => exact .inl ⟨rfl, List.drop_eq_nil_of_le (List.getElem?_eq_none_iff.mp he)⟩
  | some b =>
    obtain ⟨hlt, hb⟩ := List.getElem?_eq_some_iff.mp he
    refine .inr ⟨b, rfl, ?_⟩
    rw [List.drop_eq_getElem_cons hlt, hb]

/-- The exponent marker on both sides. -/
theorem exponent_eq (hl : 2 * input.length < 2 ^ cfg.usize.bits) {c : Nat} (hc : c ≤ input.length) :
    ∃ ws plain : Bool, withSignU cfg input (mightU input c) c = .ok ws
      ∧ andU (mightU input c) (nextIs cfg input isDigit c 1) = .ok plain
      ∧ ws.toNat * 2 + plain.toNat = expLen (input.drop c)
      ∧ c + (ws.toNat * 2 + plain.toNat) ≤ input.length := by
  unfold withSignU
  rw [nextIs_eq hl _ hc (by omega), nextIs_eq hl _ hc (by omega), nextIs_eq hl _ hc (by omega)]
  unfold mightU
  rcases drop_cases (input := input) c with ⟨h0, hd0⟩ | ⟨b0, h0, hd0⟩
  · rw [h0, hd0]
    exact ⟨false, false, rfl, rfl, rfl, by simpa using hc⟩
  · rw [h0, hd0]
    have hlt0 := lt_of_get h0
    by_cases hb : b0 = c!"e" ∨ b0 = c!"E"
    · simp only [hb, decide_true, andU, if_true]
      rcases drop_cases (input := input) (c + 1) with ⟨h1, hd1⟩ | ⟨b1, h1, hd1⟩
      · rw [h1, hd1]
        exact ⟨false, false, rfl, rfl, rfl, by simpa using hc⟩
      · rw [h1, hd1]
        have hlt1 := lt_of_get h1
        rcases drop_cases (input := input) (c + 1 + 1) with ⟨h2, hd2⟩ | ⟨b2, h2, hd2⟩
        · have h2' : input[c + 2]? = none := h2
          rw [h2', hd2]
          refine ⟨false, isDigit b1, ?_, rfl, ?_, ?_⟩
          · dsimp only
            split <;> rfl
          · simp [expLen, hb]
          · cases isDigit b1 <;> simp <;> omega
        · have h2' : input[c + 2]? = some b2 := h2
          have hlt2 := lt_of_get h2
          rw [h2', hd2]
          refine ⟨(decide (b1 = c!"+") || decide (b1 = c!"-")) && isDigit b2, isDigit b1, ?_, rfl, ?_, ?_⟩
          · dsimp only
            by_cases hs : (decide (b1 = c!"+") || decide (b1 = c!"-")) = true
            · rw [if_pos hs, hs]; rfl
            · rw [if_neg hs, (Bool.not_eq_true _).mp hs]; rfl
          · simp [expLen, hb]
          · cases ((decide (b1 = c!"+") || decide (b1 = c!"-")) && isDigit b2) <;> cases isDigit b1 <;> simp <;> omega
    · refine ⟨false, false, ?_, ?_, ?_, by simpa using hc⟩
      · simp [hb, andU]
      · simp [hb, andU]
      · unfold expLen
        cases input.drop (c + 1) with
        | nil => rfl
        | cons x t => simp [hb]

theorem ascii_num {b : UInt8} (h : isNumChar b = true) : b < 128 := by
  simp only [isNumChar, isDigit, Bool.or_eq_true, decide_eq_true_eq] at h
  rcases h with (h | h) | h
  · exact Nat.lt_of_le_of_lt h.2 (by decide)
  · rw [h]; decide
  · rw [h]; decide

theorem ascii_digit {b : UInt8} (h : isDigit b = true) : b < 128 :=
  ascii_num (by simp [isNumChar, h])

theorem ascii_id {b : UInt8} (h : isIdChar b = true) : b < 128 := by
  simp only [isIdChar, isUpper, isLower, Bool.or_eq_true, decide_eq_true_eq] at h
  rcases h with (((h | h) | h) | h) | h
  · rw [h]; decide
  · rw [h]; decide
  · exact Nat.lt_of_le_of_lt h.2 (by decide)
  · exact Nat.lt_of_le_of_lt h.2 (by decide)
  · exact ascii_digit h

/-- The slice between two cursors. -/
theorem sliceU_ok {a b : Nat} (h : a ≤ b) (hb : b ≤ input.length) :
    sliceU input a b = .ok ((input.drop a).take (b - a)) := by
  unfold sliceU; rw [if_pos ⟨h, hb⟩]

theorem slice_stop (p : UInt8 → Bool) (c : Nat) :
    (input.drop c).take (stop input p c - c) = (input.drop c).takeWhile p := by
  have : stop input p c - c = ((input.drop c).takeWhile p).length := by unfold stop; omega
  rw [this]
  conv => lhs; rw [show (input.drop c) = (input.drop c).takeWhile p ++ (input.drop c).dropWhile p from
    (List.takeWhile_append_dropWhile).symm]
  rw [List.takeWhile_append_dropWhile]
  exact (List.prefix_iff_eq_take.mp (List.takeWhile_prefix p)).symm

theorem utf8U_ok {t : Bytes} (h : ∀ b ∈ t, b < 128) : utf8U t = .ok t := by
  unfold utf8U
  rw [if_pos]
  rw [List.all_eq_true]
  intro b hb
  exact decide_eq_true (h b hb)

theorem mem_takeWhile {p : UInt8 → Bool} : ∀ {l : Bytes} {b : UInt8}, b ∈ l.takeWhile p → p b = true
  | [], _, h => by simp at h
  | x :: l, b, h => by
    rw [List.takeWhile_cons] at h
    by_cases hx : p x = true
    · rw [if_pos hx] at h
      rcases List.mem_cons.mp h with rfl | h
      · exact hx
      · exact mem_takeWhile h
    · rw [if_neg hx] at h; simp at h

/-- A slice that runs over another cursor is two slices. -/
theorem slice_append {a b c : Nat} (h : a ≤ b) (h' : b ≤ c) :
    (input.drop a).take (c - a) = (input.drop a).take (b - a) ++ (input.drop b).take (c - b) := by
  have h1 : c - a = (b - a) + (c - b) := by omega
  rw [h1, List.take_add, List.drop_drop]
  congr 3
  omega

/-- The marker of the exponent is ASCII. -/
theorem ascii_exp {l : Bytes} : ∀ b ∈ l.take (expLen l), b < 128 := by
  intro b hb
  match l with
  | [] => simp [expLen] at hb
  | [x] => simp [expLen] at hb
  | x :: y :: t =>
    unfold expLen at hb
    by_cases hx : x = c!"e" ∨ x = c!"E"
    · have hx' : x < 128 := by rcases hx with rfl | rfl <;> decide
      simp only [hx, if_true] at hb
      cases hs : (decide (y = c!"+") || decide (y = c!"-")) with
      | true =>
        have hy : y < 128 := by
          simp only [Bool.or_eq_true, decide_eq_true_eq] at hs
          rcases hs with rfl | rfl <;> decide
        have hy' : isDigit y = false := by
          simp only [Bool.or_eq_true, decide_eq_true_eq] at hs
          rcases hs with rfl | rfl <;> decide
        rw [hs, hy'] at hb
        have : b ∈ [x, y] := by
          revert hb
          match t with
          | [] => simp
          | z :: _ => cases hz : isDigit z <;> simp [hz]
        rcases List.mem_cons.mp this with rfl | h
        · exact hx'
        · rw [List.mem_singleton.mp h]; exact hy
      | false =>
        rw [hs] at hb
        have : b ∈ [x] := by
          revert hb
          cases isDigit y <;> simp
        rw [List.mem_singleton.mp this]; exact hx'
    · simp [hx] at hb

theorem sim_parseNumber (hl : 2 * input.length < 2 ^ cfg.usize.bits) {c : Nat} (hc : c ≤ input.length) :
    Sim input (parseNumberU cfg input c) (parseNumber (st input c)) := by
  have h1 : stop input isNumChar c ≤ input.length := stop_le _ hc
  obtain ⟨ws, plain, hw, hp, he, hle⟩ := exponent_eq (cfg := cfg) hl h1
  have h3 := stop_le (input := input) isDigit hle
  have hge1 : c ≤ stop input isNumChar c := Nat.le_add_right _ _
  have hge3 : stop input isNumChar c + (ws.toNat * 2 + plain.toNat)
      ≤ stop input isDigit (stop input isNumChar c + (ws.toNat * 2 + plain.toNat)) := Nat.le_add_right _ _
  have hend : numEnd (st input c)
      = st input (stop input isDigit (stop input isNumChar c + (ws.toNat * 2 + plain.toNat))) := by
    unfold numEnd
    simp only [skipWhile_st, adv_st]
    rw [he]
    rfl
  generalize hc3 : stop input isDigit (stop input isNumChar c + (ws.toNat * 2 + plain.toNat)) = c3 at *
  have hascii : ∀ b ∈ (input.drop c).take (c3 - c), b < 128 := by
    intro b hb
    rw [slice_append (b := stop input isNumChar c) hge1 (by omega),
      slice_append (a := stop input isNumChar c) (b := stop input isNumChar c + (ws.toNat * 2 + plain.toNat))
        (by omega) hge3] at hb
    rcases List.mem_append.mp hb with hb | hb
    · rw [slice_stop] at hb
      exact ascii_num (mem_takeWhile hb)
    · rcases List.mem_append.mp hb with hb | hb
      · rw [Nat.add_sub_cancel_left, he] at hb
        exact ascii_exp b hb
      · rw [← hc3, slice_stop] at hb
        exact ascii_digit (mem_takeWhile hb)
  unfold parseNumberU parseNumber
  rw [skipU_eq hl _ hc]
  simp only [CR.bind]
  rw [hw, hp]
  simp only [CR.ofPM]
  rw [moveU_ok (by omega)]
  simp only
  rw [skipU_eq hl _ hle]
  simp only
  rw [hc3, sliceU_ok (by omega) h3]
  simp only
  rw [utf8U_ok hascii, hend]
  simp only
  simp only [st]
  cases parseF64 (((input.drop c).take (c3 - c)).filter (· ≠ c!"_")) with
  | some x => exact .ok _ c3 h3
  | none =>
    show Sim input (errNumU cfg c3 _) _
    unfold errNumU
    rw [subU_ok (by rw [List.length_take, List.length_drop]; omega)]
    exact .err _ c3 h3

theorem takeWhileU_eq (hl : 2 * input.length < 2 ^ cfg.usize.bits) {c : Nat} (hc : c ≤ input.length) :
    takeWhileU cfg input isIdChar c = .ok ((input.drop c).takeWhile isIdChar) (stop input isIdChar c) := by
  unfold takeWhileU
  rw [skipU_eq hl _ hc]
  simp only [CR.bind]
  rw [sliceU_ok (show c ≤ stop input isIdChar c from Nat.le_add_right _ _) (stop_le _ hc), slice_stop]
  simp only [CR.ofPM]
  rw [utf8U_ok fun b hb => ascii_id (mem_takeWhile hb)]

/-! ### Recursive descent -/

theorem sim_argument {f : Nat → Nat → CR Elem} {g : Nat → St → R Elem} (hr : SimRec input f g) {c : Nat}
    (hc : c ≤ input.length) : Sim input (argumentU cfg f c) (argument cfg g (st input c)) := by
  unfold argumentU argument
  have := hr noPrec c hc
  revert this
  generalize f noPrec c = x
  generalize g noPrec (st input c) = y
  intro h
  cases h with
  | ok a c' h => exact .ok a c' h
  | panic p => exact .panic p
  | fuel => exact .fuel
  | err e c' h =>
    dsimp only
    cases e.kind with
    | unexpectedToken _ => exact sim_errMissing h
    | _ => exact .err e c' h

theorem sim_parseArgs (hl : 2 * input.length < 2 ^ cfg.usize.bits) {f : Nat → Nat → CR Elem} {g : Nat → St → R Elem}
    (hr : SimRec input f g) : ∀ (k : Nat) (args : List Elem) (c : Nat), c ≤ input.length →
    Sim input (parseArgsU cfg input f k args c) (parseArgs cfg g k args (st input c))
  | 0, _, _, _ => .fuel
  | k + 1, args, c, hc => by
    unfold parseArgsU parseArgs
    refine (sim_argument hr hc).bind fun arg c1 h1 => ?_
    have h2 := stop_le isWs h1
    rw [nextTrimU_eq hl h1]
    dsimp only [CR.bind]
    rw [trim_st, head_st]
    cases hb : input[stop input isWs c1]? with
    | none => exact sim_errEnd h2
    | some b =>
      have hlt := lt_of_get hb
      dsimp only
      by_cases hcomma : b = c!","
      · rw [if_pos hcomma, if_pos hcomma, moveU_ok (by omega), adv_st]
        exact sim_parseArgs hl hr k _ _ hlt
      · rw [if_neg hcomma, if_neg hcomma]
        by_cases hpar : b = c!")"
        · rw [if_pos hpar, if_pos hpar]; exact .ok _ _ h2
        · rw [if_neg hpar, if_neg hpar]; exact .err _ _ h2

theorem sim_checkArity (f : Func) (args : List Elem) (start : Nat) {c : Nat} (hc : c ≤ input.length) :
    Sim input (checkArityU f args start c) (checkArity f args start (st input c)) := by
  unfold checkArityU checkArity
  cases f.nbArgs with
  | none => exact .ok _ c hc
  | some n =>
    dsimp only
    by_cases h1 : args.length = n
    · rw [if_pos h1, if_pos h1]; exact .ok _ c hc
    · rw [if_neg h1, if_neg h1]
      by_cases h2 : args.length < n
      · rw [if_pos h2, if_pos h2]; exact .err _ c hc
      · rw [if_neg h2, if_neg h2]; exact .err _ c hc

theorem sim_parseIdent (hl : 2 * input.length < 2 ^ cfg.usize.bits) (ctx : Context) {f : Nat → Nat → CR Elem}
    {g : Nat → St → R Elem} (hr : SimRec input f g) {c : Nat} (hc : c ≤ input.length) :
    Sim input (parseIdentU cfg input ctx f c) (parseIdent cfg ctx g (st input c)) := by
  have h1 := stop_le (input := input) isIdChar hc
  unfold parseIdentU parseIdent
  rw [takeWhileU_eq hl hc, skipWhile_st]
  dsimp only [CR.bind]
  show Sim input _ (match lookup ctx ((input.drop c).takeWhile isIdChar) with
    | .const x => _ | .var n => _ | .func f => _)
  cases lookup ctx ((input.drop c).takeWhile isIdChar) with
  | const x => exact .ok _ _ h1
  | var n => exact .ok _ _ h1
  | func fn =>
    dsimp only
    obtain ⟨c', hc', e1, e2⟩ := consumeIfU_eq (cfg := cfg) hl c!"(" h1
    rw [e1, e2]
    dsimp only
    cases (consumeIf c!"(" (st input (stop input isIdChar c))).1 with
    | false => exact .err _ _ hc'
    | true =>
      simp only [if_true]
      have hlen : (st input c').rest.length = input.length - c' := by simp [st]
      rw [hlen]
      exact (sim_parseArgs hl hr _ _ _ hc').bind fun args c3 h3 =>
        (sim_assertConsume hl _ h3).bind fun _ c4 h4 => sim_checkArity _ _ _ h4

theorem sim_atom (hl : 2 * input.length < 2 ^ cfg.usize.bits) (ctx : Context) {f : Nat → Nat → CR Elem}
    {g : Nat → St → R Elem} (hr : SimRec input f g) {c : Nat} (hc : c ≤ input.length) :
    Sim input (atomU cfg input ctx f c) (atom cfg ctx g (st input c)) := by
  have h1 := stop_le (input := input) isWs hc
  unfold atomU atom
  rw [nextTrimU_eq hl hc, trim_st]
  dsimp only [CR.bind]
  rw [head_st]
  cases hb : input[stop input isWs c]? with
  | none => exact sim_errEnd h1
  | some b =>
    have hlt := lt_of_get hb
    dsimp only
    rw [moveU_ok (by omega), adv_st]
    by_cases hd : (isDigit b || decide (b = c!".")) = true
    · rw [if_pos hd, if_pos hd]; exact sim_parseNumber hl h1
    rw [if_neg hd, if_neg hd]
    by_cases hi : isIdStart b = true
    · rw [if_pos hi, if_pos hi]; exact sim_parseIdent hl ctx hr h1
    rw [if_neg hi, if_neg hi]
    by_cases hp : b = c!"+"
    · rw [if_pos hp, if_pos hp]
      exact (hr unopPrec _ hlt).bind fun e c3 h3 => .ok _ _ h3
    rw [if_neg hp, if_neg hp]
    by_cases hm : b = c!"-"
    · rw [if_pos hm, if_pos hm]
      exact (hr unopPrec _ hlt).bind fun e c3 h3 => .ok _ _ h3
    rw [if_neg hm, if_neg hm]
    by_cases ho : b = c!"("
    · rw [if_pos ho, if_pos ho]
      exact (hr noPrec _ hlt).bind fun e c3 h3 =>
        (sim_assertConsume hl _ h3).bind fun _ c4 h4 => .ok _ _ h4
    rw [if_neg ho, if_neg ho]
    by_cases hk : b = c!")"
    · rw [if_pos hk, if_pos hk]; exact .err _ _ h1
    · rw [if_neg hk, if_neg hk]; exact .err _ _ h1

/-- `get_operator_infos` on both sides. -/
theorem opInfoU_eq (hl : 2 * input.length < 2 ^ cfg.usize.bits) (el : Elem) (p : Nat) {c : Nat} (hc : c ≤ input.length) :
    (opInfo cfg el p (st input (stop input isWs c)) = none
        ∧ opInfoU cfg input el p c = .ok none (stop input isWs c))
      ∨ ∃ op q k, opInfo cfg el p (st input (stop input isWs c)) = some (op, q, k)
        ∧ opInfoU cfg input el p c = .ok (some (op, q)) (stop input isWs c + k)
        ∧ stop input isWs c + k ≤ input.length := by
  have h1 := stop_le (input := input) isWs hc
  unfold opInfoU opInfo
  rw [nextTrimU_eq hl hc, head_st]
  dsimp only [CR.bind]
  cases hb : input[stop input isWs c]? with
  | none => exact .inl ⟨rfl, rfl⟩
  | some b =>
    have hlt := lt_of_get hb
    dsimp only
    cases opOfByte b with
    | some op =>
      dsimp only
      by_cases hp : precOf op ≤ p
      · rw [if_pos hp, if_pos hp]; exact .inl ⟨rfl, rfl⟩
      · rw [if_neg hp, if_neg hp, moveU_ok (by omega)]
        exact .inr ⟨_, _, _, rfl, rfl, hlt⟩
    | none =>
      dsimp only
      by_cases hp : implPrec cfg ≤ p
      · rw [if_pos hp, if_pos hp]; exact .inl ⟨rfl, rfl⟩
      rw [if_neg hp, if_neg hp]
      by_cases hi : (isLower b || decide (b = c!"(")) = true
      · rw [if_pos hi, if_pos hi]; exact .inr ⟨_, _, 0, rfl, rfl, h1⟩
      rw [if_neg hi, if_neg hi]
      by_cases hd : (isDigit b && !el.isNum) = true
      · rw [if_pos hd, if_pos hd]; exact .inr ⟨_, _, 0, rfl, rfl, h1⟩
      · rw [if_neg hd, if_neg hd]; exact .inl ⟨rfl, rfl⟩

theorem sim_opLoop (hl : 2 * input.length < 2 ^ cfg.usize.bits) {f : Nat → Nat → CR Elem} {g : Nat → St → R Elem}
    (hr : SimRec input f g) (p : Nat) : ∀ (k : Nat) (el : Elem) (c : Nat), c ≤ input.length →
    Sim input (opLoopU cfg input f p k el c) (opLoop cfg g p k el (st input c))
  | 0, _, _, _ => .fuel
  | k + 1, el, c, hc => by
    unfold opLoopU opLoop
    rw [trim_st]
    rcases opInfoU_eq (cfg := cfg) hl el p hc with ⟨e1, e2⟩ | ⟨op, q, n, e1, e2, hle⟩
    · rw [e2]
      dsimp only [CR.bind]
      rw [e1]
      exact .ok _ _ (stop_le _ hc)
    · rw [e2]
      dsimp only [CR.bind]
      rw [e1]
      dsimp only
      rw [adv_st]
      exact (hr q _ hle).bind fun rhs c2 h2 => sim_opLoop hl hr p k _ _ h2

theorem sim_elementF (hl : 2 * input.length < 2 ^ cfg.usize.bits) (w : World) (ctx : Context) {f : Nat → Nat → CR Elem}
    {g : Nat → St → R Elem} (hr : SimRec input f g) :
    SimRec input (elementFU cfg input w ctx f) (elementF cfg w ctx g) := by
  intro p c hc
  unfold elementFU elementF
  refine (sim_atom hl ctx hr hc).bind fun a c1 h1 => ?_
  obtain ⟨c', hc', e1, e2⟩ := consumeIfU_eq (cfg := cfg) hl c!"!" h1
  rw [e1, e2]
  dsimp only [CR.bind]
  have hlen : (st input c').rest.length = input.length - c' := by simp [st]
  rw [hlen]
  refine (sim_opLoop hl hr p _ _ _ hc').bind fun el c3 h3 => ?_
  unfold finish
  by_cases ho : cfg.opt = true
  · rw [if_pos ho, if_pos ho]
    cases simplify cfg w el with
    | ok e => exact .ok e c3 h3
    | error p => exact .panic p
  · rw [if_neg ho, if_neg ho]; exact .ok el c3 h3

theorem sim_element (hl : 2 * input.length < 2 ^ cfg.usize.bits) (w : World) (ctx : Context) : ∀ n : Nat,
    SimRec input (elementU cfg input w ctx n) (element cfg w ctx n)
  | 0 => fun _ _ _ => .fuel
  | n + 1 => sim_elementF hl w ctx (sim_element hl w ctx n)

/-- The two parsers are the same function. -/
theorem parseImplU_eq (hl : 2 * input.length < 2 ^ cfg.usize.bits) (w : World) (ctx : Context) :
    parseImplU cfg input w ctx = parseImpl cfg w ctx input := by
  unfold parseImplU parseImpl
  have h := sim_element (cfg := cfg) hl w ctx (input.length + 1) noPrec 0 (Nat.zero_le _)
  have h0 : st input 0 = ⟨0, input⟩ := by simp [st]
  rw [h0] at h
  revert h
  generalize elementU cfg input w ctx (input.length + 1) noPrec 0 = x
  generalize element cfg w ctx (input.length + 1) noPrec ⟨0, input⟩ = y
  intro h
  cases h with
  | err e c h => rfl
  | panic p => rfl
  | fuel => rfl
  | ok a c h =>
    dsimp only [CR.bind]
    rw [nextTrimU_eq hl h]
    dsimp only
    rw [trim_st, head_st]
    cases input[stop input isWs c]? with
    | none => rfl
    | some b => rfl

theorem parseU_eq (hl : 2 * input.length < 2 ^ cfg.usize.bits) (w : World) (o : Oracle) (ctx : Context) :
    parseU cfg input w o ctx = parse cfg w o ctx input := by
  unfold parseU parse
  rw [parseImplU_eq hl]
  cases parseImpl cfg w ctx input with
  | ok x =>
    dsimp only
    cases ctx.getExpected with
    | none => rfl
    | some expected =>
      dsimp only
      cases (diffVars o x.vars expected).head? with
      | none => rfl
      | some v => rfl
  | err e => rfl
  | panic p => rfl
  | fuel => rfl

end Xprs.Cur
