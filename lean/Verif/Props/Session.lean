import Verif.Lemmas.Answer
import Verif.Props.Histories
/-
Property C61: the dialogue with the REPL.
-/
namespace Xprs
namespace Props
open Spec

/-! ### Asking for the variables -/

theorem answered_cons {a : Bytes} {as : List Bytes} {x : F64} {xs : List F64} :
    Answered (a :: as) (x :: xs) ↔ f64FromStr (strTrim a) = some x ∧ Answered as xs := by
  rw [Answered, f64FromStr_iff]

theorem answerOf_eof : answerOf (some []) = none := by decide +kernel

/-- What the `fold` over the variables builds. -/
def given (acc : HMap F64) : List (Bytes × F64) → HMap F64
  | [] => acc
  | kv :: l => given (acc.insert kv.1 kv.2) l

theorem askLoop_some : ∀ (vs : List Bytes) (acc : HMap F64) (ls : List Line) (m : HMap F64)
    (rest : List Line), askLoop vs acc ls = some (m, rest) →
    ∃ answers vals, ls = answers.map some ++ rest ∧ Answered answers vals ∧
      vals.length = vs.length ∧ m = given acc (vs.zip vals)
  | [], acc, ls, m, rest, h => by
    simp [askLoop] at h
    exact ⟨[], [], by simp [h.2], trivial, rfl, by simp [given, h.1]⟩
  | v :: vs, acc, ls, m, rest, h => by
    rw [askLoop] at h
    split at h
    · rename_i x hx
      cases ls with
      | nil => rw [readLine, answerOf_eof] at hx; cases hx
      | cons l ls =>
        simp only [readLine] at hx h
        cases l with
        | none => simp [answerOf] at hx
        | some a =>
          obtain ⟨as, xs, h1, h2, h3, h4⟩ := askLoop_some vs _ _ _ _ h
          refine ⟨a :: as, x :: xs, by simp [h1], answered_cons.2 ⟨?_, h2⟩, by simp [h3], ?_⟩
          · simpa [answerOf] using hx
          · simpa [given] using h4
    · simp at h

theorem askLoop_of : ∀ (vs : List Bytes) (acc : HMap F64) (answers : List Bytes)
    (vals : List F64) (rest : List Line), Answered answers vals → vals.length = vs.length →
    askLoop vs acc (answers.map some ++ rest) = some (given acc (vs.zip vals), rest)
  | [], acc, as, xs, rest, h, hl => by
    simp at hl; subst hl
    cases as with
    | nil => simp [askLoop, given]
    | cons a as => exact h.elim
  | v :: vs, acc, as, [], rest, h, hl => by simp at hl
  | v :: vs, acc, [], x :: xs, rest, h, hl => by simp [Answered] at h
  | v :: vs, acc, a :: as, x :: xs, rest, h, hl => by
    obtain ⟨h1, h2⟩ := answered_cons.1 h
    have := askLoop_of vs (acc.insert v x) as xs rest h2 (by simpa using hl)
    simp only [askLoop, List.map_cons, List.cons_append, readLine, answerOf, Option.bind_some, h1]
    simpa [given] using this

theorem askLoop_none : ∀ (vs : List Bytes) (acc : HMap F64) (ls : List Line),
    askLoop vs acc ls = none →
    ∃ i < vs.length, ∀ a, nth ls i = some a → f64FromStr (strTrim a) = none
  | [], acc, ls, h => by simp [askLoop] at h
  | v :: vs, acc, ls, h => by
    rw [askLoop] at h
    split at h
    · rename_i x hx
      cases ls with
      | nil => rw [readLine, answerOf_eof] at hx; cases hx
      | cons l ls =>
        simp only [readLine] at h
        obtain ⟨i, hi, h'⟩ := askLoop_none vs _ _ h
        exact ⟨i + 1, by simpa using hi, by simpa [nth] using h'⟩
    · rename_i hx
      refine ⟨0, by simp, fun a ha => ?_⟩
      have : (readLine ls).1 = some a := by cases ls <;> simpa [nth, readLine] using ha
      rw [this] at hx
      simpa [answerOf] using hx

theorem given_other (l : List (Bytes × F64)) (acc : HMap F64) (n : Bytes)
    (h : n ∉ l.map (·.1)) : given acc l n = acc n := by
  induction l generalizing acc with
  | nil => rfl
  | cons kv l ih =>
    simp at h
    rw [given, ih _ (by simpa using h.2)]
    simp [HMap.insert, h.1]

theorem given_lookup (l : List (Bytes × F64)) (acc : HMap F64) (h : (l.map (·.1)).Nodup)
    (n : Bytes) : given acc l n = (l.lookup n).or (acc n) := by
  induction l generalizing acc with
  | nil => simp [given]
  | cons kv l ih =>
    obtain ⟨k, v⟩ := kv
    simp at h
    rw [given]
    by_cases hn : n = k
    · subst hn
      rw [given_other _ _ _ (by simpa using h.1)]
      simp [HMap.insert, List.lookup]
    · rw [ih _ (by simpa using h.2)]
      have : (n == k) = false := by simpa using hn
      simp [HMap.insert, hn, List.lookup, this]

theorem given_zip {vs : List Bytes} {vals : List F64} (h : vs.Nodup)
    (hl : vals.length = vs.length) :
    given HMap.empty (vs.zip vals) = fun n => (vs.zip vals).lookup n := by
  funext n
  rw [given_lookup]
  · simp [HMap.empty]
  · rw [List.map_fst_zip (by omega)]; exact h

/-! ### C61 -/

theorem ord_nodup (cfg : Cfg) (w : World) (o : Oracle) (line : Bytes) (ast : Xpr)
    (h : parse cfg w o Context.default line = .ok ast) : (o.ord ast.vars).Nodup :=
  (o.perm _).nodup_iff.2 (C05_vars cfg w o Context.default line ast h).1

theorem round_fair {cfg : Cfg} {w : World} {o : Oracle} {x : Exchange} (h : Fair cfg w o x)
    (rest : List Line) :
    round cfg w o (some x.line :: (x.answers.map some ++ rest)) = .ok (x.reply, rest) := by
  obtain ⟨he, h⟩ := h
  unfold round
  simp only [readLine, he, if_false]
  rcases h with ⟨ast, vals, v, hp, ha, hl, hv, hr⟩ | ⟨e, hp, ha, hr⟩
  · have hl' : vals.length = (o.ord ast.vars).length := by rw [hl, (o.perm _).length_eq]
    simp only [hp, askLoop_of _ _ _ _ rest ha hl',
      given_zip (ord_nodup cfg w o _ _ hp) hl', hv, hr]
  · simp [hp, ha, hr]

/-- C61: in a dialogue of lines with the right number of answers the replies are, line
by line, those of the library to that line and its answers, and a line `exit` ends it;
what stands behind it is not read. -/
theorem C61_script (cfg : Cfg) (w : World) (os : Nat → Oracle) (xs : List Exchange)
    (h : Dialogue cfg w os xs) (bye : Bytes) (hb : strTrim bye = b!"exit") (rest : List Line) :
    session cfg w os (xs.length + 1) ((typed xs).map some ++ some bye :: rest) =
      (xs.map (·.reply), some .bye) := by
  induction xs generalizing os with
  | nil => simp [session, round, readLine, typed, hb]
  | cons x xs ih =>
    have h0 := h 0 x rfl
    have := ih (fun k => os (k + 1)) (fun i y hy => h (i + 1) y (by simpa using hy))
    have e : (typed (x :: xs)).map some ++ some bye :: rest =
        some x.line :: (x.answers.map some ++ ((typed xs).map some ++ some bye :: rest)) := by
      simp [typed]
    rw [List.length_cons, session, e, round_fair h0]
    simp [this]

theorem nth_zero (ls : List Line) : nth ls 0 = (readLine ls).1 := by cases ls <;> rfl

theorem nth_succ (ls : List Line) (i : Nat) : nth ls (i + 1) = nth (readLine ls).2 i := by
  cases ls <;> simp [nth, readLine]

theorem readLine_split (ls : List Line) :
    ∃ k, (readLine ls).1 :: (readLine ls).2 = ls ++ List.replicate k (some []) := by
  cases ls with
  | nil => exact ⟨1, rfl⟩
  | cons l ls => exact ⟨0, by simp [readLine]⟩

theorem round_ok {cfg : Cfg} {w : World} {o : Oracle} {ls rest : List Line} {r : Reply}
    (h : round cfg w o ls = .ok (r, rest)) :
    ∃ x k, Fair cfg w o x ∧ x.reply = r ∧
      some x.line :: (x.answers.map some ++ rest) = ls ++ List.replicate k (some []) := by
  obtain ⟨k, hk⟩ := readLine_split ls
  unfold round at h
  split at h
  · simp at h
  · rename_i line hline
    rw [hline] at hk
    split at h
    · simp at h
    · rename_i he
      split at h
      · rename_i ast hp
        split at h
        · simp at h
        · rename_i m rest' hm
          split at h
          · rename_i v hv
            simp at h
            obtain ⟨rfl, rfl⟩ := h
            obtain ⟨as, vals, h1, h2, h3, h4⟩ := askLoop_some _ _ _ _ _ hm
            refine ⟨⟨line, as, .evaluated v⟩, k, ⟨he, .inl ⟨ast, vals, v, hp, h2, ?_, ?_, rfl⟩⟩, rfl, ?_⟩
            · rw [h3, (o.perm _).length_eq]
            · rw [← given_zip (ord_nodup cfg w o _ _ hp) h3, ← h4, hv]
            · rw [← hk, h1]
          · simp at h
          · simp at h
      · rename_i e hp
        simp at h
        obtain ⟨rfl, rfl⟩ := h
        exact ⟨⟨line, [], .reported e⟩, k, ⟨he, .inr ⟨e, hp, rfl, rfl⟩⟩, rfl, by simp [hk]⟩
      · simp at h
      · simp at h

theorem round_stop {cfg : Cfg} {w : World} {o : Oracle} {ls : List Line} {s : Stop}
    (h : round cfg w o ls = .error s) : Ends cfg w o ls s := by
  unfold round at h
  rw [← nth_zero] at h
  split at h
  · rename_i hl; cases h; exact hl
  · rename_i line hline
    split at h
    · rename_i he; cases h; exact ⟨line, hline, he⟩
    · split at h
      · rename_i ast hp
        split at h
        · rename_i hm
          cases h
          obtain ⟨i, hi, h'⟩ := askLoop_none _ _ _ hm
          refine ⟨line, ast, hline, hp, i, ?_, fun a ha x hx => ?_⟩
          · rwa [(o.perm _).length_eq] at hi
          · rw [← f64FromStr_iff, h' a (by rwa [← nth_succ])] at hx; cases hx
        · rename_i m rest hm
          obtain ⟨as, vals, h1, h2, h3, h4⟩ := askLoop_some _ _ _ _ _ hm
          split at h
          · simp at h
          · rename_i n hn
            exfalso
            obtain ⟨h5, h6⟩ := C20_missing w ast _ n hn
            have hv := ((C05_vars cfg w o Context.default line ast hp).2 n).2 h5
            rw [h4, given_zip (ord_nodup cfg w o _ _ hp) h3] at h6
            have hv' : n ∈ (o.ord ast.vars) := (o.perm _).mem_iff.2 hv
            rw [List.lookup_eq_none_iff] at h6
            have : n ∈ ((o.ord ast.vars).zip vals).map (·.1) := by
              rw [List.map_fst_zip (by omega)]; exact hv'
            obtain ⟨kv, hkv, e⟩ := List.mem_map.1 this
            have := h6 kv hkv
            simp [e] at this
          · rename_i p hv
            cases h
            refine ⟨line, hline, .inl ?_⟩
            apply Classical.byContradiction
            intro hb
            exact (C23_partial cfg w Context.default line ast m (ctxTotal_default w) hb
              (.parsed hp)).1 p hv
      · simp at h
      · rename_i p hp
        cases h
        refine ⟨line, hline, ?_⟩
        rcases C02_panics_partial cfg w o Context.default line (ctxTotal_default w) p hp with
          ⟨h1, h2, h3⟩ | ⟨h1, _⟩
        · exact .inr ⟨h1, h2, h3⟩
        · exact .inl h1
      · rename_i hp
        have := C01_terminates cfg w o Context.default line
        simp [hp] at this

theorem replicate_eof (a b : Nat) :
    List.replicate a (some []) ++ List.replicate b (some []) = List.replicate (a + b) (some ([] : Bytes)) :=
  List.replicate_append_replicate

/-- C61, the converse: whatever the lines of the input are, the replies are those of
such a dialogue, whose lines are exactly the ones read, in order; and the program ends
only at a line `exit`, at a line that cannot be read, at an answer that is no number, and
at a line with two adjacent `!` (or, with overflow checks, at the end of the input). -/
theorem C61_dialogue (cfg : Cfg) (w : World) (os : Nat → Oracle) (n : Nat) (ls : List Line) :
    ∃ xs k rest, Dialogue cfg w os xs ∧ (session cfg w os n ls).1 = xs.map (·.reply) ∧
      (typed xs).map some ++ rest = ls ++ List.replicate k (some []) ∧
      match (session cfg w os n ls).2 with
      | none => xs.length = n
      | some s => xs.length < n ∧ Ends cfg w (os xs.length) rest s := by
  induction n generalizing os ls with
  | zero =>
    exact ⟨[], 0, ls, by intro i x h; simp at h, rfl, by simp [typed], rfl⟩
  | succ n ih =>
    rw [session]
    split
    · rename_i s hs
      refine ⟨[], 0, ls, by intro i x h; simp at h, rfl, by simp [typed], by simp, ?_⟩
      exact round_stop hs
    · rename_i r rest hs
      obtain ⟨x, k, hx, hr, he⟩ := round_ok hs
      obtain ⟨xs, k', rest', h1, h2, h3, h4⟩ := ih (fun k => os (k + 1)) rest
      refine ⟨x :: xs, k + k', rest', ?_, ?_, ?_, ?_⟩
      · intro i y hy
        cases i with
        | zero => simp at hy; subst hy; exact hx
        | succ i => exact h1 i y (by simpa using hy)
      · simp [h2, hr]
      · have e : (typed (x :: xs)).map some ++ rest' =
            some x.line :: (x.answers.map some ++ ((typed xs).map some ++ rest')) := by
          simp [typed]
        rw [e, h3, ← replicate_eof, ← List.append_assoc ls, ← he]
        simp
      · simp only
        split at h4
        · simpa using h4
        · simpa using h4

/-- The claim that the program ends when its input does. -/
def C61_eof_claim : Prop :=
  ∀ cfg w os (ls : List Line), ∃ n s, (session cfg w os n ls).2 = some s

theorem eof_forever (cfg : Cfg) (w : World) (hc : cfg.overflowChecks = false) :
    ∀ n (os : Nat → Oracle), session cfg w os n [] =
      (List.replicate n (.reported ⟨.unexpectedEnd, 2 ^ cfg.usize.bits - 1, 0⟩), none)
  | 0, _ => rfl
  | n + 1, os => by
    have hp : parse cfg w (os 0) Context.default [] = .err ⟨.unexpectedEnd, 2 ^ cfg.usize.bits - 1, 0⟩ := by
      unfold parse; rw [parseImpl_nil]; simp [hc]
    have : round cfg w (os 0) [] = .ok (.reported ⟨.unexpectedEnd, 2 ^ cfg.usize.bits - 1, 0⟩, []) := by
      unfold round
      have : strTrim [] ≠ b!"exit" := by decide +kernel
      simp only [readLine, this, if_false, hp]
    rw [session, this]
    simp only [eof_forever cfg w hc n, List.replicate_succ]

/-- It is false: without overflow checks the program prints the error of the empty text
over and over. -/
theorem C61_eof_refuted : ¬ C61_eof_claim := by
  intro h
  obtain ⟨n, s, hs⟩ := h cfgOpt w0 (fun _ => Oracle.id) []
  rw [eof_forever cfgOpt w0 rfl] at hs
  cases hs

/-- What happens when the input ends and the program has not: without overflow checks
the same error is reported without end; with them the library panics. -/
theorem C61_eof (cfg : Cfg) (w : World) (os : Nat → Oracle) :
    (cfg.overflowChecks = false → ∀ n, session cfg w os n [] =
      (List.replicate n (.reported ⟨.unexpectedEnd, 2 ^ cfg.usize.bits - 1, 0⟩), none)) ∧
    (cfg.overflowChecks = true → ∀ n, session cfg w os (n + 1) [] =
      ([], some (.libPanic .overflow))) := by
  refine ⟨fun hc n => eof_forever cfg w hc n os, fun hc n => ?_⟩
  have hp : parse cfg w (os 0) Context.default [] = .panic .overflow := by
    unfold parse; rw [parseImpl_nil]; simp [hc]
  have : round cfg w (os 0) [] = .error (.libPanic .overflow) := by
    unfold round
    have : strTrim [] ≠ b!"exit" := by decide +kernel
    simp only [readLine, this, if_false, hp]
  rw [session, this]

/-- C61: which texts are accepted as an answer, and the number each of them stands for:
the decimal number nearest to it with its sign, `inf`, `infinity` and `nan`; underscores,
which expressions allow, are not accepted. -/
theorem C61_answer (t : Bytes) (x : F64) : f64FromStr t = some x ↔ Numeral t x :=
  f64FromStr_iff t x

/-- An answer has at most one meaning; `1_000` has none. -/
theorem C61_answer_one (t : Bytes) (x y : F64) (hx : Numeral t x) (hy : Numeral t y) : x = y := by
  rw [← f64FromStr_iff] at hx hy
  rw [hx] at hy; exact Option.some.inj hy

example : Numeral b!"-2.5e1" (F64.neg (F64.ofNat 25)) := (C61_answer _ _).1 (by decide +kernel)
example : ∀ x, ¬ Numeral b!"1_000" x := by
  intro x h
  rw [← C61_answer] at h
  rw [show f64FromStr b!"1_000" = none by decide +kernel] at h
  cases h

/-- A dialogue: `x + y` with the answers ` -2.5` and `inf`, an error, a sum, the end. -/
example : session cfgOpt w0 (fun _ => Oracle.id) 4
      [some b!"x + y\n", some b!" -2.5\n", some b!"+Inf\r\n", some b!"2 +\n", some b!"1+2\n",
        some b!"\t exit \n", some b!"3!!2\n"] =
    ([.evaluated (.inf false), .reported ⟨.unexpectedEnd, 3, 0⟩, .evaluated (F64.ofNat 3)],
      some .bye) := by decide +kernel
/-- An answer that is no number ends the program; so does the end of the input there. -/
example : session cfgOpt w0 (fun _ => Oracle.id) 4 [some b!"x\n", some b!"two\n"] =
    ([], some .badAnswer) ∧
  session cfgOpt w0 (fun _ => Oracle.id) 4 [some b!"x\n"] = ([], some .badAnswer) := by
  decide +kernel

end Props
end Xprs
