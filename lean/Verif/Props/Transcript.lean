import Verif.Lemmas.Transcript
import Verif.Props.Shown
import Verif.Props.Session
/-
Property C92: what the REPL prints says which expression it has read and which value it has found.
-/
namespace Xprs
namespace Props
open Spec

theorem numerical_plain {t : Bytes} (h : Numerical t) : ∀ c ∈ t, plainChar c := by
  intro c hc
  rcases h c hc with hd | hd
  · exact plain_digit ((isDigit_iff c).2 hd)
  · simp only [List.mem_cons, List.not_mem_nil, or_false] at hd
    rcases hd with rfl | rfl | rfl <;> decide

theorem plain_of_prints {fmt : F64 → Bytes} (hf : Prints fmt) (hc : ∀ n h, Numerical (fmt (.fin false n h)))
    (hd : Distinct fmt) : Plain fmt where
  ne := hd.ne
  plain v := by
    cases v with
    | nan => rw [hf.nan]; decide
    | inf s => cases s <;> simp only [hf.inf, hf.negInf] <;> decide
    | fin s n h =>
      cases s with
      | false => exact numerical_plain (hc n h)
      | true => rw [hf.neg]; exact numerical_plain (numerical_cons (by decide) (hc n h))

theorem plain_debug : Plain debugF64 := plain_of_prints debug_prints debug_numerical clear_debug
theorem plain_fmt : Plain fmtF64 := plain_of_prints C72_prints fmt_numerical clear_fmt

theorem decimal_plain (n : Nat) : decimal n ≠ [] ∧ ∀ c ∈ decimal n, isDigit c = true :=
  ⟨decimal_ne_nil n, fun c hc => (isDigit_iff c).2 (decimal_digit n c hc)⟩

/-- C92, `{:#?}`: of every expression made in a context the indented form is the compact one laid
out anew: every entry of a bracket on a line of its own, indented by four blanks for each bracket
it is inside of, with a comma behind it. -/
theorem C92_layout (cfg : Cfg) (w : World) (o : Oracle) (ctx : Context) (a : Bytes) (x : Xpr)
    (hctx : OwnNames ctx) (hx : Reach cfg w ctx a x) : x.pretty o = layout 0 (x.debug o) := by
  have := (lays_xpr plain_debug decimal_plain (callable_name hctx).1 o (reach_legible hx).1
    (fun n hn => (reach_legible hx).2 n ((o.perm _).mem_iff.1 hn))).lay 0 []
  rw [List.append_nil, shift_zero] at this
  rw [this, layout, List.append_nil]

/-- C92, `{:#?}`: expressions made in one context that are printed alike are the same trees over
the same variables. -/
theorem C92_pretty (cfg cfg' : Cfg) (w w' : World) (o o' : Oracle) (ctx : Context) (a b : Bytes) (x y : Xpr)
    (hctx : OwnNames ctx) (hx : Reach cfg w ctx a x) (hy : Reach cfg' w' ctx b y)
    (h : x.pretty o = y.pretty o') : x.root = y.root ∧ x.vars.Perm y.vars := by
  obtain ⟨hF, hn⟩ := callable_name hctx
  obtain ⟨h1, h2, -⟩ := pretty_xpr_eq clear_debug plain_debug hF hn (reach_legible hx).1 (reach_legible hy).1
    (fun n hn => (reach_legible hx).2 n ((o.perm _).mem_iff.1 hn)) (fun n hn => (reach_legible hy).2 n ((o'.perm _).mem_iff.1 hn))
    (r := []) (r' := []) (by rw [h])
  exact ⟨h1, (o.perm _).symm.trans (h2 ▸ o'.perm _)⟩

/-- A turn with a value. -/
theorem round_evaluated {cfg : Cfg} {w : World} {o : Oracle} {ls rest : List Line} {v : F64}
    (h : round cfg w o ls = .ok (.evaluated v, rest)) (report : PErr → Bytes) : ∃ line x m, (readLine ls).1 = some line ∧
      parse cfg w o Context.default line = .ok x ∧ askLoop (o.ord x.vars) HMap.empty (readLine ls).2 = some (m, rest) ∧
      x.eval w m = .ok v ∧ turnOut cfg w o report ls = b!">> " ++ astOut w o x (readLine ls).2 := by
  unfold round at h
  unfold turnOut
  cases hl : (readLine ls).1 with
  | none => rw [hl] at h; cases h
  | some line =>
    rw [hl] at h
    dsimp only at h ⊢
    by_cases he : strTrim line = b!"exit"
    · rw [if_pos he] at h; cases h
    · rw [if_neg he] at h ⊢
      cases hp : parse cfg w o Context.default line with
      | ok x =>
        rw [hp] at h
        dsimp only at h ⊢
        cases ha : askLoop (o.ord x.vars) HMap.empty (readLine ls).2 with
        | none => rw [ha] at h; cases h
        | some mr =>
          obtain ⟨m, rest'⟩ := mr
          rw [ha] at h
          dsimp only at h
          cases hv : x.eval w m with
          | ok v' =>
            rw [hv] at h
            simp only [Except.ok.injEq, Prod.mk.injEq, Reply.evaluated.injEq] at h
            obtain ⟨rfl, rfl⟩ := h
            exact ⟨line, x, m, rfl, hp, ha, hv, rfl⟩
          | error e => rw [hv] at h; cases e <;> cases h
      | err e => rw [hp] at h; simp at h
      | panic p => rw [hp] at h; cases h
      | fuel => rw [hp] at h; cases h

/-- A turn with an error. -/
theorem round_reported {cfg : Cfg} {w : World} {o : Oracle} {ls rest : List Line} {e : PErr}
    (h : round cfg w o ls = .ok (.reported e, rest)) (report : PErr → Bytes) :
    turnOut cfg w o report ls = b!">> " ++ (report e ++ b!"\n") := by
  unfold round at h
  unfold turnOut
  cases hl : (readLine ls).1 with
  | none => rw [hl] at h; cases h
  | some line =>
    rw [hl] at h
    dsimp only at h ⊢
    by_cases he : strTrim line = b!"exit"
    · rw [if_pos he] at h; cases h
    · rw [if_neg he] at h ⊢
      cases hp : parse cfg w o Context.default line with
      | ok x =>
        rw [hp] at h
        dsimp only at h
        split at h
        · cases h
        · split at h
          · simp at h
          · cases h
          · cases h
      | err e' => rw [hp] at h; simp only [Except.ok.injEq, Prod.mk.injEq, Reply.reported.injEq] at h; rw [h.1]
      | panic p => rw [hp] at h; cases h
      | fuel => rw [hp] at h; cases h

/-- The last turn of a run that ends well. -/
theorem round_bye {cfg : Cfg} {w : World} {o : Oracle} {ls : List Line}
    (h : round cfg w o ls = .error .bye) (report : PErr → Bytes) : turnOut cfg w o report ls = b!">> Bye!\n" := by
  unfold round at h
  unfold turnOut
  cases hl : (readLine ls).1 with
  | none => rw [hl] at h; cases h
  | some line =>
    rw [hl] at h
    dsimp only at h ⊢
    by_cases he : strTrim line = b!"exit"
    · rw [if_pos he]; rfl
    · rw [if_neg he] at h
      split at h
      · split at h
        · cases h
        · split at h <;> cases h
      · cases h
      · cases h
      · cases h

/-- C92, a turn: what two turns with values print, in whatever builds and whatever is printed
after them, shows which expressions were read, in which order the variables were asked for and
which values were found: if it is the same, all of them are. -/
theorem C92_turn (cfg cfg' : Cfg) (w w' : World) (o o' : Oracle) (report report' : PErr → Bytes) (ls ls' rest rest' : List Line)
    (v v' : F64) (r r' : Bytes) (h1 : round cfg w o ls = .ok (.evaluated v, rest)) (h2 : round cfg' w' o' ls' = .ok (.evaluated v', rest'))
    (h : turnOut cfg w o report ls ++ r = turnOut cfg' w' o' report' ls' ++ r') :
    ∃ line line' x y, (readLine ls).1 = some line ∧ (readLine ls').1 = some line' ∧
      parse cfg w o Context.default line = .ok x ∧ parse cfg' w' o' Context.default line' = .ok y ∧
      x.root = y.root ∧ o.ord x.vars = o'.ord y.vars ∧ v = v' ∧ r = r' := by
  obtain ⟨line, x, m, hl, hp, ha, hv, ht⟩ := round_evaluated h1 report
  obtain ⟨line', y, m', hl', hp', ha', hv', ht'⟩ := round_evaluated h2 report'
  obtain ⟨hF, hn⟩ := callable_name ownNames_default
  have hx := reach_legible (.parsed hp)
  have hy := reach_legible (.parsed hp')
  have nl : ∀ v, c!"\n" ∉ fmtF64 v := fun v => plain_no_nl (plain_fmt.plain v)
  rw [ht, ht', List.append_assoc, List.append_assoc b!">> ", astOut_eq ha hv, astOut_eq ha' hv'] at h
  replace h := List.append_cancel_left (List.append_cancel_left h)
  obtain ⟨-, h⟩ := line_eq (show_no_nl nl hF x.root hx.1) (show_no_nl nl hF y.root hy.1) h
  obtain ⟨h3, h4, h⟩ := pretty_xpr_eq clear_debug plain_debug hF hn hx.1 hy.1
    (fun n hn => hx.2 n ((o.perm _).mem_iff.1 hn)) (fun n hn => hy.2 n ((o'.perm _).mem_iff.1 hn)) h
  rw [h4] at h
  obtain ⟨h5, h6⟩ := line_eq (plain_no_nl (plain_debug.plain v)) (plain_no_nl (plain_debug.plain v')) (List.append_cancel_left h)
  exact ⟨line, line', x, y, hl, hl', hp, hp', h3, h4, clear_debug.inj _ _ h5, h6⟩

/-- C92, a run: what the program has printed, after any number of turns or when it has said
farewell, shows the replies it has given, if the reports of errors can be told apart. -/
theorem C92_run (cfg cfg' : Cfg) (w w' : World) (report report' : PErr → Bytes) (os os' : Nat → Oracle) (n n' : Nat) (ls ls' : List Line)
    (h1 : (session cfg w os n ls).2 = none ∨ (session cfg w os n ls).2 = some .bye)
    (h2 : (session cfg' w' os' n' ls').2 = none ∨ (session cfg' w' os' n' ls').2 = some .bye)
    (ht : Telling report report' (session cfg w os n ls).1 (session cfg' w' os' n' ls').1)
    (h : output cfg w report os n ls = output cfg' w' report' os' n' ls') :
    session cfg w os n ls = session cfg' w' os' n' ls' := by
  replace h : turnsOut cfg w report os n ls = turnsOut cfg' w' report' os' n' ls' := List.append_cancel_left h
  -- what a session that goes on or ends well has printed
  have view : ∀ (cfg : Cfg) (w : World) (report : PErr → Bytes) (os : Nat → Oracle) (n : Nat) (ls : List Line),
      ((session cfg w os n ls).2 = none ∨ (session cfg w os n ls).2 = some .bye) →
      (turnsOut cfg w report os n ls = [] ∧ session cfg w os n ls = ([], none)) ∨
      (turnsOut cfg w report os n ls = b!">> Bye!\n" ∧ session cfg w os n ls = ([], some .bye)) ∨
      ∃ k rest rp, n = k + 1 ∧ round cfg w (os 0) ls = .ok (rp, rest) ∧
        turnsOut cfg w report os n ls = turnOut cfg w (os 0) report ls ++ turnsOut cfg w report (fun k => os (k + 1)) k rest ∧
        session cfg w os n ls = (rp :: (session cfg w (fun k => os (k + 1)) k rest).1, (session cfg w (fun k => os (k + 1)) k rest).2) := by
    intro cfg w report os n ls hs
    cases n with
    | zero => exact .inl ⟨rfl, rfl⟩
    | succ k =>
      right
      rw [session] at hs ⊢
      rw [turnsOut]
      cases hr : round cfg w (os 0) ls with
      | error s =>
        left
        rw [hr] at hs
        obtain rfl : s = .bye := by rcases hs with hs | hs <;> simp at hs; exact hs
        exact ⟨by simp [round_bye hr], rfl⟩
      | ok rr => exact .inr ⟨k, rr.2, rr.1, rfl, rfl, rfl, rfl⟩
  induction n generalizing os os' n' ls ls' with
  | zero =>
    have e : session cfg w os 0 ls = ([], none) := rfl
    rcases view cfg' w' report' os' n' ls' h2 with ⟨-, e'⟩ | ⟨h3, -⟩ | ⟨k, rest, rp, -, hr, h3, -⟩
    · rw [e, e']
    · rw [h3] at h; cases h
    · rw [h3, turnOut] at h; cases h
  | succ n ih =>
    rcases view cfg w report os (n + 1) ls h1 with ⟨h3, e⟩ | ⟨h3, e⟩ | ⟨k, rest, rp, hk, hr, h3, e⟩ <;>
    rcases view cfg' w' report' os' n' ls' h2 with ⟨h3', e'⟩ | ⟨h3', e'⟩ | ⟨k', rest', rp', hk', hr', h3', e'⟩
    · rw [e, e']
    · rw [h3, h3'] at h; cases h
    · rw [h3, h3', turnOut] at h; cases h
    · rw [h3, h3'] at h; cases h
    · rw [e, e']
    · rw [h3, h3'] at h
      exfalso
      cases rp' with
      | evaluated v =>
        obtain ⟨line, x, m, -, -, ha, hv, ht'⟩ := round_evaluated hr' report'
        rw [ht', List.append_assoc, astOut_eq ha hv] at h
        simp at h
      | reported e1 =>
        rw [round_reported hr' report', List.append_assoc] at h
        refine (ht.start' e1 (by rw [e']; simp) (turnsOut cfg' w' report' (fun k => os' (k + 1)) k' rest') []).2 ?_
        exact (List.append_cancel_left (as := b!">> ") h).symm
    · rw [h3, h3', turnOut] at h; cases h
    · rw [h3, h3'] at h
      exfalso
      cases rp with
      | evaluated v =>
        obtain ⟨line, x, m, -, -, ha, hv, ht'⟩ := round_evaluated hr report
        rw [ht', List.append_assoc, astOut_eq ha hv] at h
        simp at h
      | reported e1 =>
        rw [round_reported hr report, List.append_assoc] at h
        refine (ht.start e1 (by rw [e]; simp) (turnsOut cfg w report (fun k => os (k + 1)) k rest) []).2 ?_
        exact (List.append_cancel_left (as := b!">> ") h)
    · obtain rfl : n = k := by omega
      rw [h3, h3'] at h
      rw [e, e'] at ht
      rw [e] at h1
      rw [e'] at h2
      have step : rp = rp' ∧ turnsOut cfg w report (fun k => os (k + 1)) n rest = turnsOut cfg' w' report' (fun k => os' (k + 1)) k' rest' := by
        cases rp with
        | evaluated v =>
          cases rp' with
          | evaluated v' =>
            obtain ⟨-, -, -, -, -, -, -, -, -, -, h4, h5⟩ := C92_turn cfg cfg' w w' (os 0) (os' 0) report report' ls ls' rest rest' v v' _ _ hr hr' h
            exact ⟨by rw [h4], h5⟩
          | reported e1 =>
            exfalso
            obtain ⟨line, x, m, -, -, ha, hv, ht'⟩ := round_evaluated hr report
            rw [ht', round_reported hr' report', List.append_assoc, List.append_assoc b!">> ", astOut_eq ha hv] at h
            exact (ht.start' e1 (by simp) _ _).1 (List.append_cancel_left h).symm
        | reported e1 =>
          cases rp' with
          | evaluated v' =>
            exfalso
            obtain ⟨line, x, m, -, -, ha, hv, ht'⟩ := round_evaluated hr' report'
            rw [ht', round_reported hr report, List.append_assoc, List.append_assoc b!">> ", astOut_eq ha hv] at h
            exact (ht.start e1 (by simp) _ _).1 (List.append_cancel_left h)
          | reported e2 =>
            rw [round_reported hr report, round_reported hr' report', List.append_assoc b!">> ", List.append_assoc b!">> "] at h
            obtain ⟨h4, h5⟩ := ht.inj e1 e2 (by simp) (by simp) _ _ (List.append_cancel_left h)
            exact ⟨by rw [h4], h5⟩
      obtain ⟨rfl, h4⟩ := step
      rw [e, e', ih (fun k => os (k + 1)) (fun k => os' (k + 1)) k' rest rest' h1 h2
        ⟨fun a b ha hb => ht.inj a b (List.mem_cons_of_mem _ ha) (List.mem_cons_of_mem _ hb),
         fun a ha => ht.start a (List.mem_cons_of_mem _ ha), fun a ha => ht.start' a (List.mem_cons_of_mem _ ha)⟩ h4]

/-- The prompts when an answer is refused. -/
theorem askOut_refused : ∀ {vs : List Bytes} {acc : HMap F64} {ls : List Line}, askLoop vs acc ls = none →
    ∃ before v rest, vs = before ++ v :: rest ∧
      askOut vs ls = (before ++ [v]).flatMap (fun v => v ++ b!": ") ∧
      (∀ i < before.length, ∃ a x, nth ls i = some a ∧ Numeral (strTrim a) x) ∧
      ∀ a, nth ls before.length = some a → ∀ x, ¬ Numeral (strTrim a) x
  | [], _, _, h => by cases h
  | v :: vs, acc, ls, h => by
    rw [askLoop] at h
    rw [askOut]
    have h0 : (readLine ls).1 = nth ls 0 := by cases ls <;> rfl
    have h1 : ∀ i, nth (readLine ls).2 i = nth ls (i + 1) := by
      intro i; cases ls <;> simp [readLine, nth]
    rw [h0] at h ⊢
    split at h
    · rename_i x hx
      obtain ⟨before, u, rest, h2, h3, h4, h5⟩ := askOut_refused h
      refine ⟨v :: before, u, rest, by rw [h2]; rfl, ?_, ?_, ?_⟩
      · rw [hx]
        dsimp only
        rw [h3]
        simp
      · intro i hi
        cases i with
        | zero =>
          cases hn : nth ls 0 with
          | none => rw [hn] at hx; cases hx
          | some a => rw [hn] at hx; exact ⟨a, x, rfl, (f64FromStr_iff _ _).1 hx⟩
        | succ i =>
          rw [← h1]
          exact h4 i (by simpa using hi)
      · intro a ha
        rw [List.length_cons, ← h1] at ha
        exact h5 a ha
    · rename_i hx
      refine ⟨[], v, vs, rfl, ?_, by simp, ?_⟩
      · rw [hx]
        simp
      · intro a ha x hn
        rw [List.length_nil] at ha
        rw [ha] at hx
        rw [show answerOf (some a) = some x from (f64FromStr_iff _ _).2 hn] at hx
        cases hx

/-- C92, the last turn of a run that ends in an error or a panic: if no expression was read, only the
prompt is printed; otherwise the expression, its variables, and the questions asked so far.  An answer
that is not a number is the first such answer, nothing follows the question it was given to, and the
questions before were answered with numbers; in the other cases all questions were asked.  In none of
them a value is printed. -/
theorem C92_stops (cfg : Cfg) (w : World) (o : Oracle) (report : PErr → Bytes) (ls : List Line) (s : Stop)
    (h : round cfg w o ls = .error s) (hs : s ≠ .bye) :
    (turnOut cfg w o report ls = b!">> " ∧ s ≠ .badAnswer ∧
      ∀ line x, nth ls 0 = some line → parse cfg w o Context.default line ≠ .ok x) ∨
    ∃ line x asked rest, nth ls 0 = some line ∧ parse cfg w o Context.default line = .ok x ∧
      o.ord x.vars = asked ++ rest ∧
      turnOut cfg w o report ls = b!">> Interpreted as: " ++ x.show fmtF64 ++ b!"\n" ++ x.pretty o ++
        b!"\nVariables: " ++ setDebug (o.ord x.vars) ++ b!"\n" ++
        (if x.vars = [] then [] else b!"Please enter the following variables:\n") ++
        asked.flatMap (fun v => v ++ b!": ") ∧
      (s ≠ .badAnswer → rest = []) ∧
      (s = .badAnswer → ∃ before v, asked = before ++ [v] ∧
        (∀ i < before.length, ∃ a x, nth ls (i + 1) = some a ∧ Numeral (strTrim a) x) ∧
        ∀ a, nth ls (before.length + 1) = some a → ∀ x, ¬ Numeral (strTrim a) x) := by
  have h0 : (readLine ls).1 = nth ls 0 := by cases ls <;> rfl
  have h1 : ∀ i, nth (readLine ls).2 i = nth ls (i + 1) := by
    intro i; cases ls <;> simp [readLine, nth]
  unfold round at h
  unfold turnOut
  rw [h0] at h ⊢
  cases hl : nth ls 0 with
  | none =>
    rw [hl] at h
    cases h
    exact .inl ⟨by simp, by simp, by simp⟩
  | some line =>
    rw [hl] at h
    dsimp only at h ⊢
    by_cases he : strTrim line = b!"exit"
    · rw [if_pos he] at h; cases h; exact absurd rfl hs
    · rw [if_neg he] at h ⊢
      cases hp : parse cfg w o Context.default line with
      | err e => rw [hp] at h; cases h
      | panic p =>
        rw [hp] at h; cases h
        refine .inl ⟨by simp, by simp, fun line' x hx => ?_⟩
        cases hx
        rw [hp]
        simp
      | fuel =>
        rw [hp] at h; cases h
        refine .inl ⟨by simp, by simp, fun line' x hx => ?_⟩
        cases hx
        rw [hp]
        simp
      | ok x =>
        rw [hp] at h
        dsimp only at h ⊢
        right
        cases ha : askLoop (o.ord x.vars) HMap.empty (readLine ls).2 with
        | none =>
          rw [ha] at h
          cases h
          obtain ⟨before, v, rest, h2, h3, h4, h5⟩ := askOut_refused ha
          refine ⟨line, x, before ++ [v], rest, rfl, hp, by simp [h2], ?_, by simp, fun _ => ⟨before, v, rfl, ?_, ?_⟩⟩
          · unfold astOut
            rw [ha, h3]
            simp
          · intro i hi
            rw [← h1]
            exact h4 i hi
          · intro a
            rw [← h1]
            exact h5 a
        | some mr =>
          obtain ⟨m, rest'⟩ := mr
          rw [ha] at h
          dsimp only at h
          refine ⟨line, x, o.ord x.vars, [], rfl, hp, by simp, ?_, by simp, ?_⟩
          · unfold astOut
            rw [ha, askOut_eq ha]
            cases hv : x.eval w m with
            | ok v => rw [hv] at h; cases h
            | error e => simp [hv]
          · rintro rfl
            cases hv : x.eval w m with
            | ok v => rw [hv] at h; cases h
            | error e => rw [hv] at h; cases e <;> cases h

/-- The lines of a run, and what it prints: the hypotheses hold of it. -/
example : output cfgOpt w0 (fun _ => []) (fun _ => Oracle.id) 5 [some b!"-x + 2\n", some b!" 0.5\n", some b!"exit\n"] =
    b!"Welcome to the XPRS REPL!\nFeel free to type in expressions and see the AST.\n>> Interpreted as: ((-x) + 2)\nXprs {\n    root: BinOp(\n        BinOp {\n            op: Plus,\n            lhs: UnOp(\n                UnOp {\n                    op: Minus,\n                    operand: Variable(\n                        \"x\",\n                    ),\n                },\n            ),\n            rhs: Number(\n                2.0,\n            ),\n        },\n    ),\n    vars: {\n        \"x\",\n    },\n}\nVariables: {\"x\"}\nPlease enter the following variables:\nx: Evaluated: 1.5\n>> Bye!\n" := by
  decide +kernel
example : session cfgOpt w0 (fun _ => Oracle.id) 5 [some b!"-x + 2\n", some b!" 0.5\n", some b!"exit\n"] =
    ([.evaluated (F64.ofDecimal 15 (-1))], some .bye) := by
  decide +kernel
/-- The second answer is refused: the third question is not asked. -/
example : round cfgOpt w0 Oracle.id [some b!"x + y + z\n", some b!" 0.5\n", some b!"no\n", some b!"3\n"] = .error .badAnswer ∧
    askOut [b!"x", b!"y", b!"z"] [some b!" 0.5\n", some b!"no\n", some b!"3\n"] = b!"x: y: " := by
  decide +kernel
/-- Reports that say where the errors are, for instance in `1+` and in `1+2+`. -/
example : Telling (fun e => b!"error at " ++ decimal e.off) (fun e => b!"error at " ++ decimal e.off)
    [.reported ⟨.unexpectedEnd, 2, 1⟩, .evaluated F64.f0, .reported ⟨.unexpectedEnd, 4, 1⟩]
    [.reported ⟨.unexpectedEnd, 2, 1⟩, .reported ⟨.unexpectedEnd, 4, 1⟩] where
  inj e e' h h' r r' hr := by
    simp at h h'
    rcases h with rfl | rfl <;> rcases h' with rfl | rfl <;> simp [decimal] at hr ⊢ <;> exact hr
  start e h r r' := by simp
  start' e h r r' := by simp
/-- Calls without variables. -/
example : Xpr.pretty Oracle.id ⟨.call (Builtin.toFunc .sin) [.num (F64.ofNat 1)], []⟩ =
    b!"Xprs {\n    root: Function(\n        FunctionCall {\n            desc: Function {\n                name: \"sin\",\n                func: Static,\n                nb_args: Some(\n                    1,\n                ),\n            },\n            args: [\n                Number(\n                    1.0,\n                ),\n            ],\n        },\n    ),\n    vars: {},\n}" := by
  decide +kernel

end Props
end Xprs
