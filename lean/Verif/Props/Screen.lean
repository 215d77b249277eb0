import Verif.Spec.Screen
import Verif.Props.Session
/-
Property C129: what is on the screen when the REPL waits, ends or cannot write.
-/
namespace Xprs
namespace Props
open Spec

theorem said_append (a b : List IOp) : said (a ++ b) = said a ++ said b := by
  induction a with
  | nil => rfl
  | cons o a ih => cases o <;> simp [said, ih]

theorem taken_append (a b : List IOp) : taken (a ++ b) = taken a + taken b := by
  induction a with
  | nil => simp [taken]
  | cons o a ih => cases o <;> simp [taken, ih] <;> omega

theorem askOps_said (vs : List Bytes) (ls : List Line) : said (askOps vs ls) = askOut vs ls := by
  induction vs generalizing ls with
  | nil => rfl
  | cons v vs ih =>
    rw [askOps, askOut, said_append]
    cases answerOf (readLine ls).1 with
    | none => simp [said]
    | some x => simp [said, ih]

theorem astOps_said (w : World) (o : Oracle) (ast : Xpr) (ls : List Line) : said (astOps w o ast ls) = astOut w o ast ls := by
  unfold astOps astOut
  rw [said_append, said_append, said_append, askOps_said]
  congr 1
  · congr 1
    congr 1
    · simp [said]
    · split <;> simp [said]
  · cases askLoop (o.ord ast.vars) HMap.empty ls with
    | none => rfl
    | some mr => cases h : ast.eval w mr.1 <;> simp [said, h]

theorem turnOps_said (cfg : Cfg) (w : World) (o : Oracle) (report : PErr → Bytes) (ls : List Line) :
    said (turnOps cfg w o report ls) = turnOut cfg w o report ls := by
  unfold turnOps turnOut
  rw [said_append]
  congr 1
  · cases (readLine ls).1 with
    | none => rfl
    | some line =>
      dsimp only
      split
      · rfl
      · cases parse cfg w o Context.default line with
        | ok ast => exact astOps_said _ _ _ _
        | err e => simp [said]
        | panic p => rfl
        | fuel => rfl

theorem turnsOps_said (cfg : Cfg) (w : World) (report : PErr → Bytes) (n : Nat) : ∀ (os : Nat → Oracle) (ls : List Line),
    said (turnsOps cfg w report os n ls) = turnsOut cfg w report os n ls := by
  induction n with
  | zero => intros; rfl
  | succ n ih =>
    intro os ls
    rw [turnsOps, turnsOut, said_append, turnOps_said]
    congr 1
    cases round cfg w (os 0) ls with
    | error s => rfl
    | ok r => exact ih _ _

/-- **C129, faithful.** The calls print what `Transcript.lean` says. -/
theorem C129_faithful (cfg : Cfg) (w : World) (report : PErr → Bytes) (os : Nat → Oracle) (n : Nat) (ls : List Line) :
    said (replOps cfg w report os n ls) = output cfg w report os n ls := by
  unfold replOps output
  rw [said_append, turnsOps_said]
  rfl

/-- Every reading call comes directly after a flush; `p`: the call before was a flush. -/
def Guarded : Bool → List IOp → Prop
  | _, [] => True
  | p, .read :: os => p = true ∧ Guarded false os
  | _, .flush :: os => Guarded true os
  | _, .flushExpect :: os => Guarded true os
  | _, .print _ :: os => Guarded false os

theorem guarded_weaken {os : List IOp} {p : Bool} (h : Guarded false os) : Guarded p os := by
  cases os with
  | nil => trivial
  | cons o os => cases o <;> first | exact h | exact absurd h.1 (by decide)

theorem guarded_append {a b : List IOp} (hb : Guarded false b) : ∀ {p}, Guarded p a → Guarded p (a ++ b) := by
  induction a with
  | nil => exact fun _ => guarded_weaken hb
  | cons o a ih =>
    intro p h
    cases o with
    | print t => exact ih (p := false) h
    | flush => exact ih (p := true) h
    | flushExpect => exact ih (p := true) h
    | read => exact ⟨h.1, ih h.2⟩

theorem guarded_ask (vs : List Bytes) (ls : List Line) : Guarded false (askOps vs ls) := by
  induction vs generalizing ls with
  | nil => trivial
  | cons v vs ih =>
    rw [askOps]
    refine guarded_append ?_ ⟨rfl, trivial⟩
    cases answerOf (readLine ls).1 with
    | none => trivial
    | some x => exact ih _

theorem guarded_ast (w : World) (o : Oracle) (ast : Xpr) (ls : List Line) : Guarded false (astOps w o ast ls) := by
  unfold astOps
  refine guarded_append ?_ (guarded_append (guarded_ask _ _) (guarded_append ?_ trivial))
  · cases askLoop (o.ord ast.vars) HMap.empty ls with
    | none => trivial
    | some mr =>
      dsimp only
      cases ast.eval w mr.1 <;> trivial
  · split <;> trivial

theorem guarded_turn (cfg : Cfg) (w : World) (o : Oracle) (report : PErr → Bytes) (ls : List Line) :
    Guarded false (turnOps cfg w o report ls) := by
  unfold turnOps
  refine guarded_append ?_ ⟨rfl, trivial⟩
  cases (readLine ls).1 with
  | none => trivial
  | some line =>
    dsimp only
    split
    · trivial
    · cases parse cfg w o Context.default line with
      | ok ast => exact guarded_ast _ _ _ _
      | _ => trivial

theorem guarded_turns (cfg : Cfg) (w : World) (report : PErr → Bytes) (n : Nat) : ∀ (os : Nat → Oracle) (ls : List Line),
    Guarded false (turnsOps cfg w report os n ls) := by
  induction n with
  | zero => intros; trivial
  | succ n ih =>
    intro os ls
    rw [turnsOps]
    refine guarded_append ?_ (guarded_turn _ _ _ _ _)
    cases round cfg w (os 0) ls with
    | error s => trivial
    | ok r => exact ih _ _

theorem guarded_repl (cfg : Cfg) (w : World) (report : PErr → Bytes) (os : Nat → Oracle) (n : Nat) (ls : List Line) :
    Guarded false (replOps cfg w report os n ls) :=
  guarded_append (guarded_turns _ _ _ _ _ _) trivial

/-- Nothing is lost: shown and held is what was there and what was printed. -/
theorem serves_all {s s' : Screen} {os : List IOp} (h : Serves s os s') : s'.shown ++ s'.held = s.shown ++ s.held ++ said os ∧
    ∃ more, s'.shown = s.shown ++ more := by
  induction h with
  | nil => exact ⟨by simp [said], [], by simp⟩
  | cons h1 _ ih =>
    obtain ⟨e, more, hm⟩ := ih
    cases h1 with
    | print a b c =>
      refine ⟨?_, _, by rw [hm, a, List.append_assoc]⟩
      rw [e, a, List.append_assoc _ _ (Screen.held _), b]
      simp [said]
    | flush => exact ⟨by rw [e]; simp [said], _, by rw [hm, List.append_assoc]⟩
    | flushExpect => exact ⟨by rw [e]; simp [said], _, by rw [hm, List.append_assoc]⟩
    | read => exact ⟨by rw [e]; simp [said], more, hm⟩

theorem guarded_held {before after : List IOp} : ∀ {p : Bool} {s s' : Screen}, Guarded p (before ++ .read :: after) →
    (p = true → s.held = []) → Serves s before s' → s'.held = [] := by
  induction before with
  | nil =>
    intro p s s' hg hp h
    cases h
    exact hp hg.1
  | cons o before ih =>
    intro p s s' hg hp h
    cases h with
    | cons h1 h2 =>
      cases h1 with
      | print _ _ _ => exact ih (p := false) hg (fun h => absurd h (by decide)) h2
      | flush => exact ih (p := true) hg (fun _ => rfl) h2
      | flushExpect => exact ih (p := true) hg (fun _ => rfl) h2
      | read => exact ih (p := false) hg.2 (fun h => absurd h (by decide)) h2

/-- **C129, waiting.** Whenever the REPL waits for a line (for an expression or for a variable), everything it has
printed is on the screen. -/
theorem C129_waiting (cfg : Cfg) (w : World) (report : PErr → Bytes) (os : Nat → Oracle) (n : Nat) (ls : List Line)
    (before after : List IOp) (s : Screen) (h : replOps cfg w report os n ls = before ++ .read :: after)
    (hs : Serves ⟨[], []⟩ before s) : s.shown = said before ∧ s.held = [] := by
  have hg := guarded_repl cfg w report os n ls
  rw [h] at hg
  have hh := guarded_held hg (fun h => absurd h (by decide)) hs
  have := (serves_all hs).1
  rw [hh] at this
  exact ⟨by simpa using this, hh⟩

/-- Nothing is held back after the calls (if nothing was before, or `p` is false); by the last line feed or flush. -/
def clean : Bool → List IOp → Bool
  | p, [] => p
  | _, .print t :: os => clean (decide (t.getLast? = some c!"\n")) os
  | _, .flush :: os => clean true os
  | _, .flushExpect :: os => clean true os
  | p, .read :: os => clean p os

theorem clean_append (a b : List IOp) : ∀ p, clean p (a ++ b) = clean (clean p a) b := by
  induction a with
  | nil => exact fun _ => rfl
  | cons o a ih => intro p; cases o <;> exact ih _

theorem clean_held {os : List IOp} : ∀ {p : Bool} {s s' : Screen}, clean p os = true → (p = true → s.held = []) →
    Serves s os s' → s'.held = [] := by
  induction os with
  | nil => intro p s s' hc hp h; cases h; exact hp hc
  | cons o os ih =>
    intro p s s' hc hp h
    cases h with
    | cons h1 h2 =>
      cases h1 with
      | @print _ t more a b c =>
        rename_i s1
        refine ih (p := decide (t.getLast? = some c!"\n")) hc (fun k => ?_) h2
        have k : t.getLast? = some c!"\n" := of_decide_eq_true k
        refine Classical.byContradiction fun hn => c ?_
        have e : (more ++ s1.held).getLast? = (s.held ++ t).getLast? := by rw [b]
        rw [List.getLast?_append, List.getLast?_append, k] at e
        cases hx : s1.held.getLast? with
        | none => exact absurd (List.getLast?_eq_none_iff.1 hx) hn
        | some y =>
          rw [hx] at e
          cases e
          exact List.mem_of_getLast? hx
      | flush => exact ih (p := true) hc (fun _ => rfl) h2
      | flushExpect => exact ih (p := true) hc (fun _ => rfl) h2
      | read => exact ih (p := p) hc hp h2

theorem ends_nl (t : Bytes) : (t ++ b!"\n").getLast? = some c!"\n" := by simp

theorem clean_ask (vs : List Bytes) (ls : List Line) : clean true (askOps vs ls) = true := by
  induction vs generalizing ls with
  | nil => rfl
  | cons v vs ih =>
    rw [askOps, clean_append]
    cases answerOf (readLine ls).1 with
    | none => rfl
    | some x => exact ih _

theorem clean_ast (w : World) (o : Oracle) (ast : Xpr) (ls : List Line) : clean true (astOps w o ast ls) = true := by
  unfold astOps
  rw [clean_append, clean_append, clean_append]
  have h1 : ∀ p a b c, clean p [.print (a ++ b!"\n"), .print (b ++ b!"\n"), .print (c ++ b!"\n")] = true := by
    intro p a b c
    simp only [clean, ends_nl, decide_true]
  rw [h1]
  have h2 : clean true (if ast.vars = [] then [] else [.print b!"Please enter the following variables:\n"]) = true := by
    split
    · rfl
    · decide +kernel
  rw [h2, clean_ask]
  cases askLoop (o.ord ast.vars) HMap.empty ls with
  | none => rfl
  | some mr =>
    dsimp only
    cases ast.eval w mr.1 with
    | error e => rfl
    | ok v => simp only [clean, ends_nl, decide_true]

theorem clean_turn (cfg : Cfg) (w : World) (o : Oracle) (report : PErr → Bytes) (ls : List Line) (p : Bool) :
    clean p (turnOps cfg w o report ls) = true := by
  unfold turnOps
  rw [clean_append]
  change clean true _ = true
  cases (readLine ls).1 with
  | none => rfl
  | some line =>
    dsimp only
    split
    · decide +kernel
    · cases parse cfg w o Context.default line with
      | ok ast => exact clean_ast _ _ _ _
      | err e => simp only [clean, ends_nl, decide_true]
      | _ => rfl

theorem clean_turns (cfg : Cfg) (w : World) (report : PErr → Bytes) (n : Nat) : ∀ (os : Nat → Oracle) (ls : List Line),
    clean true (turnsOps cfg w report os n ls) = true := by
  induction n with
  | zero => intros; rfl
  | succ n ih =>
    intro os ls
    rw [turnsOps, clean_append, clean_turn]
    cases round cfg w (os 0) ls with
    | error s => rfl
    | ok r => exact ih _ _

/-- **C129, complete.** After every turn, and so however the program ends if its output does not fail, all
that it has printed is on the screen: the transcript of C92. -/
theorem C129_complete (cfg : Cfg) (w : World) (report : PErr → Bytes) (os : Nat → Oracle) (n : Nat) (ls : List Line)
    (s : Screen) (hs : Serves ⟨[], []⟩ (replOps cfg w report os n ls) s) :
    s.shown = output cfg w report os n ls ∧ s.held = [] := by
  have hc : clean true (replOps cfg w report os n ls) = true := by
    unfold replOps
    rw [clean_append, show clean true [.print b!"Welcome to the XPRS REPL!\n",
      .print b!"Feel free to type in expressions and see the AST.\n"] = true by decide +kernel]
    exact clean_turns _ _ _ _ _ _
  have hh := clean_held hc (fun _ => rfl) hs
  have := (serves_all hs).1
  rw [hh, C129_faithful] at this
  exact ⟨by simpa using this, hh⟩

/-- **C129, cut off.** If the output fails during some call, what has come through is a beginning of the
transcript, all that was printed before the last line was read included, and the program does not end well: `main`
returns the error if it was flushing the prompt of the loop, else it panics. -/
theorem C129_cut (cfg : Cfg) (w : World) (report : PErr → Bytes) (os : Nat → Oracle) (n : Nat) (ls : List Line)
    (before after : List IOp) (op : IOp) (s : Screen) (shown : Bytes) (e : Exit)
    (h : replOps cfg w report os n ls = before ++ op :: after) (hs : Serves ⟨[], []⟩ before s) (hf : Cuts s op shown e) :
    (∃ rest, shown ++ rest = output cfg w report os n ls) ∧
    (∀ a b, before = a ++ .read :: b → ∃ rest, said a ++ rest = shown) ∧
    e ≠ .success ∧ (e = .failure ↔ op = .flush) := by
  obtain ⟨h1, -⟩ := serves_all hs
  simp only [List.nil_append] at h1
  have ho : output cfg w report os n ls = said before ++ said (op :: after) := by
    rw [← C129_faithful, h, said_append]
  obtain ⟨more, hm⟩ : ∃ more, shown = s.shown ++ more := by cases hf <;> exact ⟨_, rfl⟩
  refine ⟨?_, fun a b hab => ?_, ?_, ?_⟩
  · rw [ho, ← h1]
    cases hf with
    | @print t m r k => exact ⟨r ++ said after, by
        rw [List.append_assoc, ← List.append_assoc m, k]; simp [said]⟩
    | @flush m r k => exact ⟨r ++ said after, by
        rw [List.append_assoc, ← List.append_assoc m, k]; simp [said]⟩
    | @flushExpect m r k => exact ⟨r ++ said after, by
        rw [List.append_assoc, ← List.append_assoc m, k]; simp [said]⟩
  · subst hab
    have split : ∀ {a b : List IOp} {s s' : Screen}, Serves s (a ++ b) s' → ∃ t, Serves s a t ∧ Serves t b s' := by
      intro a
      induction a with
      | nil => exact fun h => ⟨_, .nil, h⟩
      | cons o a ih =>
        intro b s s' h
        cases h with
        | cons h1 h2 =>
          obtain ⟨t, h3, h4⟩ := ih h2
          exact ⟨t, .cons h1 h3, h4⟩
    obtain ⟨t, h3, h4⟩ := split hs
    have hw := (C129_waiting cfg w report os n ls a (b ++ op :: after) t (by rw [h]; simp) h3).1
    obtain ⟨-, m2, h5⟩ := serves_all h4
    exact ⟨m2 ++ more, by rw [hm, h5, hw, List.append_assoc]⟩
  · cases hf <;> decide
  · cases hf <;> simp

theorem askOps_taken (vs : List Bytes) : ∀ (acc m : HMap F64) (ls rest : List Line), askLoop vs acc ls = some (m, rest) →
    rest = ls.drop (taken (askOps vs ls)) ∧ taken (askOps vs ls) = vs.length := by
  induction vs with
  | nil => intro acc m ls rest h; cases h; exact ⟨rfl, rfl⟩
  | cons v vs ih =>
    intro acc m ls rest h
    rw [askLoop] at h
    rw [askOps, taken_append]
    cases ha : answerOf (readLine ls).1 with
    | none => rw [ha] at h; cases h
    | some x =>
      rw [ha] at h
      obtain ⟨h1, h2⟩ := ih _ _ _ _ h
      refine ⟨?_, ?_⟩
      · rw [h1]
        cases ls with
        | nil => simp [readLine]
        | cons l ls =>
          show List.drop _ ls = List.drop (1 + _) (l :: ls)
          rw [Nat.add_comm, List.drop_succ_cons]
      · show 1 + taken (askOps vs (readLine ls).2) = vs.length + 1
        rw [h2, Nat.add_comm]

/-- **C129, lines.** A turn that goes on has taken the lines it has read, one and one for every variable, and no more. -/
theorem C129_lines (cfg : Cfg) (w : World) (o : Oracle) (report : PErr → Bytes) (ls rest : List Line) (r : Reply)
    (h : round cfg w o ls = .ok (r, rest)) : rest = ls.drop (taken (turnOps cfg w o report ls)) ∧
    (∀ e, r = .reported e → taken (turnOps cfg w o report ls) = 1) ∧
    (∀ v, r = .evaluated v → ∃ line x, (readLine ls).1 = some line ∧ parse cfg w o Context.default line = .ok x ∧
      taken (turnOps cfg w o report ls) = 1 + x.vars.length) := by
  have one : (readLine ls).2 = ls.drop 1 := by cases ls <;> rfl
  unfold round at h
  unfold turnOps
  rw [taken_append]
  cases hl : (readLine ls).1 with
  | none => rw [hl] at h; cases h
  | some line =>
    rw [hl] at h
    dsimp only at h ⊢
    by_cases he : strTrim line = b!"exit"
    · rw [if_pos he] at h; cases h
    rw [if_neg he] at h ⊢
    cases hp : parse cfg w o Context.default line with
    | ok x =>
      rw [hp] at h
      dsimp only at h ⊢
      cases ha : askLoop (o.ord x.vars) HMap.empty (readLine ls).2 with
      | none => rw [ha] at h; cases h
      | some mr =>
        obtain ⟨m, rest'⟩ := mr
        rw [ha] at h
        dsimp only at h
        cases hv : x.eval w m with
        | error e => rw [hv] at h; cases e <;> cases h
        | ok v =>
          rw [hv] at h
          cases h
          obtain ⟨h1, h2⟩ := askOps_taken _ _ _ _ _ ha
          have ht : taken (astOps w o x (readLine ls).2) = taken (askOps (o.ord x.vars) (readLine ls).2) := by
            unfold astOps
            rw [taken_append, taken_append, taken_append, ha]
            dsimp only
            rw [hv]
            split <;> simp [taken]
          refine ⟨?_, nofun, fun u hu => ⟨line, x, rfl, hp, ?_⟩⟩
          · rw [ht, h1, one, List.drop_drop]
            rfl
          · rw [ht, h2, (o.perm _).length_eq]
            rfl
    | err e =>
      rw [hp] at h
      cases h
      exact ⟨by rw [one]; rfl, fun _ _ => rfl, nofun⟩
    | panic p => rw [hp] at h; cases h
    | fuel => rw [hp] at h; cases h

/-- There is always a run: here is the one of an output that holds back nothing. -/
theorem serves_exists (os : List IOp) : ∀ shown, Serves ⟨shown, []⟩ os ⟨shown ++ said os, []⟩ := by
  induction os with
  | nil => intro shown; simpa [said] using Serves.nil (s := ⟨shown, []⟩)
  | cons o os ih =>
    intro shown
    cases o with
    | print t =>
      refine .cons (s' := ⟨shown ++ t, []⟩) (.print (more := t) rfl (by simp) (by simp)) ?_
      simpa [said] using ih (shown ++ t)
    | flush => exact .cons (by simpa using Serves1.flush (s := ⟨shown, []⟩)) (ih shown)
    | flushExpect => exact .cons (by simpa using Serves1.flushExpect (s := ⟨shown, []⟩)) (ih shown)
    | read => exact .cons .read (ih shown)

/-- A session: `x`, its value, `exit`.  The program reads three lines; before the second the question for `x`. -/
example : (replOps cfgOpt w0 (fun _ => []) (fun _ => Oracle.id) 2 [some b!"x\n", some b!"3\n", some b!"exit\n"]).drop 8 =
    [.print b!"Please enter the following variables:\n", .print b!"x: ", .flushExpect, .read,
     .print b!"Evaluated: 3.0\n", .print b!">> ", .flush, .read, .print b!"Bye!\n"] ∧
    taken (replOps cfgOpt w0 (fun _ => []) (fun _ => Oracle.id) 2 [some b!"x\n", some b!"3\n", some b!"exit\n"]) = 3 := by
  decide +kernel

/-- The output may hold the prompt back until it is flushed, and may fail then. -/
example : Serves ⟨[], []⟩ [.print b!"a\n", .print b!">> "] ⟨b!"a\n", b!">> "⟩ ∧
    Cuts ⟨b!"a\n", b!">> "⟩ .flush b!"a\n>" .failure := by
  refine ⟨.cons (s' := ⟨b!"a\n", []⟩) (.print (more := b!"a\n") rfl rfl (by decide))
    (.cons (.print (more := []) rfl rfl (by decide)) .nil), ?_⟩
  exact .flush (s := ⟨b!"a\n", b!">> "⟩) (more := b!">") (rest := b!"> ") rfl

end Props
end Xprs
