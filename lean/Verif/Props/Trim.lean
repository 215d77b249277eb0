import Verif.Lemmas.Trim
import Verif.Props.Session
import Verif.Props.Report
/-
Property C61, continued: what the REPL ignores around a line; property C46, continued:
the text of the help.
-/
namespace Xprs
namespace Props
open Spec

/-- C61: `trim` removes the white space characters at the two ends of a line, all of them
and nothing else. -/
theorem C61_trim (cs t : List Char) : strTrim (utf8 cs) = utf8 t ↔ Stripped cs t := by
  constructor
  · intro h
    obtain ⟨u, hu⟩ := stripped_exists cs
    rw [strTrim_chars hu] at h
    rw [← utf8_inj h]
    exact hu
  · exact strTrim_chars

/-- C61: the lines that end the dialogue normally are those that read `exit` between
white space. -/
theorem C61_exit (cfg : Cfg) (w : World) (o : Oracle) (cs : List Char) (rest : List Line) :
    round cfg w o (some (utf8 cs) :: rest) = .error .bye ↔
      Stripped cs ['e', 'x', 'i', 't'] := by
  rw [← C61_trim, show utf8 ['e', 'x', 'i', 't'] = b!"exit" by decide +kernel]
  constructor
  · intro h
    have := round_stop h
    obtain ⟨t, h1, h2⟩ := this
    simp [nth] at h1
    rw [h1]; exact h2
  · intro h
    unfold round
    simp only [readLine]
    rw [if_pos h]

/-- C61: the lines accepted as an answer are the numbers between white space. -/
theorem C61_answers (cs : List Char) (x : F64) :
    answerOf (some (utf8 cs)) = some x ↔ ∃ t, Stripped cs t ∧ Numeral (utf8 t) x := by
  obtain ⟨u, hu⟩ := stripped_exists cs
  have h1 := strTrim_chars hu
  unfold answerOf
  rw [Option.bind_some, h1, f64FromStr_iff]
  constructor
  · exact fun h => ⟨u, hu, h⟩
  · rintro ⟨t, ht, hn⟩
    have := strTrim_chars ht
    rw [h1] at this
    rw [this]; exact hn

/-- The ideographic space and the line separator are ignored, the zero width space
(U+200B) is not. -/
example : Stripped ['　', '2', ' ', '3', ' ', '\n'] ['2', ' ', '3'] :=
  ⟨['　'], [' ', '\n'], rfl, by unfold White; decide +kernel,
    by unfold White; decide +kernel, by unfold White; decide +kernel,
    by unfold White; decide +kernel⟩
example : Stripped ['​', '2'] ['​', '2'] :=
  ⟨[], [], rfl, by simp, by simp, by unfold White; decide +kernel, by unfold White; decide +kernel⟩

/-- C46: the help for a call with a wrong number of arguments, word for word: it says how
many to add or to remove, in the singular for one. -/
theorem C46_text (cfg : Cfg) (w : World) (o : Oracle) (ctx : Context) (input : Bytes) (e : PErr)
    (h : parse cfg w o ctx input = .err e) :
    (∀ d g, e.kind = .tooFew d g → 0 < d - g ∧ e.help cfg = .ok (b!"Try adding " ++
      (if d - g = 1 then b!"1 argument." else decimal (d - g) ++ b!" arguments."))) ∧
    (∀ d g, e.kind = .tooMany d g → 0 < g - d ∧ e.help cfg = .ok (b!"Try removing " ++
      (if g - d = 1 then b!"1 argument." else decimal (g - d) ++ b!" arguments."))) := by
  obtain ⟨h1, h2, _⟩ := C46_help cfg w o ctx input e h
  have key : ∀ n, 0 < n → argumentsText n =
      if n = 1 then b!"1 argument." else decimal n ++ b!" arguments." := by
    intro n hn
    split
    · rename_i hn1; subst hn1; decide +kernel
    · unfold argumentsText
      rw [if_pos (by omega)]
      simp
  constructor
  · intro d g hk
    obtain ⟨h3, h4, _⟩ := h1 d g hk
    refine ⟨h4, ?_⟩
    unfold PErr.help
    rw [hk]; simp only [h3]
    simp [Except.map, key _ h4]
  · intro d g hk
    obtain ⟨h3, h4, _⟩ := h2 d g hk
    refine ⟨h4, ?_⟩
    unfold PErr.help
    rw [hk]; simp only [h3]
    simp [Except.map, key _ h4]

example : ∃ e, parse0 cfgPlain b!"atan2(1)" = .err e ∧ e.help cfgPlain = .ok b!"Try adding 1 argument." :=
  ⟨_, rfl, by decide +kernel⟩
example : ∃ e, parse0 cfgPlain b!"sin(1,2,3)" = .err e ∧
    e.help cfgPlain = .ok b!"Try removing 2 arguments." := ⟨_, rfl, by decide +kernel⟩

/-- C46: the help fits the place that is pointed at. That something is missing is said of the
last byte of the text, to remove something where there is a character that is said to be
unexpected or illegal, to add a parenthesis where there is none, and multiple points are suspected
in something that begins like a number. -/
theorem C46_advice (cfg : Cfg) (w : World) (o : Oracle) (ctx : Context) (input : Bytes) (e : PErr) (t : Bytes)
    (hne : input ≠ []) (h : parse cfg w o ctx input = .err e) (ht : e.help cfg = .ok t) :
    (t = b!"Something might be missing here?" ↔ e.kind = .unexpectedEnd) ∧
    (t = b!"Something might be missing here?" → e.off + 1 = input.length) ∧
    (t ∈ [b!"Try removing it?", b!"Try removing this character."] ↔
      ∃ c, e.kind = .unexpectedToken c ∨ e.kind = .illegalCharacter c) ∧
    (t ∈ [b!"Try removing it?", b!"Try removing this character."] → ∃ c, input[e.off]? = some c) ∧
    (∀ c, t = b!"Try adding a `" ++ c :: b!"` here." → (c = c!"(" ∨ c = c!")") ∧ input[e.off]? ≠ some c) ∧
    (t = b!"Did you enter a number with multiple decimal points?" →
      ∃ c, input[e.off]? = some c ∧ (digit c ∨ c = c!".")) := by
  have hr := C53_report cfg w o ctx input e hne h
  have hx := C46_text cfg w o ctx input e h
  have key : ∀ {u v : Bytes}, u.reverse.take 2 ≠ v.reverse.take 2 → u ≠ v := by
    rintro u _ hn rfl
    exact hn rfl
  have add : ∀ c : UInt8, (b!"Try adding a `" ++ c :: b!"` here.").reverse.take 2 = b!".e" := fun c => by
    simp only [List.reverse_append, List.reverse_cons]; rfl
  have cnt : ∀ (u : Bytes) (n : Nat), (u ++ (if n = 1 then b!"1 argument." else decimal n ++ b!" arguments.")).reverse.take 2
      = if n = 1 then b!".t" else b!".s" := by
    intro u n
    split <;> simp only [List.reverse_append] <;> rfl
  have avl : ∀ u v : Bytes, (u ++ v ++ b!"`.").reverse.take 2 = b!".`" := fun u v => by
    simp only [List.reverse_append]; rfl
  have no : ∀ b : Bytes, t.reverse.take 2 = b → b ∈ [b!".`", b!".s", b!".t"] →
      t ≠ b!"Something might be missing here?" ∧ t ∉ [b!"Try removing it?", b!"Try removing this character."] ∧
      (∀ c, t ≠ b!"Try adding a `" ++ c :: b!"` here.") ∧
      t ≠ b!"Did you enter a number with multiple decimal points?" := by
    intro b hb hm
    simp only [List.mem_cons, List.not_mem_nil, or_false] at hm ⊢
    refine ⟨key ?_, ?_, fun c => key ?_, key ?_⟩
    · rw [hb]; rcases hm with rfl | rfl | rfl <;> decide
    · refine not_or.2 ⟨key ?_, key ?_⟩ <;> (rw [hb]; rcases hm with rfl | rfl | rfl <;> decide)
    · rw [hb, add]; rcases hm with rfl | rfl | rfl <;> decide
    · rw [hb]; rcases hm with rfl | rfl | rfl <;> decide
  have fin : ∀ b : Bytes, t.reverse.take 2 = b → b ∈ [b!".`", b!".s", b!".t"] → e.kind ≠ .unexpectedEnd →
      (∀ c, e.kind ≠ .unexpectedToken c) → (∀ c, e.kind ≠ .illegalCharacter c) →
      (t = b!"Something might be missing here?" ↔ e.kind = .unexpectedEnd) ∧
      (t = b!"Something might be missing here?" → e.off + 1 = input.length) ∧
      (t ∈ [b!"Try removing it?", b!"Try removing this character."] ↔
        ∃ c, e.kind = .unexpectedToken c ∨ e.kind = .illegalCharacter c) ∧
      (t ∈ [b!"Try removing it?", b!"Try removing this character."] → ∃ c, input[e.off]? = some c) ∧
      (∀ c, t = b!"Try adding a `" ++ c :: b!"` here." → (c = c!"(" ∨ c = c!")") ∧ input[e.off]? ≠ some c) ∧
      (t = b!"Did you enter a number with multiple decimal points?" →
        ∃ c, input[e.off]? = some c ∧ (digit c ∨ c = c!".")) := by
    intro b hb hm h1 h2 h3
    obtain ⟨n1, n2, n3, n4⟩ := no b hb hm
    refine ⟨⟨fun h => absurd h n1, fun h => absurd h h1⟩, fun h => absurd h n1,
      ⟨fun h => absurd h n2, ?_⟩, fun h => absurd h n2, fun c h => absurd h (n3 c), fun h => absurd h n4⟩
    rintro ⟨c, h | h⟩
    · exact absurd h (h2 c)
    · exact absurd h (h3 c)
  cases hk : e.kind with
  | tooFew d g =>
    obtain ⟨-, h1⟩ := hx.1 d g hk
    rw [ht] at h1
    cases h1
    rw [← hk]
    exact fin _ (cnt _ _) (by split <;> decide) (by rw [hk]; nofun) (by rw [hk]; nofun) (by rw [hk]; nofun)
  | tooMany d g =>
    obtain ⟨-, h1⟩ := hx.2 d g hk
    rw [ht] at h1
    cases h1
    rw [← hk]
    exact fin _ (cnt _ _) (by split <;> decide) (by rw [hk]; nofun) (by rw [hk]; nofun) (by rw [hk]; nofun)
  | variableNotDeclared v vs =>
    unfold PErr.help at ht
    simp only [hk, Except.ok.injEq] at ht
    subst ht
    rw [← hk]
    exact fin _ (avl _ _) (by decide) (by rw [hk]; nofun) (by rw [hk]; nofun) (by rw [hk]; nofun)
  | missingArgument =>
    unfold PErr.help at ht
    simp only [hk, Except.ok.injEq] at ht
    subst ht
    rw [← hk]
    exact fin b!".t" (by decide) (by decide) (by rw [hk]; nofun) (by rw [hk]; nofun) (by rw [hk]; nofun)
  | unexpectedEnd =>
    have hr := hr (by rw [hk]; nofun)
    unfold Report at hr
    unfold PErr.help at ht
    simp only [hk, Except.ok.injEq] at ht hr
    subst ht
    refine ⟨⟨fun _ => rfl, fun _ => rfl⟩, fun _ => hr.2.1, ⟨fun h => absurd h (by decide), ?_⟩,
      fun h => absurd h (by decide), fun c h => absurd h (key (by rw [add]; decide)), fun h => absurd h (by decide)⟩
    rintro ⟨c, h | h⟩ <;> cases h
  | unexpectedToken c =>
    have hr := hr (by rw [hk]; nofun)
    unfold Report at hr
    unfold PErr.help at ht
    simp only [hk, Except.ok.injEq] at ht hr
    subst ht
    exact ⟨⟨fun h => absurd h (by decide), nofun⟩, fun h => absurd h (by decide),
      ⟨fun _ => ⟨c, .inl rfl⟩, fun _ => by decide⟩, fun _ => ⟨c, hr.2.1⟩,
      fun c h => absurd h (key (by rw [add]; decide)), fun h => absurd h (by decide)⟩
  | illegalCharacter c =>
    have hr := hr (by rw [hk]; nofun)
    unfold Report at hr
    unfold PErr.help at ht
    simp only [hk, Except.ok.injEq] at ht hr
    subst ht
    exact ⟨⟨fun h => absurd h (by decide), nofun⟩, fun h => absurd h (by decide),
      ⟨fun _ => ⟨c, .inr rfl⟩, fun _ => by decide⟩, fun _ => ⟨c, hr.2.1⟩,
      fun c h => absurd h (key (by rw [add]; decide)), fun h => absurd h (by decide)⟩
  | expectedToken c =>
    have hr := hr (by rw [hk]; nofun)
    unfold Report at hr
    unfold PErr.help at ht
    simp only [hk, Except.ok.injEq] at ht hr
    have hc : charText c = [c] := by rcases hr.2.1 with rfl | rfl <;> rfl
    rw [hc] at ht
    subst ht
    have he : (b!"Try adding a `" ++ [c] ++ b!"` here.").reverse.take 2 = b!".e" := by
      simp only [List.reverse_append]; rfl
    refine ⟨⟨fun h => absurd h (key (by rw [he]; decide)), nofun⟩, fun h => absurd h (key (by rw [he]; decide)),
      ⟨fun h => absurd h ?_, ?_⟩, fun h => absurd h ?_, ?_, fun h => absurd h (key (by rw [he]; decide))⟩
    · simp only [List.mem_cons, List.not_mem_nil, or_false]
      exact not_or.2 ⟨key (by rw [he]; decide), key (by rw [he]; decide)⟩
    · rintro ⟨c, h | h⟩ <;> cases h
    · simp only [List.mem_cons, List.not_mem_nil, or_false]
      exact not_or.2 ⟨key (by rw [he]; decide), key (by rw [he]; decide)⟩
    · intro d hd
      rw [List.append_assoc] at hd
      have := List.append_cancel_left hd
      cases this
      exact ⟨hr.2.1, hr.2.2.1⟩
  | malformedNumber s =>
    have hr := hr (by rw [hk]; nofun)
    unfold Report at hr
    unfold PErr.help at ht
    simp only [hk, Except.ok.injEq] at ht hr
    subst ht
    refine ⟨⟨fun h => absurd h (by decide), nofun⟩, fun h => absurd h (by decide), ⟨fun h => absurd h (by decide), ?_⟩,
      fun h => absurd h (by decide), fun c h => absurd h (key (by rw [add]; decide)), fun _ => ?_⟩
    · rintro ⟨c, h | h⟩ <;> cases h
    · obtain ⟨-, h1, h2, ⟨c, h3, h4⟩, -⟩ := hr
      refine ⟨c, ?_, h4⟩
      rw [← h1] at h3
      rw [show input[e.off]? = (input.drop e.off)[0]? by rw [List.getElem?_drop]; rfl, ← List.head?_eq_getElem?]
      cases hd : input.drop e.off with
      | nil => rw [hd] at h3; simp at h3
      | cons a l =>
        rw [hd] at h3
        cases hl : e.len with
        | zero => rw [hl] at h3; simp at h3
        | succ n => rw [hl] at h3; simpa using h3

example : ∃ e, parse0 cfgPlain b!"1)2" = .err e ∧ e.help cfgPlain = .ok b!"Try removing it?" ∧ e.off = 1 :=
  ⟨_, rfl, by decide +kernel⟩
example : ∃ e, parse0 cfgPlain b!"1.2.3" = .err e ∧ e.off = 0 ∧
    e.help cfgPlain = .ok b!"Did you enter a number with multiple decimal points?" := ⟨_, rfl, by decide +kernel⟩

end Props
end Xprs
