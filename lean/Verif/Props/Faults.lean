import Verif.Props.Parsing
import Verif.Lemmas.Faults
/-
C93: which error is reported for which text.  C94: which of them are missing arguments.
-/
namespace Xprs
namespace Props
open Spec

theorem fault_not_undeclared {cfg : Cfg} {fin : Elem → PM Elem} {ctx : Context} {pl : Place}
    {o : Nat} {t : Bytes} {e : PErr} (h : Fault cfg fin ctx pl o t e) (v : Bytes)
    (l : List Bytes) : e.kind ≠ .variableNotDeclared v l := by
  induction h with
  | first _ _ ih => exact ih
  | right _ _ _ _ ih => exact ih
  | juxt _ _ _ _ _ ih => exact ih
  | call _ _ _ _ ih => exact ih
  | sign _ _ ih => exact ih
  | paren _ ih => exact ih
  | next _ _ _ ih => exact ih
  | @argument o t e _ ih =>
    unfold inArgument
    cases hk : e.kind <;> simp_all
  | _ => simp

/-- C93: for every non-empty text and every error, the error is the one `parse` reports (apart
from undeclared variables, which are looked for in texts without error) if and only if the rules
of `Spec/Faults.lean` give it. -/
theorem C93_errors (cfg : Cfg) (w : World) (o : Oracle) (ctx : Context) (input : Bytes)
    (hne : input ≠ []) (e : PErr) :
    (parse cfg w o ctx input = .err e ∧ ∀ v l, e.kind ≠ .variableNotDeclared v l) ↔
      Faulty cfg (finOf cfg w) ctx input e := by
  rw [← parseImpl_err_iff cfg w ctx hne]
  constructor
  · rintro ⟨h, hk⟩
    unfold parse at h
    cases hp : parseImpl cfg w ctx input with
    | ok y =>
      simp only [hp] at h
      split at h
      · split at h
        · cases h
          exact absurd rfl (hk _ _)
        · cases h
      · cases h
    | err e' => simp only [hp] at h; cases h; rfl
    | panic p => simp [hp] at h
    | fuel => simp [hp] at h
  · intro h
    refine ⟨by simp [parse, h], fun v l => ?_⟩
    rcases (parseImpl_err_iff cfg w ctx hne e).1 h with hf | ⟨_, _, _, _, _, _, _, _, rfl⟩
    · exact fault_not_undeclared hf v l
    · simp

/-- C93, a text has at most one error: the rules do not depend on where one looks first. -/
theorem C93_one (cfg : Cfg) (w : World) (ctx : Context) (input : Bytes) (hne : input ≠ [])
    (e e' : PErr) (h : Faulty cfg (finOf cfg w) ctx input e)
    (h' : Faulty cfg (finOf cfg w) ctx input e') : e = e' := by
  rw [← parseImpl_err_iff cfg w ctx hne] at h h'
  rw [h] at h'
  cases h'
  rfl

/-- C93, nothing is forgotten: a text is in the grammar or has an error, and not both.  (With
compile-time optimization texts with `!!` have to be excluded, where folding may panic.) -/
theorem C93_either (cfg : Cfg) (w : World) (ctx : Context) (input : Bytes) (hne : input ≠ [])
    (hw : CtxTotal w ctx) (hb : cfg.opt = true → ¬ DoubleBang input) :
    (∃ e, Faulty cfg (finOf cfg w) ctx input e) ↔
      ¬ ∃ (x : Cst) (tw : Bytes), input = x.text ++ tw ∧ spaces tw ∧
        x.wf cfg (finOf cfg w) ctx tw := by
  constructor
  · rintro ⟨e, he⟩ ⟨x, tw, rfl, htw, hx⟩
    rw [← parseImpl_err_iff cfg w ctx hne, parseImpl_text cfg w ctx x tw hx htw] at he
    split at he <;> cases he
  · intro hn
    cases hp : parseImpl cfg w ctx input with
    | ok y =>
      obtain ⟨x, tw, h1, h2, h3, _⟩ := parseImpl_ok hp
      exact absurd ⟨x, tw, h1, h2, h3⟩ hn
    | err e => exact ⟨e, (parseImpl_err_iff cfg w ctx hne e).1 hp⟩
    | panic p =>
      obtain ⟨_, h2, h3⟩ := (parseImpl_good hne).2 p hp hw
      exact absurd h3 (hb h2)
    | fuel => exact absurd hp (parseImpl_ne_fuel cfg w ctx input)

/-! The rules by hand: `-(` ends where an operand is expected. -/
example (cfg : Cfg) (w : World) :
    Faulty cfg (finOf cfg w) Context.default b!"-(" ⟨.unexpectedEnd, 1, 0⟩ :=
  .inl (.first (ws := []) (by decide) (.sign (.inr rfl) (.first (ws := []) (by decide)
    (.paren (.first (ws := []) (by decide) .ended)))))

/-! Every rule at work. -/
example : parse0 cfgPlain b!"2*(" = .err ⟨.unexpectedEnd, 2, 0⟩ := by decide +kernel
example : parse0 cfgPlain b!"2 + 1.2.3e4 x" = .err ⟨.malformedNumber b!"1.2.3e4", 4, 7⟩ := by
  decide +kernel
example : parse0 cfgPlain b!"x sin + 1" = .err ⟨.expectedToken c!"(", 6, 0⟩ := by decide +kernel
example : parse0 cfgPlain b!"1 - sin(x, 2) (" = .err ⟨.tooMany 1 2, 4, 9⟩ := by decide +kernel
example : parse0 cfgPlain b!"1 - atan2 (x)" = .err ⟨.tooFew 2 1, 4, 9⟩ := by decide +kernel
example : parse0 cfgPlain b!"(x + 1 ,2" = .err ⟨.expectedToken c!")", 7, 0⟩ := by decide +kernel
example : parse0 cfgPlain b!"x + )" = .err ⟨.unexpectedToken c!")", 4, 0⟩ := by decide +kernel
example : parse0 cfgPlain b!"x + &" = .err ⟨.illegalCharacter c!"&", 4, 0⟩ := by decide +kernel
example : parse0 cfgPlain b!"max(x, )" = .err ⟨.missingArgument, 6, 2⟩ := by decide +kernel
example : parse0 cfgPlain b!"sin(x & 2)" = .err ⟨.unexpectedToken c!"&", 6, 0⟩ := by
  decide +kernel
example : parse0 cfgPlain b!"sin(sin(x & 2))" = .err ⟨.missingArgument, 9, 2⟩ := by
  decide +kernel
example : parse0 cfgPlain b!"sin(x " = .err ⟨.unexpectedEnd, 5, 0⟩ := by decide +kernel
example : parse0 cfgPlain b!"x ) + 1" = .err ⟨.unexpectedToken c!")", 2, 0⟩ := by decide +kernel

/-! ### C94 -/

/-- At offset `k` of the source an argument is missing: the last character before it, apart from
whitespace, is `(` or `,`, and what is there is `,` or `)`. -/
def MissingAt (src : Bytes) (k : Nat) : Prop :=
  ∃ (a ws b : Bytes) (c d : UInt8), src = a ++ c :: (ws ++ d :: b) ∧ spaces ws ∧
    (c = c!"(" ∨ c = c!",") ∧ (d = c!")" ∨ d = c!",") ∧ k = a.length + 1 + ws.length

/-- The one half of C94: what is reported as a missing argument is one. -/
def C94_inner_claim : Prop := ∀ (cfg : Cfg) (w : World) (o : Oracle) (ctx : Context) (src : Bytes)
  (e : PErr), src ≠ [] → parse cfg w o ctx src = .err e →
    e.kind = .missingArgument → MissingAt src (e.off + 1)

/-- The other half of C94: a missing first argument is reported as such. -/
def C94_comma_claim : Prop := ∀ (cfg : Cfg) (w : World) (o : Oracle) (ctx : Context) (src : Bytes)
  (e : PErr), src ≠ [] → parse cfg w o ctx src = .err e →
    ∀ nm ws c t f, Name nm (ws ++ c!"(" :: c :: t) → lookup ctx nm = .func f → spaces ws →
      (c = c!"," ∨ c = c!")") → src = nm ++ (ws ++ c!"(" :: c :: t) → e.kind = .missingArgument

/-- C94 as claimed: the error is `MissingArgument` if and only if what the error points at is a
missing argument. Both halves are false. -/
def C94_claim : Prop := C94_inner_claim ∧ C94_comma_claim

/-- C94 is false: the stray `&` in an argument of an inner call is reported as a missing
argument of the outer one. -/
theorem C94_refuted_inner : ¬ C94_inner_claim := by
  intro h
  have h1 := h cfgPlain w0 Oracle.id Context.default b!"sin(sin(x & 2))" ⟨.missingArgument, 9, 2⟩
    (by decide) (by decide +kernel) rfl
  obtain ⟨a, ws, b, c, d, h2, _, _, hd, hk⟩ := h1
  have h3 : (b!"sin(sin(x & 2))")[9 + 1]? = some d := by
    rw [hk, h2, ← List.cons_append, ← List.append_assoc, List.getElem?_append_right (by simp; omega)]
    simp
    have : a.length + 1 + ws.length - (a.length + (ws.length + 1)) = 0 := by omega
    rw [this]; rfl
  have h4 : (b!"sin(sin(x & 2))")[9 + 1]? = some c!"&" := by decide
  rw [h4] at h3
  cases h3
  revert hd; decide

/-- C94 is false in the other direction, too: in `max(,1)` an argument is missing, but the comma is
reported as an illegal character. -/
theorem C94_refuted_comma : ¬ C94_comma_claim := by
  intro h
  obtain ⟨f, hf⟩ : ∃ f, lookup Context.default b!"max" = .func f := ⟨_, rfl⟩
  have h1 := h cfgPlain w0 Oracle.id Context.default b!"max(,1)" ⟨.illegalCharacter c!",", 4, 0⟩
    (by decide) (by decide +kernel) b!"max" [] c!"," b!"1)" f ?_ hf (by decide)
    (.inl rfl) rfl
  · cases h1
  · refine ⟨⟨c!"m", rfl, by decide⟩, by decide, ?_⟩
    intro c hc
    cases hc
    decide

theorem C94_refuted : ¬ C94_claim := fun h => C94_refuted_inner h.1

/-- Errors in an argument list are unique. -/
theorem args_one {cfg : Cfg} {w : World} {ctx : Context} {o : Nat} {t : Bytes} {e e' : PErr}
    (ho : 0 < o) (h : Fault cfg (finOf cfg w) ctx .args o t e)
    (h' : Fault cfg (finOf cfg w) ctx .args o t e') : e = e' := by
  obtain ⟨s, hs, _⟩ := fault_sound h ho []
  obtain ⟨s', hs', _⟩ := fault_sound h' ho []
  rw [hs] at hs'
  cases hs'
  rfl

/-- C94, what holds of empty arguments, wherever an argument list is read: one before `)` is
reported as missing, with a span around the place, one before `,` as an illegal character.
Missing from the claim: the comma. -/
theorem C94_empty_partial (cfg : Cfg) (w : World) (ctx : Context) (o : Nat) (ho : 0 < o)
    (ws t : Bytes) (hws : spaces ws) (e : PErr) :
    (Fault cfg (finOf cfg w) ctx .args o (ws ++ c!")" :: t) e ↔
      e = ⟨.missingArgument, o + ws.length - 1, 2⟩) ∧
    (Fault cfg (finOf cfg w) ctx .args o (ws ++ c!"," :: t) e ↔
      e = ⟨.illegalCharacter c!",", o + ws.length, 0⟩) := by
  have h1 : Fault cfg (finOf cfg w) ctx .args o (ws ++ c!")" :: t)
      ⟨.missingArgument, o + ws.length - 1, 2⟩ := .argument (.first hws .close)
  have h2 : Fault cfg (finOf cfg w) ctx .args o (ws ++ c!"," :: t)
      ⟨.illegalCharacter c!",", o + ws.length, 0⟩ :=
    .argument (e := ⟨.illegalCharacter c!",", o + ws.length, 0⟩)
      (.first hws (.illegal (by unfold operandChar; decide) (by decide)))
  exact ⟨⟨fun h => args_one ho h h1, fun h => h ▸ h1⟩, ⟨fun h => args_one ho h h2, fun h => h ▸ h2⟩⟩

/-- C94, for the first argument of a call at the beginning of a text: whatever follows. -/
theorem C94_first_partial (cfg : Cfg) (w : World) (o : Oracle) (ctx : Context)
    (nm ws ws2 t : Bytes) (f : Func) (hn : Name nm (ws ++ c!"(" :: (ws2 ++ c!")" :: t)))
    (hn' : Name nm (ws ++ c!"(" :: (ws2 ++ c!"," :: t)))
    (hl : lookup ctx nm = .func f) (hws : spaces ws) (hws2 : spaces ws2) :
    parse cfg w o ctx (nm ++ (ws ++ c!"(" :: (ws2 ++ c!")" :: t))) =
      .err ⟨.missingArgument, nm.length + ws.length + ws2.length, 2⟩ ∧
    parse cfg w o ctx (nm ++ (ws ++ c!"(" :: (ws2 ++ c!"," :: t))) =
      .err ⟨.illegalCharacter c!",", nm.length + ws.length + 1 + ws2.length, 0⟩ := by
  have he := fun e => C94_empty_partial cfg w ctx (0 + nm.length + ws.length + 1) (by omega) ws2 t
    hws2 e
  constructor
  · refine ((C93_errors cfg w o ctx _ (by simp) _).2 (.inl (.first (ws := []) (by simp [spaces])
      (.call hn hl hws (((he _).1).2 ?_))))).1
    congr 1
    omega
  · refine ((C93_errors cfg w o ctx _ (by simp) _).2 (.inl (.first (ws := []) (by simp [spaces])
      (.call hn' hl hws (((he _).2).2 ?_))))).1
    congr 1; simp

/-- What the error points at, the text being read from offset `o`. -/
def PointsAt (o : Nat) (t : Bytes) (e : PErr) : Prop :=
  (∀ c, e.kind = .unexpectedToken c →
    ∃ k, e.off = o + k ∧ t[k]? = some c ∧ c ≠ c!"," ∧ ¬ space c) ∧
  (e.kind = .missingArgument →
    ∃ k c, e.off + 1 = o + k ∧ t[k]? = some c ∧ c ≠ c!"," ∧ ¬ space c ∧ e.len = 2)

theorem PointsAt.step {o o' : Nat} (pre : Bytes) {t : Bytes} {e : PErr}
    (ho : o' = o + pre.length) (h : PointsAt o' t e) : PointsAt o (pre ++ t) e := by
  subst ho
  refine ⟨fun c hc => ?_, fun hk => ?_⟩
  · obtain ⟨k, h3, h4, h5⟩ := h.1 c hc
    refine ⟨pre.length + k, by omega, ?_, h5⟩
    rw [List.getElem?_append_right (by omega)]
    simpa using h4
  · obtain ⟨k, c, h3, h4, h5⟩ := h.2 hk
    refine ⟨pre.length + k, c, by omega, ?_, h5⟩
    rw [List.getElem?_append_right (by omega)]
    simpa using h4

theorem points_at {cfg : Cfg} {fin : Elem → PM Elem} {ctx : Context} {pl : Place} {o : Nat}
    {t : Bytes} {e : PErr} (h : Fault cfg fin ctx pl o t e) :
    (pl = .args → 0 < o) → PointsAt o t e := by
  induction h with
  | @first p o ws t e _ _ ih => intro _; exact (ih (by simp)).step ws rfl
  | @right p o x ws op t e _ _ _ _ ih =>
    intro _
    have := (ih (by simp)).step (o := o) (x.text ++ ws ++ [opChar op]) (by simp; omega)
    simpa using this
  | @juxt p o x t c e _ _ _ _ _ ih => intro _; exact (ih (by simp)).step x.text rfl
  | @call o nm ws t f e _ _ _ _ ih =>
    intro _
    have := (ih (by simp)).step (o := o) (nm ++ ws ++ [c!"("]) (by simp; omega)
    simpa using this
  | @sign o c t e _ _ ih => intro _; exact (ih (by simp)).step [c] rfl
  | @paren o t e _ ih => intro _; exact (ih (by simp)).step [c!"("] rfl
  | @next o x ws t e _ _ _ ih =>
    intro _
    have := (ih (by simp)).step (o := o) (x.text ++ ws ++ [c!","]) (by simp; omega)
    simpa using this
  | @close o t =>
    intro _
    refine ⟨fun c hc => ⟨0, rfl, ?_⟩, fun hk => by simp at hk⟩
    cases hc
    exact ⟨rfl, by decide, by decide⟩
  | @after o x ws c t _ _ hs h1 _ =>
    intro _
    refine ⟨fun d hd => ⟨x.text.length + ws.length, by simp; omega, ?_⟩, fun hk => by simp at hk⟩
    cases hd
    refine ⟨?_, h1, hs⟩
    rw [← List.append_assoc, List.getElem?_append_right (by simp)]
    simp
  | @argument o t e _ ih =>
    intro ho
    have ho := ho rfl
    have ih := ih (by simp)
    unfold inArgument
    cases hk : e.kind with
    | unexpectedToken c =>
      obtain ⟨k, h1, h2, h3, h4⟩ := ih.1 c hk
      refine ⟨fun c hc => by simp at hc, fun _ => ⟨k, c, ?_, h2, h3, h4, rfl⟩⟩
      simp only
      omega
    | _ => exact ih
  | _ => intro _; exact ⟨fun c hc => by simp at hc, fun hk => by simp at hk⟩

/-- C94, what holds of the error: it has length two and its second character is there and is
neither whitespace nor a comma.  So an argument missing before a comma is never reported as such.
Missing from the claim: that it is a `)` after `(` or `,`. -/
theorem C94_points_partial (cfg : Cfg) (w : World) (o : Oracle) (ctx : Context) (src : Bytes)
    (e : PErr) (hne : src ≠ []) (h : parse cfg w o ctx src = .err e)
    (hk : e.kind = .missingArgument) :
    ∃ c, src[e.off + 1]? = some c ∧ c ≠ c!"," ∧ ¬ space c ∧ e.len = 2 := by
  rcases (C93_errors cfg w o ctx src hne e).1 ⟨h, fun v l => by rw [hk]; simp⟩ with
    hf | ⟨_, _, _, _, _, _, _, _, rfl⟩
  · obtain ⟨k, c, h1, h2, h3⟩ := (points_at hf (by simp)).2 hk
    rw [Nat.zero_add] at h1
    rw [h1]
    exact ⟨c, h2, h3⟩
  · cases hk

example : parse0 cfgPlain b!"2 + max(x, 1, )" = .err ⟨.missingArgument, 13, 2⟩ := by decide +kernel
example : parse0 cfgPlain b!"2 + sin(x + )" = .err ⟨.missingArgument, 11, 2⟩ := by decide +kernel
example : parse0 cfgPlain b!"max (,1)" = .err ⟨.illegalCharacter c!",", 5, 0⟩ := by decide +kernel
example : parse0 cfgPlain b!"max( )" = .err ⟨.missingArgument, 4, 2⟩ := by decide +kernel

end Props
end Xprs
