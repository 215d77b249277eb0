import Verif.Lemmas.Ascii
import Verif.Props.Parsing
/-
C64: what an error says about a text that is not ASCII.
-/
namespace Xprs.Props
open Xprs Xprs.Spec

/-- The full claim of C64 (false, see `C64_refuted` and `C64_char_refuted`): the span of
an error begins and ends between two characters, and the character it names is the one
that is there. -/
def C64_claim : Prop :=
  ∀ (cfg : Cfg) (w : World) (o : Oracle) (ctx : Context) (cs : List Char) (e : PErr), cs ≠ [] →
    parse cfg w o ctx (utf8 cs) = .err e →
    Boundary cs e.off ∧ Boundary cs (e.off + e.len) ∧
    ∀ c, e.kind = .unexpectedToken c ∨ e.kind = .illegalCharacter c →
      ∃ a ch b, cs = a ++ ch :: b ∧ (utf8 a).length = e.off ∧ shown c = ch

/-- The last clause of C64 alone (false as well). -/
def C64_char_claim : Prop :=
  ∀ (cfg : Cfg) (w : World) (o : Oracle) (ctx : Context) (cs : List Char) (e : PErr), cs ≠ [] →
    parse cfg w o ctx (utf8 cs) = .err e →
    ∀ c, e.kind = .unexpectedToken c ∨ e.kind = .illegalCharacter c →
      ∃ a ch b, cs = a ++ ch :: b ∧ (utf8 a).length = e.off ∧ shown c = ch

/-- C64, accepted texts: a text with a character outside ASCII is not accepted. -/
theorem C64_accepted (cfg : Cfg) (w : World) (o : Oracle) (ctx : Context) (cs : List Char) (x : Xpr)
    (h : parse cfg w o ctx (utf8 cs) = .ok x) : ∀ c ∈ cs, ascii c := by
  have h1 := parseImpl_ok_ascii (parse_ok h)
  have h2 := utf8_ascii_prefix cs _ (Nat.le_refl _) (fun c hc => h1 c (List.mem_of_mem_take hc))
  have h3 : (utf8 cs).length = cs.length := by
    have h4 : ∀ cs : List Char, cs.length ≤ (utf8 cs).length := by
      intro cs
      induction cs with
      | nil => simp
      | cons c cs ih =>
        have := utf8_length_pos c []
        have h5 : utf8 (c :: cs) = utf8 [c] ++ utf8 cs := utf8_append [c] cs
        rw [h5, List.length_append, List.length_cons]
        omega
    have := h4 cs
    omega
  rw [h3] at h2
  intro c hc
  exact h2.2.2 c (by rw [List.take_length]; exact hc)

/-- C64, offsets: the characters in front of an error are ASCII and there are as many as
the offset says; so an error never points behind the first character outside ASCII, and
byte offsets are character offsets. -/
theorem C64_offset (cfg : Cfg) (w : World) (o : Oracle) (ctx : Context) (cs : List Char) (e : PErr)
    (hne : cs ≠ []) (h : parse cfg w o ctx (utf8 cs) = .err e) :
    Boundary cs e.off ∧ e.off ≤ cs.length ∧ ∀ c ∈ cs.take e.off, ascii c := by
  have hb := C03_partial cfg w o ctx (utf8 cs) e (mt utf8_eq_nil.1 hne) h
  have ha : ∀ c ∈ (utf8 cs).take e.off, c < 128 := by
    rcases parse_err_ascii h with ⟨_, h1⟩ | ⟨_, _, _, h1⟩ | ⟨_, _, _, h1⟩
    · exact fun c hc => h1 c (List.mem_of_mem_take hc)
    · exact take_ascii h1 (by omega)
    · exact take_ascii h1 (by omega)
  obtain ⟨h1, h2, h3⟩ := utf8_ascii_prefix cs e.off (by omega) ha
  refine ⟨⟨_, _, (List.take_append_drop e.off cs).symm, ?_⟩, h2, h3⟩
  rw [h1, List.length_take]; omega

/-- C64, spans: except for a missing argument, the text an error covers is ASCII, so its
span ends between two characters. -/
theorem C64_span (cfg : Cfg) (w : World) (o : Oracle) (ctx : Context) (cs : List Char) (e : PErr)
    (hne : cs ≠ []) (h : parse cfg w o ctx (utf8 cs) = .err e) (hk : e.kind ≠ .missingArgument) :
    Boundary cs (e.off + e.len) ∧ ∀ c ∈ cs.take (e.off + e.len), ascii c := by
  have hb := C03_partial cfg w o ctx (utf8 cs) e (mt utf8_eq_nil.1 hne) h
  have ha : ∀ c ∈ (utf8 cs).take (e.off + e.len), c < 128 := by
    rcases parse_err_ascii h with ⟨_, h1⟩ | ⟨h0, _⟩ | ⟨_, _, _, h1⟩
    · exact fun c hc => h1 c (List.mem_of_mem_take hc)
    · exact absurd h0 hk
    · exact h1
  obtain ⟨h1, h2, h3⟩ := utf8_ascii_prefix cs _ hb ha
  refine ⟨⟨_, _, (List.take_append_drop (e.off + e.len) cs).symm, ?_⟩, h3⟩
  rw [h1, List.length_take]; omega

/-- C64, missing arguments: the span covers two bytes, the first of which is a character;
it ends between two characters exactly when the next character is ASCII too. -/
theorem C64_missing (cfg : Cfg) (w : World) (o : Oracle) (ctx : Context) (cs : List Char) (e : PErr)
    (h : parse cfg w o ctx (utf8 cs) = .err e) (hk : e.kind = .missingArgument) :
    ∃ a c1 c2 b, cs = a ++ c1 :: c2 :: b ∧ (utf8 a).length = e.off ∧ ascii c1 ∧ e.len = 2 ∧
      (Boundary cs (e.off + e.len) ↔ ascii c2) := by
  have hne : utf8 cs ≠ [] := by
    rcases parse_err_ascii h with ⟨h0, _⟩ | ⟨_, _, h1, _⟩ | ⟨h0, _⟩
    · rw [hk] at h0; cases h0
    · intro h2; rw [h2] at h1; cases h1
    · exact absurd hk h0
  have hb := C03_partial cfg w o ctx (utf8 cs) e hne h
  rcases parse_err_ascii h with ⟨h0, _⟩ | ⟨_, hl, _, h1⟩ | ⟨h0, _⟩
  · rw [hk] at h0; cases h0
  · obtain ⟨a, c2, b, rfl, ha, hu, hasc, _⟩ := utf8_next (k := e.off + 1) (by omega) h1
    obtain ⟨a', c1, rfl⟩ : ∃ a' c1, a = a' ++ [c1] := by
      rcases List.eq_nil_or_concat a with rfl | ⟨a', c1, rfl⟩
      · simp at ha
      · exact ⟨a', c1, by simp⟩
    have h1c : ascii c1 := hasc c1 (by simp)
    have hu1 : (utf8 [c1]).length = 1 := by
      obtain ⟨x, t, hx, h2, _⟩ := utf8_head c1
      show (String.utf8EncodeChar c1 ++ utf8 []).length = _
      rw [hx, (h2 h1c).1]; rfl
    refine ⟨a', c1, c2, b, by simp, ?_, h1c, hl, ?_⟩
    · rw [utf8_append, List.length_append, hu1] at hu; omega
    · rw [hl, show e.off + 2 = (utf8 (a' ++ [c1])).length + 1 by omega]
      exact boundary_succ
  · exact absurd hk h0

/-- C64, characters: the character an error names is the one at its offset exactly when
that one is ASCII or `Ã`: the parser shows the first byte of the character as if it were
Latin-1. -/
theorem C64_char (cfg : Cfg) (w : World) (o : Oracle) (ctx : Context) (cs : List Char) (e : PErr) (c : UInt8)
    (h : parse cfg w o ctx (utf8 cs) = .err e)
    (hk : e.kind = .unexpectedToken c ∨ e.kind = .illegalCharacter c) :
    ∃ a ch b, cs = a ++ ch :: b ∧ (utf8 a).length = e.off ∧
      (String.utf8EncodeChar ch).head? = some c ∧ (shown c = ch ↔ ascii ch ∨ ch = 'Ã') := by
  have hne : utf8 cs ≠ [] := by
    intro h0
    rw [h0] at h
    have h1 := parse_empty h
    rw [h1] at hk
    rcases hk with hk | hk <;> cases hk
  have hr := C53_report cfg w o ctx (utf8 cs) e hne h (by rintro v vs h; rw [h] at hk; rcases hk with hk | hk <;> cases hk)
  have hg : (utf8 cs)[e.off]? = some c := by
    obtain ⟨_, hr⟩ := hr
    rcases hk with hk | hk <;> rw [hk] at hr <;> exact hr.1
  have hlt : e.off < (utf8 cs).length := (List.getElem?_eq_some_iff.1 hg).1
  have ha : ∀ c ∈ (utf8 cs).take e.off, c < 128 := by
    rcases parse_err_ascii h with ⟨_, h1⟩ | ⟨_, _, _, h1⟩ | ⟨_, _, _, h1⟩
    · exact fun c hc => h1 c (List.mem_of_mem_take hc)
    · exact take_ascii h1 (by omega)
    · exact take_ascii h1 (by omega)
  obtain ⟨a, ch, b, h1, _, h2, _, h3⟩ := utf8_next hlt ha
  rw [hg] at h3
  refine ⟨a, ch, b, h1, h2, h3.symm, ?_⟩
  obtain ⟨x, t, hx, h4, h5⟩ := utf8_head ch
  rw [hx] at h3
  cases h3
  rw [shown_iff]
  have hA : ch = 'Ã' ↔ ch.toNat = 0xC3 := by
    constructor
    · rintro rfl; rfl
    · intro h
      exact Char.ext (UInt32.toNat_inj.1 h)
  rw [hA]
  unfold ascii
  rcases Nat.lt_or_ge ch.toNat 128 with hc | hc
  · exact ⟨fun _ => .inl hc, fun _ => (h4 hc).2⟩
  · rw [(h5 hc).2.2]
    exact ⟨.inr, fun h => h.resolve_left (by omega)⟩

/-- Spans of missing arguments can end inside a character: in `sin(sin(1é))` the span is
the bytes 8 and 9, and `é` is bytes 9 and 10. -/
theorem C64_refuted : ¬ C64_claim := by
  intro h
  have h0 : parse cfgOpt w0 Oracle.id Context.default (utf8 "sin(sin(1é))".toList) =
    .err ⟨.missingArgument, 8, 2⟩ := by decide +kernel
  have h1 := (h _ _ _ _ _ _ (by simp) h0).2.1
  have h2 : "sin(sin(1é))".toList = "sin(sin(1".toList ++ 'é' :: "))".toList := by decide
  rw [h2] at h1
  have h3 : (utf8 "sin(sin(1".toList).length = 9 := by decide +kernel
  rw [show (8 + 2 : Nat) = (utf8 "sin(sin(1".toList).length + 1 by rw [h3]] at h1
  exact absurd (boundary_succ.1 h1) (by unfold ascii; decide)

/-- Errors can name a character that is not in the text: for `é` the error is that `Ã` is
illegal. -/
theorem C64_char_refuted : ¬ C64_char_claim := by
  intro h
  have h0 : parse cfgOpt w0 Oracle.id Context.default (utf8 ['é']) =
    .err ⟨.illegalCharacter 195, 0, 0⟩ := by decide +kernel
  obtain ⟨a, ch, b, h1, h2, h3⟩ := h _ _ _ _ _ _ (by simp) h0 195 (.inr rfl)
  have hm : ch ∈ ['é'] := by rw [h1]; simp
  rw [List.mem_singleton.1 hm] at h3
  revert h3; decide

/-- Texts with characters of two, three and four bytes, and one the parser names rightly. -/
example : parse0 cfgOpt (utf8 "1+é".toList) = .err ⟨.illegalCharacter 195, 2, 0⟩ := by decide +kernel
example : parse0 cfgPlain (utf8 "2 €".toList) = .err ⟨.unexpectedToken 226, 2, 0⟩ := by decide +kernel
example : parse0 cfgOpt (utf8 "𝜋".toList) = .err ⟨.illegalCharacter 240, 0, 0⟩ := by decide +kernel
example : shown 195 = 'Ã' ∧ shown 226 = 'â' ∧ shown 240 = 'ð' := by decide
example : parse0 cfgOpt (utf8 "Ã".toList) = .err ⟨.illegalCharacter 195, 0, 0⟩ := by decide +kernel
/-- Errors that cover a part of the text, in front of a character outside ASCII. -/
example : parse0 cfgOpt (utf8 "1.2.3é".toList) = .err ⟨.malformedNumber b!"1.2.3", 0, 5⟩ := by decide +kernel
example : parse0 cfgOpt (utf8 "sin(1,2)é".toList) = .err ⟨.tooMany 1 2, 0, 8⟩ := by decide +kernel
/-- A missing argument with ASCII text around. -/
example : parse0 cfgOpt (utf8 "sin()é".toList) = .err ⟨.missingArgument, 3, 2⟩ := by decide +kernel

end Xprs.Props
