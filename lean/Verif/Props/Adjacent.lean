import Verif.Lemmas.Adjacent
import Verif.Props.Flat
import Verif.Props.Tokens
/-
Property C15, the exact rule: which number literals may follow a number literal.
-/
namespace Xprs
namespace Props
open Spec

/-- Where C15 holds, exactly (builds without `compile-time-optimizations`).  In an accepted text
a number literal can be put behind a number literal, and the text is accepted again, if and only
if it begins with a digit and the first one is neither at the beginning of the text nor behind
`(` or `,`. -/
theorem C15_exact (cfg : Cfg) (w : World) (o : Oracle) (ctx : Context) (s s' : Bytes) (x : Xpr)
    (pre post : List Bytes) (a b : Bytes) (ho : cfg.opt = false) (h : parse cfg w o ctx s = .ok x)
    (hl : Lex s (pre ++ a :: post)) (hl' : Lex s' (pre ++ a :: b :: post)) (ha : Number a) (hb : Number b) :
    (∃ y, parse cfg w o ctx s' = .ok y) ↔
      digitTok b ∧ ∃ pre' t, pre = pre' ++ [t] ∧ t ≠ b!"(" ∧ t ≠ b!"," := by
  constructor
  · rintro ⟨y, hy⟩
    refine ⟨?_, C15_partial cfg w o ctx s' y pre post a b hy hl' ha hb⟩
    obtain ⟨ts, n, k1, k2, _⟩ := (C86_rows cfg w o ctx s' ho).1 ⟨y, hy⟩
    rw [lex_unique k1 hl'] at k2
    exact flat_digits k2 pre a b post rfl ha hb
  · rintro ⟨hd, hp⟩
    obtain ⟨ts, n, k1, k2, k3⟩ := (C86_rows cfg w o ctx s ho).1 ⟨x, h⟩
    rw [lex_unique k1 hl] at k2 k3
    refine (C86_rows cfg w o ctx s' ho).2 ⟨_, false, hl', second hb hd k2 pre a post rfl ha hp, ?_⟩
    intro vs hvs m hm hn hv
    simp only [List.mem_append, List.mem_cons] at hm
    refine k3 vs hvs m ?_ hn hv
    simp only [List.mem_append, List.mem_cons]
    rcases hm with h | h | rfl | h
    · exact .inl h
    · exact .inr (.inl h)
    · exact absurd hb (number_name hn)
    · exact .inr (.inr h)

/-- The same for any build, where no number comes right behind a closing parenthesis. -/
theorem C15_builds (cfg : Cfg) (w : World) (o : Oracle) (ctx : Context) (s s' : Bytes) (x : Xpr)
    (pre post : List Bytes) (a b : Bytes) (hw : CtxTotal w ctx) (he : ctx.getExpected = none)
    (hs : ¬ DoubleBang s) (hs' : ¬ DoubleBang s') (hp : ParensApart (pre ++ a :: b :: post))
    (h : parse cfg w o ctx s = .ok x) (hl : Lex s (pre ++ a :: post)) (hl' : Lex s' (pre ++ a :: b :: post))
    (ha : Number a) (hb : Number b) :
    (∃ y, parse cfg w o ctx s' = .ok y) ↔
      digitTok b ∧ ∃ pre' t, pre = pre' ++ [t] ∧ t ≠ b!"(" ∧ t ≠ b!"," := by
  have h1 : ParensApart (pre ++ a :: post) := by
    intro p c q e
    rcases split_mid (ts := p) (us := c :: q) e.symm with ⟨q', rfl, rfl⟩ | ⟨_, rfl, _⟩ | ⟨p', rfl, e2⟩
    · exact hp (pre ++ a :: b :: q') c q (by simp)
    · exact absurd ha (number_sym (by decide))
    · rcases p' with _ | ⟨d, p'⟩
      · simp at e2; obtain ⟨rfl, rfl⟩ := e2
        exact hp p c (b :: q) (by simp)
      · simp at e2; obtain ⟨rfl, rfl⟩ := e2
        exact hp p c (p' ++ a :: b :: post) (by simp)
  rw [C86_builds cfg { cfg with opt := false } w w o o ctx s' hw hw hs'
    (fun ts hts => by rw [lex_unique hts hl']; exact hp) he]
  obtain ⟨z, hz⟩ := (C86_builds cfg { cfg with opt := false } w w o o ctx s hw hw hs
    (fun ts hts => by rw [lex_unique hts hl]; exact h1) he).1 ⟨x, h⟩
  exact C15_exact _ w o ctx s s' z pre post a b rfl hz hl hl' ha hb

/-- `1+2` and `1+2 3` are such texts. -/
example : ParensApart [b!"1", b!"+", b!"2", b!"3"] ∧ digitTok b!"3" ∧ ¬ digitTok b!".3" := by
  refine ⟨?_, ⟨c!"3", rfl, by decide⟩, ?_⟩
  · intro p c q h
    rcases p with _ | ⟨_, _ | ⟨_, _ | ⟨_, _ | ⟨_, p⟩⟩⟩⟩ <;> simp at h
  · rintro ⟨c, hc, hd⟩; cases hc; exact absurd hd (by decide)
example : (match parse0 cfgPlain b!"-2", parse0 cfgPlain b!"-2 3", parse0 cfgPlain b!"-2 .3" with
    | .ok _, .ok _, .err _ => true | _, _, _ => false) = true := by decide +kernel
example : (match parse0 cfgOpt b!"max(x, 2)", parse0 cfgOpt b!"max(x, 2 3)", parse0 cfgOpt b!"max(x, x 2 3!)" with
    | .ok _, .err _, .ok _ => true | _, _, _ => false) = true := by decide +kernel

end Props
end Xprs
