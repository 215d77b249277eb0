import Verif.Spec.Builds
import Verif.Lemmas.Tokens
import Verif.Lemmas.Safe
import Verif.Lemmas.Parse
/-
Two builds of the parser that agree on `pejmdas` accept the same inputs when no number
follows a closing parenthesis directly, and the trees they produce evaluate alike.
-/
namespace Xprs
open Spec

theorem Spec.ParensApart.left {a b : List Bytes} (h : ParensApart (a ++ b)) : ParensApart a := by
  intro p y q he
  exact h p y (q ++ b) (by rw [he]; simp)

theorem Spec.ParensApart.right {a b : List Bytes} (h : ParensApart (a ++ b)) : ParensApart b := by
  intro p y q he
  exact h (a ++ p) y q (by rw [he]; simp)

section
variable {cfg : Cfg} {fin : Elem → PM Elem} {ctx : Context}

theorem head_append_ne {α : Type} {a b : List α} (h : a ≠ []) : (a ++ b).head? = a.head? := by
  cases a with
  | nil => exact absurd rfl h
  | cons x a => rfl

theorem last_append_ne {α : Type} {a b : List α} (h : b ≠ []) : (a ++ b).getLast? = b.getLast? := by
  rw [List.getLast?_append, List.getLast?_eq_some_getLast h]; rfl

theorem not_number_un {fin : Elem → PM Elem} {ws : Bytes} {neg : Bool} {x : Cst} :
    ¬ isNumber fin ctx (.sign ws neg x) := by
  rintro ⟨v, h⟩
  rw [Cst.den] at h
  split at h
  · cases h
  · split at h <;> cases h

theorem not_number_fact {fin : Elem → PM Elem} {ws : Bytes} {x : Cst} : ¬ isNumber fin ctx (.fact x ws) := by
  rintro ⟨v, h⟩
  rw [Cst.den] at h
  split at h <;> cases h

theorem not_number_bin {fin : Elem → PM Elem} {ws : Bytes} {op : Op} {l r : Cst} :
    ¬ isNumber fin ctx (.bin l ws op r) := by
  rintro ⟨v, h⟩
  rw [Cst.den] at h
  split at h
  · cases h
  · split at h
    · cases h
    · split at h <;> cases h

theorem not_number_juxt {fin : Elem → PM Elem} {l r : Cst} : ¬ isNumber fin ctx (.juxt l r) := by
  rintro ⟨v, h⟩
  rw [Cst.den] at h
  split at h
  · cases h
  · split at h
    · cases h
    · split at h <;> cases h

theorem not_number_call {fin : Elem → PM Elem} {ws nm ws2 : Bytes} {as : CArgs} :
    ¬ isNumber fin ctx (.call ws nm ws2 as) := by
  rintro ⟨v, h⟩
  rw [Cst.den] at h
  split at h
  · cases h
  · split at h <;> cases h

/-- The last token of an expression ends an operand. -/
theorem toks_ends : ∀ (x : Cst) {rest : Bytes}, x.wf cfg fin ctx rest → ∀ p o, x.toks = p ++ [o] →
    endsOperand o
  | .num ws txt v, rest, h, p, o, he => by
    obtain ⟨_, he⟩ := List.append_inj' (s₁ := []) (t₁ := [txt]) he rfl
    cases he
    obtain ⟨c, h1, h2⟩ := literal_head h.2
    exact .inl ⟨c, h1, h2.imp id .inl⟩
  | .name ws nm, rest, h, p, o, he => by
    obtain ⟨_, he⟩ := List.append_inj' (s₁ := []) (t₁ := [nm]) he rfl
    cases he
    obtain ⟨c, h1, h2⟩ := h.2.1.1
    exact .inl ⟨c, h1, .inr (.inr h2)⟩
  | .call ws nm ws2 as, rest, h, p, o, he => by
    obtain ⟨_, he⟩ := List.append_inj' (s₁ := nm :: b!"(" :: as.toks) (t₁ := [b!")"]) he rfl
    cases he
    exact .inr (.inl rfl)
  | .paren ws x ws2, rest, h, p, o, he => by
    obtain ⟨_, he⟩ := List.append_inj' (s₁ := b!"(" :: x.toks) (t₁ := [b!")"]) he rfl
    cases he
    exact .inr (.inl rfl)
  | .sign ws neg x, rest, h, p, o, he => by
    obtain ⟨q, rfl, he'⟩ := append_last (a := [_]) (toks_ne.1 x) he
    exact toks_ends x h.2.1 q o he'
  | .fact x ws, rest, h, p, o, he => by
    obtain ⟨_, he⟩ := List.append_inj' (s₁ := x.toks) (t₁ := [b!"!"]) he rfl
    cases he
    exact .inr (.inr rfl)
  | .bin l ws op r, rest, h, p, o, he => by
    rw [Cst.toks, List.append_cons] at he
    obtain ⟨q, rfl, he'⟩ := append_last (toks_ne.1 r) he
    exact toks_ends r h.2.2.2.1 q o he'
  | .juxt l r, rest, h, p, o, he => by
    obtain ⟨q, rfl, he'⟩ := append_last (toks_ne.1 r) he
    exact toks_ends r h.2.2.1 q o he'

/-- Where a number follows, the expression does not end with a closing parenthesis. -/
theorem digit_last {x : Cst} {rest : Bytes} {ts : List Bytes}
    (hl : Lex rest ts) (ha : ParensApart (x.toks ++ ts)) :
    ∀ c, firstTok rest = some c → digit c → x.toks.getLast? ≠ some b!")" := by
  intro c hc hd he
  obtain ⟨p, hp⟩ := List.getLast?_eq_some_iff.1 he
  rw [lex_firstTok hl] at hc
  cases ts with
  | nil => cases hc
  | cons b q =>
    exact ha p b q (by rw [hp]; simp) ⟨c, hc, hd⟩

end

section
variable {cfg cfg' : Cfg} {fin fin' : Elem → PM Elem} {ctx : Context}

theorem implLevel_builds (hp : cfg.pejmdas = cfg'.pejmdas) : implLevel cfg = implLevel cfg' := by
  unfold implLevel; rw [hp]

theorem chain_eq (hp : cfg.pejmdas = cfg'.pejmdas) : ∀ x : Cst, x.chain cfg = x.chain cfg'
  | .bin l _ op _ => by rw [Cst.chain, Cst.chain, chain_eq hp l]
  | .juxt l _ => by rw [Cst.chain, Cst.chain, chain_eq hp l, implLevel_builds hp]
  | .num .. => rfl
  | .name .. => rfl
  | .call .. => rfl
  | .paren .. => rfl
  | .sign .. => rfl
  | .fact .. => rfl

/-- Whether an expression denotes a number depends on the build only behind parentheses. -/
theorem number_fin : ∀ {x : Cst}, x.toks.getLast? ≠ some b!")" → isNumber fin ctx x → isNumber fin' ctx x
  | .num .., _, h => h
  | .name .., _, h => h
  | .call .., _, h => absurd h not_number_call
  | .paren ws x ws2, h, _ => by
    rw [Cst.toks, ← List.cons_append] at h
    exact absurd (by rw [last_append_ne (by simp)]; rfl) h
  | .sign .., _, h => absurd h not_number_un
  | .fact .., _, h => absurd h not_number_fact
  | .bin .., _, h => absurd h not_number_bin
  | .juxt .., _, h => absurd h not_number_juxt

theorem stops_fin (hp : cfg.pejmdas = cfg'.pejmdas) {q : Nat} {x : Cst} {rest : Bytes}
    (hn : ∀ c, firstTok rest = some c → digit c → x.toks.getLast? ≠ some b!")")
    (h : stops cfg q (isNumber fin ctx x) rest) : stops cfg' q (isNumber fin' ctx x) rest := by
  intro c hc
  have := h c hc
  rw [implLevel_builds hp] at this
  exact ⟨this.1, this.2.1, fun hd => (this.2.2 hd).imp_right (number_fin (hn c hc hd))⟩

theorem closed_fin (hp : cfg.pejmdas = cfg'.pejmdas) {rest : Bytes} :
    ∀ x : Cst, (∀ c, firstTok rest = some c → digit c → x.toks.getLast? ≠ some b!")") →
      x.closed cfg fin ctx rest → x.closed cfg' fin' ctx rest
  | .num .., _, h => h
  | .name .., _, h => h
  | .call .., _, h => h
  | .paren .., _, h => h
  | .fact .., _, h => h
  | .sign ws neg x, hn, h => by
    have hn' : ∀ c, firstTok rest = some c → digit c → x.toks.getLast? ≠ some b!")" := by
      rw [Cst.toks, show [if neg then c!"-" else c!"+"] :: x.toks = [[if neg then c!"-" else c!"+"]] ++ x.toks from rfl,
        last_append_ne (toks_ne.1 x)] at hn
      exact hn
    exact ⟨stops_fin hp hn' h.1, closed_fin hp x hn' h.2⟩
  | .bin l _ op r, hn, h => by
    have hn' : ∀ c, firstTok rest = some c → digit c → r.toks.getLast? ≠ some b!")" := by
      rw [Cst.toks, show l.toks ++ [opChar op] :: r.toks = (l.toks ++ [[opChar op]]) ++ r.toks by simp,
        last_append_ne (toks_ne.1 r)] at hn
      exact hn
    exact ⟨stops_fin hp hn' h.1, closed_fin hp r hn' h.2⟩
  | .juxt l r, hn, h => by
    have hn' : ∀ c, firstTok rest = some c → digit c → r.toks.getLast? ≠ some b!")" := by
      rw [Cst.toks, last_append_ne (toks_ne.1 r)] at hn
      exact hn
    refine ⟨?_, closed_fin hp r hn' h.2⟩
    rw [← implLevel_builds hp]
    exact stops_fin hp hn' h.1

theorem wf_fin (hp : cfg.pejmdas = cfg'.pejmdas) :
    (∀ (x : Cst) (rest : Bytes) (ts : List Bytes), x.wf cfg fin ctx rest → Lex rest ts →
      ParensApart (x.toks ++ ts) → x.wf cfg' fin' ctx rest) ∧
    (∀ (as : CArgs) (rest : Bytes) (ts : List Bytes), as.wf cfg fin ctx rest → Lex rest ts →
      ParensApart (as.toks ++ b!")" :: ts) → as.wf cfg' fin' ctx rest) := by
  have sym0 : ∀ {c : UInt8} {rest : Bytes} {ts : List Bytes}, symb c → Lex rest ts →
      Lex (c :: rest) ([c] :: ts) := fun hc h => Lex.sym (ws := []) (by decide) hc h
  refine cst_ind ?_ ?_ ?_ ?_ ?_ ?_ ?_ ?_ ?_ ?_
  · intro ws txt v rest ts h _ _; exact h
  · intro ws nm rest ts h _ _; exact h
  · intro ws nm ws2 as ih rest ts h hl ha
    refine ⟨h.1, h.2.1, h.2.2.1, h.2.2.2.1, ih rest ts h.2.2.2.2 hl ?_⟩
    have : (Cst.call ws nm ws2 as).toks ++ ts = [nm, b!"("] ++ (as.toks ++ b!")" :: ts) := by
      simp [Cst.toks]
    rw [this] at ha
    exact ha.right
  · intro ws x ws2 ih rest ts h hl ha
    refine ⟨h.1, h.2.1, ih _ (b!")" :: ts) h.2.2 (.sym h.2.1 (by decide) hl) ?_⟩
    have : (Cst.paren ws x ws2).toks ++ ts = [b!"("] ++ (x.toks ++ b!")" :: ts) := by
      simp [Cst.toks]
    rw [this] at ha
    exact ha.right
  · intro ws neg x ih rest ts h hl ha
    refine ⟨h.1, ih _ _ h.2.1 hl ?_, by rw [← chain_eq hp]; exact h.2.2⟩
    have : (Cst.sign ws neg x).toks ++ ts = [[if neg then c!"-" else c!"+"]] ++ (x.toks ++ ts) := by
      simp [Cst.toks]
    rw [this] at ha
    exact ha.right
  · intro x ws ih rest ts h hl ha
    refine ⟨h.1, h.2.1, ih _ (b!"!" :: ts) h.2.2 (.sym h.2.1 (by decide) hl) ?_⟩
    have : (Cst.fact x ws).toks ++ ts = x.toks ++ b!"!" :: ts := by simp [Cst.toks]
    rwa [this] at ha
  · intro l ws op r ihl ihr rest ts h hl ha
    have e2 : (Cst.bin l ws op r).toks ++ ts = l.toks ++ [opChar op] :: (r.toks ++ ts) := by
      simp [Cst.toks]
    rw [e2] at ha
    have h1 : Lex (ws ++ opChar op :: r.text ++ rest) ([opChar op] :: (r.toks ++ ts)) := by
      rw [show ws ++ opChar op :: r.text ++ rest = ws ++ opChar op :: (r.text ++ rest) by simp]
      exact .sym h.1 (symb_op op) (lex_text.1 r rest ts h.2.2.2.1 hl)
    have hr : ParensApart (r.toks ++ ts) :=
      ParensApart.right (a := l.toks ++ [[opChar op]]) (by simpa using ha)
    exact ⟨h.1, ihl _ _ h.2.1 h1 ha, closed_fin hp l (digit_last h1 ha) h.2.2.1,
      ihr _ _ h.2.2.2.1 hl hr, by rw [← chain_eq hp]; exact h.2.2.2.2⟩
  · intro l r ihl ihr rest ts h hl ha
    have e2 : (Cst.juxt l r).toks ++ ts = l.toks ++ (r.toks ++ ts) := by simp [Cst.toks]
    rw [e2] at ha
    have h1 := lex_text.1 r rest ts h.2.2.1 hl
    have hn := digit_last h1 ha
    obtain ⟨c, hc, hk⟩ := h.2.2.2.2
    refine ⟨ihl _ _ h.1 h1 ha, closed_fin hp l hn h.2.1, ihr _ _ h.2.2.1 hl ha.right,
      by rw [← chain_eq hp, ← implLevel_builds hp]; exact h.2.2.2.1, c, hc, ?_⟩
    rcases hk with hk | hk | hk
    · exact .inl hk
    · exact .inr (.inl hk)
    · exact .inr (.inr ⟨hk.1, fun h => hk.2 (number_fin (hn c hc hk.1) h)⟩)
  · intro x ws ih rest ts h hl ha
    exact ⟨h.1, ih _ _ h.2 (.sym h.1 (by decide) hl) ha⟩
  · intro x ws as ih ihs rest ts h hl ha
    have e2 : (CArgs.more x ws as).toks ++ b!")" :: ts = x.toks ++ b!"," :: (as.toks ++ b!")" :: ts) := by
      simp [CArgs.toks]
    rw [e2] at ha
    have h1 : Lex (ws ++ c!"," :: (as.text ++ c!")" :: rest)) (b!"," :: (as.toks ++ b!")" :: ts)) :=
      .sym h.1 (by decide) (lex_text.2 as rest ts h.2.2 hl)
    exact ⟨h.1, ih _ _ h.2.1 h1 ha, ihs _ _ h.2.2 hl
      (ParensApart.right (a := x.toks ++ [b!","]) (by simpa using ha))⟩

end

/-! ### Names and values in the two trees -/

section
variable {fin : Elem → PM Elem} {ctx : Context}

/-- Names that occur in the finished tree occur in the plain one. -/
theorem den_plain_occurs (n : Bytes) (hf : Keeps fin fun e => ¬ Occurs n e) :
    (∀ (x : Cst) (e e' : Elem), x.den .ok ctx = .ok e → x.den fin ctx = .ok e' → ¬ Occurs n e →
      ¬ Occurs n e') ∧
    (∀ (as : CArgs) (es es' : List Elem), as.den .ok ctx = .ok es → as.den fin ctx = .ok es' →
      (∀ a ∈ es, ¬ Occurs n a) → ∀ a ∈ es', ¬ Occurs n a) := by
  refine cst_ind ?_ ?_ ?_ ?_ ?_ ?_ ?_ ?_ ?_ ?_
  · intro ws txt v e e' h h' ho; cases h; cases h'; exact ho
  · intro ws nm e e' h h' ho
    rw [Cst.den] at h h'
    rw [h] at h'; cases h'; exact ho
  · intro ws nm ws2 as ih e e' h h' ho
    rw [Cst.den] at h h'
    cases h1 : as.den .ok ctx with
    | error p => rw [h1] at h; cases h
    | ok es =>
      cases h2 : as.den fin ctx with
      | error p => rw [h2] at h'; cases h'
      | ok es' =>
        rw [h1] at h; rw [h2] at h'
        simp only at h h'
        cases hl : lookup ctx nm with
        | func f =>
          rw [hl] at h h'; cases h; cases h'
          intro hc
          cases hc with
          | arg ha hc =>
            exact ih es es' h1 h2 (fun a ha hc => ho (.arg ha hc)) _ ha hc
        | _ => rw [hl] at h h'; cases h; cases h'; exact ho
  · intro ws x ws2 ih e e' h h' ho
    obtain ⟨a, h1, h2⟩ := den_paren h
    obtain ⟨a', h1', h2'⟩ := den_paren h'
    cases h2
    exact hf _ _ h2' (ih _ a' h1 h1' ho)
  · intro ws neg x ih e e' h h' ho
    obtain ⟨a, b, h1, h2, rfl⟩ := den_sign h
    obtain ⟨a', b', h1', h2', rfl⟩ := den_sign h'
    cases h2
    intro hc
    cases hc with
    | operand hc => exact hf _ _ h2' (ih a a' h1 h1' fun h => ho (.operand h)) hc
  · intro x ws ih e e' h h' ho
    obtain ⟨a, h1, rfl⟩ := den_fact h
    obtain ⟨a', h1', rfl⟩ := den_fact h'
    intro hc
    cases hc with
    | operand hc => exact ih a a' h1 h1' (fun h => ho (.operand h)) hc
  · intro l ws op r ihl ihr e e' h h' ho
    obtain ⟨a, b, c, h1, h2, h3, rfl⟩ := den_bin h
    obtain ⟨a', b', c', h1', h2', h3', rfl⟩ := den_bin h'
    cases h3
    intro hc
    cases hc with
    | left hc => exact ihl a a' h1 h1' (fun h => ho (.left h)) hc
    | right hc => exact hf _ _ h3' (ihr b b' h2 h2' fun h => ho (.right h)) hc
  · intro l r ihl ihr e e' h h' ho
    obtain ⟨a, b, c, h1, h2, h3, rfl⟩ := den_juxt h
    obtain ⟨a', b', c', h1', h2', h3', rfl⟩ := den_juxt h'
    cases h3
    intro hc
    cases hc with
    | left hc => exact ihl a a' h1 h1' (fun h => ho (.left h)) hc
    | right hc => exact hf _ _ h3' (ihr b b' h2 h2' fun h => ho (.right h)) hc
  · intro x ws ih es es' h h' ho
    obtain ⟨a, b, h1, h2, rfl⟩ := den_last h
    obtain ⟨a', b', h1', h2', rfl⟩ := den_last h'
    cases h2
    intro c hc
    cases List.mem_singleton.1 hc
    exact hf _ _ h2' (ih a a' h1 h1' (ho _ (by simp)))
  · intro x ws as ih ihs es es' h h' ho
    obtain ⟨a, b, t, h1, h2, h3, rfl⟩ := den_more h
    obtain ⟨a', b', t', h1', h2', h3', rfl⟩ := den_more h'
    cases h2
    intro c hc
    rcases List.mem_cons.1 hc with rfl | hc
    · exact hf _ _ h2' (ih a a' h1 h1' (ho _ (by simp)))
    · exact ihs t t' h3 h3' (fun a ha => ho a (by simp [ha])) c hc

end

section
variable {cfg : Cfg} {w : World} {ctx : Context} {m : HMap F64}

theorem runsL_congr {es' : List Elem} {vs : List F64} {f : Func} {v : F64}
    (h : ∃ us, RunsL w m es' us ∧ SameL vs us) (hc : CallStep w f vs v) :
    ∃ u, Runs w m (.call f es') u ∧ Same v u := by
  obtain ⟨us, h1, h2⟩ := h
  obtain ⟨u, h3, h4⟩ := hc.congr h2
  exact ⟨u, .call h1 h3, h4⟩

end

end Xprs
