import Verif.Spec.Compose
import Verif.Lemmas.Tokens
/-
Accepted texts as parts of larger ones.
-/
namespace Xprs
open Spec

/-- The outcome of a parse that ends with the tree `r`. -/
def outcome (r : PM Elem) : PRes :=
  match r with
  | .ok e => .ok ⟨e, findVars e []⟩
  | .error p => .panic p

variable {cfg : Cfg} {w : World} {ctx : Context}

/-- An accepted text in parentheses, as part of a larger one. -/
theorem paren_part {s : Bytes} {x : Xpr} (h : parseImpl cfg w ctx s = .ok x) :
    ∃ c : Cst, c.text = inParens s ∧ c.primary ∧ c.chain cfg = 7 ∧
      (∀ rest, c.wf cfg (finOf cfg w) ctx rest) ∧
      (∀ rest, noBang rest → c.closed cfg (finOf cfg w) ctx rest) ∧
      c.den (finOf cfg w) ctx = .ok x.root := by
  obtain ⟨c, tw, e, rfl, h2, h3, h4, h5, _⟩ := parseImpl_den h
  refine ⟨.paren [] c tw, by simp [Cst.text, inParens], trivial, rfl, fun rest => ?_,
    fun rest h => h, ?_⟩
  · exact ⟨by simp [spaces], h2, (wf_close closer_paren rest).1 c tw h3⟩
  · rw [Cst.den, h4]; exact h5

theorem parseImpl_of_cst (c : Cst) (h : c.wf cfg (finOf cfg w) ctx []) :
    parseImpl cfg w ctx c.text = outcome (c.meaning (finOf cfg w) ctx) := by
  have := parseImpl_text cfg w ctx c [] h (by simp [spaces])
  rw [List.append_nil] at this
  rw [this]; rfl

theorem parseImpl_infix {s t : Bytes} {x y : Xpr} {op : Op} (hop : op ≠ .factorial)
    (hs : parseImpl cfg w ctx s = .ok x) (ht : parseImpl cfg w ctx t = .ok y) :
    parseImpl cfg w ctx (inParens s ++ opChar op :: inParens t) =
      outcome ((finOf cfg w y.root).bind fun b => finOf cfg w (.bin op x.root b)) := by
  obtain ⟨c, h1, h2, h3, h4, h5, h6⟩ := paren_part hs
  obtain ⟨d, k1, k2, k3, k4, k5, k6⟩ := paren_part ht
  have := parseImpl_of_cst (cfg := cfg) (w := w) (ctx := ctx) (.bin c [] op d) (by
    refine ⟨by simp [spaces], h4 _, h5 _ ?_, k4 _, ?_⟩
    · unfold noBang
      have : ¬ space (opChar op) := by cases op <;> decide
      rw [List.nil_append, List.cons_append, firstTok_cons this]
      cases op <;> first | decide | exact absurd rfl hop
    · rw [k3]; cases op <;> decide)
  simp only [Cst.text, h1, k1, List.append_nil] at this
  rw [this, Cst.meaning, Cst.den, h6, k6]
  dsimp only
  cases finOf cfg w y.root <;> rfl

theorem parseImpl_prefix {s : Bytes} {x : Xpr} (neg : Bool)
    (hs : parseImpl cfg w ctx s = .ok x) :
    parseImpl cfg w ctx ((if neg then c!"-" else c!"+") :: inParens s) =
      outcome ((finOf cfg w x.root).bind fun a =>
        finOf cfg w (.un (if neg then .minus else .plus) a)) := by
  obtain ⟨c, h1, h2, h3, h4, h5, h6⟩ := paren_part hs
  have := parseImpl_of_cst (cfg := cfg) (w := w) (ctx := ctx) (.sign [] neg c) (by
    refine ⟨by simp [spaces], h4 _, ?_⟩
    rw [h3]; decide)
  simp only [Cst.text, h1, List.nil_append] at this
  rw [this, Cst.meaning, Cst.den, h6]
  dsimp only
  cases finOf cfg w x.root <;> rfl

theorem parseImpl_postfix {s : Bytes} {x : Xpr} (hs : parseImpl cfg w ctx s = .ok x) :
    parseImpl cfg w ctx (inParens s ++ [c!"!"]) = outcome (finOf cfg w (.un .factorial x.root)) := by
  obtain ⟨c, h1, h2, h3, h4, h5, h6⟩ := paren_part hs
  have := parseImpl_of_cst (cfg := cfg) (w := w) (ctx := ctx) (.fact c [])
    ⟨h2, by simp [spaces], h4 _⟩
  simp only [Cst.text, h1, List.append_nil] at this
  rw [this, Cst.meaning, Cst.den, h6]

/-- Accepted texts as the arguments of a call. -/
theorem args_part : ∀ {ts : List Bytes} {xs : List Xpr},
    List.Forall₂ (fun t x => parseImpl cfg w ctx t = .ok x) ts xs → ts ≠ [] →
    ∃ as : CArgs, as.text = commas ts ∧ as.count = xs.length ∧
      (∀ rest, as.wf cfg (finOf cfg w) ctx rest) ∧
      as.den (finOf cfg w) ctx = .ok (xs.map (·.root))
  | _, _, .nil, h => absurd rfl h
  | _, _, .cons (l₁ := []) hx .nil, _ => by
    obtain ⟨c, tw, e, rfl, h2, h3, h4, h5, _⟩ := parseImpl_den hx
    refine ⟨.last c tw, by simp [CArgs.text, commas], rfl, fun rest => ?_, ?_⟩
    · exact ⟨h2, (wf_close closer_paren rest).1 c tw h3⟩
    · simp [CArgs.den, h4, h5]
  | _, _, .cons (l₁ := t' :: ts) hx hs, _ => by
    obtain ⟨c, tw, e, rfl, h2, h3, h4, h5, _⟩ := parseImpl_den hx
    obtain ⟨as, k1, k2, k3, k4⟩ := args_part hs (by simp)
    refine ⟨.more c tw as, by simp [CArgs.text, commas, k1], by simp [CArgs.count, k2],
      fun rest => ?_, ?_⟩
    · exact ⟨h2, (wf_close closer_comma _).1 c tw h3, k3 rest⟩
    · simp [CArgs.den, h4, h5, k4]

theorem parseImpl_call {ts : List Bytes} {xs : List Xpr} {nm : Bytes} {f : Func}
    (hs : List.Forall₂ (fun t x => parseImpl cfg w ctx t = .ok x) ts xs) (hne : ts ≠ [])
    (hn : IsName nm) (hf : lookup ctx nm = .func f)
    (ha : ∀ n, f.nbArgs = some n → ts.length = n) :
    parseImpl cfg w ctx (nm ++ inParens (commas ts)) =
      outcome (finOf cfg w (.call f (xs.map (·.root)))) := by
  obtain ⟨as, h1, h2, h3, h4⟩ := args_part hs hne
  have := parseImpl_of_cst (cfg := cfg) (w := w) (ctx := ctx) (.call [] nm [] as) (by
    refine ⟨by simp [spaces], ⟨hn.1, hn.2, by intro c hc; simp at hc⟩, by simp [spaces],
      ⟨f, hf, fun n hn' => ?_⟩, h3 _⟩
    rw [h2, ← hs.length_eq]; exact ha n hn')
  have e : (Cst.call [] nm [] as).text = nm ++ inParens (commas ts) := by
    simp [Cst.text, inParens, h1]
  rw [e] at this
  rw [this, Cst.meaning, Cst.den, h4]
  simp [hf]

end Xprs
