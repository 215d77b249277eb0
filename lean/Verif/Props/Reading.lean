import Verif.Props.Histories
import Verif.Props.Effects
import Verif.Lemmas.Reading
/-
Property C97: nothing in an accepted text is lost, invented or reordered.
-/
namespace Xprs
namespace Props
open Spec

/-- C97, builds without simplification: an accepted text has tokens, and its tree, read
from left to right, is what the tokens stand for, one by one; only the `*` of implicit
products has no token. -/
theorem C97_reading (cfg : Cfg) (ho : cfg.opt = false) (w : World) (o : Oracle) (ctx : Context)
    (input : Bytes) (x : Xpr) (h : parse cfg w o ctx input = .ok x) :
    ∃ ts, Lex input ts ∧ Covers ctx false ts (items x.root) := by
  obtain ⟨c, tw, rfl, hs, hw, hm, -⟩ := parseImpl_ok (parse_ok h)
  rw [Props.finOf_plain cfg ho w] at hw hm
  have hl : Lex tw [] := .nil hs
  have h1 := lex_text.1 c _ _ hw hl
  have h2 := covers_toks.1 c _ _ hw (meaning_plain hm) _ _ _ hl .done
  rw [List.append_nil] at h1 h2
  rw [List.append_nil] at h2
  exact ⟨_, h1, h2⟩

/-- C97, every build and every history of simplifications: the variables of the
expression, read from left to right, are tokens of the text, in the order of the text. -/
theorem C97_order (cfg : Cfg) (w : World) (ctx : Context) (input : Bytes) (e : Xpr)
    (h : Reach cfg w ctx input e) : ∃ ts, Lex input ts ∧ (readVars e.root).Sublist ts := by
  have hf : ∀ e e', finOf cfg w e = .ok e' → (readVars e').Sublist (readVars e) := by
    intro e e' he
    unfold finOf at he
    split at he
    · exact simplify_order e he
    · cases he; exact List.Sublist.refl _
  refine reach_ind (Q := fun e _ => ∃ ts, Lex input ts ∧ (readVars e).Sublist ts) ?_ ?_ h
  · intro x hx
    obtain ⟨c, tw, e, rfl, hs, hw, hd, hfin, -⟩ := parseImpl_den hx
    have h1 := lex_text.1 c _ _ hw (.nil hs)
    rw [List.append_nil] at h1
    exact ⟨_, h1, (hf _ _ hfin).trans ((order_toks hf).1 c e _ hw hd)⟩
  · rintro e e' vs x v ⟨ts, hl, hq⟩ hs
    exact ⟨ts, hl, (simplifyFor_order e hs).trans hq⟩

/-- C97, evaluation: in a build without simplification the error of `eval` names exactly
the first token of the text that is a variable without a value. -/
theorem C97_missing (cfg : Cfg) (ho : cfg.opt = false) (w : World) (o : Oracle) (ctx : Context)
    (input : Bytes) (x : Xpr) (m : HMap F64) (hw : CtxTotal w ctx) (hn : ¬ DoubleBang input)
    (h : parse cfg w o ctx input = .ok x) (ts : List Bytes) (hl : Lex input ts) (n : Bytes) :
    x.eval w m = .error (.missing n) ↔
      ∃ pre post, ts = pre ++ n :: post ∧ Unset ctx m n ∧ ∀ t ∈ pre, ¬ Unset ctx m t := by
  obtain ⟨ts', hl', hc⟩ := C97_reading cfg ho w o ctx input x h
  cases lex_unique hl hl'
  have hf := hc.first (m := m) n
  rw [varItems_items] at hf
  obtain ⟨-, h2⟩ := C20_partial cfg w ctx input x m hw hn (.parsed h)
  refine Iff.trans ?_ hf
  constructor
  · intro he
    obtain ⟨k, pre, post, h3, h4, h5, h6⟩ := h2 ⟨n, C20_missing w x m n he⟩
    rw [he] at h3
    cases h3
    exact ⟨pre, post, h4, fun k hk => by obtain ⟨v, hv⟩ := h5 k hk; rw [hv]; simp, h6⟩
  · rintro ⟨pre, post, h3, h4, h5⟩
    obtain ⟨k, pre', post', h6, h7, h8, h9⟩ := h2 ⟨n, (mem_readVars n _).1 (by rw [h3]; simp), h5⟩
    have : k = n := by
      rw [h3] at h7
      rcases List.append_eq_append_iff.1 h7 with ⟨as, h10, h11⟩ | ⟨as, h10, h11⟩
      · cases as with
        | nil => simp at h11; exact h11.1.symm
        | cons a as =>
          simp at h11
          obtain ⟨v, hv⟩ := h8 n (by rw [h10, h11.1]; simp)
          rw [hv] at h5; cases h5
      · cases as with
        | nil => simp at h11; exact h11.1
        | cons a as =>
          simp at h11
          exact absurd h9 (h4 k (by rw [h10, h11.1]; simp))
    rw [h6, this]

/-! ### Concrete cases -/

/-- `2x(y - 3!) + max(z, pi)` is read as `2 * x * y - 3 ! + max z π`. -/
example : (match parse0 cfgPlain b!"2x(y - 3!) + max(z, pi)" with
    | .ok x => (items x.root).map (fun i => match i with
        | .num v => (0, v, [])
        | .var n => (1, F64.f0, n)
        | .fn _ => (2, F64.f0, [])
        | .op o => (3, F64.f0, [opChar o]))
    | _ => []) =
    [(0, F64.ofNat 2, []), (3, F64.f0, b!"*"), (1, F64.f0, b!"x"), (3, F64.f0, b!"*"), (1, F64.f0, b!"y"),
     (3, F64.f0, b!"-"), (0, F64.ofNat 3, []), (3, F64.f0, b!"!"), (3, F64.f0, b!"+"), (2, F64.f0, []),
     (1, F64.f0, b!"z"), (0, f64PI, [])] := by decide +kernel

/-- The hypotheses of the theorems hold for `(y + x) z` with only `y` given; `eval` names
`x`, the first of the two missing tokens. -/
example : ¬ DoubleBang b!"(y + x) z" := by
  rintro ⟨a, ws, b, _, h⟩
  have : c!"!" ∈ b!"(y + x) z" := by rw [h]; simp
  revert this; decide
example : Lex b!"(y + x) z" [b!"(", b!"y", b!"+", b!"x", b!")", b!"z"] :=
  .sym (ws := []) (by decide) (by decide) (.name (ws := []) (nm := b!"y") (by decide)
    ⟨⟨_, rfl, by decide⟩, by decide, by intro c hc; cases hc; decide⟩
    (.sym (ws := b!" ") (by decide) (by decide) (.name (ws := b!" ") (nm := b!"x") (by decide)
      ⟨⟨_, rfl, by decide⟩, by decide, by intro c hc; cases hc; decide⟩
      (.sym (ws := []) (by decide) (by decide) (.name (ws := b!" ") (nm := b!"z") (rest := []) (by decide)
        ⟨⟨_, rfl, by decide⟩, by decide, by intro c hc; cases hc⟩ (.nil (by decide)))))))
example : (match parse0 cfgPlain b!"(y + x) z" with
    | .ok e => some (e.eval w0 (HMap.ofList [(b!"y", F64.f1)]))
    | _ => none) = some (.error (.missing b!"x")) := by decide +kernel

/-- With simplification `0x + y` loses its `x`; what is left keeps its order. -/
example : (match parse0 cfgOpt b!"z + 0x + y" with | .ok e => readVars e.root | _ => []) =
    [b!"z", b!"y"] := by decide +kernel

/-- The relation is not trivial: `x` is not covered by a product. -/
example (ctx : Context) (is : List Item) : ¬ Covers ctx false [b!"x"] (.op .times :: is) := by
  intro h
  generalize hts : [b!"x"] = ts at h
  cases h with
  | opening => simp at hts
  | closing => simp at hts
  | comma => simp at hts
  | operator => simp [opChar] at hts

/-- Nor is `x+` covered by `x` alone. -/
example (ctx : Context) : ¬ Covers ctx false [b!"x", b!"+"] [.var b!"x"] := by
  intro h
  generalize hts : [b!"x", b!"+"] = ts at h
  cases h with
  | opening => simp at hts
  | closing => simp at hts
  | comma => simp at hts
  | named _ _ h =>
    simp at hts
    obtain ⟨-, rfl⟩ := hts
    generalize hts : [b!"+"] = ts at h
    cases h with
    | done => cases hts
    | opening => simp at hts
    | closing => simp at hts
    | comma => simp at hts

end Props
end Xprs
