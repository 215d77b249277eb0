import Verif.Depth
import Verif.Lemmas.Depth
import Verif.Props.Extent
/-
Property C83: how deep the recursion gets.
-/
namespace Xprs
namespace Props
open Spec

/-! ### Evaluation -/

mutual
theorem evalD_enough (w : World) (m : HMap F64) : ∀ (n : Nat) (e : Elem), height e ≤ n →
    evalD w m n e = some (eval w m e)
  | 0, e, h => absurd h (by cases e <;> simp [height])
  | n + 1, .num x, _ => by rw [evalD, eval]
  | n + 1, .var v, _ => by rw [evalD, eval]; cases m.get v <;> rfl
  | n + 1, .un op e, h => by
    rw [height] at h
    rw [evalD, eval, evalD_enough w m n e (by omega)]
    cases eval w m e <;> rfl
  | n + 1, .bin op l r, h => by
    rw [height] at h
    rw [evalD, eval, evalD_enough w m n l (by omega), evalD_enough w m n r (by omega)]
    cases eval w m l with
    | error e => rfl
    | ok a => cases eval w m r <;> rfl
  | n + 1, .call f args, h => by
    rw [height] at h
    rw [evalD, eval, evalDL_enough w m n args (by omega)]
    cases evalL w m args <;> rfl
theorem evalDL_enough (w : World) (m : HMap F64) : ∀ (n : Nat) (as : List Elem), heightL as ≤ n →
    evalDL w m n as = some (evalL w m as)
  | n, [], _ => by rw [evalDL, evalL]
  | n, a :: as, h => by
    rw [heightL] at h
    rw [evalDL, evalL, evalD_enough w m n a (by omega), evalDL_enough w m n as (by omega)]
    cases eval w m a with
    | error e => rfl
    | ok v => cases evalL w m as <;> rfl
end

mutual
theorem evalD_ok (w : World) (m : HMap F64) : ∀ (n : Nat) (e : Elem) (v : F64),
    evalD w m n e = some (.ok v) → height e ≤ n ∧ eval w m e = .ok v
  | 0, e, v, h => by rw [evalD] at h; cases h
  | n + 1, .num x, v, h => by
    rw [evalD] at h; cases h; exact ⟨by simp [height], by rw [eval]⟩
  | n + 1, .var u, v, h => by
    rw [evalD] at h
    refine ⟨by simp [height], ?_⟩
    rw [eval]
    cases hm : m.get u with
    | none => rw [hm] at h; cases h
    | some x => rw [hm] at h; cases h; rfl
  | n + 1, .un op e, v, h => by
    rw [evalD] at h
    cases he : evalD w m n e with
    | none => rw [he] at h; cases h
    | some r =>
      cases r with
      | error r => rw [he] at h; cases h
      | ok a =>
        obtain ⟨h1, h2⟩ := evalD_ok w m n e a he
        rw [he] at h
        injection h with h
        exact ⟨by rw [height]; omega, by rw [eval, h2]; exact h⟩
  | n + 1, .bin op l r, v, h => by
    rw [evalD] at h
    cases hl : evalD w m n l with
    | none => rw [hl] at h; cases h
    | some a =>
      cases a with
      | error e => rw [hl] at h; cases h
      | ok a =>
        obtain ⟨h1, h2⟩ := evalD_ok w m n l a hl
        rw [hl] at h
        cases hr : evalD w m n r with
        | none => rw [hr] at h; cases h
        | some b =>
          cases b with
          | error e => rw [hr] at h; cases h
          | ok b =>
            obtain ⟨h3, h4⟩ := evalD_ok w m n r b hr
            rw [hr] at h
            injection h with h
            exact ⟨by rw [height]; omega, by rw [eval, h2, h4]; exact h⟩
  | n + 1, .call f args, v, h => by
    rw [evalD] at h
    cases ha : evalDL w m n args with
    | none => rw [ha] at h; cases h
    | some r =>
      cases r with
      | error r => rw [ha] at h; cases h
      | ok vs =>
        obtain ⟨h1, h2⟩ := evalDL_ok w m n args vs ha
        rw [ha] at h
        injection h with h
        exact ⟨by rw [height]; omega, by rw [eval, h2]; exact h⟩
theorem evalDL_ok (w : World) (m : HMap F64) : ∀ (n : Nat) (as : List Elem) (vs : List F64),
    evalDL w m n as = some (.ok vs) → heightL as ≤ n ∧ evalL w m as = .ok vs
  | n, [], vs, h => by
    rw [evalDL] at h; cases h; exact ⟨by simp [heightL], by rw [evalL]⟩
  | n, a :: as, vs, h => by
    rw [evalDL] at h
    cases ha : evalD w m n a with
    | none => rw [ha] at h; cases h
    | some r =>
      cases r with
      | error r => rw [ha] at h; cases h
      | ok v =>
        obtain ⟨h1, h2⟩ := evalD_ok w m n a v ha
        rw [ha] at h
        cases hs : evalDL w m n as with
        | none => rw [hs] at h; cases h
        | some r =>
          cases r with
          | error r => rw [hs] at h; cases h
          | ok us =>
            obtain ⟨h3, h4⟩ := evalDL_ok w m n as us hs
            rw [hs] at h
            cases h
            exact ⟨by rw [heightL]; omega, by rw [evalL, h2, h4]⟩
end

mutual
theorem evalD_sound (w : World) (m : HMap F64) : ∀ (n : Nat) (e : Elem) (r : Except EvErr F64),
    evalD w m n e = some r → eval w m e = r
  | 0, e, r, h => by rw [evalD] at h; cases h
  | n + 1, .num x, r, h => by rw [evalD] at h; rw [eval]; exact Option.some.inj h
  | n + 1, .var u, r, h => by
    rw [evalD] at h; rw [eval]
    cases hm : m.get u <;> rw [hm] at h <;> exact Option.some.inj h
  | n + 1, .un op e, r, h => by
    rw [evalD] at h
    cases he : evalD w m n e with
    | none => rw [he] at h; cases h
    | some a =>
      have := evalD_sound w m n e a he
      rw [he] at h
      rw [eval, this]
      cases a <;> exact Option.some.inj h
  | n + 1, .bin op l r, q, h => by
    rw [evalD] at h
    cases hl : evalD w m n l with
    | none => rw [hl] at h; cases h
    | some a =>
      have := evalD_sound w m n l a hl
      rw [hl] at h
      rw [eval, this]
      cases a with
      | error e => exact Option.some.inj h
      | ok a =>
        cases hr : evalD w m n r with
        | none => rw [hr] at h; cases h
        | some b =>
          have := evalD_sound w m n r b hr
          rw [hr] at h
          simp only [this]
          cases b <;> exact Option.some.inj h
  | n + 1, .call f args, r, h => by
    rw [evalD] at h
    cases ha : evalDL w m n args with
    | none => rw [ha] at h; cases h
    | some a =>
      have := evalDL_sound w m n args a ha
      rw [ha] at h
      rw [eval, this]
      cases a <;> exact Option.some.inj h
theorem evalDL_sound (w : World) (m : HMap F64) : ∀ (n : Nat) (as : List Elem) (r : Except EvErr (List F64)),
    evalDL w m n as = some r → evalL w m as = r
  | n, [], r, h => by rw [evalDL] at h; rw [evalL]; exact Option.some.inj h
  | n, a :: as, r, h => by
    rw [evalDL] at h
    cases ha : evalD w m n a with
    | none => rw [ha] at h; cases h
    | some b =>
      have := evalD_sound w m n a b ha
      rw [ha] at h
      rw [evalL, this]
      cases b with
      | error e => exact Option.some.inj h
      | ok v =>
        cases hs : evalDL w m n as with
        | none => rw [hs] at h; cases h
        | some c =>
          have := evalDL_sound w m n as c hs
          rw [hs] at h
          simp only [this]
          cases c <;> exact Option.some.inj h
end

/-! ### Flat texts -/

/-- `x+x+…+x` with `k` plus signs. -/
def sumText : Nat → Bytes
  | 0 => b!"x"
  | k + 1 => sumText k ++ b!"+x"

def sumTree : Nat → Elem
  | 0 => .var b!"x"
  | k + 1 => .bin .plus (sumTree k) (.var b!"x")

def sumCst : Nat → Cst
  | 0 => .name [] b!"x"
  | k + 1 => .bin (sumCst k) [] .plus (.name [] b!"x")

theorem sum_height : ∀ k, height (sumTree k) = k + 1
  | 0 => rfl
  | k + 1 => by rw [sumTree, height, sum_height k, height]; omega

theorem sum_text : ∀ k, (sumCst k).text = sumText k
  | 0 => rfl
  | k + 1 => by simp [sumCst, sumText, Cst.text, sum_text k, opChar]

theorem sum_simp (cfg : Cfg) (w : World) : ∀ k, simplify cfg w (sumTree k) = .ok (sumTree k)
  | 0 => by rw [sumTree, simplify]
  | k + 1 => by
    rw [sumTree, simplify, sum_simp cfg w k]
    cases k <;> cases hn : cfg.nightly <;>
      simp [simplify, simpBin, simpPlus, sumTree, Elem.is0, Elem.isNumEq, Elem.negOf?, foldBin, hn]

theorem sum_parse (cfg : Cfg) (w : World) (o : Oracle) (k : Nat) :
    parse cfg w o Context.default (sumText k) = .ok ⟨sumTree k, [b!"x"]⟩ := by
  have hfin : ∀ k, finOf cfg w (sumTree k) = .ok (sumTree k) := by
    intro k; unfold finOf; split
    · exact sum_simp cfg w k
    · rfl
  have hlook : lookup Context.default b!"x" = .var b!"x" := by rfl
  have hname : ∀ rest : Bytes, (∀ c, rest.head? = some c → ¬ nameChar c) →
      (Cst.name [] b!"x").wf cfg (finOf cfg w) Context.default rest := by
    intro rest hr
    exact ⟨by simp [spaces], ⟨⟨c!"x", rfl, by decide⟩, by decide, hr⟩, by rw [hlook]; intro f h; cases h⟩
  have hwf : ∀ k rest, (rest = [] ∨ ∃ r, rest = c!"+" :: r) →
      (sumCst k).wf cfg (finOf cfg w) Context.default rest ∧
      (sumCst k).closed cfg (finOf cfg w) Context.default rest := by
    intro k
    have hb : ∀ rest : Bytes, (rest = [] ∨ ∃ r, rest = c!"+" :: r) → noBang rest := by
      rintro rest (rfl | ⟨r, rfl⟩)
      · intro h; cases h
      · intro h; cases h
    have hs : ∀ rest : Bytes, (rest = [] ∨ ∃ r, rest = c!"+" :: r) → ∀ c, rest.head? = some c → ¬ nameChar c := by
      rintro rest (rfl | ⟨r, rfl⟩) c h
      · cases h
      · cases h; decide
    induction k with
    | zero =>
      intro rest hr
      exact ⟨hname rest (hs rest hr), hb rest hr⟩
    | succ k ih =>
      intro rest hr
      obtain ⟨h1, h2⟩ := ih (c!"+" :: b!"x" ++ rest) (.inr ⟨_, rfl⟩)
      refine ⟨⟨by simp [spaces], h1, h2, hname rest (hs rest hr), ?_⟩, ?_, hb rest hr⟩
      · show 1 < 7; decide
      rcases hr with rfl | ⟨r, rfl⟩
      · intro c h; cases h
      · intro c h
        cases h
        exact ⟨fun op => by cases op <;> decide, fun h => absurd h (by decide), fun h => absurd h (by decide)⟩
  have hden : ∀ k, (sumCst k).den (finOf cfg w) Context.default = .ok (sumTree k) := by
    intro k; induction k with
    | zero => rw [sumCst, Cst.den, hlook]; rfl
    | succ k ih =>
      rw [sumCst, Cst.den, ih, Cst.den, hlook]
      have := hfin 0
      simp only [sumTree] at this ⊢
      simp only [this]
  have hvars : ∀ k, findVars (sumTree k) [] = [b!"x"] := by
    intro k; induction k with
    | zero => rfl
    | succ k ih => rw [sumTree, findVars, ih]; rfl
  refine (C17_exact cfg w o Context.default (sumText k) _ rfl).2
    ⟨sumCst k, [], by simp [sum_text], by simp [spaces], (hwf k [] (.inl rfl)).1, ?_, (hvars k).symm⟩
  simp only [Cst.meaning, hden, hfin]

theorem sum_flat (k : Nat) : Opens 0 (sumText k) ∧ frontSigns true (sumText k) = 0 := by
  have h1 : ∀ k, c!"(" ∉ sumText k := by
    intro k; induction k with
    | zero => decide
    | succ k ih => rw [sumText, List.mem_append]; rintro (h | h); exact ih h; revert h; decide
  have h2 : ∀ k (r : Bytes), frontSigns true (sumText k ++ r) = frontSigns false r := by
    intro k; induction k with
    | zero => intro r; rfl
    | succ k ih =>
      intro r; rw [sumText, List.append_assoc, ih]
      show 0 + frontSigns false r = _
      exact Nat.zero_add _
  refine ⟨fun p hp => ?_, by have := h2 k []; rwa [List.append_nil] at this⟩
  have : p.count c!"(" = 0 := List.count_eq_zero.2 fun h => h1 k (hp.subset h)
  unfold depth
  omega

/-! ### C83 -/

/-- C83 as stated: how deep parsing a text and evaluating the result recurse is bounded in terms
of how many parentheses are open at once and how many operands have a sign in front. -/
def C83_claim : Prop := ∃ g : Nat → Nat → Nat,
  ∀ (cfg : Cfg) (w : World) (o : Oracle) (ctx : Context) (input : Bytes) (d : Nat), Opens d input →
    parseD cfg w o ctx (g d (frontSigns true input)) input ≠ none ∧
    ∀ x m, parse cfg w o ctx input = .ok x → evalD w m (g d (frontSigns true input)) x.root ≠ none

/-- C83, partial: the functions of the parser, leaving out the simplification of what they
return, recurse to a depth of at most six times one more than the
parentheses open at once and the signs in front of operands.  Cut off anywhere above, it returns
the same. -/
theorem C83_parse_partial (cfg : Cfg) (w : World) (ctx : Context) (input : Bytes) (d n : Nat)
    (hd : Opens d input) (hn : 6 * (d + frontSigns true input + 1) ≤ n) :
    element cfg w ctx n noPrec ⟨0, input⟩ = element cfg w ctx (input.length + 1) noPrec ⟨0, input⟩ ∧
    element cfg w ctx n noPrec ⟨0, input⟩ ≠ .fuel := by
  have ho := openMax_opens hd
  have hne : element cfg w ctx n noPrec ⟨0, input⟩ ≠ .fuel := by
    refine element_enough cfg w ctx n noPrec ⟨0, input⟩ (by decide) ?_
    unfold left noPrec
    simp only
    omega
  refine ⟨?_, hne⟩
  rcases Nat.le_total n (input.length + 1) with h | h
  · exact (element_upto cfg w ctx n _ noPrec _ h hne).symm
  · exact element_upto cfg w ctx _ n noPrec _ h
      (element_noFuel cfg w ctx _ _ _ (Nat.lt_succ_self _))

/-- C83, partial: this much is needed.  Behind `k` opening parentheses the parser has made `k`
calls inside one another, whatever follows. -/
theorem C83_needed_partial (cfg : Cfg) (w : World) (ctx : Context) (r : Bytes) : ∀ (k p pos : Nat),
    element cfg w ctx k p ⟨pos, List.replicate k c!"(" ++ r⟩ = .fuel
  | 0, _, _ => rfl
  | k + 1, p, pos => by
    have ht : trim ⟨pos, List.replicate (k + 1) c!"(" ++ r⟩ = ⟨pos, List.replicate (k + 1) c!"(" ++ r⟩ := rfl
    rw [element, elementF, atom, ht]
    have : (adv ⟨pos, List.replicate (k + 1) c!"(" ++ r⟩ 1) = ⟨pos + 1, List.replicate k c!"(" ++ r⟩ := rfl
    simp only [this, C83_needed_partial cfg w ctx r k]
    rfl

/-- C83, partial: evaluation recurses exactly to the height of the tree, which C58 bounds by the
length of the text. -/
theorem C83_eval_partial (w : World) (m : HMap F64) (e : Elem) (n : Nat) :
    (height e ≤ n → evalD w m n e = some (eval w m e)) ∧
    (n < height e → ∀ v, eval w m e = .ok v → evalD w m n e = none) := by
  refine ⟨evalD_enough w m n e, fun h v hv => ?_⟩
  cases hd : evalD w m n e with
  | none => rfl
  | some r =>
    rw [← evalD_sound w m n e r hd, hv] at hd
    have := (evalD_ok w m n e v hd).1
    omega

/-- C83, partial: so do printing an expression, dropping it and collecting its variables, always. -/
theorem C83_walk_partial (fmt : F64 → Bytes) (e : Elem) (n : Nat) (vs : List Bytes) :
    showD fmt n e = (if height e ≤ n then some (showE fmt e) else none) ∧
    dropD n e = (if height e ≤ n then some () else none) ∧
    findVarsD n e vs = (if height e ≤ n then some (findVars e vs) else none) :=
  ⟨showD_eq fmt n e, dropD_eq n e, findVarsD_eq n e vs⟩

/-- C83, partial: simplification too, comparisons of operands included; substitution at most one
call deeper.  If they return without panic, this much is needed. -/
theorem C83_simplify_partial (cfg : Cfg) (w : World) (x : Bytes) (v : F64) (e : Elem) (n : Nat) :
    (height e ≤ n → simplifyD cfg w n e = some (simplify cfg w e)) ∧
    (n < height e → ∀ e', simplify cfg w e = .ok e' → simplifyD cfg w n e = none) ∧
    (height e + 1 ≤ n → simplifyForD cfg w x v n e = some (simplifyFor cfg w x v e)) ∧
    (n < height e → ∀ e', simplifyForD cfg w x v n e ≠ some (.ok e')) := by
  refine ⟨simplifyD_enough cfg w n e, fun h e' he => ?_, simplifyForD_enough cfg w x v n e, fun h e' he => ?_⟩
  · cases hd : simplifyD cfg w n e with
    | none => rfl
    | some r =>
      have := simplifyD_only cfg w n e r hd
      rw [he] at this
      subst this
      have := simplifyD_need cfg w n e e' hd
      omega
  · have := (simplifyForD_need cfg w x v n e e' he).1
    omega

/-- C83, partial: everything `parse` does recurses at most as deep as the parser without
simplification (C83_parse_partial) and twice the length of the text together. -/
theorem C83_total_partial (cfg : Cfg) (w : World) (o : Oracle) (ctx : Context) (input : Bytes) (d n : Nat)
    (hd : Opens d input) (hn : 6 * (d + frontSigns true input + 1) + 2 * input.length ≤ n) :
    parseD cfg w o ctx n input = some (parse cfg w o ctx input) := by
  obtain ⟨h1, h2⟩ := C83_parse_partial cfg w ctx input d (n - 2 * input.length) hd (by omega)
  have h3 := elementD_on cfg w ctx (Nat.le_refl (2 * input.length)) (n - 2 * input.length) noPrec ⟨0, input⟩
    (Nat.zero_add _) h2
  rw [show n - 2 * input.length + 2 * input.length = n by omega, h1] at h3
  have h4 : parseImplD cfg w ctx n input = some (parseImpl cfg w ctx input) := by
    have hf : ∀ x, parseImpl cfg w ctx input = .ok x → height x.root ≤ n := fun x hx => by
      have := parseImpl_fits hx
      unfold Fits at this; omega
    unfold parseImplD
    unfold parseImpl at hf ⊢
    rw [h3]
    cases he : element cfg w ctx (input.length + 1) noPrec ⟨0, input⟩ with
    | ok root s =>
      rw [he] at hf
      simp only at hf ⊢
      cases hc : (trim s).rest.head? with
      | some c => rfl
      | none =>
        rw [hc] at hf
        simp only
        rw [findVarsD_eq, if_pos (hf _ rfl)]
    | err e s => rfl
    | panic p => rfl
    | fuel => rw [h1] at h2; exact absurd he h2
  unfold parseD parse
  rw [h4]
  cases parseImpl cfg w ctx input with
  | ok x =>
    simp only
    cases ctx.getExpected with
    | none => rfl
    | some vs => simp only; cases (diffVars o x.vars vs).head? <;> rfl
  | err e => rfl
  | panic p => rfl
  | fuel => rfl

/-- What fits on a stack of limited depth is what is returned without limit. -/
theorem parseD_sound {cfg : Cfg} {w : World} {ctx : Context} {n : Nat} {input : Bytes} {x : Xpr}
    (hp : parseImpl cfg w ctx input = .ok x) (hf : elementD cfg w ctx n noPrec ⟨0, input⟩ ≠ .fuel) :
    ∃ s, elementD cfg w ctx n noPrec ⟨0, input⟩ = .ok x.root s := by
  have h1 := elementD_upto cfg w ctx n (n + (input.length + 1)) noPrec ⟨0, input⟩ (by omega) hf
  have h2 := element_upto cfg w ctx (input.length + 1) (n + (input.length + 1)) noPrec ⟨0, input⟩ (by omega)
    (element_noFuel cfg w ctx _ _ _ (Nat.lt_succ_self _))
  rw [← h1, h2]
  unfold parseImpl at hp
  cases he : element cfg w ctx (input.length + 1) noPrec ⟨0, input⟩ with
  | ok root s =>
    rw [he] at hp
    simp only at hp
    split at hp
    · cases hp
    · cases hp; exact ⟨s, rfl⟩
  | err e s => rw [he] at hp; cases hp
  | panic p => rw [he] at hp; cases hp
  | fuel => rw [he] at hp; cases hp

/-- C83, partial: to return an expression, `parse` recurses as deep as the expression is high, in
every build; with optimisation already the parser itself does, one call more. -/
theorem C83_height_partial (cfg : Cfg) (w : World) (o : Oracle) (ctx : Context) (input : Bytes) (x : Xpr)
    (h : parse cfg w o ctx input = .ok x) (n : Nat) :
    (n < height x.root → parseD cfg w o ctx n input = none) ∧
    (cfg.opt = true → n ≤ height x.root → elementD cfg w ctx n noPrec ⟨0, input⟩ = .fuel) := by
  have hp := parse_ok h
  constructor
  · intro hn
    have hi : parseImplD cfg w ctx n input = none := by
      by_cases hf : elementD cfg w ctx n noPrec ⟨0, input⟩ = .fuel
      · unfold parseImplD; rw [hf]
      · obtain ⟨s, hs⟩ := parseD_sound hp hf
        have hh : (trim s).rest.head? = none := by
          have h1 := elementD_upto cfg w ctx n (n + (input.length + 1)) noPrec ⟨0, input⟩ (by omega) hf
          have h2 := element_upto cfg w ctx (input.length + 1) (n + (input.length + 1)) noPrec ⟨0, input⟩
            (by omega) (element_noFuel cfg w ctx _ _ _ (Nat.lt_succ_self _))
          rw [← h1, h2] at hs
          unfold parseImpl at hp
          rw [hs] at hp
          simp only at hp
          split at hp
          · cases hp
          · assumption
        unfold parseImplD
        rw [hs]
        simp only [hh]
        rw [findVarsD_eq, if_neg (by omega)]
    unfold parseD
    rw [hi]
  · intro hopt hn
    by_cases hf : elementD cfg w ctx n noPrec ⟨0, input⟩ = .fuel
    · exact hf
    · obtain ⟨s, hs⟩ := parseD_sound hp hf
      have := elementD_height hopt hs
      omega

/-- Flat texts need any depth, in every build: parsing them, with optimisation also the parser
itself, and printing, dropping or simplifying the result. -/
theorem C83_flat_partial (cfg : Cfg) (w : World) (o : Oracle) (k : Nat) :
    Opens 0 (sumText k) ∧ frontSigns true (sumText k) = 0 ∧
    parseD cfg w o Context.default k (sumText k) = none ∧
    (cfg.opt = true → elementD cfg w Context.default k noPrec ⟨0, sumText k⟩ = .fuel) ∧
    ∃ x, parse cfg w o Context.default (sumText k) = .ok x ∧ height x.root = k + 1 ∧
      (∀ fmt, showD fmt k x.root = none) ∧ dropD k x.root = none ∧ simplifyD cfg w k x.root = none := by
  have hp := sum_parse cfg w o k
  have hh := sum_height k
  obtain ⟨h1, h2⟩ := C83_height_partial cfg w o _ _ _ hp k
  refine ⟨(sum_flat k).1, (sum_flat k).2, h1 (by simp only [hh]; omega), fun ho => h2 ho (by simp only [hh]; omega),
    _, hp, hh, fun fmt => ?_, ?_, ?_⟩
  · rw [showD_eq, if_neg (by simp only [hh]; omega)]
  · rw [dropD_eq, if_neg (by simp only [hh]; omega)]
  · exact (C83_simplify_partial cfg w b!"x" F64.f0 _ k).2.1 (by simp only [hh]; omega) _ (sum_simp cfg w k)

/-- It is false, in every build and with the default context, of parsing: `x+x+…+x` has neither
parentheses nor signs in front, and its variables are collected with a call for every summand, one
inside the other. -/
theorem C83_parse_refuted (cfg : Cfg) (w : World) (o : Oracle) : ¬ ∃ g : Nat → Nat → Nat,
    ∀ (input : Bytes) (d : Nat), Opens d input →
      parseD cfg w o Context.default (g d (frontSigns true input)) input ≠ none := by
  rintro ⟨g, h⟩
  obtain ⟨h1, h2, h3, _⟩ := C83_flat_partial cfg w o (g 0 0)
  have := h (sumText (g 0 0)) 0 h1
  rw [h2] at this
  exact this h3

/-- It is false of evaluation, in every build: evaluating `x+x+…+x` needs a call for every
summand, one inside the other. -/
theorem C83_eval_refuted (cfg : Cfg) (w : World) (o : Oracle) : ¬ ∃ g : Nat → Nat → Nat,
    ∀ (input : Bytes) (d : Nat), Opens d input → ∀ x m, parse cfg w o Context.default input = .ok x →
      evalD w m (g d (frontSigns true input)) x.root ≠ none := by
  rintro ⟨g, h⟩
  have hf := sum_flat (g 0 0)
  have hx : ∀ w : World, eval w (HMap.ofList [(b!"x", F64.f0)]) (.var b!"x") = .ok F64.f0 := fun w => rfl
  have hv : ∀ k, eval w (HMap.ofList [(b!"x", F64.f0)]) (sumTree k) = .ok F64.f0 := by
    intro k; induction k with
    | zero => exact hx w
    | succ k ih =>
      rw [sumTree, eval, ih, hx w]
      show liftP (.ok (F64.add F64.f0 F64.f0)) = _
      rw [show F64.add F64.f0 F64.f0 = F64.f0 by decide +kernel]
      rfl
  have := h (sumText (g 0 0)) 0 hf.1 _
    (HMap.ofList [(b!"x", F64.f0)]) (sum_parse cfg w o (g 0 0))
  rw [hf.2] at this
  exact this ((C83_eval_partial w _ (sumTree (g 0 0)) (g 0 0)).2 (by rw [sum_height]; omega) _ (hv _))

theorem C83_refuted : ¬ C83_claim := fun ⟨g, h⟩ =>
  C83_parse_refuted cfgPlain w0 Oracle.id
    ⟨g, fun input d hd => (h cfgPlain w0 Oracle.id Context.default input d hd).1⟩

/-- `-2^-(x+y)*3`: one parenthesis and two signs in front, so 24 calls are enough. -/
example : Opens 1 b!"-2^-(x+y)*3" ∧ frontSigns true b!"-2^-(x+y)*3" = 2 := by
  refine ⟨fun p hp => ?_, by decide⟩
  have : p.count c!"(" ≤ b!"-2^-(x+y)*3".count c!"(" := hp.sublist.count_le _
  have h1 : b!"-2^-(x+y)*3".count c!"(" = 1 := by decide
  unfold depth
  omega

end Props
end Xprs
