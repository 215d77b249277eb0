import Verif.Lemmas.Cursor
import Verif.Props.Parsing
/-
Property C103: the parser on a text and a machine cursor (`Cursor.lean`) never leaves the
text, and does what `Parser.lean` says.
-/
namespace Xprs
namespace Props
open Spec

/-! ### Builds with and without overflow checks -/

/-- The outcomes agree, or the first is a panic on overflow. -/
def Checked {α : Type} (x y : R α) : Prop := x = .panic .overflow ∨ x = y

theorem Checked.bind {α β : Type} {x y : R α} {f g : α → St → R β} (h : Checked x y)
    (hf : ∀ a s, Checked (f a s) (g a s)) : Checked (x.bind f) (y.bind g) := by
  rcases h with rfl | rfl
  · exact .inl rfl
  · cases x with
    | ok a s => exact hf a s
    | err e s => exact .inr rfl
    | panic p => exact .inr rfl
    | fuel => exact .inr rfl

theorem simpBin_nightly {cfg cfg' : Cfg} (h : cfg.nightly = cfg'.nightly) (w : World) (op : Op) (l r : Elem) :
    simpBin cfg w op l r = simpBin cfg' w op l r := by
  cases op <;> simp only [simpBin, simpPlus, simpMinus, simpTimes, simpDivide, h]

mutual
theorem simplify_nightly {cfg cfg' : Cfg} (h : cfg.nightly = cfg'.nightly) (w : World) :
    ∀ e : Elem, simplify cfg w e = simplify cfg' w e
  | .num _ => rfl
  | .var _ => rfl
  | .bin op l r => by
    unfold simplify
    rw [simplify_nightly h w l, simplify_nightly h w r]
    cases simplify cfg' w l with
    | error p => rfl
    | ok l' =>
      dsimp only
      cases simplify cfg' w r with
      | error p => rfl
      | ok r' => exact simpBin_nightly h w op l' r'
  | .un op e => by unfold simplify; rw [simplify_nightly h w e]
  | .call f args => by unfold simplify; rw [simplifyL_nightly h w args]

theorem simplifyL_nightly {cfg cfg' : Cfg} (h : cfg.nightly = cfg'.nightly) (w : World) :
    ∀ l : List Elem, simplifyL cfg w l = simplifyL cfg' w l
  | [] => rfl
  | a :: as => by unfold simplifyL; rw [simplify_nightly h w a, simplifyL_nightly h w as]
end

/-- The build with overflow checks. -/
abbrev on (cfg : Cfg) : Cfg := { cfg with overflowChecks := true }
/-- A build without, for any target. -/
abbrev off (u : Width) (cfg : Cfg) : Cfg := { cfg with overflowChecks := false, usize := u }

variable {cfg : Cfg} {u : Width}

theorem checked_errEnd {α : Type} (s : St) : Checked (errEnd (on cfg) s : R α) (errEnd (off u cfg) s) := by
  unfold errEnd subOne
  by_cases h : s.pos = 0
  · left; simp [h]
  · right; simp [h]

theorem checked_errMissing {α : Type} (s : St) :
    Checked (errMissing (on cfg) s : R α) (errMissing (off u cfg) s) := by
  unfold errMissing subOne
  by_cases h : s.pos = 0
  · left; simp [h]
  · right; simp [h]

/-- The recursive calls. -/
def CheckedRec (f g : Nat → St → R Elem) : Prop := ∀ p s, Checked (f p s) (g p s)

theorem checked_argument {f g : Nat → St → R Elem} (h : CheckedRec f g) (s : St) :
    Checked (argument (on cfg) f s) (argument (off u cfg) g s) := by
  unfold argument
  rcases h noPrec s with h | h
  · rw [h]; exact .inl rfl
  · rw [h]
    cases g noPrec s with
    | ok a s' => exact .inr rfl
    | panic p => exact .inr rfl
    | fuel => exact .inr rfl
    | err e s' =>
      dsimp only
      cases e.kind with
      | unexpectedToken _ => exact checked_errMissing s'
      | _ => exact .inr rfl

theorem checked_parseArgs {f g : Nat → St → R Elem} (h : CheckedRec f g) : ∀ (k : Nat) (args : List Elem) (s : St),
    Checked (parseArgs (on cfg) f k args s) (parseArgs (off u cfg) g k args s)
  | 0, _, _ => .inr rfl
  | k + 1, args, s => by
    unfold parseArgs
    refine (checked_argument h s).bind fun arg s1 => ?_
    dsimp only
    cases (trim s1).rest.head? with
    | none => exact checked_errEnd _
    | some c =>
      dsimp only
      by_cases h1 : c = c!","
      · rw [if_pos h1, if_pos h1]; exact checked_parseArgs h k _ _
      · rw [if_neg h1, if_neg h1]; exact .inr rfl

theorem checked_parseIdent (ctx : Context) {f g : Nat → St → R Elem} (h : CheckedRec f g) (s : St) :
    Checked (parseIdent (on cfg) ctx f s) (parseIdent (off u cfg) ctx g s) := by
  unfold parseIdent
  dsimp only
  cases lookup ctx (s.rest.takeWhile isIdChar) with
  | const x => exact .inr rfl
  | var n => exact .inr rfl
  | func fn =>
    dsimp only
    by_cases hb : (consumeIf c!"(" (skipWhile isIdChar s)).1 = true
    · rw [if_pos hb, if_pos hb]
      exact (checked_parseArgs h _ _ _).bind fun _ _ => .inr rfl
    · rw [if_neg hb, if_neg hb]; exact .inr rfl

theorem checked_atom (ctx : Context) {f g : Nat → St → R Elem} (h : CheckedRec f g) (s : St) :
    Checked (atom (on cfg) ctx f s) (atom (off u cfg) ctx g s) := by
  unfold atom
  dsimp only
  cases (trim s).rest.head? with
  | none => exact checked_errEnd _
  | some c =>
    dsimp only
    by_cases hd : (isDigit c || decide (c = c!".")) = true
    · rw [if_pos hd, if_pos hd]; exact .inr rfl
    rw [if_neg hd, if_neg hd]
    by_cases hi : isIdStart c = true
    · rw [if_pos hi, if_pos hi]; exact checked_parseIdent ctx h _
    rw [if_neg hi, if_neg hi]
    by_cases hp : c = c!"+"
    · rw [if_pos hp, if_pos hp]; exact (h _ _).bind fun _ _ => .inr rfl
    rw [if_neg hp, if_neg hp]
    by_cases hm : c = c!"-"
    · rw [if_pos hm, if_pos hm]; exact (h _ _).bind fun _ _ => .inr rfl
    rw [if_neg hm, if_neg hm]
    by_cases ho : c = c!"("
    · rw [if_pos ho, if_pos ho]; exact (h _ _).bind fun _ _ => .inr rfl
    · rw [if_neg ho, if_neg ho]; exact .inr rfl

theorem checked_opLoop {f g : Nat → St → R Elem} (h : CheckedRec f g) (p : Nat) : ∀ (k : Nat) (el : Elem) (s : St),
    Checked (opLoop (on cfg) f p k el s) (opLoop (off u cfg) g p k el s)
  | 0, _, _ => .inr rfl
  | k + 1, el, s => by
    unfold opLoop
    dsimp only
    have : opInfo (on cfg) el p (trim s) = opInfo (off u cfg) el p (trim s) := rfl
    rw [this]
    cases opInfo (off u cfg) el p (trim s) with
    | none => exact .inr rfl
    | some i => exact (h _ _).bind fun rhs s2 => checked_opLoop h p k _ _

theorem checked_element (w : World) (ctx : Context) : ∀ n : Nat,
    CheckedRec (element (on cfg) w ctx n) (element (off u cfg) w ctx n)
  | 0 => fun _ _ => .inr rfl
  | n + 1 => fun p s => by
    unfold element elementF
    refine (checked_atom ctx (checked_element w ctx n) s).bind fun a s1 => ?_
    refine (checked_opLoop (checked_element w ctx n) p _ _ _).bind fun el s3 => ?_
    right
    unfold finish
    rw [simplify_nightly (cfg := on cfg) (cfg' := off u cfg) rfl]

theorem checked_parseImpl (w : World) (ctx : Context) (input : Bytes) :
    parseImpl (on cfg) w ctx input = .panic .overflow ∨
      parseImpl (on cfg) w ctx input = parseImpl (off u cfg) w ctx input := by
  unfold parseImpl
  rcases checked_element (cfg := cfg) (u := u) w ctx (input.length + 1) noPrec ⟨0, input⟩ with h | h
  · left; rw [h]
  · right; rw [h]

/-- Overflow checks turn nothing but an overflow into something else. -/
theorem checked_parse (w : World) (o : Oracle) (ctx : Context) (input : Bytes) :
    parse (on cfg) w o ctx input = .panic .overflow ∨
      parse (on cfg) w o ctx input = parse (off u cfg) w o ctx input := by
  unfold parse
  rcases checked_parseImpl (cfg := cfg) (u := u) w ctx input with h | h
  · left; rw [h]
  · right; rw [h]

/-! ### C103 -/

/-- C103, that the two models are one: on every text that fits into memory the parser with a
cursor of 16, 32 or 64 bits, checked slices and unchecked conversions returns what the parser on the
remaining bytes returns. -/
theorem C103_same (cfg : Cfg) (w : World) (o : Oracle) (ctx : Context) (input : Bytes)
    (hl : input.length < 2 ^ (cfg.usize.bits - 1)) :
    parseU cfg input w o ctx = parse cfg w o ctx input :=
  Cur.parseU_eq (Cur.fits hl) w o ctx

/-- The cursor at every outcome of every call of `element` that is made inside the text. -/
theorem C103_cursor (cfg : Cfg) (w : World) (ctx : Context) (input : Bytes)
    (hl : input.length < 2 ^ (cfg.usize.bits - 1)) (n p cur : Nat) (hc : cur ≤ input.length) :
    (∀ e c, elementU cfg input w ctx n p cur = .ok e c → c ≤ input.length) ∧
    (∀ e c, elementU cfg input w ctx n p cur = .err e c → c ≤ input.length) := by
  have h := Cur.sim_element (cfg := cfg) (Cur.fits hl) w ctx n p cur hc
  generalize element cfg w ctx n p (Cur.st input cur) = y at h
  constructor
  · intro e c he
    rw [he] at h
    cases h; assumption
  · intro e c he
    rw [he] at h
    cases h; assumption

/-- The full claim of C103 (false, see `C103_refuted`): no sum or difference overflows, no
index or slice is out of range and no conversion is undefined. -/
def C103_claim : Prop := ∀ (cfg : Cfg) (w : World) (o : Oracle) (ctx : Context) (input : Bytes),
  input.length < 2 ^ (cfg.usize.bits - 1) → CtxTotal w ctx →
    parseU cfg input w o ctx ≠ .panic .overflow ∧ parseU cfg input w o ctx ≠ .panic .index ∧
    parseU cfg input w o ctx ≠ .panic .ub

/-- C103 is false: `cursor - 1` underflows on the empty text. -/
theorem C103_refuted : ¬ C103_claim := by
  intro h
  refine (h cfgPlain w0 Oracle.id Context.default [] (by decide) (ctxTotal_default _)).1 ?_
  decide +kernel

/-- C103 for every text but the empty one: the cursor stays within the text, no arithmetic on
`usize` overflows, no index or slice is out of range, no conversion is undefined, and
neither overflow checks nor the size of `usize` make a difference.  Missing: the empty text,
on which `cursor - 1` underflows. -/
theorem C103_partial (cfg : Cfg) (w : World) (o : Oracle) (ctx : Context) (input : Bytes)
    (hl : input.length < 2 ^ (cfg.usize.bits - 1)) (hne : input ≠ []) (hw : CtxTotal w ctx) :
    (parseU cfg input w o ctx ≠ .panic .overflow ∧ parseU cfg input w o ctx ≠ .panic .index ∧
      parseU cfg input w o ctx ≠ .panic .ub) ∧
    ∀ (checks : Bool) (u : Width), input.length < 2 ^ (u.bits - 1) →
      parseU { cfg with overflowChecks := checks, usize := u } input w o ctx
        = parseU cfg input w o ctx := by
  have key : ∀ (cfg : Cfg) (p : Panic), p ≠ .unreachable → parse cfg w o ctx input ≠ .panic p := by
    intro cfg p hp h
    rcases C02_panics_partial cfg w o ctx input hw p h with ⟨h, _⟩ | ⟨_, _, h⟩
    · exact hne h
    · exact hp h
  have all : ∀ (cfg : Cfg) (u : Width), parse (on cfg) w o ctx input = parse (off u cfg) w o ctx input :=
    fun cfg u => (checked_parse (cfg := cfg) (u := u) w o ctx input).resolve_left (key _ _ (by simp))
  have any : ∀ (checks : Bool) (u : Width),
      parse { cfg with overflowChecks := checks, usize := u } w o ctx input = parse (off .w16 cfg) w o ctx input := by
    intro checks u
    cases checks with
    | true => exact all { cfg with usize := u } .w16
    | false => exact (all cfg u).symm.trans (all cfg .w16)
  refine ⟨?_, ?_⟩
  · rw [C103_same _ _ _ _ _ hl]
    exact ⟨key _ _ (by simp), key _ _ (by simp), key _ _ (by simp)⟩
  · intro checks u hu
    rw [C103_same _ _ _ _ _ hl, C103_same { cfg with overflowChecks := checks, usize := u } _ _ _ _ hu]
    exact (any checks u).trans (any cfg.overflowChecks cfg.usize).symm

/-- Not vacuous: slices, an exponent, a call and the end of the text. -/
example : parseU cfgPlain b!"atan2(1_0e-2x, .5)" w0 Oracle.id Context.default
    = parse0 cfgPlain b!"atan2(1_0e-2x, .5)" := by decide +kernel
example : parseU cfgPlain b!"1e" w0 Oracle.id Context.default = parse0 cfgPlain b!"1e" := by decide +kernel
example : parseU cfgPlain b!"1..e+5" w0 Oracle.id Context.default
    = .err ⟨.malformedNumber b!"1..e+5", 0, 6⟩ := by decide +kernel
example : parseU cfgPlain b!"sin()" w0 Oracle.id Context.default = .err ⟨.missingArgument, 3, 2⟩ := by
  decide +kernel
/-- The checks can fail: a slice that ends behind the text, one that is not ASCII, a sum that
does not fit. -/
example : sliceU b!"x" 0 2 = .error .index ∧ sliceU b!"xy" 2 1 = .error .index := by decide
example : utf8U [0xC3, 0xA9] = .error .ub := by decide
example : addU cfgPlain (2 ^ 64 - 1) 1 = .error .overflow ∧ addU cfgOpt (2 ^ 64 - 1) 1 = .ok 0 := by decide
/-- On a smaller target it fails earlier. -/
example : addU { cfgPlain with usize := .w16 } (2 ^ 16 - 1) 1 = .error .overflow ∧
    addU cfgPlain (2 ^ 16 - 1) 1 = .ok (2 ^ 16) := by decide
/-- The empty text without overflow checks, on 32 bits. -/
example : parseU { cfgOpt with usize := .w32 } [] w0 Oracle.id Context.default
    = .err ⟨.unexpectedEnd, 2 ^ 32 - 1, 0⟩ := by decide +kernel

end Props
end Xprs
