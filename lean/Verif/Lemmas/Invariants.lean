import Verif.Lemmas.Panics
import Verif.Spec.Errors
/-
What can go wrong in the parser: invariants of errors and panics.
-/
namespace Xprs
open Spec
set_option linter.unusedSimpArgs false

/-- The state is a position in the source. -/
def At (inp : Bytes) (s : St) : Prop := ∃ pre, inp = pre ++ s.rest ∧ s.pos = pre.length

theorem At.le {inp : Bytes} {s t : St} (h : At inp s) (hl : Le s t) : At inp t := by
  obtain ⟨pre, rfl, h2⟩ := h
  obtain ⟨a, h3, h4⟩ := hl
  exact ⟨pre ++ a, by rw [h3]; simp, by rw [h4, h2]; simp⟩

theorem At.drop {inp : Bytes} {s : St} (h : At inp s) : inp.drop s.pos = s.rest := by
  obtain ⟨pre, rfl, h2⟩ := h
  rw [h2, List.drop_left]

theorem At.total {inp : Bytes} {s : St} (h : At inp s) : s.pos + s.rest.length = inp.length := by
  obtain ⟨pre, rfl, h2⟩ := h
  simp [h2]

theorem At.head {inp : Bytes} {s : St} (h : At inp s) : inp[s.pos]? = s.rest.head? := by
  obtain ⟨pre, rfl, h2⟩ := h
  rw [h2, List.getElem?_append_right (Nat.le_refl _), Nat.sub_self, List.head?_eq_getElem?]

/-- The invariant of a parsing function started in state `s`: errors are true and leave
the cursor between `s` and the end of the source; panics satisfy `Pn`; the fuel
suffices. -/
def Good {α : Type} (Rep : PErr → Prop) (s : St) (Pn : Panic → Prop) : R α → Prop
  | .ok _ _ => True
  | .err e s' => Rep e ∧ Le s s' ∧ ∀ c, e.kind = .unexpectedToken c → s'.rest.head? = some c
  | .panic q => Pn q
  | .fuel => False

theorem Good.mono {α : Type} {Rep : PErr → Prop} {s t : St} {P Q : Panic → Prop} {r : R α}
    (h : Good Rep t P r) (hl : Le s t) (hp : ∀ q, P q → Q q) : Good Rep s Q r := by
  cases r with
  | ok a s' => trivial
  | err e s' =>
    obtain ⟨h1, h2, h3⟩ := h
    exact ⟨h1, hl.trans h2, h3⟩
  | panic q => exact hp q h
  | fuel => exact h

theorem Good.bind {α β : Type} {Rep : PErr → Prop} {s : St} {P : Panic → Prop} {r : R α}
    {f : α → St → R β} (h : Good Rep s P r)
    (hf : ∀ a s', r = .ok a s' → Good Rep s P (f a s')) : Good Rep s P (r.bind f) := by
  cases r with
  | ok a s' => exact hf a s' rfl
  | err e s' => exact h
  | panic q => exact h
  | fuel => exact h

section
variable {cfg : Cfg} {fn : Elem → PM Elem} {ctx : Context} {inp : Bytes}

local notation "Rep" => Report cfg fn ctx inp

theorem good_end {α : Type} {s : St} {P : Panic → Prop} (hne : inp ≠ []) (ha : At inp s)
    (h : s.rest.head? = none) : Good Rep s P (errEnd cfg s : R α) := by
  have hr : s.rest = [] := by cases hl : s.rest with
    | nil => rfl
    | cons a b => rw [hl] at h; cases h
  have ht := ha.total
  rw [hr] at ht
  have : inp.length ≠ 0 := fun h => hne (List.length_eq_zero_iff.1 h)
  simp at ht
  unfold errEnd subOne
  rw [if_neg (by omega)]
  exact ⟨⟨by simp only; omega, by simp only; omega, rfl⟩, Le.refl s, (by intro c h; cases h)⟩

theorem good_tok {α : Type} {s : St} {c : UInt8} {P : Panic → Prop} (ha : At inp s)
    (h : s.rest.head? = some c) : Good Rep s P (errTok s c : R α) := by
  have ht := ha.total
  exact ⟨⟨by simp only; omega, by rw [ha.head, h], rfl⟩, Le.refl s,
    by intro d h'; injection h' with h'; rw [h, h']⟩

theorem good_expected {α : Type} {s : St} {c : UInt8} {P : Panic → Prop} (ha : At inp s)
    (hc : c = c!"(" ∨ c = c!")") (h : s.rest.head? ≠ some c) :
    Good Rep s P (errExpected s c : R α) := by
  have ht := ha.total
  exact ⟨⟨by simp only; omega, hc, by rw [ha.head]; exact h, rfl⟩, Le.refl s,
    (by intro d h'; cases h')⟩

theorem good_illegal {α : Type} {s : St} {c : UInt8} {P : Panic → Prop} (ha : At inp s)
    (h : s.rest.head? = some c) (h1 : ¬ operandChar c) (h2 : ¬ space c) :
    Good Rep s P (errIllegal s c : R α) := by
  have ht := ha.total
  exact ⟨⟨by simp only; omega, by rw [ha.head, h], rfl, h1, h2⟩, Le.refl s,
    (by intro d h'; cases h')⟩

theorem good_number {s : St} {P : Panic → Prop} (ha : At inp s) {c : UInt8}
    (hc : s.rest.head? = some c) (hd : isDigit c = true ∨ c = c!".") :
    Good Rep s P (parseNumber s) := by
  cases hr : parseNumber s with
  | ok e s' => trivial
  | panic q => unfold parseNumber at hr; simp only at hr; split at hr <;> cases hr
  | fuel => unfold parseNumber at hr; simp only at hr; split at hr <;> cases hr
  | err e s' =>
    have hnum : isNumChar c = true ∧ (digit c ∨ c = c!".") := by
      rcases hd with h | rfl
      · exact ⟨isDigit_isNumChar h, .inl ((isDigit_iff c).1 h)⟩
      · exact ⟨by decide, .inr rfl⟩
    have hle := le_numEnd s
    have hlt : Lt s (numEnd s) := lt_numEnd hc (by simpa using hd)
    have ht := hle.total
    have hp := hlt.pos
    have hat := ha.total
    have hr0 := hr
    unfold parseNumber at hr
    simp only at hr
    split at hr
    · cases hr
    · cases hr
      have hlen : (s.rest.take ((numEnd s).pos - s.pos)).length = (numEnd s).pos - s.pos := by
        rw [List.length_take]; omega
      have hoff : (numEnd s).pos - ((numEnd s).pos - s.pos) = s.pos := by omega
      refine ⟨⟨?_, ?_, rfl, ⟨c, ?_, hnum.2⟩, ?_⟩, hle, (by intro c h; cases h)⟩
      · simp only [hlen]; omega
      · simp only [hlen, hoff, ha.drop]
      · rw [List.head?_take, if_neg (by omega), hc]
      · intro lit rest v heq hl
        simp only [hlen, hoff, ha.drop] at heq
        have := parseNumber_literal s.pos hl
        rw [← heq] at this
        rw [show (⟨s.pos, s.rest⟩ : St) = s from rfl, hr0] at this
        cases this

theorem good_assert {c : UInt8} {s : St} {P : Panic → Prop} (ha : At inp s)
    (hc : c = c!"(" ∨ c = c!")") : Good Rep s P (assertConsume c s) := by
  unfold assertConsume
  split
  · trivial
  · rename_i h
    obtain ⟨h1, h2⟩ := consumeIf_false (by simpa using h)
    have hle := le_consumeIf c s
    refine (good_expected (ha.le hle) hc ?_).mono hle fun _ h => h
    rw [h2]; exact h1

end

/-- The panics of the parser started at text `l`, if functions are total (`T`). -/
def ParsePanic (cfg : Cfg) (T : Prop) (l : Bytes) (q : Panic) : Prop :=
  T → q = .unreachable ∧ cfg.opt = true ∧ DoubleBang l

theorem ParsePanic.mono {cfg : Cfg} {T : Prop} {s t : St} (h : Le s t) {q : Panic}
    (hq : ParsePanic cfg T t.rest q) : ParsePanic cfg T s.rest q := by
  intro hT
  obtain ⟨h1, h2, h3⟩ := hq hT
  obtain ⟨pre, he⟩ := h
  exact ⟨h1, h2, by rw [he.1]; exact h3.right pre⟩

theorem Good.sub {α : Type} {Rep : PErr → Prop} {cfg : Cfg} {T : Prop} {s t : St} {r : R α}
    (h : Good Rep t (ParsePanic cfg T t.rest) r) (hl : Le s t) :
    Good Rep s (ParsePanic cfg T s.rest) r :=
  h.mono hl fun _ => ParsePanic.mono hl

/-- The statement for `element`. -/
def ElemGood (cfg : Cfg) (w : World) (ctx : Context) (inp : Bytes) (N : Nat) : Prop :=
  ∀ (t : St) (p : Nat), t.rest.length < N → p < 7 → At inp t →
    Good (Report cfg (finOf cfg w) ctx inp) t (ParsePanic cfg (CtxTotal w ctx) t.rest) (elem cfg w ctx p t)

section
variable {cfg : Cfg} {w : World} {ctx : Context} {inp : Bytes} (hne : inp ≠ [])

local notation "Rep" => Report cfg (finOf cfg w) ctx inp

theorem argument_good {N : Nat} (ih : ElemGood cfg w ctx inp N) {s : St} (hN : s.rest.length < N)
    (ha : At inp s) (hp : 0 < s.pos) :
    Good Rep s (ParsePanic cfg (CtxTotal w ctx) s.rest) (argument cfg (elem cfg w ctx) s) := by
  have h := ih s noPrec hN (by decide) ha
  unfold argument
  split
  · rename_i e s' he
    rw [he] at h
    obtain ⟨h1, h2, h3⟩ := h
    split
    · rename_i c hc
      have hh := h3 c hc
      have hlen : 0 < s'.rest.length := by
        cases hl : s'.rest with
        | nil => rw [hl] at hh; cases hh
        | cons a b => simp
      have := h2.pos
      have ht := (ha.le h2).total
      unfold errMissing subOne
      rw [if_neg (by omega)]
      exact ⟨⟨by simp only; omega, rfl⟩, h2, (by intro c h; cases h)⟩
    · exact ⟨h1, h2, h3⟩
  · exact h

include hne in
theorem args_good {N : Nat} (ih : ElemGood cfg w ctx inp N) :
    ∀ (k : Nat) (s : St) (as : List Elem),
    s.rest.length ≤ k → s.rest.length < N → At inp s → 0 < s.pos →
    Good Rep s (ParsePanic cfg (CtxTotal w ctx) s.rest) (args cfg (elem cfg w ctx) as s) := by
  intro k
  induction k with
  | zero =>
    intro s as hk hN ha hp
    rw [args_unfold (elem_consumes cfg w ctx)]
    refine (argument_good ih hN ha hp).bind fun arg s1 h1 => ?_
    have := (elem_consumes cfg w ctx _ _ _ _ (argument_ok h1)).len
    omega
  | succ k ihk =>
    intro s as hk hN ha hp
    rw [args_unfold (elem_consumes cfg w ctx)]
    refine (argument_good ih hN ha hp).bind fun arg s1 h1 => ?_
    have hlt := elem_consumes cfg w ctx _ _ _ _ (argument_ok h1)
    have hle : Le s (trim s1) := hlt.le.trans (le_trim s1)
    cases hc : (trim s1).rest.head? with
    | none =>
      simp only
      exact (good_end (P := fun _ => False) hne (ha.le hle) hc).mono hle
        (by intro q h; exact h.elim)
    | some c =>
      simp only
      split
      · have hl2 : Le s (adv (trim s1) 1) := hle.trans (lt_one hc).le
        have := (lt_one hc).len
        have := (le_trim s1).len
        have := hlt.len
        have := hl2.pos
        exact (ihk _ _ (by omega) (by omega) (ha.le hl2) (by omega)).sub hl2
      · split
        · trivial
        · exact (good_tok (ha.le hle) hc).mono hle fun _ h => h

theorem arity_good {f : Func} {as : List Elem} {s0 s : St} {P : Panic → Prop} (ha : At inp s0)
    (h : Le s0 s) (hcall : ∀ n, f.nbArgs = some n →
      CallAt cfg (finOf cfg w) ctx inp s0.pos (s.pos - s0.pos) n as.length) :
    Good Rep s0 P (checkArity f as s0.pos s) := by
  have := h.pos
  have := (ha.le h).total
  unfold checkArity
  split
  · rename_i n hn
    split
    · trivial
    · split
      · exact ⟨⟨by simp only; omega, by assumption, hcall n hn⟩, h, (by intro c h; cases h)⟩
      · exact ⟨⟨by simp only; omega, by omega, hcall n hn⟩, h, (by intro c h; cases h)⟩
  · trivial

include hne in
theorem ident_good {N : Nat} (ih : ElemGood cfg w ctx inp N) {s : St} (hN : s.rest.length ≤ N)
    (ha : At inp s) {c : UInt8} (hc : s.rest.head? = some c) (hid : isIdStart c = true) :
    Good Rep s (ParsePanic cfg (CtxTotal w ctx) s.rest) (parseIdent cfg ctx (elem cfg w ctx) s) := by
  have hlt := lt_skipWhile hc (isIdStart_isIdChar hid)
  unfold parseIdent
  simp only
  split
  · trivial
  · trivial
  · rename_i f hf
    have hle := hlt.trans_le (le_consumeIf c!"(" (skipWhile isIdChar s))
    split
    · rename_i hpar
      have h2 := hle.len
      have h3 := hle.pos
      have hg := args_good hne ih _ (consumeIf c!"(" (skipWhile isIdChar s)).2 [] (Nat.le_refl _)
        (by omega) (ha.le hle.le) (by omega)
      refine (hg.sub hle.le).bind fun as s3 h4 => ?_
      obtain ⟨cs, rest, es, e3, hr3, hw3, hd3, hes⟩ :=
        args_conv (N := (consumeIf c!"(" (skipWhile isIdChar s)).2.rest.length + 1)
          (fun t _ => elem_conv cfg w ctx t) _ _ (Nat.le_refl _) (Nat.lt_succ_self _) [] _ _ h4
      have hs3 : Le s s3 := hle.le.trans ⟨_, e3⟩
      refine (good_assert (ha.le hs3) (.inr rfl)).mono hs3 (fun _ h => h) |>.bind fun u s4 h5 => ?_
      refine arity_good ha (hs3.trans (assertConsume_lt h5).le) fun n hn => ?_
      -- the text of the call
      have e1 := eats_skipWhile isIdChar s
      obtain ⟨hh, hp2⟩ := consumeIf_true hpar
      obtain ⟨ws, hws, e2⟩ := eats_trim (skipWhile isIdChar s)
      have e12 := (e1.trans (e2.trans (eats_one hh)))
      rw [← hp2] at e12
      have hc5 := assertConsume_ok h5
      have htr : trim s3 = s3 := trim_of_trimmed (by
        intro d hd; rw [hr3] at hd; cases hd; decide)
      have e4 : Eats s3 [c!")"] s4 := by
        rw [hc5.2, htr]
        exact eats_one (by rw [hr3]; rfl)
      have hrest : s4.rest = rest := by
        have := e4.1; rw [hr3] at this; simpa using this.symm
      have eall := (e12.trans e3).trans e4
      refine ⟨s.rest.takeWhile isIdChar, ws, cs, f, rest, ?_, ?_, ?_, hws, hf, hn, ?_, hw3⟩
      · have he := eall.1
        rw [hrest] at he
        refine (ha.drop.trans he).trans ?_
        simp
      · have := eall.2
        simp at this ⊢
        omega
      · have hn := name_of_takeWhile hc hid
        have : (skipWhile isIdChar s).rest = ws ++ c!"(" :: cs.text ++ c!")" :: rest := by
          have := ((e2.trans (eats_one hh))).1
          rw [this, ← hp2, e3.1, hr3]; simp
        rw [this] at hn; exact hn
      · rw [hes, List.nil_append, den_count cs hd3]
    · rename_i hpar
      obtain ⟨h1, h2⟩ := consumeIf_false (by simpa using hpar)
      refine (good_expected (ha.le hle.le) (.inl rfl) ?_).mono hle.le fun _ h => h
      rw [h2]; exact h1

theorem operandChar_of {c : UInt8} (h : operandChar c) :
    isDigit c = true ∨ c = c!"." ∨ isIdStart c = true ∨ c = c!"+" ∨ c = c!"-" ∨ c = c!"(" ∨
      c = c!")" := by
  rw [isDigit_iff, isIdStart_iff]
  rcases h with h | h | h | h | h | h | h <;> simp [h]

include hne in
theorem atom_good {N : Nat} (ih : ElemGood cfg w ctx inp N) {s0 : St} (hN : s0.rest.length ≤ N)
    (ha0 : At inp s0) :
    Good Rep s0 (ParsePanic cfg (CtxTotal w ctx) s0.rest) (atom cfg ctx (elem cfg w ctx) s0) := by
  have hle := le_trim s0
  have hlen := hle.len
  have ha := ha0.le hle
  refine Good.sub (t := trim s0) ?_ hle
  unfold atom
  simp only
  split
  · rename_i h; exact good_end hne ha h
  · rename_i c hc
    have h1 := lt_one hc
    have h2 := h1.len
    have hpos := h1.pos
    split
    · rename_i h
      rw [Bool.or_eq_true, decide_eq_true_iff] at h
      exact good_number ha hc h
    split
    · rename_i h; exact ident_good hne ih (by omega) ha hc h
    split
    · exact ((ih _ unopPrec (by omega) (by decide) (ha.le h1.le)).sub h1.le).bind
        fun _ _ _ => trivial
    split
    · exact ((ih _ unopPrec (by omega) (by decide) (ha.le h1.le)).sub h1.le).bind
        fun _ _ _ => trivial
    split
    · refine ((ih _ noPrec (by omega) (by decide) (ha.le h1.le)).sub h1.le).bind
        fun e s' he => ?_
      have h3 := h1.le.trans (elem_consumes cfg w ctx _ _ _ _ he).le
      exact ((good_assert (ha.le h3) (.inr rfl)).mono h3 fun _ h => h).bind fun _ _ _ => trivial
    split
    · exact good_tok ha hc
    · rename_i hn1 hn2 hn3 hn4 hn5 hn6
      refine good_illegal ha hc ?_ ?_
      · intro h
        simp only [Bool.or_eq_true, decide_eq_true_iff, not_or] at hn1
        rcases operandChar_of h with h | h | h | h | h | h | h
        · exact hn1.1 h
        · exact hn1.2 h
        · exact hn2 h
        · exact hn3 h
        · exact hn4 h
        · exact hn5 h
        · exact hn6 h
      · rw [← isWs_iff]; simp [head_trim hc]

theorem opInfo_lt7 {el : Elem} {p : Nat} {s : St} {op : Op} {q k : Nat}
    (h : opInfo cfg el p s = some (op, q, k)) : q < 7 := by
  have h1 : ∀ o : Op, precOf o < 7 := by intro o; cases o <;> decide
  have h2 : implPrec cfg < 7 := by rw [← implLevel_eq]; exact implLevel_lt cfg
  unfold opInfo at h
  repeat' split at h
  all_goals first
    | cases h; done
    | (cases h; exact h1 _)
    | (cases h; exact h2)

theorem opInfo_rest {el : Elem} {p : Nat} {s : St} {op : Op} {q k : Nat}
    (h : opInfo cfg el p s = some (op, q, k)) : s.rest ≠ [] := by
  intro h0; unfold opInfo at h; rw [h0] at h; cases h

theorem loop_good {N : Nat} (ih : ElemGood cfg w ctx inp N) {p : Nat} :
    ∀ (k : Nat) (s : St) (el : Elem), s.rest.length ≤ k → s.rest.length < N → At inp s →
    Good Rep s (ParsePanic cfg (CtxTotal w ctx) s.rest) (loop cfg (elem cfg w ctx) p el s) := by
  intro k
  induction k with
  | zero =>
    intro s el hk hN ha
    rw [loop_unfold (elem_consumes cfg w ctx)]
    have := (le_trim s).len
    split
    · trivial
    · rename_i op q k' hk'
      have : (trim s).rest.length ≠ 0 := by
        intro h; exact opInfo_rest hk' (List.length_eq_zero_iff.1 h)
      omega
  | succ k ihk =>
    intro s el hk hN ha
    rw [loop_unfold (elem_consumes cfg w ctx)]
    split
    · trivial
    · rename_i op q k' hk'
      have hle := (le_trim s).trans (opInfo_le hk')
      have := hle.len
      refine ((ih _ q (by omega) (opInfo_lt7 hk') (ha.le hle)).sub hle).bind fun rhs s2 h2 => ?_
      have hlt := hle.trans_lt (elem_consumes cfg w ctx _ _ _ _ h2)
      have := hlt.len
      exact (ihk _ _ (by omega) (by omega) (ha.le hlt.le)).sub hlt.le

theorem after_good {N : Nat} (ih : ElemGood cfg w ctx inp N) {p : Nat} {a : Elem} {s : St}
    (hN : s.rest.length < N) (ha : At inp s) :
    Good Rep s (ParsePanic cfg (CtxTotal w ctx) s.rest) (afterAtom cfg (elem cfg w ctx) p a s) := by
  unfold afterAtom
  have hle := le_consumeIf c!"!" s
  have := hle.len
  exact (loop_good ih _ _ _ (Nat.le_refl _) (by omega) (ha.le hle)).sub hle

include hne in
/-- The invariant of `element`. -/
theorem elem_good (N : Nat) : ElemGood cfg w ctx inp N := by
  induction N with
  | zero => intro t p h; omega
  | succ N ih =>
    intro s p hN hp ha
    rw [elem_unfold, elementF_eq]
    have hpre : Good Rep s (ParsePanic cfg (CtxTotal w ctx) s.rest)
        ((atom cfg ctx (elem cfg w ctx) s).bind (afterAtom cfg (elem cfg w ctx) p)) := by
      refine (atom_good hne ih (by omega) ha).bind fun a s1 h1 => ?_
      have hlt := atom_lt (elem_consumes cfg w ctx) h1
      have := hlt.len
      exact (after_good ih (by omega) (ha.le hlt.le)).sub hlt.le
    refine hpre.bind fun e1 s3 h1 => ?_
    obtain ⟨x, t, hx, _, _⟩ := pre_conv (N := N + 1)
      (fun t _ => elem_conv cfg w ctx t) (by omega) hp h1
    unfold finish
    split
    · rename_i hopt
      split
      · trivial
      · rename_i q hq
        intro hw
        have hP : ∀ f, Named ctx f → FnTotal w f := fun f hf => named_total hw hf
        have hcalls : Calls (FnTotal w) e1 := den_calls hP (keeps_calls cfg w _) hx.wf hx.den
        refine ⟨simplify_unr cfg w _ hcalls q hq, hopt, ?_⟩
        apply Classical.byContradiction
        intro hn
        have hnx : ¬ DoubleBang x.text := by
          intro h; apply hn; rw [hx.eats.1]; exact h.left _
        have hproper := den_proper hP (keeps_proper cfg w fun _ h => h) hx.wf hnx hx.den
        obtain ⟨e', he', _⟩ := simplify_proper cfg w (fun _ h => h) _ hproper
        rw [he'] at hq; cases hq
    · trivial

end

/-- What can happen to a non-empty input. -/
theorem parseImpl_good {cfg : Cfg} {w : World} {ctx : Context} {input : Bytes}
    (hne : input ≠ []) :
    (∀ e, parseImpl cfg w ctx input = .err e → Report cfg (finOf cfg w) ctx input e) ∧
    (∀ q, parseImpl cfg w ctx input = .panic q → ParsePanic cfg (CtxTotal w ctx) input q) := by
  have ha : At input ⟨0, input⟩ := ⟨[], rfl, rfl⟩
  have hg := elem_good (cfg := cfg) (w := w) (ctx := ctx) hne (input.length + 1) ⟨0, input⟩ 0 (Nat.lt_succ_self _)
    (by decide) ha
  have hfold : element cfg w ctx (input.length + 1) noPrec ⟨0, input⟩ =
      elem cfg w ctx 0 ⟨0, input⟩ := rfl
  unfold parseImpl
  rw [hfold]
  cases he : elem cfg w ctx 0 ⟨0, input⟩ with
  | ok root s =>
    have hle : Le ⟨0, input⟩ (trim s) :=
      (elem_consumes cfg w ctx _ _ _ _ he).le.trans (le_trim s)
    have ht := (ha.le hle).total
    simp only at ht ⊢
    cases hh : (trim s).rest.head? with
    | none => simp
    | some c =>
      simp only
      refine ⟨?_, by simp⟩
      intro e h
      injection h with h
      subst h
      exact ⟨by simp only; omega, by rw [(ha.le hle).head, hh], rfl⟩
  | err e s =>
    rw [he] at hg
    obtain ⟨h1, _, _⟩ := hg
    simp only
    refine ⟨?_, by simp⟩
    intro e' h; injection h with h; subst h
    exact h1
  | panic q =>
    rw [he] at hg
    simp only
    refine ⟨by simp, ?_⟩
    intro q' h; injection h with h; subst h; exact hg
  | fuel => rw [he] at hg; exact hg.elim

/-- The empty input: the cursor is decremented at 0. -/
theorem parseImpl_nil (cfg : Cfg) (w : World) (ctx : Context) :
    parseImpl cfg w ctx [] =
      if cfg.overflowChecks then .panic .overflow
      else .err ⟨.unexpectedEnd, 2 ^ cfg.usize.bits - 1, 0⟩ := by
  simp only [parseImpl, List.length_nil, Nat.zero_add, element, elementF, atom, trim, skipWhile,
    List.takeWhile_nil, adv, List.drop_nil, List.head?_nil, errEnd, subOne, Nat.add_zero, if_true]
  cases cfg.overflowChecks <;> rfl

end Xprs
