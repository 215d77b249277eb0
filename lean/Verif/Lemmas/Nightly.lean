import Verif.Spec.Nightly
import Verif.Lemmas.Normal
import Verif.Lemmas.Mention
/-
Without a minus sign the two channels build the same program.
-/
namespace Xprs
open Spec

theorem minusless_bin {op : Op} {l r : Elem} :
    Minusless (.bin op l r) ↔ op ≠ .minus ∧ Minusless l ∧ Minusless r := by
  constructor
  · rintro ⟨h, h'⟩
    refine ⟨?_, ⟨fun a b hs => h a b (.left hs), fun a hs => h' a (.left hs)⟩,
      ⟨fun a b hs => h a b (.right hs), fun a hs => h' a (.right hs)⟩⟩
    rintro rfl; exact h l r .refl
  · rintro ⟨ho, h1, h2⟩
    refine ⟨fun a b hs => ?_, fun a hs => ?_⟩
    · cases hs with
      | refl => exact ho rfl
      | left hs => exact h1.1 a b hs
      | right hs => exact h2.1 a b hs
    · cases hs with
      | left hs => exact h1.2 a hs
      | right hs => exact h2.2 a hs

theorem minusless_un {op : Op} {a : Elem} : Minusless (.un op a) ↔ op ≠ .minus ∧ Minusless a := by
  constructor
  · rintro ⟨h, h'⟩
    refine ⟨?_, fun a b hs => h a b (.operand hs), fun a hs => h' a (.operand hs)⟩
    rintro rfl; exact h' a .refl
  · rintro ⟨ho, h1⟩
    refine ⟨fun a b hs => ?_, fun a hs => ?_⟩
    · cases hs with
      | operand hs => exact h1.1 a b hs
    · cases hs with
      | refl => exact ho rfl
      | operand hs => exact h1.2 a hs

theorem minusless_call {f : Func} {args : List Elem} :
    Minusless (.call f args) ↔ ∀ a ∈ args, Minusless a := by
  constructor
  · rintro ⟨h, h'⟩ a ha
    exact ⟨fun x y hs => h x y (.arg ha hs), fun x hs => h' x (.arg ha hs)⟩
  · intro h
    refine ⟨fun x y hs => ?_, fun x hs => ?_⟩
    · cases hs with | arg ha hs => exact (h _ ha).1 x y hs
    · cases hs with | arg ha hs => exact (h _ ha).2 x hs

theorem minusless_num {x : F64} : Minusless (.num x) :=
  ⟨fun _ _ h => (by cases h), fun _ h => (by cases h)⟩
theorem minusless_var {n : Bytes} : Minusless (.var n) :=
  ⟨fun _ _ h => (by cases h), fun _ h => (by cases h)⟩

theorem minusless_negOf {e : Elem} (h : Minusless e) : e.negOf? = none := by
  cases e with
  | un op a =>
    cases op <;> first | rfl | exact absurd rfl (minusless_un.1 h).1
  | _ => rfl

variable {c c' : Cfg} {w : World}

theorem simpBin_channel {op : Op} {l r : Elem} (hl : Minusless l) (hr : Minusless r) :
    simpBin c w op l r = simpBin c' w op l r := by
  have h1 := minusless_negOf hl
  have h2 := minusless_negOf hr
  cases op with
  | plus =>
    simp only [simpBin, simpPlus, h1, h2]
    cases c.nightly <;> cases c'.nightly <;> rfl
  | minus =>
    simp only [simpBin, simpMinus, h2]
    cases c.nightly <;> cases c'.nightly <;> rfl
  | times =>
    simp only [simpBin, simpTimes, h1, h2]
    cases c.nightly <;> cases c'.nightly <;> rfl
  | divide =>
    simp only [simpBin, simpDivide, h1, h2]
    cases c.nightly <;> cases c'.nightly <;> rfl
  | power => rfl
  | modulo => rfl
  | factorial => rfl

theorem simpBin_minusless {op : Op} {l r e : Elem} (ho : op ≠ .minus) (hl : Minusless l)
    (hr : Minusless r) (h : simpBin c w op l r = .ok e) : Minusless e := by
  have hs := simpBin_shape h
  cases hs with
  | left => exact hl
  | right => exact hr
  | num x => exact minusless_num
  | neg hm => exact absurd hm ho
  | plus b hm _ => exact absurd hm ho
  | both a b ha hb =>
    subst ha; exact absurd rfl (minusless_un.1 hl).1
  | same => exact minusless_bin.2 ⟨ho, hl, hr⟩

theorem simpUn_minusless {op : Op} {a e : Elem} (ho : op ≠ .minus) (ha : Minusless a)
    (h : simpUn op a = .ok e) : Minusless e := by
  have hs := simpUn_shape h
  cases hs with
  | same _ => exact minusless_un.2 ⟨ho, ha⟩
  | operand => exact ha
  | num x => exact minusless_num

theorem simpCall_minusless {f : Func} {args : List Elem} {e : Elem}
    (ha : ∀ a ∈ args, Minusless a) (h : simpCall w f args = .ok e) : Minusless e := by
  rcases simpCall_shape h with rfl | ⟨x, rfl⟩
  · exact minusless_call.2 ha
  · exact minusless_num

mutual
theorem simplify_channel : ∀ e : Elem, Minusless e →
    simplify c w e = simplify c' w e ∧ ∀ e', simplify c w e = .ok e' → Minusless e'
  | .num x, h => by rw [simplify, simplify]; exact ⟨rfl, fun e' he => by cases he; exact h⟩
  | .var n, h => by rw [simplify, simplify]; exact ⟨rfl, fun e' he => by cases he; exact h⟩
  | .bin op l r, h => by
    obtain ⟨ho, hl, hr⟩ := minusless_bin.1 h
    obtain ⟨l1, l2⟩ := simplify_channel l hl
    obtain ⟨r1, r2⟩ := simplify_channel r hr
    rw [simplify, simplify, ← l1, ← r1]
    cases hsl : simplify c w l with
    | error p => exact ⟨rfl, fun e' he => by cases he⟩
    | ok l' =>
      cases hsr : simplify c w r with
      | error p => exact ⟨rfl, fun e' he => by cases he⟩
      | ok r' =>
        exact ⟨simpBin_channel (l2 _ hsl) (r2 _ hsr),
          fun e' he => simpBin_minusless ho (l2 _ hsl) (r2 _ hsr) he⟩
  | .un op a, h => by
    obtain ⟨ho, ha⟩ := minusless_un.1 h
    obtain ⟨a1, a2⟩ := simplify_channel a ha
    rw [simplify, simplify, ← a1]
    cases hsa : simplify c w a with
    | error p => exact ⟨rfl, fun e' he => by cases he⟩
    | ok a' => exact ⟨rfl, fun e' he => simpUn_minusless ho (a2 _ hsa) he⟩
  | .call f args, h => by
    obtain ⟨a1, a2⟩ := simplifyL_channel args (minusless_call.1 h)
    rw [simplify, simplify, ← a1]
    cases hsa : simplifyL c w args with
    | error p => exact ⟨rfl, fun e' he => by cases he⟩
    | ok a' => exact ⟨rfl, fun e' he => simpCall_minusless (a2 _ hsa) he⟩
theorem simplifyL_channel : ∀ es : List Elem, (∀ a ∈ es, Minusless a) →
    simplifyL c w es = simplifyL c' w es ∧
      ∀ es', simplifyL c w es = .ok es' → ∀ a ∈ es', Minusless a
  | [], _ => by
    rw [simplifyL, simplifyL]; exact ⟨rfl, fun e' he => by cases he; simp⟩
  | a :: as, h => by
    obtain ⟨a1, a2⟩ := simplify_channel a (h a (by simp))
    obtain ⟨b1, b2⟩ := simplifyL_channel as fun b hb => h b (by simp [hb])
    rw [simplifyL, simplifyL, ← a1, ← b1]
    cases hsa : simplify c w a with
    | error p => exact ⟨rfl, fun e' he => by cases he⟩
    | ok a' =>
      cases hsb : simplifyL c w as with
      | error p => exact ⟨rfl, fun e' he => by cases he⟩
      | ok b' =>
        refine ⟨rfl, fun e' he => ?_⟩
        cases he
        intro x hx
        rcases List.mem_cons.1 hx with rfl | hx
        · exact a2 _ hsa
        · exact b2 _ hsb _ hx
end

mutual
theorem simplifyFor_channel {x : Bytes} {v : F64} : ∀ e : Elem, Minusless e →
    simplifyFor c w x v e = simplifyFor c' w x v e ∧
      ∀ e', simplifyFor c w x v e = .ok e' → Minusless e'
  | .num y, h => by rw [simplifyFor, simplifyFor]; exact ⟨rfl, fun e' he => by cases he; exact h⟩
  | .var n, h => by
    rw [simplifyFor, simplifyFor]
    refine ⟨rfl, fun e' he => ?_⟩
    split at he <;> cases he
    · exact minusless_num
    · exact h
  | .bin op l r, h => by
    obtain ⟨ho, hl, hr⟩ := minusless_bin.1 h
    obtain ⟨l1, l2⟩ := simplifyFor_channel (x := x) (v := v) l hl
    obtain ⟨r1, r2⟩ := simplifyFor_channel (x := x) (v := v) r hr
    rw [simplifyFor, simplifyFor, ← l1, ← r1]
    cases hsl : simplifyFor c w x v l with
    | error p => exact ⟨rfl, fun e' he => by cases he⟩
    | ok l' =>
      cases hsr : simplifyFor c w x v r with
      | error p => exact ⟨rfl, fun e' he => by cases he⟩
      | ok r' => exact simplify_channel _ (minusless_bin.2 ⟨ho, l2 _ hsl, r2 _ hsr⟩)
  | .un op a, h => by
    obtain ⟨ho, ha⟩ := minusless_un.1 h
    obtain ⟨a1, a2⟩ := simplifyFor_channel (x := x) (v := v) a ha
    rw [simplifyFor, simplifyFor, ← a1]
    cases hsa : simplifyFor c w x v a with
    | error p => exact ⟨rfl, fun e' he => by cases he⟩
    | ok a' => exact simplify_channel _ (minusless_un.2 ⟨ho, a2 _ hsa⟩)
  | .call f args, h => by
    obtain ⟨a1, a2⟩ := simplifyForL_channel (x := x) (v := v) args (minusless_call.1 h)
    rw [simplifyFor, simplifyFor, ← a1]
    cases hsa : simplifyForL c w x v args with
    | error p => exact ⟨rfl, fun e' he => by cases he⟩
    | ok a' => exact simplify_channel _ (minusless_call.2 (a2 _ hsa))
theorem simplifyForL_channel {x : Bytes} {v : F64} : ∀ es : List Elem, (∀ a ∈ es, Minusless a) →
    simplifyForL c w x v es = simplifyForL c' w x v es ∧
      ∀ es', simplifyForL c w x v es = .ok es' → ∀ a ∈ es', Minusless a
  | [], _ => by
    rw [simplifyForL, simplifyForL]; exact ⟨rfl, fun e' he => by cases he; simp⟩
  | a :: as, h => by
    obtain ⟨a1, a2⟩ := simplifyFor_channel (x := x) (v := v) a (h a (by simp))
    obtain ⟨b1, b2⟩ := simplifyForL_channel (x := x) (v := v) as fun b hb => h b (by simp [hb])
    rw [simplifyForL, simplifyForL, ← a1, ← b1]
    cases hsa : simplifyFor c w x v a with
    | error p => exact ⟨rfl, fun e' he => by cases he⟩
    | ok a' =>
      cases hsb : simplifyForL c w x v as with
      | error p => exact ⟨rfl, fun e' he => by cases he⟩
      | ok b' =>
        refine ⟨rfl, fun e' he => ?_⟩
        cases he
        intro x hx
        rcases List.mem_cons.1 hx with rfl | hx
        · exact a2 _ hsa
        · exact b2 _ hsb _ hx
end

/-! ### The parser -/

/-- No minus sign lies ahead. -/
def Ahead (s : St) : Prop := c!"-" ∉ s.rest

theorem Ahead.le {s s' : St} (h : Ahead s) (hl : Le s s') : Ahead s' := by
  obtain ⟨pre, hp⟩ := hl
  intro hm; apply h
  rw [hp.1]; exact List.mem_append_right _ hm

/-- Two parsers agree where no minus sign lies ahead, and give trees without one. -/
def Channel (rec rec' : Nat → St → R Elem) : Prop :=
  ∀ p s, Ahead s → rec p s = rec' p s ∧ ∀ e s', rec p s = .ok e s' → Minusless e

section
variable {ctx : Context} {b : Bool} {rec rec' : Nat → St → R Elem}

theorem parseArgs_channel (hr : Keeping rec) (ha : Channel rec rec') :
    ∀ (n : Nat) (args : List Elem) (s : St), Ahead s → (∀ a ∈ args, Minusless a) →
      parseArgs c rec n args s = parseArgs { c with nightly := b } rec' n args s ∧
      ∀ as s', parseArgs c rec n args s = .ok as s' → ∀ a ∈ as, Minusless a
  | 0, _, _, _, _ => ⟨rfl, fun _ _ h => by simp [parseArgs] at h⟩
  | n + 1, args, s, hs, hargs => by
    have e1 : argument c rec s = argument { c with nightly := b } rec' s := by
      unfold argument; rw [(ha _ _ hs).1]; rfl
    rw [parseArgs, parseArgs, ← e1]
    cases h1 : argument c rec s with
    | ok arg s1 =>
      have h1' := argument_ok h1
      have l1 := (hr _ _ _ _ h1').trans (whole_trim s1)
      have hnew : ∀ a ∈ args ++ [arg], Minusless a := by
        intro a hm
        rcases List.mem_append.1 hm with hm | hm
        · exact hargs a hm
        · rw [List.mem_singleton.1 hm]; exact (ha _ _ hs).2 _ _ h1'
      simp only [R.bind]
      cases hh : (trim s1).rest.head? with
      | none =>
        refine ⟨rfl, fun as s' h => absurd h errEnd_ne_ok⟩
      | some d =>
        simp only
        by_cases hd : d = c!","
        · simp only [if_pos hd]
          exact parseArgs_channel hr ha n _ _
            (hs.le (l1.trans (whole_one hh (by rw [hd]; decide +kernel))).le) hnew
        · simp only [if_neg hd]
          refine ⟨trivial, fun as s' h => ?_⟩
          split at h
          · simp at h; rw [← h.1]; exact hnew
          · simp [errTok] at h
    | err e s1 => exact ⟨rfl, fun _ _ h => by simp [R.bind] at h⟩
    | panic q => exact ⟨rfl, fun _ _ h => by simp [R.bind] at h⟩
    | fuel => exact ⟨rfl, fun _ _ h => by simp [R.bind] at h⟩

theorem parseIdent_channel (hr : Keeping rec) (ha : Channel rec rec') {s : St} (hs : Ahead s) :
    parseIdent c ctx rec s = parseIdent { c with nightly := b } ctx rec' s ∧
      ∀ e s', parseIdent c ctx rec s = .ok e s' → Minusless e := by
  have l1 := whole_name s
  unfold parseIdent
  simp only
  cases lookup ctx (s.rest.takeWhile isIdChar) with
  | const x => exact ⟨rfl, fun e s' h => by simp at h; rw [← h.1]; exact minusless_num⟩
  | var n => exact ⟨rfl, fun e s' h => by simp at h; rw [← h.1]; exact minusless_var⟩
  | func f =>
    simp only
    split
    · have l2 := whole_consumeIf (c := c!"(") (by decide +kernel) (skipWhile isIdChar s)
      obtain ⟨h1, h2⟩ := parseArgs_channel (c := c) (b := b) hr ha
        ((consumeIf c!"(" (skipWhile isIdChar s)).2.rest.length + 1) []
        (consumeIf c!"(" (skipWhile isIdChar s)).2 (hs.le (l1.trans l2).le) (by simp)
      rw [← h1]
      refine ⟨rfl, fun e s' h => ?_⟩
      obtain ⟨as, s3, h3, h4⟩ := R.bind_eq_ok h
      obtain ⟨u, s4, h5, h6⟩ := R.bind_eq_ok h4
      rw [(checkArity_ok h6).1]
      exact minusless_call.2 (h2 _ _ h3)
    · exact ⟨rfl, fun e s' h => by simp [errExpected] at h⟩

theorem atom_channel (hr : Keeping rec) (ha : Channel rec rec') {s : St} (hs : Ahead s) :
    atom c ctx rec s = atom { c with nightly := b } ctx rec' s ∧
      ∀ e s', atom c ctx rec s = .ok e s' → Minusless e := by
  have l0 := whole_trim s
  unfold atom
  simp only
  cases hh : (trim s).rest.head? with
  | none => exact ⟨rfl, fun as s' h => absurd h errEnd_ne_ok⟩
  | some d =>
    have l1 : ¬ wordChar d → Ahead (adv (trim s) 1) :=
      fun h => hs.le (l0.trans (whole_one hh h)).le
    simp only
    split
    · exact ⟨rfl, fun e s' h => by obtain ⟨x, hx⟩ := (parseNumber_ok h).2; rw [hx.1]; exact minusless_num⟩
    split
    · exact parseIdent_channel hr ha (hs.le l0.le)
    split
    · rename_i he
      obtain ⟨h1, h2⟩ := ha unopPrec _ (l1 (by rw [he]; decide +kernel))
      rw [← h1]
      refine ⟨rfl, fun e s' h => ?_⟩
      obtain ⟨a, s1, h3, h4⟩ := R.bind_eq_ok h
      simp at h4; rw [← h4.1]; exact minusless_un.2 ⟨by decide, h2 _ _ h3⟩
    split
    · rename_i he
      exfalso
      apply hs.le l0.le
      subst he
      exact List.mem_of_mem_head? hh
    split
    · rename_i he
      obtain ⟨h1, h2⟩ := ha noPrec _ (l1 (by rw [he]; decide +kernel))
      rw [← h1]
      refine ⟨rfl, fun e s' h => ?_⟩
      obtain ⟨a, s1, h3, h4⟩ := R.bind_eq_ok h
      obtain ⟨u, s2, h5, h6⟩ := R.bind_eq_ok h4
      simp at h6; rw [← h6.1]; exact h2 _ _ h3
    · refine ⟨rfl, fun e s' h => ?_⟩
      split at h <;> simp [errTok, errIllegal] at h

theorem opInfo_minus {el : Elem} {p : Nat} {s : St} {op : Op} {q k : Nat} (hs : Ahead s)
    (h : opInfo c el p s = some (op, q, k)) : op ≠ .minus := by
  have hb : ∀ x : UInt8, opOfByte x = some .minus → x = c!"-" := forall_byte (by decide +kernel)
  rintro rfl
  unfold opInfo at h
  split at h
  · simp at h
  · rename_i d hd
    split at h
    · rename_i o ho
      split at h
      · simp at h
      · simp at h
        rw [h.1] at ho
        apply hs
        rw [← hb d ho]; exact List.mem_of_mem_head? hd
    · split at h
      · simp at h
      · split at h
        · simp at h
        · split at h <;> simp at h

theorem opLoop_channel (hr : Keeping rec) (ha : Channel rec rec') (p : Nat) :
    ∀ (n : Nat) (el : Elem) (s : St), Ahead s → Minusless el →
      opLoop c rec p n el s = opLoop { c with nightly := b } rec' p n el s ∧
      ∀ e s', opLoop c rec p n el s = .ok e s' → Minusless e
  | 0, _, _, _, _ => ⟨rfl, fun _ _ h => by simp [opLoop] at h⟩
  | n + 1, el, s, hs, hel => by
    rw [opLoop, opLoop]
    have e1 : opInfo { c with nightly := b } el p (trim s) = opInfo c el p (trim s) := rfl
    simp only [e1]
    cases hk : opInfo c el p (trim s) with
    | none => exact ⟨rfl, fun e s' h => by simp at h; rw [← h.1]; exact hel⟩
    | some x =>
      obtain ⟨op, q, k⟩ := x
      simp only
      have hs' := hs.le (whole_trim s).le
      have l2 := opInfo_whole hk
      obtain ⟨h1, h2⟩ := ha q _ (hs'.le l2.le)
      rw [← h1]
      cases h3 : rec q (adv (trim s) k) with
      | ok rhs s2 =>
        exact opLoop_channel hr ha p n _ _ (hs'.le (l2.trans (hr _ _ _ _ h3)).le)
          (minusless_bin.2 ⟨opInfo_minus hs' hk, hel, h2 _ _ h3⟩)
      | err e s1 => exact ⟨rfl, fun _ _ h => by simp [R.bind] at h⟩
      | panic q => exact ⟨rfl, fun _ _ h => by simp [R.bind] at h⟩
      | fuel => exact ⟨rfl, fun _ _ h => by simp [R.bind] at h⟩

theorem element_channel (c : Cfg) (b : Bool) (w : World) (ctx : Context) :
    ∀ n, Channel (element c w ctx n) (element { c with nightly := b } w ctx n)
  | 0 => fun _ _ _ => ⟨rfl, fun _ _ h => by simp [element] at h⟩
  | n + 1 => by
    have ha := element_channel c b w ctx n
    have hr := element_whole c w ctx n
    intro p s hs
    show elementF c w ctx _ p s = elementF { c with nightly := b } w ctx _ p s ∧
      ∀ e s', elementF c w ctx _ p s = .ok e s' → Minusless e
    unfold elementF
    obtain ⟨h1, h2⟩ := atom_channel (c := c) (b := b) (ctx := ctx) hr ha hs
    rw [← h1]
    cases h3 : atom c ctx (element c w ctx n) s with
    | ok a s1 =>
      simp only [R.bind]
      have hs1 : Ahead (consumeIf c!"!" s1).2 :=
        hs.le ((atom_whole hr h3).trans (whole_consumeIf (by decide +kernel) _)).le
      have hel : Minusless (if (consumeIf c!"!" s1).1 = true then .un .factorial a else a) := by
        split
        · exact minusless_un.2 ⟨by decide, h2 _ _ h3⟩
        · exact h2 _ _ h3
      obtain ⟨h4, h5⟩ := opLoop_channel (c := c) (b := b) hr ha p
        ((consumeIf c!"!" s1).2.rest.length + 1) _ _ hs1 hel
      rw [← h4]
      split
      · rename_i el' s3 h6
        have hm := h5 _ _ h6
        obtain ⟨h7, h8⟩ := simplify_channel (c := c) (c' := { c with nightly := b }) (w := w) el' hm
        unfold finish
        simp only [← h7]
        refine ⟨trivial, fun e s' h => ?_⟩
        split at h
        · split at h
          · rename_i e2 he2
            simp at h; rw [← h.1]; exact h8 _ he2
          · simp at h
        · simp at h; rw [← h.1]; exact hm
      all_goals exact ⟨rfl, fun _ _ h => by simp at h⟩
    | err e s1 => exact ⟨rfl, fun _ _ h => by simp [R.bind] at h⟩
    | panic q => exact ⟨rfl, fun _ _ h => by simp [R.bind] at h⟩
    | fuel => exact ⟨rfl, fun _ _ h => by simp [R.bind] at h⟩

end

theorem sameButChannel_eq (h : SameButChannel c c') : c' = { c with nightly := c'.nightly } := by
  obtain ⟨h1, h2, h3, h4⟩ := h
  cases c; cases c'
  simp_all

theorem parseImpl_channel (h : SameButChannel c c') {ctx : Context} {input : Bytes}
    (hm : c!"-" ∉ input) :
    parseImpl c w ctx input = parseImpl c' w ctx input ∧
      ∀ x, parseImpl c w ctx input = .ok x → Minusless x.root := by
  rw [sameButChannel_eq h]
  obtain ⟨h1, h2⟩ := element_channel c c'.nightly w ctx (input.length + 1) noPrec ⟨0, input⟩ hm
  unfold parseImpl
  rw [← h1]
  refine ⟨rfl, fun x hx => ?_⟩
  split at hx
  · rename_i root s hr
    split at hx
    · simp at hx
    · simp at hx; rw [← hx]; exact h2 _ _ hr
  all_goals simp at hx

theorem parse_channel (h : SameButChannel c c') {o : Oracle} {ctx : Context} {input : Bytes}
    (hm : c!"-" ∉ input) : parse c w o ctx input = parse c' w o ctx input := by
  unfold parse
  rw [(parseImpl_channel h hm).1]

theorem xpr_simplifyFor_channel {e : Xpr} {x : Bytes} {v : F64} (hm : Minusless e.root) :
    e.simplifyFor c w x v = e.simplifyFor c' w x v ∧
      ∀ e', e.simplifyFor c w x v = .ok e' → Minusless e'.root := by
  obtain ⟨h1, h2⟩ := simplifyFor_channel (c := c) (c' := c') (w := w) (x := x) (v := v) e.root hm
  unfold Xpr.simplifyFor
  rw [← h1]
  refine ⟨rfl, fun e' h => ?_⟩
  split at h
  · cases h
  · rename_i r hr
    cases h; exact h2 _ hr

theorem simplifyLoop_channel : ∀ (l : List (Bytes × F64)) (e : Elem) (vars : List Bytes),
    Minusless e → Xpr.simplifyLoop c w l e vars = Xpr.simplifyLoop c' w l e vars ∧
      ∀ e', Xpr.simplifyLoop c w l e vars = .ok e' → Minusless e'.root
  | [], e, vars, hm => by
    rw [Xpr.simplifyLoop, Xpr.simplifyLoop]
    exact ⟨rfl, fun e' h => by cases h; exact hm⟩
  | (x, v) :: l, e, vars, hm => by
    obtain ⟨h1, h2⟩ := simplifyFor_channel (c := c) (c' := c') (w := w) (x := x) (v := v) e hm
    rw [Xpr.simplifyLoop, Xpr.simplifyLoop, ← h1]
    cases hr : simplifyFor c w x v e with
    | error p => exact ⟨rfl, fun e' h => by cases h⟩
    | ok r => exact simplifyLoop_channel l r _ (h2 _ hr)

theorem reach_channel (h : SameButChannel c c') {ctx : Context} {input : Bytes} {e : Xpr}
    (hm : c!"-" ∉ input) (he : Reach c w ctx input e) :
    Minusless e.root ∧ Reach c' w ctx input e := by
  induction he with
  | @parsed o x hp =>
    refine ⟨(parseImpl_channel h hm).2 _ (parse_ok hp), .parsed (o := o) ?_⟩
    rw [← parse_channel h hm]; exact hp
  | simplified _ hs ih =>
    obtain ⟨h1, h2⟩ := xpr_simplifyFor_channel (c := c) (c' := c') ih.1
    exact ⟨h2 _ hs, .simplified ih.2 (h1 ▸ hs)⟩
  | multiple _ hs ih =>
    obtain ⟨h1, h2⟩ := simplifyLoop_channel (c := c) (c' := c') (w := w) _ _ _ ih.1
    exact ⟨h2 _ hs, .multiple ih.2 (by unfold Xpr.simplifyForMultiple at *; rw [← h1]; exact hs)⟩

end Xprs
