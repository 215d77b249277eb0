import Verif.Spec.Faults
import Verif.Lemmas.Converse
/-
The errors of the parser are the faults of the specification: one direction by
induction on the fault, the other by following the parser.
-/
namespace Xprs
open Spec
set_option linter.unusedSimpArgs false

section
variable {cfg : Cfg} {w : World} {ctx : Context}

local notation "fin" => finOf cfg w
local notation "rc" => elem cfg w ctx

/-! ### From faults to errors -/

/-- What `argument` relies on: the cursor is at the unexpected character. -/
def Kept (o : Nat) (e : PErr) (s : St) : Prop :=
  ∀ c, e.kind = .unexpectedToken c → s.pos = e.off ∧ o ≤ e.off

theorem Kept.mono {o o' : Nat} {e : PErr} {s : St} (h : Kept o e s) (ho : o' ≤ o) :
    Kept o' e s := fun c hc => ⟨(h c hc).1, Nat.le_trans ho (h c hc).2⟩

/-- The parsing function for the place reports the error. -/
def Fails (cfg : Cfg) (w : World) (ctx : Context) : Place → Nat → Bytes → PErr → Prop
  | .expr p, o, t, e => ∃ s, elem cfg w ctx p ⟨o, t⟩ = .err e s ∧ Kept o e s
  | .operand, o, t, e => ∃ s, atom cfg ctx (elem cfg w ctx) ⟨o, t⟩ = .err e s ∧ Kept o e s
  | .args, o, t, e => ∀ acc, ∃ s, args cfg (elem cfg w ctx) acc ⟨o, t⟩ = .err e s ∧ Kept o e s

/-- There is something before or after the cursor. -/
def Amid : Place → Nat → Bytes → Prop
  | .args, o, _ => 0 < o
  | _, o, t => 0 < o + t.length

theorem elem_of_atom {p : Nat} {s : St} {e : PErr} {s' : St}
    (h : atom cfg ctx rc s = .err e s') : rc p s = .err e s' := by
  rw [elem_unfold, elementF_eq, h]; rfl

theorem atom_trim {cfg : Cfg} {ctx : Context} {rec : Nat → St → R Elem} (s : St) :
    atom cfg ctx rec (trim s) = atom cfg ctx rec s := by
  simp only [atom, trim_trim]

theorem atom_spaces {cfg : Cfg} {ctx : Context} {rec : Nat → St → R Elem} {o : Nat}
    {ws t : Bytes} (h : spaces ws) :
    atom cfg ctx rec ⟨o, ws ++ t⟩ = atom cfg ctx rec ⟨o + ws.length, t⟩ := by
  rw [← atom_trim, trim_append_spaces o h, atom_trim]

theorem elem_begins {p o : Nat} {x : Cst} {rest : Bytes} (h : Begins cfg fin ctx p x rest) :
    ∃ a, x.den fin ctx = .ok a ∧ rc p ⟨o, x.text ++ rest⟩ =
      (loop cfg rc p a ⟨o + x.text.length, rest⟩).bind (finish cfg w) := by
  obtain ⟨a, ha⟩ := h.sound
  refine ⟨a, ha, ?_⟩
  rw [elem_unfold, elementF_eq, (fwd cfg w ctx x).2 o rest p h.wf h.closed h.level, ha]
  rfl

theorem elem_completes {o : Nat} {x : Cst} {rest : Bytes} (h : Completes cfg fin ctx x rest) :
    ∃ a, x.meaning fin ctx = .ok a ∧ rc 0 ⟨o, x.text ++ rest⟩ =
      .ok a (trim ⟨o + x.text.length, rest⟩) := by
  obtain ⟨a, ha⟩ := h.sound
  refine ⟨a, ha, ?_⟩
  rw [elem_of_chain (fwd cfg w ctx x).2 h.wf h.closed (chain_pos cfg x) h.stops, ha]
  rfl

theorem trim_notHead {o : Nat} {ws t : Bytes} {d : UInt8} (h : spaces ws)
    (ht : notHead (fun c => space c ∨ c = d) t) :
    trim ⟨o, ws ++ t⟩ = ⟨o + ws.length, t⟩ ∧ t.head? ≠ some d :=
  ⟨trim_spaces o h fun c hc hs => ht c hc (Or.inl hs), fun hc => ht d hc (Or.inr rfl)⟩

theorem name_head {nm rest : Bytes} (h : Name nm rest) : ∃ c, (nm ++ rest).head? = some c ∧
    letter c := by
  obtain ⟨c, h1, h2⟩ := h.1
  exact ⟨c, by cases nm <;> simp_all, h2⟩

theorem atom_ident {nm rest : Bytes} (o : Nat) (h : Name nm rest) :
    atom cfg ctx rc ⟨o, nm ++ rest⟩ = parseIdent cfg ctx rc ⟨o, nm ++ rest⟩ := by
  obtain ⟨c, hc, hl⟩ := name_head h
  obtain ⟨n1, n2, n3⟩ := letter_facts hl
  have ht : trim ⟨o, nm ++ rest⟩ = ⟨o, nm ++ rest⟩ :=
    trim_of_trimmed (by
      intro d hd
      have hd : (nm ++ rest).head? = some d := hd
      rw [hc] at hd; cases hd
      cases hw : isWs c with
      | false => rfl
      | true => exact absurd ((isWs_iff c).1 hw) n1)
  simp only [atom, ht, hc, n2, n3, Bool.false_eq_true, if_false, if_true]

theorem numberText_shape {txt rest : Bytes} (h : NumberText txt rest) :
    ∃ mant ex, txt = mant ++ ex ∧ (∀ c ∈ mant, mantChar c) ∧ NumShape mant ex rest ∧
      ∃ c, (txt ++ rest).head? = some c ∧ (digit c ∨ c = c!".") := by
  obtain ⟨mant, ⟨c, h1, h2⟩, hm, h⟩ := h
  have hc : ∀ l, (mant ++ l).head? = some c := by intro l; cases mant <;> simp_all
  rcases h with ⟨rfl, h3, h4⟩ | ⟨e, sg, ds, h3, h4, h5, h6, rfl, h7⟩
  · exact ⟨txt, [], by simp, hm, .plain rest h3 h4, c, hc _, h2⟩
  · exact ⟨mant, e :: (sg ++ ds), rfl, hm, .exp e sg ds rest h3 h4 h5 h6 h7, c,
      by rw [List.append_assoc]; exact hc _, h2⟩

theorem eats_unique {s t : St} {a b : Bytes} (h1 : Eats s a t) (h2 : Eats s b t) : a = b := by
  have := h1.1.symm.trans h2.1
  exact List.append_cancel_right this

theorem atom_number {o : Nat} {txt rest : Bytes} (h : NumberText txt rest)
    (hn : ∀ v, ¬ Literal txt rest v) : atom cfg ctx rc ⟨o, txt ++ rest⟩ =
      .err ⟨.malformedNumber txt, o, txt.length⟩ ⟨o + txt.length, rest⟩ := by
  obtain ⟨mant, ex, rfl, hm, hs, c, hc, hd⟩ := numberText_shape h
  have ht : trim ⟨o, mant ++ ex ++ rest⟩ = ⟨o, mant ++ ex ++ rest⟩ :=
    trim_of_trimmed (by
      intro d hd'
      have hd' : (mant ++ ex ++ rest).head? = some d := hd'
      rw [hc] at hd'; cases hd'
      cases hw : isWs c with
      | false => rfl
      | true => exact absurd ((isWs_iff c).1 hw) (digit_not_space hd))
  have hd' : isDigit c = true ∨ c = c!"." := by
    rcases hd with h | h
    · exact Or.inl ((isDigit_iff c).2 h)
    · exact Or.inr h
  simp only [atom, ht, hc]
  rw [if_pos (by rcases hd' with h | h <;> simp [h])]
  have hend := numEnd_shape o hm hs
  rw [← List.append_assoc] at hend
  have hnone : parseF64 (List.filter (fun x => decide (x ≠ c!"_")) (mant ++ ex)) = none := by
    cases hp : parseF64 (List.filter (fun x => decide (x ≠ c!"_")) (mant ++ ex)) with
    | none => rfl
    | some v =>
      exfalso
      have hok : parseNumber ⟨o, mant ++ ex ++ rest⟩ = .ok (.num v) ⟨o + (mant ++ ex).length, rest⟩ := by
        unfold parseNumber
        simp only [hend, Nat.add_sub_cancel_left, List.take_left, hp]
      obtain ⟨txt, v', _, he, hl⟩ := literal_of_parseNumber hc hd' hok
      have : txt = mant ++ ex := eats_unique he ⟨rfl, rfl⟩
      subst this
      exact hn v' hl
  unfold parseNumber
  simp only [hend, Nat.add_sub_cancel_left, List.take_left, hnone, errNum, Nat.add_sub_cancel]

theorem operand_begin : ∀ {c : UInt8}, ¬ operandChar c →
    (isDigit c || decide (c = c!".")) = false ∧ isIdStart c = false ∧ c ≠ c!"+" ∧ c ≠ c!"-" ∧
      c ≠ c!"(" ∧ c ≠ c!")" :=
  fun {c} => forall_byte (P := fun c => ¬ (digit c ∨ letter c ∨ c = c!"." ∨ c = c!"+" ∨ c = c!"-" ∨
      c = c!"(" ∨ c = c!")") → (isDigit c || decide (c = c!".")) = false ∧ isIdStart c = false ∧
      c ≠ c!"+" ∧ c ≠ c!"-" ∧ c ≠ c!"(" ∧ c ≠ c!")") (by decide +kernel) c

theorem trim_cons {o : Nat} {c : UInt8} {t : Bytes} (h : ¬ space c) :
    trim ⟨o, c :: t⟩ = ⟨o, c :: t⟩ :=
  trim_spaces_cons (ws := []) o (by simp [spaces]) h

theorem argument_err {cfg : Cfg} {rec : Nat → St → R Elem} {s s' : St} {e : PErr} {o : Nat}
    (h : rec noPrec s = .err e s') (hk : Kept o e s') (ho : 0 < o) :
    argument cfg rec s = .err (inArgument e) s' := by
  unfold argument inArgument
  rw [h]
  simp only
  cases hkind : e.kind with
  | unexpectedToken c =>
    obtain ⟨h1, h2⟩ := hk c hkind
    simp only [errMissing, subOne, h1]
    rw [if_neg (by omega)]
  | _ => rfl

theorem kept_inArgument {o : Nat} {e : PErr} {s : St} :
    Kept o (inArgument e) s := by
  intro c hc
  unfold inArgument at hc
  cases hk : e.kind <;> simp [hk] at hc

/-- A call whose argument list is legal, up to the test of the number of arguments. -/
theorem ident_args {o : Nat} {nm ws : Bytes} {as : CArgs} {rest : Bytes} {f : Func}
    {es : List Elem} (hn : Name nm (ws ++ c!"(" :: (as.text ++ c!")" :: rest)))
    (hl : lookup ctx nm = .func f) (hws : spaces ws) (hw : as.wf cfg fin ctx rest)
    (hd : as.den fin ctx = .ok es) :
    atom cfg ctx rc ⟨o, nm ++ (ws ++ c!"(" :: (as.text ++ c!")" :: rest))⟩ =
      checkArity f es o ⟨o + (nm ++ (ws ++ c!"(" :: (as.text ++ [c!")"]))).length, rest⟩ := by
  rw [atom_ident o hn]
  have ht2 := trim_spaces_cons (t := as.text ++ c!")" :: rest) (o + nm.length) hws
    (by decide : ¬ space c!"(")
  simp only [parseIdent, name_takeWhile hn, name_skip _ hn, hl]
  simp only [consumeIf, ht2, List.head?_cons, if_true, adv, List.drop_succ_cons, List.drop_zero]
  have ha := fwdArgs cfg w ctx as (o + nm.length + ws.length + 1) rest [] hw
  unfold args at ha
  simp only at ha
  rw [ha, hd]
  simp only [Except.map, ofPM_ok, R.bind_ok, List.nil_append]
  rw [assertConsume, consumeIf,
    trim_of_trimmed (by intro c hc; simp at hc; subst hc; decide)]
  simp only [List.head?_cons, if_true, R.bind_ok, adv, List.drop_succ_cons, List.drop_zero]
  have hpos : o + nm.length + ws.length + 1 + as.text.length + 1 =
      o + (nm ++ (ws ++ c!"(" :: (as.text ++ [c!")"]))).length := by
    simp; omega
  rw [hpos]

/-- Every fault is reported. -/
theorem fault_sound {pl : Place} {o : Nat} {t : Bytes} {e : PErr}
    (h : Fault cfg fin ctx pl o t e) : Amid pl o t → Fails cfg w ctx pl o t e := by
  induction h with
  | @first p o ws t e hws _ ih =>
    intro hi
    obtain ⟨s, hs, hk⟩ := ih (by simp [Amid] at hi ⊢; omega)
    exact ⟨s, elem_of_atom (by rw [atom_spaces hws]; exact hs), hk.mono (by omega)⟩
  | @right p o x ws op t e hb hws hp _ ih =>
    intro hi
    obtain ⟨s, hs, hk⟩ := ih (by simp [Amid]; omega)
    obtain ⟨a, ha, he⟩ := elem_begins (o := o) hb
    refine ⟨s, ?_, hk.mono (by omega)⟩
    rw [he, loop_unfold (elem_consumes cfg w ctx),
      trim_spaces_cons _ hws (not_space_opChar op), opInfo_op hp]
    simp only [adv, List.drop_succ_cons, List.drop_zero]
    rw [hs]; rfl
  | @juxt p o x t c e hb hp hc hcc _ ih =>
    intro hi
    have hlen := List.length_pos_iff.2 (text_ne_nil x _ hb.wf)
    obtain ⟨s, hs, hk⟩ := ih (by simp [Amid]; omega)
    obtain ⟨a, ha, he⟩ := elem_begins (o := o) hb
    refine ⟨s, ?_, hk.mono (by omega)⟩
    rw [he, loop_unfold (elem_consumes cfg w ctx),
      opInfo_juxt (c := c) (by rw [firstTok_trim]; exact hc) hp (by
        rw [isNum_iff ha] at hcc
        rcases hcc with h | h | h
        · exact Or.inl h
        · exact Or.inr (Or.inl h)
        · exact Or.inr (Or.inr ⟨h.1, by simpa using h.2⟩))]
    simp only [adv, List.drop_zero, Nat.add_zero]
    rw [elem_trim, hs]; rfl
  | @ended o =>
    intro hi
    refine ⟨⟨o, []⟩, ?_, by intro c hc; simp at hc⟩
    simp [Amid] at hi
    have : trim ⟨o, []⟩ = ⟨o, []⟩ := rfl
    simp only [atom, this, List.head?_nil, errEnd, subOne]
    rw [if_neg (by omega)]
  | @number o txt rest h hn =>
    intro _
    exact ⟨_, atom_number h hn, by intro c hc; simp at hc⟩
  | @uncalled o nm ws t f hn hl hws ht =>
    intro _
    refine ⟨⟨o + nm.length + ws.length, t⟩, ?_, by intro c hc; simp at hc⟩
    obtain ⟨h1, h2⟩ := trim_notHead (o := o + nm.length) hws ht
    rw [atom_ident o hn]
    simp only [parseIdent, name_takeWhile hn, name_skip _ hn, hl]
    simp only [consumeIf, h1, if_neg h2, Bool.false_eq_true, if_false, errExpected]
  | @call o nm ws t f e hn hl hws _ ih =>
    intro _
    obtain ⟨s, hs, hk⟩ := ih (by simp [Amid]) []
    refine ⟨s, ?_, hk.mono (by omega)⟩
    rw [atom_ident o hn]
    have ht2 := trim_spaces_cons (t := t) (o + nm.length) hws (by decide : ¬ space c!"(")
    simp only [parseIdent, name_takeWhile hn, name_skip _ hn, hl]
    simp only [consumeIf, ht2, List.head?_cons, if_true, adv, List.drop_succ_cons, List.drop_zero]
    unfold args at hs
    simp only at hs
    rw [hs]; rfl
  | @few o nm ws as rest f n hn hl hnb hws hw hd hlt =>
    intro _
    obtain ⟨es, hd⟩ := hd
    refine ⟨⟨o + (nm ++ (ws ++ c!"(" :: (as.text ++ [c!")"]))).length, rest⟩, ?_, by
      intro c hc; simp at hc⟩
    have hlen := den_length as hd
    rw [ident_args hn hl hws hw hd]
    unfold checkArity
    rw [hnb]
    simp only [hlen, errTooFew]
    rw [if_neg (by omega), if_pos hlt]
    simp
  | @many o nm ws as rest f n hn hl hnb hws hw hd hlt =>
    intro _
    obtain ⟨es, hd⟩ := hd
    refine ⟨⟨o + (nm ++ (ws ++ c!"(" :: (as.text ++ [c!")"]))).length, rest⟩, ?_, by
      intro c hc; simp at hc⟩
    have hlen := den_length as hd
    rw [ident_args hn hl hws hw hd]
    unfold checkArity
    rw [hnb]
    simp only [hlen, errTooMany]
    rw [if_neg (by omega), if_neg (by omega)]
    simp
  | @sign o c t e hc _ ih =>
    intro _
    obtain ⟨s, hs, hk⟩ := ih (by simp [Amid]; omega)
    refine ⟨s, ?_, hk.mono (by omega)⟩
    rw [signLevel] at hs
    rcases hc with rfl | rfl
    · simp only [atom, trim_cons (by decide : ¬ space c!"+"), List.head?_cons]
      rw [if_neg (by decide), if_neg (by decide), if_pos trivial]
      simp only [adv, List.drop_succ_cons, List.drop_zero, unopPrec]
      rw [hs]; rfl
    · simp only [atom, trim_cons (by decide : ¬ space c!"-"), List.head?_cons]
      rw [if_neg (by decide), if_neg (by decide), if_neg (by decide), if_pos trivial]
      simp only [adv, List.drop_succ_cons, List.drop_zero, unopPrec]
      rw [hs]; rfl
  | @paren o t e _ ih =>
    intro _
    obtain ⟨s, hs, hk⟩ := ih (by simp [Amid]; omega)
    refine ⟨s, ?_, hk.mono (by omega)⟩
    simp only [atom, trim_cons (by decide : ¬ space c!"("), List.head?_cons]
    rw [if_neg (by decide), if_neg (by decide), if_neg (by decide), if_neg (by decide),
      if_pos trivial]
    simp only [adv, List.drop_succ_cons, List.drop_zero, noPrec]
    rw [hs]; rfl
  | @unclosed o x ws t hx hws ht =>
    intro _
    refine ⟨⟨o + 1 + x.text.length + ws.length, t⟩, ?_, by intro c hc; simp at hc⟩
    obtain ⟨a, _, he⟩ := elem_completes (o := o + 1) hx
    obtain ⟨h1, h2⟩ := trim_notHead (o := o + 1 + x.text.length) hws ht
    simp only [atom, trim_cons (by decide : ¬ space c!"("), List.head?_cons]
    rw [if_neg (by decide), if_neg (by decide), if_neg (by decide), if_neg (by decide),
      if_pos trivial]
    simp only [adv, List.drop_succ_cons, List.drop_zero, noPrec]
    rw [he, h1]
    have h3 : trim ⟨o + 1 + x.text.length + ws.length, t⟩ =
        ⟨o + 1 + x.text.length + ws.length, t⟩ := by rw [← h1, trim_trim]
    simp only [R.bind_ok, assertConsume, consumeIf, h3, if_neg h2, Bool.false_eq_true, if_false,
      errExpected, R.bind_err]
  | @close o t =>
    intro _
    refine ⟨⟨o, c!")" :: t⟩, ?_, by intro c hc; exact ⟨rfl, Nat.le_refl _⟩⟩
    simp only [atom, trim_cons (by decide : ¬ space c!")"), List.head?_cons]
    rfl
  | @illegal o c t hc hs =>
    intro _
    refine ⟨⟨o, c :: t⟩, ?_, by intro c hc; simp at hc⟩
    obtain ⟨h1, h2, h3, h4, h5, h6⟩ := operand_begin hc
    simp only [atom, trim_cons hs, List.head?_cons, h1, h2, h3, h4, h5, h6, Bool.false_eq_true,
      if_false, errIllegal]
  | @argument o t e _ ih =>
    intro hi acc
    have hi : 0 < o := hi
    obtain ⟨s, hs, hk⟩ := ih (by simp [Amid]; omega)
    refine ⟨s, ?_, kept_inArgument⟩
    rw [args_unfold (elem_consumes cfg w ctx), argument_err hs hk hi]
    rfl
  | @after o x ws c t hx hws hs h1 h2 =>
    intro hi acc
    obtain ⟨a, _, he⟩ := elem_completes (o := o) hx
    refine ⟨⟨o + x.text.length + ws.length, c :: t⟩, ?_, by
      intro c hc; exact ⟨rfl, by simp only; omega⟩⟩
    rw [args_unfold (elem_consumes cfg w ctx)]
    unfold argument
    rw [noPrec, he, trim_spaces_cons _ hws hs]
    simp only [R.bind_ok, trim_cons hs, List.head?_cons, h1, h2, if_false, errTok]
  | @cut o x ws hx hws =>
    intro hi acc
    have hi : 0 < o := hi
    obtain ⟨a, _, he⟩ := elem_completes (o := o) hx
    refine ⟨⟨o + x.text.length + ws.length, []⟩, ?_, by intro c hc; simp at hc⟩
    rw [args_unfold (elem_consumes cfg w ctx)]
    unfold argument
    have ht : trim ⟨o + x.text.length, ws⟩ = ⟨o + x.text.length + ws.length, []⟩ := by
      have := trim_spaces (t := []) (o + x.text.length) hws (by simp)
      simpa using this
    have h3 : trim ⟨o + x.text.length + ws.length, []⟩ =
        ⟨o + x.text.length + ws.length, []⟩ := rfl
    rw [noPrec, he, ht]
    simp only [R.bind_ok, h3, List.head?_nil, errEnd, subOne]
    rw [if_neg (by omega)]
  | @next o x ws t e hx hws _ ih =>
    intro hi acc
    obtain ⟨a, _, he⟩ := elem_completes (o := o) hx
    obtain ⟨s, hs, hk⟩ := ih (by simp [Amid]) (acc ++ [a])
    refine ⟨s, ?_, hk.mono (by omega)⟩
    rw [args_unfold (elem_consumes cfg w ctx)]
    unfold argument
    rw [noPrec, he, trim_spaces_cons _ hws (by decide)]
    simp only [R.bind_ok, trim_cons (by decide : ¬ space c!","), List.head?_cons, if_true, adv,
      List.drop_succ_cons, List.drop_zero]
    exact hs

/-! ### From errors to faults -/

theorem R.bind_eq_err {α β : Type} {x : R α} {f : α → St → R β} {e : PErr} {s' : St}
    (h : x.bind f = .err e s') :
    x = .err e s' ∨ ∃ a s, x = .ok a s ∧ f a s = .err e s' := by
  cases x with
  | ok a s => exact Or.inr ⟨a, s, rfl, h⟩
  | err e0 t => rw [R.bind_err] at h; cases h; exact Or.inl rfl
  | panic p => cases h
  | fuel => cases h

/-- The statement for `element`. -/
def ErrConv (cfg : Cfg) (w : World) (ctx : Context) (s : St) : Prop :=
  ∀ p e s', p < 7 → 0 < s.pos + s.rest.length → elem cfg w ctx p s = .err e s' →
    Fault cfg (finOf cfg w) ctx (.expr p) s.pos s.rest e

theorem eats_inside {s t : St} {a : Bytes} (h : Eats s a t)
    (hi : 0 < s.pos + s.rest.length) : 0 < t.pos + t.rest.length := by
  have := h.len; have := h.2; omega

theorem begins_of_chain {p : Nat} {s t : St} {x : Cst} {a : Elem}
    (h : Chain cfg w ctx p s x t a) : Begins cfg fin ctx p x t.rest :=
  ⟨h.wf, h.closed, h.lt, a, h.den⟩

theorem completes_of_chain {s t : St} {x : Cst} {a b : Elem} (h : Chain cfg w ctx 0 s x t a)
    (hs : stops cfg 0 (isNumber fin ctx x) t.rest) (hf : fin a = .ok b) :
    Completes cfg fin ctx x t.rest :=
  ⟨h.wf, h.closed, hs, b, by simp [Cst.meaning, h.den, hf]⟩

theorem cons_of_head {l : Bytes} {c : UInt8} (h : l.head? = some c) : l = c :: l.drop 1 := by
  cases l with
  | nil => cases h
  | cons a t => simp at h; simp [h]

theorem loop_err {s : St} {p : Nat} {N : Nat}
    (ih : ∀ t : St, t.rest.length < N → ErrConv cfg w ctx t)
    (hi : 0 < s.pos + s.rest.length) :
    ∀ n (t : St), t.rest.length ≤ n → t.rest.length < N → ∀ l a e s',
      Chain cfg w ctx p s l t a → loop cfg rc p a t = .err e s' →
      Fault cfg fin ctx (.expr p) s.pos s.rest e := by
  intro n
  induction n with
  | zero =>
    intro t hn hN l a e s' hc h
    rw [loop_unfold (elem_consumes cfg w ctx)] at h
    have ht : (trim t).rest = [] := by
      have := (le_trim t).len
      exact List.length_eq_zero_iff.1 (by omega)
    have ho : opInfo cfg a p (trim t) = none := by simp [opInfo, ht]
    simp only [ho] at h
    cases h
  | succ n ihn =>
    intro t hn hN l a e s' hc h
    rw [loop_unfold (elem_consumes cfg w ctx)] at h
    cases ho : opInfo cfg a p (trim t) with
    | none =>
      simp only [ho] at h
      cases h
    | some oqk =>
      obtain ⟨op, q, k⟩ := oqk
      simp only [ho] at h
      have lt1 := (le_trim t).len
      have hit := eats_inside hc.eats hi
      rcases opInfo_some ho with ⟨rfl, rfl, hp, hc1⟩ | ⟨rfl, rfl, rfl, hp, c, hc1, hcc⟩
      · have l1 := (lt_one hc1).len
        obtain ⟨ws, hws, e1⟩ := eats_trim t
        rcases R.bind_eq_err h with hr | ⟨rhs, s2, hr, hl⟩
        · have e2 := e1.trans (eats_one hc1)
          have hf := ih _ (by omega) _ _ _ (level_lt op) (eats_inside e2 hit) hr
          have hrest : t.rest = ws ++ opChar op :: (adv (trim t) 1).rest := by
            rw [e2.rest]; simp
          have hpos : (adv (trim t) 1).pos = s.pos + l.text.length + ws.length + 1 := by
            rw [e2.2, hc.eats.2]; simp; omega
          have hb := begins_of_chain hc
          rw [hrest] at hb
          rw [hpos] at hf
          have hs : s.rest = l.text ++ (ws ++ opChar op :: (adv (trim t) 1).rest) := by
            rw [hc.eats.1, hrest]
          rw [hs]
          exact .right hb hws hp hf
        · obtain ⟨r, t2, b, hcr, rfl, hst, hf⟩ := elem_conv cfg w ctx _ _ _ _ (level_lt op) hr
          have l2 := hcr.eats.len
          rw [loop_trim (elem_consumes cfg w ctx)] at hl
          have e2 := (e1.trans (eats_one hc1)).trans hcr.eats
          have hrest : t.rest = ws ++ opChar op :: r.text ++ t2.rest := by
            rw [e2.rest]; simp
          refine ihn t2 (by omega) (by omega) (.bin l ws op r) (.bin op a rhs) e s' ?_ hl
          refine ⟨?_, ?_, ⟨hst, hcr.closed⟩, ?_, ?_⟩
          · have := hc.eats.trans e2
            simpa [Cst.text] using this
          · refine ⟨hws, ?_, ?_, hcr.wf, hcr.lt⟩
            · rw [← hrest]; exact hc.wf
            · rw [← hrest]; exact hc.closed
          · rw [Cst.chain, Nat.lt_min]; exact ⟨hp, hc.lt⟩
          · simp [Cst.den, hc.den, hcr.den, hf]
      · simp only [adv, List.drop_zero, Nat.add_zero] at h
        have hcc' : lower c ∨ c = c!"(" ∨ (digit c ∧ ¬ isNumber fin ctx l) := by
          rw [isNum_iff hc.den]
          rcases hcc with h | h | h
          · exact Or.inl h
          · exact Or.inr (Or.inl h)
          · exact Or.inr (Or.inr ⟨h.1, by simp [h.2]⟩)
        have hft : firstTok t.rest = some c := by rw [← firstTok_trim]; exact hc1
        rcases R.bind_eq_err h with hr | ⟨rhs, s2, hr, hl⟩
        · rw [elem_trim] at hr
          have hf := ih t hN _ _ _ (implLevel_lt cfg) hit hr
          rw [hc.eats.2] at hf
          rw [hc.eats.1]
          exact .juxt (begins_of_chain hc) hp hft hcc' hf
        · rw [elem_trim] at hr
          obtain ⟨r, t2, b, hcr, rfl, hst, hf⟩ :=
            elem_conv cfg w ctx t _ _ _ (implLevel_lt cfg) hr
          have l2 := hcr.eats.len
          have l3 := eats_text_lt hcr.eats hcr.wf
          rw [loop_trim (elem_consumes cfg w ctx)] at hl
          have e2 := hcr.eats
          refine ihn t2 (by omega) (by omega) (.juxt l r) (.bin .times a rhs) e s' ?_ hl
          refine ⟨?_, ?_, ⟨hst, hcr.closed⟩, ?_, ?_⟩
          · have := hc.eats.trans e2
            simpa [Cst.text] using this
          · refine ⟨?_, ?_, hcr.wf, hcr.lt, c, ?_, hcc'⟩
            · rw [← e2.rest]; exact hc.wf
            · rw [← e2.rest]; exact hc.closed
            · rw [← e2.rest]; exact hft
          · rw [Cst.chain, Nat.lt_min]; exact ⟨hp, hc.lt⟩
          · simp [Cst.den, hc.den, hcr.den, hf]

theorem argument_conv {s : St} (ih : ErrConv cfg w ctx s) (hi : 0 < s.pos) {e : PErr} {s' : St}
    (h : argument cfg rc s = .err e s') : Fault cfg fin ctx .args s.pos s.rest e := by
  cases hr : rc noPrec s with
  | ok a t => simp [argument, hr] at h
  | panic p => simp [argument, hr] at h
  | fuel => simp [argument, hr] at h
  | err e1 s1 =>
    have hf := ih _ _ _ (by decide) (by omega) hr
    obtain ⟨s2, hs, hk⟩ := fault_sound hf (by simp [Amid]; omega)
    rw [show (⟨s.pos, s.rest⟩ : St) = s from rfl, hr] at hs
    cases hs
    rw [argument_err hr hk hi] at h
    cases h
    exact .argument hf

theorem args_err {N : Nat} (ih : ∀ t : St, t.rest.length < N → ErrConv cfg w ctx t) :
    ∀ n (s : St), s.rest.length ≤ n → s.rest.length < N → 0 < s.pos → ∀ acc e s',
      args cfg rc acc s = .err e s' → Fault cfg fin ctx .args s.pos s.rest e := by
  intro n
  induction n with
  | zero =>
    intro s hn hN hi acc e s' h
    rw [args_unfold (elem_consumes cfg w ctx)] at h
    rcases R.bind_eq_err h with ha | ⟨arg, s1, ha, _⟩
    · exact argument_conv (ih s hN) hi ha
    · have := (elem_consumes cfg w ctx _ _ _ _ (argument_ok ha)).len
      omega
  | succ n ihn =>
    intro s hn hN hi acc e s' h
    rw [args_unfold (elem_consumes cfg w ctx)] at h
    rcases R.bind_eq_err h with ha | ⟨arg, s1, ha, hb⟩
    · exact argument_conv (ih s hN) hi ha
    · have ha := argument_ok ha
      have l0 := (elem_consumes cfg w ctx _ _ _ _ ha).len
      obtain ⟨x, t, a, hc, rfl, hst, hf⟩ := elem_conv cfg w ctx s _ _ _ (by decide) ha
      rw [trim_trim] at hb
      obtain ⟨ws, hws, e1⟩ := eats_trim t
      have hx := completes_of_chain hc hst hf
      have hpos : (trim t).pos = s.pos + x.text.length + ws.length := by
        rw [e1.2, hc.eats.2]
      cases hh : (trim t).rest.head? with
      | none =>
        simp only [hh] at hb
        have hr : (trim t).rest = [] := by
          cases hl : (trim t).rest with
          | nil => rfl
          | cons a b => rw [hl] at hh; simp at hh
        have ht : t.rest = ws := by rw [e1.rest, hr]; simp
        simp only [errEnd, subOne, hpos] at hb
        rw [if_neg (by omega)] at hb
        cases hb
        rw [ht] at hx
        rw [hc.eats.1, ht]
        exact .cut hx hws
      | some c =>
        simp only [hh] at hb
        have hsp : ¬ space c := by
          have := head_trim hh
          rw [← isWs_iff]; simp [this]
        have hr : t.rest = ws ++ c :: (adv (trim t) 1).rest := by
          rw [(e1.trans (eats_one hh)).rest]; simp
        rw [hr] at hx
        rw [hc.eats.1, hr]
        split at hb
        · rename_i hcomma
          subst hcomma
          have l1 := (lt_one hh).len
          have hf' := ihn _ (by omega) (by omega) (by simp [adv]) _ _ _ hb
          have hp' : (adv (trim t) 1).pos = s.pos + x.text.length + ws.length + 1 := by
            simp only [adv, hpos]
          rw [hp'] at hf'
          exact .next hx hws hf'
        · split at hb
          · cases hb
          · rename_i h1 h2
            cases hb
            rw [hpos]
            exact .after hx hws hsp h1 h2

theorem numberText_of_numEnd {s : St} {c : UInt8} (hc : s.rest.head? = some c)
    (hd : isDigit c = true ∨ c = c!".") :
    ∃ txt, Eats s txt (numEnd s) ∧ NumberText txt (numEnd s).rest := by
  obtain ⟨mant, ex, hm, hmant, hshape, heats⟩ := numEnd_spec s
  refine ⟨mant ++ ex, heats, mant, ?_, hm, ?_⟩
  · refine ⟨c, ?_, by rcases hd with h | h <;> simp [h, ← isDigit_iff]⟩
    rw [hmant]
    rcases s with ⟨pos, rest⟩
    cases rest with
    | nil => simp at hc
    | cons a t =>
      simp at hc; subst hc
      have : isNumChar a = true := by
        simp [isNumChar]; rcases hd with h | h <;> simp [h]
      simp [this]
  · generalize (numEnd s).rest = r at *
    cases hshape with
    | plain _ h he => exact Or.inl ⟨by simp, h, he⟩
    | exp e sg ds _ he hs hd hds h => exact Or.inr ⟨e, sg, ds, he, hs, hd, hds, rfl, h⟩

/-- What follows a trimmed state is no whitespace. -/
theorem notHead_trim {s : St} {d : UInt8} (h : (trim s).rest.head? ≠ some d) :
    notHead (fun c => space c ∨ c = d) (trim s).rest := by
  intro c hc hcc
  rcases hcc with hs | rfl
  · have := head_trim hc
    rw [← isWs_iff, this] at hs
    cases hs
  · exact h hc

theorem atom_err {N : Nat} (ih : ∀ t : St, t.rest.length < N → ErrConv cfg w ctx t)
    {s : St} (hN : s.rest.length ≤ N) (hi : 0 < s.pos + s.rest.length) {e : PErr} {s1 : St}
    (h : atom cfg ctx rc s = .err e s1) :
    Fault cfg fin ctx .operand (trim s).pos (trim s).rest e := by
  obtain ⟨ws0, hws0, e0⟩ := eats_trim s
  have l0 := e0.len
  have hi0 := eats_inside e0 hi
  unfold atom at h
  generalize hts : trim s = u at *
  have htu : trim u = u := by rw [← hts, trim_trim]
  have hsp : ∀ c, u.rest.head? = some c → ¬ space c := by
    intro c hc hs
    rw [← hts] at hc
    have := head_trim hc
    rw [← isWs_iff, this] at hs
    cases hs
  cases hc : u.rest.head? with
  | none =>
    simp only [hc] at h
    have hr : u.rest = [] := by
      cases hl : u.rest with
      | nil => rfl
      | cons a b => rw [hl] at hc; simp at hc
    rw [hr] at hi0
    simp only [errEnd, subOne] at h
    rw [if_neg (by simp at hi0; omega)] at h
    cases h
    rw [hr]
    exact .ended
  | some c =>
    simp only [hc] at h
    have l1 := (lt_one hc).len
    have hsc := hsp c hc
    have hcons : u.rest = c :: (adv u 1).rest := (eats_one hc).1
    split at h
    · rename_i hd
      rw [Bool.or_eq_true, decide_eq_true_iff] at hd
      obtain ⟨txt, he, hn⟩ := numberText_of_numEnd hc hd
      have hlit : ∀ v, ¬ Literal txt (numEnd u).rest v := by
        intro v hl
        have := parseNumber_literal u.pos hl
        rw [← he.1, show (⟨u.pos, u.rest⟩ : St) = u from rfl, h] at this
        cases this
      have hpos : (numEnd u).pos - u.pos = txt.length := by rw [he.2]; omega
      have htake : u.rest.take ((numEnd u).pos - u.pos) = txt := by
        rw [hpos, he.1, List.take_left]
      simp only [parseNumber, htake] at h
      split at h
      · cases h
      · simp only [errNum] at h
        cases h
        rw [show (numEnd u).pos - txt.length = u.pos by rw [he.2]; omega, he.1]
        exact .number hn hlit
    · split at h
      · rename_i hid
        unfold parseIdent at h
        have hnm := name_of_takeWhile hc hid
        have e1 := eats_skipWhile isIdChar u
        generalize hnn : u.rest.takeWhile isIdChar = nm at *
        generalize hv : skipWhile isIdChar u = v at *
        obtain ⟨ws, hws, e2⟩ := eats_trim v
        cases hl : lookup ctx nm with
        | const x => simp only [hl] at h; cases h
        | var n => simp only [hl] at h; cases h
        | func f =>
          simp only [hl] at h
          rw [e1.1]
          rw [e2.1] at hnm ⊢
          split at h
          · rename_i hp
            obtain ⟨hp1, hp2⟩ := consumeIf_true hp
            rw [hp2] at h
            have hr : (trim v).rest = c!"(" :: (adv (trim v) 1).rest := (eats_one hp1).1
            have hpos : (adv (trim v) 1).pos = u.pos + nm.length + ws.length + 1 := by
              simp only [adv]; rw [e2.2, e1.2]
            have l2 := e1.len
            have l3 := e2.len
            have l4 := (lt_one hp1).len
            rcases R.bind_eq_err h with ha | ⟨as, s3, ha, hb⟩
            · rw [hr] at hnm ⊢
              have hf := args_err ih _ (adv (trim v) 1) (Nat.le_refl _) (by omega)
                (by rw [hpos]; omega) [] _ _ ha
              rw [hpos] at hf
              exact .call hnm hl hws hf
            · obtain ⟨cas, rest, es', e3, hr3, hw, hd, hes⟩ :=
                args_conv (N := (adv (trim v) 1).rest.length + 1)
                  (fun t _ => elem_conv cfg w ctx t) _ (adv (trim v) 1) (Nat.le_refl _)
                  (by omega) [] as s3 ha
              have htr : trim s3 = s3 :=
                trim_of_trimmed (by intro d hd; rw [hr3] at hd; simp at hd; subst hd; decide)
              have hac : assertConsume c!")" s3 = .ok () (adv s3 1) := by
                simp [assertConsume, consumeIf, htr, hr3]
              rw [hac] at hb
              simp only [R.bind_ok] at hb
              rw [List.nil_append] at hes
              subst hes
              have hlen := den_length cas hd
              have hrr : (adv (trim v) 1).rest = cas.text ++ c!")" :: rest := by
                rw [e3.1, hr3]
              have hp4 : (adv s3 1).pos - u.pos =
                  (nm ++ (ws ++ c!"(" :: (cas.text ++ [c!")"]))).length := by
                have := e3.2
                simp only [adv] at this ⊢
                rw [this, e2.2, e1.2]
                simp; omega
              rw [hr, hrr] at hnm ⊢
              unfold checkArity at hb
              split at hb
              · rename_i n hn
                split at hb
                · cases hb
                · split at hb
                  · rename_i hlt
                    simp only [errTooFew, hp4] at hb
                    cases hb
                    rw [hlen] at hlt ⊢
                    exact .few hnm hl hn hws hw ⟨_, hd⟩ hlt
                  · rename_i hne hlt
                    simp only [errTooMany, hp4] at hb
                    cases hb
                    rw [hlen] at hne hlt ⊢
                    exact .many hnm hl hn hws hw ⟨_, hd⟩ (by omega)
              · cases hb
          · rename_i hp
            obtain ⟨hp1, hp2⟩ := consumeIf_false (by simpa using hp)
            rw [hp2] at h
            simp only [errExpected] at h
            cases h
            rw [e2.2, e1.2]
            exact .uncalled hnm hl hws (notHead_trim hp1)
      · rename_i hnd hnid
        have sign : ∀ (op : Op), c = c!"+" ∨ c = c!"-" →
            ((rc unopPrec (adv u 1)).bind fun e s2 => R.ok (Elem.un op e) s2) = .err e s1 →
            Fault cfg fin ctx .operand u.pos u.rest e := by
          intro op hcs hb
          rcases R.bind_eq_err hb with hr | ⟨a, s2, _, hk⟩
          · have hf := ih (adv u 1) (by omega) _ _ _ (by decide) (by simp [adv]; omega) hr
            rw [hcons]
            exact .sign hcs hf
          · cases hk
        split at h
        · rename_i hplus
          exact sign .plus (Or.inl hplus) h
        · split at h
          · rename_i hminus
            exact sign .minus (Or.inr hminus) h
          · split at h
            · rename_i hpar
              subst hpar
              rcases R.bind_eq_err h with hr | ⟨a, s2, hr, hk⟩
              · have hf := ih (adv u 1) (by omega) _ _ _ (by decide) (by simp [adv]; omega) hr
                rw [hcons]
                exact .paren hf
              · obtain ⟨x, t, b, hcx, rfl, hst, hf⟩ := elem_conv cfg w ctx _ _ _ _ (by decide) hr
                rcases R.bind_eq_err hk with hk | ⟨_, _, _, hk⟩
                · obtain ⟨ws2, hws2, e3⟩ := eats_trim t
                  unfold assertConsume at hk
                  split at hk
                  · cases hk
                  · rename_i hq
                    obtain ⟨hq1, hq2⟩ := consumeIf_false (by simpa using hq)
                    rw [hq2, trim_trim] at hk
                    rw [trim_trim] at hq1
                    simp only [errExpected] at hk
                    cases hk
                    have hx := completes_of_chain hcx hst hf
                    rw [hcons, hcx.eats.1]
                    rw [e3.1] at hx ⊢
                    rw [show (trim t).pos = u.pos + 1 + x.text.length + ws2.length by
                      rw [e3.2, hcx.eats.2]; simp [adv]]
                    exact .unclosed hx hws2 (notHead_trim hq1)
                · cases hk
            · split at h
              · rename_i hclose
                subst hclose
                cases h
                rw [hcons]
                exact .close
              · rename_i h1 h2 h3 h4
                simp only [errIllegal] at h
                cases h
                rw [hcons]
                refine .illegal ?_ hsc
                intro ho
                rw [Bool.or_eq_true, decide_eq_true_iff, isDigit_iff] at hnd
                rw [isIdStart_iff] at hnid
                rcases ho with h | h | h | h | h | h | h
                · exact hnd (Or.inl h)
                · exact hnid h
                · exact hnd (Or.inr h)
                · exact h1 h
                · exact h2 h
                · exact h3 h
                · exact h4 h

/-- What `element` has read when it comes to the operators. -/
theorem chain_of_atom {p : Nat} (hp : p < 7) {s s1 : St} {a : Elem}
    (ha : atom cfg ctx rc s = .ok a s1) : ∃ y u b, Chain cfg w ctx p s y u b ∧
      afterAtom cfg rc p a s1 = loop cfg rc p b u := by
  obtain ⟨x, t, he, hw, hd, hch, hcase⟩ :=
    atom_conv (N := s.rest.length) (fun t _ => elem_conv cfg w ctx t) (Nat.le_refl _) ha
  unfold afterAtom
  cases hbang : (consumeIf c!"!" s1).1 with
  | true =>
    obtain ⟨hb1, hb2⟩ := consumeIf_true hbang
    rcases hcase with ⟨hprim, rfl, hcl⟩ | ⟨rfl, hnb, hcl⟩
    · simp only [if_true, hb2]
      obtain ⟨ws, hws, e2⟩ := eats_trim s1
      have e3 := e2.trans (eats_one hb1)
      refine ⟨.fact x ws, _, _, ⟨?_, ⟨hprim, hws, ?_⟩, trivial, ?_, ?_⟩, rfl⟩
      · have := he.trans e3
        simpa [Cst.text] using this
      · have : s1.rest = ws ++ c!"!" :: (adv (trim s1) 1).rest := by rw [e3.rest]; simp
        rw [← this]; exact hw
      · exact hp
      · simp [Cst.den, hd]
    · rw [trim_trim, firstTok_trim] at hb1
      exact absurd hb1 hnb
  | false =>
    obtain ⟨hb1, hb2⟩ := consumeIf_false hbang
    simp only [Bool.false_eq_true, if_false, hb2]
    rw [loop_trim (elem_consumes cfg w ctx)]
    rcases hcase with ⟨hprim, rfl, hcl⟩ | ⟨rfl, hnb, hcl⟩
    · refine ⟨x, s1, a, ⟨he, hw, hcl ?_, ?_, hd⟩, rfl⟩
      · intro h; rw [firstTok_trim] at hb1; exact hb1 h
      · rw [hch]; exact hp
    · rw [loop_trim (elem_consumes cfg w ctx)]
      refine ⟨x, t, a, ⟨he, hw, hcl, ?_, hd⟩, rfl⟩
      rw [hch]; exact hp

/-- Every error is a fault. -/
theorem elem_err (cfg : Cfg) (w : World) (ctx : Context) (s : St) : ErrConv cfg w ctx s := by
  suffices H : ∀ N (s : St), s.rest.length < N → ErrConv cfg w ctx s from
    H _ s (Nat.lt_succ_self _)
  intro N
  induction N with
  | zero => intro s h; omega
  | succ N ih =>
    intro s hN p e s' hp hi h
    rw [elem_unfold, elementF_eq] at h
    rcases R.bind_eq_err h with h1 | ⟨e1, s3, _, hfin⟩
    · rcases R.bind_eq_err h1 with ha | ⟨a, s1, ha, hb⟩
      · have hf := atom_err ih (by omega) hi ha
        obtain ⟨ws, hws, e0⟩ := eats_trim s
        rw [e0.2] at hf
        rw [e0.1]
        exact .first hws hf
      · obtain ⟨y, u, b, hc, hl⟩ := chain_of_atom hp ha
        rw [hl] at hb
        have := eats_text_lt hc.eats hc.wf
        exact loop_err ih hi _ u (Nat.le_refl _) (by omega) y b e s' hc hb
    · rw [finish_eq] at hfin
      cases hf : finOf cfg w e1 <;> simp [hf] at hfin

/-- The errors of the parser proper. -/
theorem parseImpl_err_iff (cfg : Cfg) (w : World) (ctx : Context) {input : Bytes}
    (hne : input ≠ []) (e : PErr) :
    parseImpl cfg w ctx input = .err e ↔ Faulty cfg (finOf cfg w) ctx input e := by
  have hpos := List.length_pos_iff.2 hne
  have heq : element cfg w ctx (input.length + 1) noPrec ⟨0, input⟩ =
      elem cfg w ctx 0 ⟨0, input⟩ := rfl
  unfold parseImpl
  rw [heq]
  constructor
  · intro h
    cases he : elem cfg w ctx 0 ⟨0, input⟩ with
    | panic p => simp [he] at h
    | fuel => simp [he] at h
    | err e' s =>
      simp [he] at h
      subst h
      exact Or.inl (elem_err cfg w ctx _ _ _ _ (by decide) (by simp; omega) he)
    | ok root s =>
      simp only [he] at h
      obtain ⟨x, t, a, hc, rfl, hst, hf⟩ := elem_conv cfg w ctx _ _ _ _ (by decide) he
      rw [trim_trim] at h
      cases hh : (trim t).rest.head? with
      | none => simp [hh] at h
      | some d =>
        simp only [hh] at h
        cases h
        obtain ⟨ws, hws, e1⟩ := eats_trim t
        have hr : t.rest = ws ++ d :: (adv (trim t) 1).rest := by
          rw [(e1.trans (eats_one hh)).rest]; simp
        have hx := completes_of_chain hc hst hf
        rw [hr] at hx
        refine Or.inr ⟨x, ws, d, _, ?_, hx, hws, ?_, ?_⟩
        · rw [← hr]; exact hc.eats.1
        · have := head_trim hh
          rw [← isWs_iff]; simp [this]
        · rw [e1.2, hc.eats.2]; simp
  · rintro (hf | ⟨x, ws, c, t, rfl, hx, hws, hs, rfl⟩)
    · obtain ⟨s, hs, _⟩ := fault_sound hf (by simp [Amid]; omega)
      rw [hs]
    · obtain ⟨a, _, he⟩ := elem_completes (o := 0) hx
      rw [he]
      simp only [trim_trim]
      rw [trim_spaces_cons _ hws hs]
      simp

end
end Xprs
