import Verif.Lemmas.Lexer
/-
The parser on the text of a legal concrete syntax tree.
-/
namespace Xprs
open Spec
set_option linter.unusedSimpArgs false

/-- A result of the specification as a result of the parser. -/
def ofPM {α : Type} (r : PM α) (s : St) : R α :=
  match r with
  | .ok e => .ok e s
  | .error p => .panic p

@[simp] theorem ofPM_ok {α : Type} (e : α) (s : St) : ofPM (.ok e) s = .ok e s := rfl
@[simp] theorem ofPM_error {α : Type} (p : Panic) (s : St) :
    ofPM (.error p : PM α) s = .panic p := rfl

theorem R.bind_assoc {α β γ : Type} (x : R α) (f : α → St → R β) (g : β → St → R γ) :
    (x.bind f).bind g = x.bind fun a s => (f a s).bind g := by
  cases x <;> rfl

theorem loop_trim {cfg : Cfg} {rec : Nat → St → R Elem} (hr : Consumes rec) (p : Nat)
    (el : Elem) (s : St) : loop cfg rec p el (trim s) = loop cfg rec p el s := by
  rw [loop_unfold hr, loop_unfold hr p el s, trim_trim]

/-- What `element` does with the operand: the postfix `!`, then the operator loop. -/
def afterAtom (cfg : Cfg) (rec : Nat → St → R Elem) (p : Nat) (a : Elem) (s : St) : R Elem :=
  loop cfg rec p (if (consumeIf c!"!" s).1 then .un .factorial a else a) (consumeIf c!"!" s).2

theorem elementF_eq (cfg : Cfg) (w : World) (ctx : Context) (rec : Nat → St → R Elem) (p : Nat)
    (s : St) : elementF cfg w ctx rec p s =
      ((atom cfg ctx rec s).bind (afterAtom cfg rec p)).bind (finish cfg w) := by
  rw [R.bind_assoc]; rfl

theorem finish_eq (cfg : Cfg) (w : World) (e : Elem) (s : St) :
    finish cfg w e s = ofPM (finOf cfg w e) s := by
  unfold finish finOf
  split
  · cases simplify cfg w e <;> rfl
  · rfl

theorem afterAtom_noBang {cfg : Cfg} {rec : Nat → St → R Elem} (hr : Consumes rec) (p : Nat)
    (a : Elem) (s : St) (h : noBang s.rest) :
    afterAtom cfg rec p a s = loop cfg rec p a s := by
  have : ¬ (trim s).rest.head? = some c!"!" := by rw [firstTok_trim]; exact h
  simp only [afterAtom, consumeIf, if_neg this, Bool.false_eq_true, if_false]
  exact loop_trim hr p a s

theorem afterAtom_bang {cfg : Cfg} {rec : Nat → St → R Elem} (p : Nat)
    (a : Elem) (pos : Nat) (ws rest : Bytes) (h : spaces ws) :
    afterAtom cfg rec p a ⟨pos, ws ++ c!"!" :: rest⟩ =
      loop cfg rec p (.un .factorial a) ⟨pos + ws.length + 1, rest⟩ := by
  have ht := trim_spaces_cons (t := rest) pos h (by decide : ¬ space c!"!")
  simp only [afterAtom, consumeIf, ht, List.head?_cons, if_true, adv, List.drop_succ_cons,
    List.drop_zero]

theorem isNum_iff {fin : Elem → PM Elem} {ctx : Context} {x : Cst} {e : Elem}
    (h : x.den fin ctx = .ok e) : isNumber fin ctx x ↔ e.isNum = true := by
  unfold isNumber
  rw [h]
  cases e <;> simp [Elem.isNum]

/-- No operator of the parser when the specification says the operand stops here. -/
theorem opInfo_none {cfg : Cfg} {el : Elem} {p : Nat} {isNum : Prop} {s : St}
    (hs : stops cfg p isNum s.rest) (hn : isNum → el.isNum = true) :
    opInfo cfg el p (trim s) = none := by
  unfold opInfo
  rw [firstTok_trim]
  cases hc : firstTok s.rest with
  | none => rfl
  | some c =>
    obtain ⟨h1, h2, h3⟩ := hs c hc
    simp only
    cases ho : opOfByte c with
    | some op =>
      have := h1 op ((opOfByte_iff op c).1 ho)
      rw [level_eq] at this
      simp [this]
    | none =>
      simp only
      rw [implLevel_eq] at h2 h3
      split
      · rfl
      · rename_i hp
        have hl : ¬ (lower c ∨ c = c!"(") := fun h => hp (h2 h)
        rw [← isLower_iff] at hl
        split
        · rename_i h
          rw [Bool.or_eq_true, decide_eq_true_iff] at h
          exact absurd h hl
        · split
          · rename_i h
            rw [Bool.and_eq_true, Bool.not_eq_true', isDigit_iff] at h
            rcases h3 h.1 with h4 | h4
            · exact absurd h4 hp
            · rw [hn h4] at h; simp at h
          · rfl

theorem noBang_of_stops {cfg : Cfg} {q : Nat} {P : Prop} {rest : Bytes} (hq : q < 5)
    (h : stops cfg q P rest) : noBang rest := by
  intro hc
  have := (h _ hc).1 .factorial rfl
  simp [level] at this
  omega

theorem level_lt (op : Op) : level op < 7 := by cases op <;> decide
theorem level_pos (op : Op) : 0 < level op := by cases op <;> decide
theorem implLevel_lt (cfg : Cfg) : implLevel cfg < 7 := by unfold implLevel; split <;> decide
theorem implLevel_pos (cfg : Cfg) : 0 < implLevel cfg := by unfold implLevel; split <;> decide

theorem chain_pos (cfg : Cfg) : ∀ x : Cst, 0 < x.chain cfg
  | .bin l _ op _ => by
    rw [Cst.chain]; exact Nat.lt_min.2 ⟨level_pos op, chain_pos cfg l⟩
  | .juxt l _ => by
    rw [Cst.chain]; exact Nat.lt_min.2 ⟨implLevel_pos cfg, chain_pos cfg l⟩
  | .num .. => by simp [Cst.chain]
  | .name .. => by simp [Cst.chain]
  | .call .. => by simp [Cst.chain]
  | .paren .. => by simp [Cst.chain]
  | .sign .. => by simp [Cst.chain]
  | .fact .. => by simp [Cst.chain]

/-- A closing parenthesis or comma stops any operand. -/
theorem stops_delim {cfg : Cfg} {q : Nat} {P : Prop} {c : UInt8} {ws t : Bytes}
    (hw : spaces ws) (hc : c = c!")" ∨ c = c!",") : stops cfg q P (ws ++ c :: t) := by
  intro d hd
  rw [firstTok_spaces hw, firstTok_cons (by rcases hc with rfl | rfl <;> decide)] at hd
  simp at hd; subst hd
  have h1 : ∀ op, opChar op ≠ c := by
    rcases hc with rfl | rfl <;> intro op <;> cases op <;> decide
  have h2 : ¬ (lower c ∨ c = c!"(") := by rcases hc with rfl | rfl <;> decide
  have h3 : ¬ digit c := by rcases hc with rfl | rfl <;> decide
  exact ⟨fun op h => absurd h (h1 op), fun h => absurd h h2, fun h => absurd h h3⟩

theorem stops_nil {cfg : Cfg} {q : Nat} {P : Prop} {ws : Bytes}
    (hw : spaces ws) : stops cfg q P ws := by
  intro d hd
  have := firstTok_spaces (t := []) hw
  rw [List.append_nil] at this
  rw [this] at hd
  simp [firstTok] at hd

theorem closed_of_stops {cfg : Cfg} {fin : Elem → PM Elem} {ctx : Context} {rest : Bytes}
    (hs : ∀ q P, stops cfg q P rest) : ∀ x : Cst, x.closed cfg fin ctx rest
  | .bin l _ op r => ⟨hs _ _, closed_of_stops hs r⟩
  | .juxt l r => ⟨hs _ _, closed_of_stops hs r⟩
  | .sign _ _ x => ⟨hs _ _, closed_of_stops hs x⟩
  | .num .. => noBang_of_stops (by decide : 0 < 5) (hs 0 True)
  | .name .. => noBang_of_stops (by decide : 0 < 5) (hs 0 True)
  | .call .. => noBang_of_stops (by decide : 0 < 5) (hs 0 True)
  | .paren .. => noBang_of_stops (by decide : 0 < 5) (hs 0 True)
  | .fact .. => trivial

theorem digit_not_space : ∀ {c : UInt8}, (digit c ∨ c = c!".") → ¬ space c :=
  fun {c} => forall_byte (P := fun c => (digit c ∨ c = c!".") → ¬ space c) (by decide +kernel) c
theorem letter_facts : ∀ {c : UInt8}, letter c →
    ¬ space c ∧ (isDigit c || decide (c = c!".")) = false ∧ isIdStart c = true :=
  fun {c} => forall_byte (P := fun c => letter c → ¬ space c ∧
    (isDigit c || decide (c = c!".")) = false ∧ isIdStart c = true) (by decide +kernel) c
theorem space_not_nameChar : ∀ {c : UInt8}, space c → ¬ nameChar c :=
  fun {c} => forall_byte (P := fun c => space c → ¬ nameChar c) (by decide +kernel) c

theorem lookup_var {ctx : Context} {nm n : Bytes} (h : lookup ctx nm = .var n) : n = nm := by
  unfold lookup at h
  split at h
  · rename_i s _; cases s <;> simp [Ident.ofSymbol] at h
  · unfold Ident.fromStr at h
    split at h
    · simp at h
    · split at h
      · simp at h
      · split at h
        · simp at h
        · simpa using h.symm

section
variable {cfg : Cfg} {w : World} {ctx : Context}

local notation "fin" => finOf cfg w
local notation "rc" => elem cfg w ctx

/-- the statement about operands -/
def AtomOk (cfg : Cfg) (w : World) (ctx : Context) (x : Cst) : Prop :=
  ∀ pos rest, x.wf cfg (finOf cfg w) ctx rest →
    atom cfg ctx (elem cfg w ctx) ⟨pos, x.text ++ rest⟩ =
      ofPM (x.den (finOf cfg w) ctx) ⟨pos + x.text.length, rest⟩

/-- the statement about chains -/
def ChainOk (cfg : Cfg) (w : World) (ctx : Context) (x : Cst) : Prop :=
  ∀ pos rest p, x.wf cfg (finOf cfg w) ctx rest → x.closed cfg (finOf cfg w) ctx rest →
    p < x.chain cfg →
    (atom cfg ctx (elem cfg w ctx) ⟨pos, x.text ++ rest⟩).bind (afterAtom cfg (elem cfg w ctx) p) =
      (ofPM (x.den (finOf cfg w) ctx) ⟨pos + x.text.length, rest⟩).bind
        (loop cfg (elem cfg w ctx) p)

theorem chainOk_of_atomOk {x : Cst} (h : AtomOk cfg w ctx x)
    (hb : ∀ rest, x.closed cfg fin ctx rest → noBang rest) : ChainOk cfg w ctx x := by
  intro pos rest p hw hc _
  rw [h pos rest hw]
  cases x.den fin ctx with
  | error e => rfl
  | ok e =>
    simp only [ofPM_ok, R.bind_ok]
    exact afterAtom_noBang (elem_consumes cfg w ctx) p e _ (hb _ hc)

/-- The whole `element` on a chain that stops. -/
theorem elem_of_chain {x : Cst} (h : ChainOk cfg w ctx x) {pos p : Nat} {rest : Bytes}
    (hw : x.wf cfg fin ctx rest) (hc : x.closed cfg fin ctx rest) (hp : p < x.chain cfg)
    (hs : stops cfg p (isNumber fin ctx x) rest) :
    rc p ⟨pos, x.text ++ rest⟩ =
      ofPM (x.meaning fin ctx) (trim ⟨pos + x.text.length, rest⟩) := by
  rw [elem_unfold, elementF_eq, h pos rest p hw hc hp]
  unfold Cst.meaning
  cases hd : x.den fin ctx with
  | error e => rfl
  | ok e =>
    simp only [ofPM_ok, R.bind_ok]
    rw [loop_unfold (elem_consumes cfg w ctx),
      opInfo_none hs (fun hn => (isNum_iff hd).1 hn)]
    simp only [R.bind_ok]
    rw [finish_eq]

theorem atom_num (ws txt : Bytes) (v : F64) : AtomOk cfg w ctx (.num ws txt v) := by
  rintro pos rest ⟨hws, hl⟩
  obtain ⟨c, hc, hcd⟩ : ∃ c, (txt ++ rest).head? = some c ∧ (digit c ∨ c = c!".") := by
    obtain ⟨mant, ip, fp, ⟨c, h1, h2⟩, _, _, h⟩ := hl
    refine ⟨c, ?_, h2⟩
    cases mant with
    | nil => simp at h1
    | cons a t =>
      simp at h1; subst h1
      rcases h with ⟨rfl, _⟩ | ⟨e, sg, ds, _, _, _, rfl, _⟩ <;> simp
  have ht : trim ⟨pos, ws ++ (txt ++ rest)⟩ = ⟨pos + ws.length, txt ++ rest⟩ :=
    trim_spaces pos hws (by intro d hd; rw [hc] at hd; cases hd; exact digit_not_space hcd)
  simp only [Cst.text, List.append_assoc, atom, ht, hc]
  rw [if_pos (by rcases hcd with h | h <;> simp [h, ← isDigit_iff] ; left; exact (isDigit_iff c).2 h)]
  rw [parseNumber_literal _ hl]
  simp [Cst.den, Nat.add_assoc]

theorem atom_name (ws nm : Bytes) : AtomOk cfg w ctx (.name ws nm) := by
  rintro pos rest ⟨hws, hn, hf⟩
  obtain ⟨c, h1, h2⟩ := hn.1
  have hc : (nm ++ rest).head? = some c := by cases nm <;> simp_all
  obtain ⟨n1, n2, n3⟩ := letter_facts h2
  have ht : trim ⟨pos, ws ++ (nm ++ rest)⟩ = ⟨pos + ws.length, nm ++ rest⟩ :=
    trim_spaces pos hws (by intro d hd; rw [hc] at hd; cases hd; exact n1)
  simp only [Cst.text, List.append_assoc, atom, ht, hc, n2, n3, Bool.false_eq_true, if_false,
    if_true]
  simp only [parseIdent, name_takeWhile hn, name_skip _ hn, Cst.den, List.length_append,
    Nat.add_assoc]
  cases hl : lookup ctx nm with
  | const x => rfl
  | var n =>
    have : n = nm := lookup_var hl
    subst this; rfl
  | func f => exact absurd hl (hf f)

theorem den_length : ∀ (as : CArgs) {es : List Elem},
    as.den fin ctx = .ok es → es.length = as.count
  | .last x ws, es, h => by
    rw [CArgs.den] at h
    cases h1 : x.den fin ctx with
    | error p => simp [h1] at h
    | ok e =>
      simp only [h1] at h
      cases h2 : fin e with
      | error p => simp [h2] at h
      | ok e' => simp [h2] at h; subst h; rfl
  | .more x ws as, es, h => by
    rw [CArgs.den] at h
    cases h1 : x.den fin ctx with
    | error p => simp [h1] at h
    | ok e =>
      simp only [h1] at h
      cases h2 : fin e with
      | error p => simp [h2] at h
      | ok e' =>
        simp only [h2] at h
        cases h3 : as.den fin ctx with
        | error p => simp [h3] at h
        | ok es' =>
          simp [h3] at h; subst h
          simp [CArgs.count, den_length as h3]

/-- the statement about argument lists -/
def ArgsOk (cfg : Cfg) (w : World) (ctx : Context) (as : CArgs) : Prop :=
  ∀ pos rest acc, as.wf cfg (finOf cfg w) ctx rest →
    args cfg (elem cfg w ctx) acc ⟨pos, as.text ++ c!")" :: rest⟩ =
      ofPM ((as.den (finOf cfg w) ctx).map (acc ++ ·)) ⟨pos + as.text.length, c!")" :: rest⟩

theorem argument_elem {x : Cst} (h : ChainOk cfg w ctx x) {pos : Nat} {ws t : Bytes} {c : UInt8}
    (hws : spaces ws) (hc : c = c!")" ∨ c = c!",")
    (hw : x.wf cfg fin ctx (ws ++ c :: t)) :
    argument cfg rc ⟨pos, x.text ++ (ws ++ c :: t)⟩ =
      ofPM (x.meaning fin ctx) ⟨pos + x.text.length + ws.length, c :: t⟩ := by
  have := elem_of_chain h (pos := pos) hw
    (closed_of_stops (fun q P => stops_delim hws hc) x) (chain_pos cfg x) (stops_delim hws hc)
  unfold argument
  rw [noPrec, this, trim_spaces_cons _ hws (by rcases hc with rfl | rfl <;> decide)]
  cases x.meaning fin ctx <;> rfl

theorem args_last {x : Cst} {ws : Bytes} (h : ChainOk cfg w ctx x) :
    ArgsOk cfg w ctx (.last x ws) := by
  rintro pos rest acc ⟨hws, hw⟩
  have ha := argument_elem h (pos := pos) hws (Or.inl rfl) hw
  rw [args_unfold (elem_consumes cfg w ctx)]
  simp only [CArgs.text, List.append_assoc, CArgs.den]
  rw [ha]
  unfold Cst.meaning
  cases h1 : x.den fin ctx with
  | error p => rfl
  | ok e =>
    simp only
    cases h2 : fin e with
    | error p => rfl
    | ok e' =>
      simp only [ofPM_ok, R.bind_ok]
      rw [trim_of_trimmed (by intro c hc; simp at hc; subst hc; decide)]
      simp [Except.map, Nat.add_assoc]

theorem args_more {x : Cst} {ws : Bytes} {as : CArgs} (h : ChainOk cfg w ctx x)
    (hs : ArgsOk cfg w ctx as) : ArgsOk cfg w ctx (.more x ws as) := by
  rintro pos rest acc ⟨hws, hw, hws'⟩
  have ha := argument_elem h (pos := pos) hws (Or.inr rfl) hw
  rw [args_unfold (elem_consumes cfg w ctx)]
  simp only [CArgs.text, List.append_assoc, CArgs.den, List.cons_append]
  rw [ha]
  unfold Cst.meaning
  cases h1 : x.den fin ctx with
  | error p => rfl
  | ok e =>
    simp only
    cases h2 : fin e with
    | error p => rfl
    | ok e' =>
      simp only [ofPM_ok, R.bind_ok]
      rw [trim_of_trimmed (by intro c hc; simp at hc; subst hc; decide)]
      simp only [List.head?_cons, if_true, adv, List.drop_succ_cons, List.drop_zero]
      rw [hs _ _ _ hws']
      cases as.den fin ctx with
      | error p => rfl
      | ok es => simp [Except.map, Nat.add_assoc, Nat.add_comm, Nat.add_left_comm]

theorem atom_call {ws nm ws2 : Bytes} {as : CArgs} (hs : ArgsOk cfg w ctx as) :
    AtomOk cfg w ctx (.call ws nm ws2 as) := by
  rintro pos rest ⟨hws, hn, hws2, ⟨f, hf, hcount⟩, hwa⟩
  have hn' : Name nm (ws2 ++ (c!"(" :: (as.text ++ c!")" :: rest))) := by
    refine ⟨hn.1, hn.2.1, ?_⟩
    intro c hc
    cases ws2 with
    | nil => simp at hc; subst hc; decide
    | cons a t =>
      simp at hc; subst hc
      have := hws2 a (by simp)
      exact space_not_nameChar this
  obtain ⟨c, h1, h2⟩ := hn.1
  obtain ⟨n1, n2, n3⟩ := letter_facts h2
  have hc : (nm ++ (ws2 ++ (c!"(" :: (as.text ++ c!")" :: rest)))).head? = some c := by
    cases nm <;> simp_all
  have ht : trim ⟨pos, ws ++ (nm ++ (ws2 ++ (c!"(" :: (as.text ++ c!")" :: rest))))⟩ =
      ⟨pos + ws.length, nm ++ (ws2 ++ (c!"(" :: (as.text ++ c!")" :: rest)))⟩ :=
    trim_spaces pos hws (by intro d hd; rw [hc] at hd; cases hd; exact n1)
  have e1 : (Cst.call ws nm ws2 as).text ++ rest =
      ws ++ (nm ++ (ws2 ++ (c!"(" :: (as.text ++ c!")" :: rest)))) := by
    simp [Cst.text]
  rw [e1]
  simp only [atom, ht, hc, n2, n3, Bool.false_eq_true, if_false, if_true]
  have ht2 := trim_spaces_cons (t := as.text ++ c!")" :: rest) (pos + ws.length + nm.length) hws2
    (by decide : ¬ space c!"(")
  simp only [parseIdent, name_takeWhile hn', name_skip _ hn', hf]
  simp only [consumeIf, ht2, List.head?_cons, if_true, adv, List.drop_succ_cons, List.drop_zero]
  have ha := hs (pos + ws.length + nm.length + ws2.length + 1) rest [] hwa
  unfold args at ha
  simp only at ha
  rw [ha, Cst.den]
  cases hd : as.den fin ctx with
  | error p => rfl
  | ok es =>
    have hlen := den_length as hd
    simp only [Except.map, ofPM_ok, R.bind_ok, hf, List.nil_append]
    rw [assertConsume, consumeIf,
      trim_of_trimmed (by intro c hc; simp at hc; subst hc; decide)]
    simp only [List.head?_cons, if_true, R.bind_ok, adv, List.drop_succ_cons, List.drop_zero]
    have hpos : pos + ws.length + nm.length + ws2.length + 1 + as.text.length + 1 =
        pos + (Cst.call ws nm ws2 as).text.length := by
      simp [Cst.text]; omega
    rw [hpos]
    unfold checkArity
    cases hnb : f.nbArgs with
    | none => rfl
    | some n =>
      have := hcount n hnb
      simp [hlen, this]

theorem atom_paren {ws ws2 : Bytes} {x : Cst} (h : ChainOk cfg w ctx x) :
    AtomOk cfg w ctx (.paren ws x ws2) := by
  rintro pos rest ⟨hws, hws2, hw⟩
  have e1 : (Cst.paren ws x ws2).text ++ rest =
      ws ++ (c!"(" :: (x.text ++ (ws2 ++ c!")" :: rest))) := by simp [Cst.text]
  have ht := trim_spaces_cons (t := x.text ++ (ws2 ++ c!")" :: rest)) pos hws
    (by decide : ¬ space c!"(")
  have he := elem_of_chain h (pos := pos + ws.length + 1) hw
    (closed_of_stops (fun q P => stops_delim hws2 (Or.inl rfl)) x) (chain_pos cfg x)
    (stops_delim hws2 (Or.inl rfl))
  rw [e1]
  simp only [atom, ht, List.head?_cons]
  rw [if_neg (by decide), if_neg (by decide), if_neg (by decide), if_neg (by decide),
    if_pos trivial]
  simp only [adv, List.drop_succ_cons, List.drop_zero, noPrec]
  rw [he, trim_spaces_cons _ hws2 (by decide)]
  unfold Cst.meaning
  rw [Cst.den]
  cases hd : x.den fin ctx with
  | error p => rfl
  | ok e =>
    simp only
    cases hf : fin e with
    | error p => rfl
    | ok e' =>
      simp only [ofPM_ok, R.bind_ok]
      rw [assertConsume, consumeIf,
        trim_of_trimmed (by intro c hc; simp at hc; subst hc; decide)]
      simp [Cst.text, adv]; omega

theorem chain_sign {ws : Bytes} {neg : Bool} {x : Cst} (h : ChainOk cfg w ctx x) :
    ChainOk cfg w ctx (.sign ws neg x) := by
  rintro pos rest p ⟨hws, hw, hlt⟩ ⟨hs, hc⟩ _
  have e1 : (Cst.sign ws neg x).text ++ rest =
      ws ++ ((if neg then c!"-" else c!"+") :: (x.text ++ rest)) := by simp [Cst.text]
  have hsp : ¬ space (if neg then c!"-" else c!"+") := by cases neg <;> decide
  have ht := trim_spaces_cons (t := x.text ++ rest) pos hws hsp
  have he := elem_of_chain h (pos := pos + ws.length + 1) hw hc hlt hs
  have hnb : noBang rest := noBang_of_stops (by decide) hs
  have hpos : pos + ws.length + 1 + x.text.length = pos + (Cst.sign ws neg x).text.length := by
    simp [Cst.text]; omega
  have ha : atom cfg ctx rc ⟨pos, (Cst.sign ws neg x).text ++ rest⟩ =
      ofPM ((Cst.sign ws neg x).den fin ctx)
        (trim ⟨pos + (Cst.sign ws neg x).text.length, rest⟩) := by
    rw [e1]
    simp only [atom, ht, List.head?_cons]
    rw [signLevel] at he
    cases neg
    · simp only [Bool.false_eq_true, if_false]
      rw [if_neg (by decide), if_neg (by decide), if_pos trivial]
      simp only [adv, List.drop_succ_cons, List.drop_zero, unopPrec]
      rw [he, hpos]
      unfold Cst.meaning
      rw [Cst.den]
      cases hd : x.den fin ctx with
      | error p => rfl
      | ok e => simp only; cases hf : fin e <;> rfl
    · simp only [if_true]
      rw [if_neg (by decide), if_neg (by decide), if_neg (by decide)]
      simp only [adv, List.drop_succ_cons, List.drop_zero, unopPrec]
      rw [he, hpos]
      unfold Cst.meaning
      rw [Cst.den]
      cases hd : x.den fin ctx with
      | error p => rfl
      | ok e => simp only; cases hf : fin e <;> rfl
  rw [ha]
  cases (Cst.sign ws neg x).den fin ctx with
  | error e => rfl
  | ok e =>
    simp only [ofPM_ok, R.bind_ok]
    rw [afterAtom_noBang (elem_consumes cfg w ctx), loop_trim (elem_consumes cfg w ctx)]
    rw [noBang, ← firstTok_trim, trim_trim, firstTok_trim]
    exact hnb

theorem chain_fact {ws : Bytes} {x : Cst} (h : x.primary → AtomOk cfg w ctx x) :
    ChainOk cfg w ctx (.fact x ws) := by
  rintro pos rest p ⟨hp, hws, hw⟩ _ _
  have e1 : (Cst.fact x ws).text ++ rest = x.text ++ (ws ++ c!"!" :: rest) := by simp [Cst.text]
  rw [e1, h hp pos _ hw, Cst.den]
  cases hd : x.den fin ctx with
  | error p => rfl
  | ok e =>
    simp only [ofPM_ok, R.bind_ok]
    rw [afterAtom_bang _ _ _ _ _ hws]
    have : pos + x.text.length + ws.length + 1 = pos + (Cst.fact x ws).text.length := by
      simp [Cst.text]; omega
    rw [this]

theorem opInfo_op {el : Elem} {p : Nat} {op : Op} {pos : Nat} {t : Bytes}
    (hp : p < level op) :
    opInfo cfg el p ⟨pos, opChar op :: t⟩ = some (op, level op, 1) := by
  unfold opInfo
  simp only [List.head?_cons, opOfByte_opChar]
  rw [level_eq] at *
  rw [if_neg (by omega)]

theorem chain_bin {l r : Cst} {ws : Bytes} {op : Op} (hl : ChainOk cfg w ctx l)
    (hr : ChainOk cfg w ctx r) : ChainOk cfg w ctx (.bin l ws op r) := by
  rintro pos rest p ⟨hws, hwl, hcl, hwr, hlt⟩ ⟨hs, hc⟩ hp
  rw [Cst.chain, Nat.lt_min] at hp
  have e1 : (Cst.bin l ws op r).text ++ rest = l.text ++ (ws ++ opChar op :: r.text ++ rest) := by
    simp [Cst.text]
  rw [e1, hl pos _ p hwl hcl hp.2, Cst.den]
  cases hd : l.den fin ctx with
  | error p => rfl
  | ok a =>
    simp only [ofPM_ok, R.bind_ok]
    rw [loop_unfold (elem_consumes cfg w ctx)]
    have ht : trim ⟨pos + l.text.length, ws ++ opChar op :: r.text ++ rest⟩ =
        ⟨pos + l.text.length + ws.length, opChar op :: (r.text ++ rest)⟩ := by
      rw [List.append_assoc, List.cons_append]
      exact trim_spaces_cons _ hws (not_space_opChar op)
    rw [ht, opInfo_op hp.1]
    simp only [adv, List.drop_succ_cons, List.drop_zero]
    rw [elem_of_chain hr hwr hc hlt hs]
    unfold Cst.meaning
    cases hdr : r.den fin ctx with
    | error p => rfl
    | ok e =>
      simp only
      cases hf : fin e with
      | error p => rfl
      | ok b =>
        simp only [ofPM_ok, R.bind_ok]
        rw [loop_trim (elem_consumes cfg w ctx)]
        have : pos + l.text.length + ws.length + 1 + r.text.length =
            pos + (Cst.bin l ws op r).text.length := by simp [Cst.text]; omega
        rw [this]

theorem juxt_head : ∀ {c : UInt8}, (lower c ∨ c = c!"(" ∨ digit c) → opOfByte c = none :=
  fun {c} => forall_byte (P := fun c => (lower c ∨ c = c!"(" ∨ digit c) → opOfByte c = none)
    (by decide +kernel) c

theorem opInfo_juxt {el : Elem} {p : Nat} {s : St} {c : UInt8}
    (hc : s.rest.head? = some c) (hp : p < implLevel cfg)
    (h : lower c ∨ c = c!"(" ∨ (digit c ∧ el.isNum = false)) :
    opInfo cfg el p s = some (.times, implLevel cfg, 0) := by
  unfold opInfo
  rw [hc]
  simp only
  rw [juxt_head (by rcases h with h | h | h <;> simp [h])]
  simp only
  rw [implLevel_eq] at *
  rw [if_neg (by omega)]
  split
  · rfl
  · rename_i hn
    rw [Bool.or_eq_true, decide_eq_true_iff, isLower_iff] at hn
    have h3 : digit c ∧ el.isNum = false := by
      rcases h with h | h | h
      · exact absurd (Or.inl h) hn
      · exact absurd (Or.inr h) hn
      · exact h
    simp [(isDigit_iff c).2 h3.1, h3.2]

theorem elem_trim (p : Nat) (s : St) : rc p (trim s) = rc p s := by
  rw [elem_unfold, elem_unfold cfg w ctx p s]
  simp only [elementF, atom, trim_trim]

theorem chain_juxt {l r : Cst} (hl : ChainOk cfg w ctx l)
    (hr : ChainOk cfg w ctx r) : ChainOk cfg w ctx (.juxt l r) := by
  rintro pos rest p ⟨hwl, hcl, hwr, hlt, c, hfc, hcc⟩ ⟨hs, hc⟩ hp
  rw [Cst.chain, Nat.lt_min] at hp
  have e1 : (Cst.juxt l r).text ++ rest = l.text ++ (r.text ++ rest) := by
    simp [Cst.text]
  rw [e1, hl pos _ p hwl hcl hp.2, Cst.den]
  cases hd : l.den fin ctx with
  | error p => rfl
  | ok a =>
    simp only [ofPM_ok, R.bind_ok]
    rw [loop_unfold (elem_consumes cfg w ctx)]
    rw [opInfo_juxt (c := c) (by rw [firstTok_trim]; exact hfc) hp.1 (by
      rw [isNum_iff hd] at hcc
      rcases hcc with h | h | h
      · exact Or.inl h
      · exact Or.inr (Or.inl h)
      · exact Or.inr (Or.inr ⟨h.1, by simpa using h.2⟩))]
    simp only [adv, List.drop_zero, Nat.add_zero]
    rw [elem_trim, elem_of_chain hr hwr hc hlt hs]
    unfold Cst.meaning
    cases hdr : r.den fin ctx with
    | error p => rfl
    | ok e =>
      simp only
      cases hf : fin e with
      | error p => rfl
      | ok b =>
        simp only [ofPM_ok, R.bind_ok]
        rw [loop_trim (elem_consumes cfg w ctx)]
        have : pos + l.text.length + r.text.length =
            pos + (Cst.juxt l r).text.length := by simp [Cst.text]; omega
        rw [this]

mutual
theorem fwd (cfg : Cfg) (w : World) (ctx : Context) : ∀ x : Cst,
    (x.primary → AtomOk cfg w ctx x) ∧ ChainOk cfg w ctx x
  | .num ws txt v => ⟨fun _ => atom_num ws txt v, chainOk_of_atomOk (atom_num ws txt v)
      (fun _ h => h)⟩
  | .name ws nm => ⟨fun _ => atom_name ws nm, chainOk_of_atomOk (atom_name ws nm) (fun _ h => h)⟩
  | .call _ _ _ as => ⟨fun _ => atom_call (fwdArgs cfg w ctx as),
      chainOk_of_atomOk (atom_call (fwdArgs cfg w ctx as)) (fun _ h => h)⟩
  | .paren _ x _ => ⟨fun _ => atom_paren (fwd cfg w ctx x).2,
      chainOk_of_atomOk (atom_paren (fwd cfg w ctx x).2) (fun _ h => h)⟩
  | .sign _ _ x => ⟨fun h => h.elim, chain_sign (fwd cfg w ctx x).2⟩
  | .fact x _ => ⟨fun h => h.elim, chain_fact (fwd cfg w ctx x).1⟩
  | .bin l _ _ r => ⟨fun h => h.elim, chain_bin (fwd cfg w ctx l).2 (fwd cfg w ctx r).2⟩
  | .juxt l r => ⟨fun h => h.elim, chain_juxt (fwd cfg w ctx l).2 (fwd cfg w ctx r).2⟩
theorem fwdArgs (cfg : Cfg) (w : World) (ctx : Context) : ∀ as : CArgs, ArgsOk cfg w ctx as
  | .last x _ => args_last (fwd cfg w ctx x).2
  | .more x _ as => args_more (fwd cfg w ctx x).2 (fwdArgs cfg w ctx as)
end

/-- **Forward theorem**: a legal text, with whitespace after it, parses to its meaning. -/
theorem parseImpl_text (cfg : Cfg) (w : World) (ctx : Context) (x : Cst) (tw : Bytes)
    (hw : x.wf cfg (finOf cfg w) ctx tw) (ht : spaces tw) :
    parseImpl cfg w ctx (x.text ++ tw) =
      match x.meaning (finOf cfg w) ctx with
      | .ok e => .ok ⟨e, findVars e []⟩
      | .error p => .panic p := by
  have he := elem_of_chain (fwd cfg w ctx x).2 (pos := 0) (p := 0) hw
    (closed_of_stops (fun q P => stops_nil ht) x) (chain_pos cfg x) (stops_nil ht)
  unfold parseImpl
  have : element cfg w ctx ((x.text ++ tw).length + 1) noPrec ⟨0, x.text ++ tw⟩ =
      elem cfg w ctx 0 ⟨0, x.text ++ tw⟩ := rfl
  rw [this, he]
  cases x.meaning (finOf cfg w) ctx with
  | error p => rfl
  | ok e =>
    simp only [ofPM_ok]
    have h0 : (trim (trim ⟨0 + x.text.length, tw⟩)).rest.head? = none := by
      rw [trim_trim, firstTok_trim]
      have := firstTok_spaces (t := []) ht
      rw [List.append_nil] at this
      rw [this]; rfl
    rw [h0]

end
end Xprs
