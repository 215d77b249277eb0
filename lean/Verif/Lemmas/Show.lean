import Verif.Display
import Verif.Spec.Show
import Verif.Lemmas.Written
import Verif.Lemmas.Normal
/-
The text of an expression as a written-out tree.
-/
namespace Xprs
open Spec

mutual
/-- The way `Display` writes a tree, with `ws` in front. -/
def showCst (fmt : F64 → Bytes) (ws : Bytes) : Elem → Cst
  | .num (.fin true n h) => .sign ws true (.num [] (fmt (.fin false n h)) (.fin false n h))
  | .num x => .num ws (fmt x) x
  | .var n => .name ws n
  | .bin op l r => .paren ws (.bin (showCst fmt [] l) b!" " op (showCst fmt b!" " r)) []
  | .un op e => .paren ws (.sign [] (decide (op = .minus)) (showCst fmt [] e)) []
  | .call f args => .call ws f.name [] (showArgs fmt [] args)
def showArgs (fmt : F64 → Bytes) (ws : Bytes) : List Elem → CArgs
  | [] => .last (.name [] []) []
  | [a] => .last (showCst fmt ws a) []
  | a :: b :: as => .more (showCst fmt ws a) [] (showArgs fmt b!" " (b :: as))
end

section
variable {fmt : F64 → Bytes} {ctx : Context} {neg : Bool}

mutual
theorem showCst_text (hf : Prints fmt) : ∀ (e : Elem) (ws : Bytes), Legible ctx neg e →
    (showCst fmt ws e).text = ws ++ showE fmt e
  | .num .nan, ws, h => by cases h
  | .num (.inf s), ws, h => by cases h
  | .num (.fin false n k), ws, h => by simp [showCst, Cst.text, showE]
  | .num (.fin true n k), ws, h => by simp [showCst, Cst.text, showE, hf.neg]
  | .var n, ws, h => by simp [showCst, Cst.text, showE]
  | .bin op l r, ws, h => by
    cases h with
    | bin h1 h2 h3 h4 =>
      rw [showCst, Cst.text, Cst.text, showCst_text hf l [] h2, showCst_text hf r b!" " h3, showE]
      cases op <;> simp [opText, opChar]
  | .un op e, ws, h => by
    cases h with
    | un h1 h2 =>
      rw [showCst, Cst.text, Cst.text, showCst_text hf e [] h2, showE]
      rcases h1 with rfl | rfl <;> simp [opText]
  | .call f args, ws, h => by
    cases h with
    | call h1 h2 h3 h4 h5 =>
      rw [showCst, Cst.text, showArgs_text hf args [] h5 (List.ne_nil_of_length_pos h3), showE]
      simp
theorem showArgs_text (hf : Prints fmt) : ∀ (as : List Elem) (ws : Bytes),
    (∀ a ∈ as, Legible ctx neg a) → as ≠ [] →
    (showArgs fmt ws as).text = ws ++ joinWith b!", " (showL fmt as)
  | [], ws, h, hn => absurd rfl hn
  | [a], ws, h, _ => by
    rw [showArgs, CArgs.text, showCst_text hf a ws (h a (by simp)), showL, showL, joinWith]
    simp
  | a :: b :: as, ws, h, _ => by
    rw [showArgs, CArgs.text, showCst_text hf a ws (h a (by simp)),
      showArgs_text hf (b :: as) b!" " (fun c hc => h c (by simp [hc])) (by simp)]
    have : joinWith b!", " (showL fmt (a :: b :: as)) =
        showE fmt a ++ b!", " ++ joinWith b!", " (showL fmt (b :: as)) := by
      rw [showL, showL, joinWith]; simp
    rw [this]
    simp
end

theorem showArgs_count : ∀ (as : List Elem) (ws : Bytes), as ≠ [] →
    (showArgs fmt ws as).count = as.length
  | [], ws, hn => absurd rfl hn
  | [a], ws, _ => rfl
  | a :: b :: as, ws, _ => by
    rw [showArgs, CArgs.count, showArgs_count (b :: as) _ (by simp)]; rfl

theorem showCst_top (cfg : Cfg) (e : Elem) (ws : Bytes) : (showCst fmt ws e).top cfg = 7 := by
  cases e with
  | num x => rcases x with _ | _ | ⟨_ | _, _, _⟩ <;> rfl
  | _ => rfl

theorem showCst_edge (cfg : Cfg) (e : Elem) (ws : Bytes) (h : ¬ Negative e) :
    (showCst fmt ws e).edge cfg = 7 := by
  cases e with
  | num x =>
    rcases x with _ | _ | ⟨_ | _, n, k⟩
    · rfl
    · rfl
    · rfl
    · exact absurd ⟨n, k, rfl⟩ h
  | _ => rfl

theorem showCst_edge3 (cfg : Cfg) (e : Elem) (ws : Bytes) : 3 ≤ (showCst fmt ws e).edge cfg := by
  by_cases h : Negative e
  · obtain ⟨n, k, rfl⟩ := h
    show 3 ≤ min signLevel 7
    decide
  · rw [showCst_edge cfg e ws h]; decide

theorem spaces_nil : spaces [] := by intro c hc; cases hc

mutual
theorem showCst_good (cfg : Cfg) (hf : Prints fmt) : ∀ (e : Elem) (ws : Bytes), spaces ws →
    Legible ctx neg e → (showCst fmt ws e).good cfg ctx
  | .num .nan, ws, hw, h => by cases h
  | .num (.inf s), ws, hw, h => by cases h
  | .num (.fin false n k), ws, hw, h => ⟨hw, hf.pos n k⟩
  | .num (.fin true n k), ws, hw, h => ⟨hw, ⟨spaces_nil, hf.pos n k⟩, by show signLevel < 7; decide⟩
  | .var n, ws, hw, h => by
    cases h with
    | var h1 h2 h3 => exact ⟨hw, h1, h2⟩
  | .bin op l r, ws, hw, h => by
    cases h with
    | bin h1 h2 h3 h4 =>
      rw [showCst]
      refine ⟨hw, spaces_nil, h1, by decide, showCst_good cfg hf l [] spaces_nil h2,
        showCst_good cfg hf r b!" " (by decide) h3, ?_, ?_⟩
      · by_cases hp : op = .power
        · rw [showCst_edge cfg l [] (h4 hp)]; cases op <;> decide
        · refine Nat.le_trans ?_ (showCst_edge3 cfg l [])
          cases op <;> first | decide | exact absurd rfl hp | exact absurd rfl h1
      · rw [showCst_top]; cases op <;> decide
  | .un op e, ws, hw, h => by
    cases h with
    | un h1 h2 =>
      rw [showCst]
      refine ⟨hw, spaces_nil, spaces_nil, showCst_good cfg hf e [] spaces_nil h2, ?_⟩
      rw [showCst_top]; decide
  | .call f args, ws, hw, h => by
    cases h with
    | call h1 h2 h3 h4 h5 =>
      rw [showCst]
      have hne := List.ne_nil_of_length_pos h3
      exact ⟨hw, h1, spaces_nil, ⟨f, h2, by rw [showArgs_count _ _ hne]; exact h4⟩,
        showArgs_good cfg hf args [] spaces_nil h5 hne⟩
theorem showArgs_good (cfg : Cfg) (hf : Prints fmt) : ∀ (as : List Elem) (ws : Bytes), spaces ws →
    (∀ a ∈ as, Legible ctx neg a) → as ≠ [] → (showArgs fmt ws as).good cfg ctx
  | [], ws, _, h, hn => absurd rfl hn
  | [a], ws, hw, h, _ => by
    rw [showArgs]
    exact ⟨spaces_nil, showCst_good cfg hf a ws hw (h a (by simp))⟩
  | a :: b :: as, ws, hw, h, _ => by
    rw [showArgs]
    exact ⟨spaces_nil, showCst_good cfg hf a ws hw (h a (by simp)),
      showArgs_good cfg hf (b :: as) b!" " (by decide) (fun c hc => h c (by simp [hc])) (by simp)⟩
end

/-- Nothing is left to do for `fin` on any sub-tree; negative numbers only if `fin`
folds signs. -/
def Settled (cfg : Cfg) (w : World) (e : Elem) : Prop :=
  cfg.opt = true → simplify cfg w e = .ok e

theorem finOf_settled {cfg : Cfg} {w : World} {e : Elem} (h : Settled cfg w e) :
    finOf cfg w e = .ok e := by
  unfold finOf
  split
  · exact h ‹_›
  · rfl

mutual
/-- The text denotes the tree, but for the sign of a negative number, which `fin`
folds. -/
theorem showCst_den {cfg : Cfg} {w : World} : ∀ (e : Elem) (ws : Bytes),
    Legible ctx cfg.opt e → Settled cfg w e →
    ∃ d, (showCst fmt ws e).den (finOf cfg w) ctx = .ok d ∧ finOf cfg w d = .ok e ∧
      (Negative e ∨ d = e)
  | .num .nan, ws, h, _ => by cases h
  | .num (.inf s), ws, h, _ => by cases h
  | .num (.fin false n k), ws, h, hs => ⟨_, rfl, finOf_settled hs, .inr rfl⟩
  | .num (.fin true n k), ws, h, hs => by
    cases h with
    | minus ho =>
      have h1 : finOf cfg w (.num (.fin false n k)) = .ok (.num (.fin false n k)) := by
        unfold finOf; split
        · rw [simplify]
        · rfl
      refine ⟨.un .minus (.num (.fin false n k)), ?_, ?_, .inl ⟨n, k, rfl⟩⟩
      · rw [showCst, Cst.den, Cst.den]
        simp only [h1, if_true]
      · unfold finOf
        rw [if_pos ho, simplify, simplify]
        rfl
  | .var nm, ws, h, hs => by
    cases h with
    | var h1 h2 h3 =>
      refine ⟨.var nm, ?_, finOf_settled hs, .inr rfl⟩
      rw [showCst, Cst.den]
      cases hl : lookup ctx nm with
      | const x => exact absurd hl (h3 x)
      | _ => rfl
  | .bin op l r, ws, h, hs => by
    cases h with
    | bin h1 h2 h3 h4 =>
      have sl : Settled cfg w l := fun ho => (fix_bin (hs ho)).1
      have sr : Settled cfg w r := fun ho => (fix_bin (hs ho)).2
      obtain ⟨dl, l1, l2, _⟩ := showCst_den l [] h2 sl
      obtain ⟨dr, r1, r2, _⟩ := showCst_den r b!" " h3 sr
      have hfin : finOf cfg w (.bin op dl r) = .ok (.bin op l r) := by
        unfold finOf at l2 ⊢
        cases ho : cfg.opt with
        | false =>
          rw [ho] at l2
          simp only [Bool.false_eq_true, if_false] at l2 ⊢
          cases l2; rfl
        | true =>
          rw [ho] at l2
          simp only [if_true] at l2 ⊢
          rw [simplify_bin_of l2 (sr ho), ← simplify_bin_of (sl ho) (sr ho)]
          exact hs ho
      refine ⟨.bin op l r, ?_, finOf_settled hs, .inr rfl⟩
      rw [showCst, Cst.den, Cst.den, l1, r1]
      simp only [r2, hfin]
  | .un op e, ws, h, hs => by
    cases h with
    | un h1 h2 =>
      have se : Settled cfg w e := fun ho => fix_un (hs ho)
      obtain ⟨d, d1, d2, _⟩ := showCst_den e [] h2 se
      refine ⟨.un op e, ?_, finOf_settled hs, .inr rfl⟩
      rw [showCst, Cst.den, Cst.den, d1]
      simp only [d2]
      have : (if decide (op = .minus) = true then Op.minus else .plus) = op := by
        rcases h1 with rfl | rfl <;> rfl
      rw [this]
      exact finOf_settled hs
  | .call f args, ws, h, hs => by
    cases h with
    | call h1 h2 h3 h4 h5 =>
      have hne := List.ne_nil_of_length_pos h3
      have := showArgs_den (cfg := cfg) (w := w) args [] h5 (fun ho => fix_call (hs ho)) hne
      refine ⟨.call f args, ?_, finOf_settled hs, .inr rfl⟩
      rw [showCst, Cst.den, this]
      simp only [h2]
theorem showArgs_den {cfg : Cfg} {w : World} : ∀ (as : List Elem) (ws : Bytes),
    (∀ a ∈ as, Legible ctx cfg.opt a) → (cfg.opt = true → simplifyL cfg w as = .ok as) → as ≠ [] →
    (showArgs fmt ws as).den (finOf cfg w) ctx = .ok as
  | [], ws, h, hs, hn => absurd rfl hn
  | [a], ws, h, hs, _ => by
    obtain ⟨d, d1, d2, _⟩ := showCst_den (cfg := cfg) (w := w) a ws (h a (by simp))
      fun ho => (fixL_cons (hs ho)).1
    rw [showArgs, CArgs.den, d1]
    simp only [d2]
  | a :: b :: as, ws, h, hs, _ => by
    obtain ⟨d, d1, d2, _⟩ := showCst_den (cfg := cfg) (w := w) a ws (h a (by simp))
      fun ho => (fixL_cons (hs ho)).1
    have := showArgs_den (cfg := cfg) (w := w) (b :: as) b!" " (fun c hc => h c (by simp [hc]))
      (fun ho => (fixL_cons (hs ho)).2) (by simp)
    rw [showArgs, CArgs.den, d1, this]
    simp only [d2]
end

/-- The text of a legible tree is read as that tree. -/
theorem parseImpl_show {cfg : Cfg} {w : World} (hf : Prints fmt) {e : Elem}
    (h : Legible ctx cfg.opt e) (hs : Settled cfg w e) :
    parseImpl cfg w ctx (showE fmt e) = .ok ⟨e, findVars e []⟩ := by
  have h1 := showCst_text hf e [] h
  have h2 := parseImpl_written (cfg := cfg) w (showCst_good cfg hf e [] spaces_nil h) spaces_nil
  rw [h1, List.nil_append, List.append_nil] at h2
  rw [h2]
  obtain ⟨d, d1, d2, _⟩ := showCst_den (fmt := fmt) e [] h hs
  rw [Cst.meaning, d1]
  simp only [d2]

end
end Xprs

/-! ### `(!` is in no legal text -/
namespace Xprs
open Spec

/-- No `!` right after a `(`, when `p` comes before. -/
def bangFree : UInt8 → Bytes → Prop
  | _, [] => True
  | p, c :: l => ¬ (p = c!"(" ∧ c = c!"!") ∧ bangFree c l
def ends : UInt8 → Bytes → UInt8
  | p, [] => p
  | _, c :: l => ends c l

theorem bangFree_append : ∀ (x : Bytes) (p : UInt8) (y : Bytes),
    bangFree p (x ++ y) ↔ bangFree p x ∧ bangFree (ends p x) y
  | [], _, _ => by simp [bangFree, ends]
  | c :: x, p, y => by
    rw [List.cons_append, bangFree, bangFree_append x c y, bangFree, ends, and_assoc]
theorem ends_append : ∀ (x : Bytes) (p : UInt8) (y : Bytes), ends p (x ++ y) = ends (ends p x) y
  | [], _, _ => rfl
  | c :: x, _, y => ends_append x c y
theorem bangFree_free : ∀ (x : Bytes) (p : UInt8), (∀ c ∈ x, c ≠ c!"!") → bangFree p x
  | [], _, _ => trivial
  | c :: x, p, h => ⟨fun k => h c (by simp) k.2, bangFree_free x c fun d hd => h d (by simp [hd])⟩
theorem ends_free : ∀ (x : Bytes) (p : UInt8), (∀ c ∈ x, c ≠ c!"(") → p ≠ c!"(" → ends p x ≠ c!"("
  | [], _, _, hp => hp
  | c :: x, _, h, _ => ends_free x c (fun d hd => h d (by simp [hd])) (h c (by simp))
theorem ends_free' (x : Bytes) (p : UInt8) (h : ∀ c ∈ x, c ≠ c!"(") (hx : x ≠ []) : ends p x ≠ c!"(" := by
  cases x with
  | nil => exact absurd rfl hx
  | cons c x => exact ends_free x c (fun d hd => h d (by simp [hd])) (h c (by simp))

theorem bangFree_infix {p : UInt8} {l : Bytes} (h : bangFree p l) : ¬ b!"(!" <:+: l := by
  rintro ⟨x, y, rfl⟩
  rw [bangFree_append, bangFree_append] at h
  exact h.1.2.2.1 ⟨rfl, rfl⟩

theorem space_plain {c : UInt8} : space c → c ≠ c!"!" ∧ c ≠ c!"(" :=
  forall_byte (P := fun c => space c → c ≠ c!"!" ∧ c ≠ c!"(") (by decide +kernel) c
theorem nameChar_plain {c : UInt8} : nameChar c → c ≠ c!"!" ∧ c ≠ c!"(" :=
  forall_byte (P := fun c => nameChar c → c ≠ c!"!" ∧ c ≠ c!"(") (by decide +kernel) c
theorem mantChar_plain {c : UInt8} : mantChar c → c ≠ c!"!" ∧ c ≠ c!"(" :=
  forall_byte (P := fun c => mantChar c → c ≠ c!"!" ∧ c ≠ c!"(") (by decide +kernel) c

theorem literal_plain {txt rest : Bytes} {v : F64} (h : Literal txt rest v) :
    txt ≠ [] ∧ ∀ c ∈ txt, c ≠ c!"!" ∧ c ≠ c!"(" := by
  obtain ⟨mant, ip, fp, ⟨c, hc, _⟩, hm, _, h⟩ := h
  have hne : mant ≠ [] := by rintro rfl; cases hc
  rcases h with ⟨rfl, _⟩ | ⟨e, sg, ds, he, _, hds, rfl, _, h⟩
  · exact ⟨hne, fun c hc => mantChar_plain (hm c hc)⟩
  · refine ⟨by simp [hne], fun c hc => ?_⟩
    rcases List.mem_append.1 hc with hc | hc
    · exact mantChar_plain (hm c hc)
    rcases List.mem_cons.1 hc with rfl | hc
    · rcases he with rfl | rfl <;> decide
    rcases List.mem_append.1 hc with hc | hc
    · rcases h with ⟨rfl | rfl, _⟩ | ⟨rfl, _⟩
      · cases hc
      · rw [List.mem_singleton.1 hc]; decide
      · rw [List.mem_singleton.1 hc]; decide
    · exact mantChar_plain (.inl (hds c hc))

theorem plain_text {x : Bytes} (hne : x ≠ []) (h : ∀ c ∈ x, c ≠ c!"!" ∧ c ≠ c!"(") (p : UInt8) :
    bangFree p x ∧ ends p x ≠ c!"(" :=
  ⟨bangFree_free x p fun c hc => (h c hc).1, ends_free' x p (fun c hc => (h c hc).2) hne⟩

theorem spaces_apart {ws : Bytes} (h : spaces ws) (p : UInt8) : bangFree p ws :=
  bangFree_free ws p fun c hc => (space_plain (h c hc)).1

theorem spaces_ends {ws : Bytes} (h : spaces ws) {p : UInt8} (hp : p ≠ c!"(") : ends p ws ≠ c!"(" :=
  ends_free ws p (fun c hc => (space_plain (h c hc)).2) hp

theorem opChar_plain (op : Op) : opChar op ≠ c!"(" := by cases op <;> decide

mutual
theorem text_apart {cfg : Cfg} {fn : Elem → PM Elem} {ctx : Context} : ∀ (x : Cst) (rest : Bytes)
    (p : UInt8), x.wf cfg fn ctx rest → bangFree p x.text ∧ ends p x.text ≠ c!"("
  | .num ws txt v, rest, p, h => by
    rw [Cst.text, bangFree_append, ends_append]
    have := plain_text (literal_plain h.2).1 (literal_plain h.2).2 (ends p ws)
    exact ⟨⟨spaces_apart h.1 p, this.1⟩, this.2⟩
  | .name ws nm, rest, p, h => by
    rw [Cst.text, bangFree_append, ends_append]
    obtain ⟨h1, ⟨⟨c, hc, _⟩, h2, _⟩, _⟩ := h
    have := plain_text (x := nm) (by rintro rfl; cases hc) (fun c hc => nameChar_plain (h2 c hc)) (ends p ws)
    exact ⟨⟨spaces_apart h1 p, this.1⟩, this.2⟩
  | .call ws nm ws2 as, rest, p, h => by
    obtain ⟨h1, ⟨⟨c, hc, _⟩, h2, _⟩, h3, _, h4⟩ := h
    have k := plain_text (x := nm) (by rintro rfl; cases hc) (fun c hc => nameChar_plain (h2 c hc)) (ends p ws)
    have ka := args_apart as rest c!"(" h4
    simp only [Cst.text, List.append_assoc, List.cons_append, bangFree_append, bangFree, ends_append, ends]
    refine ⟨⟨spaces_apart h1 p, k.1, spaces_apart h3 _, fun hh => absurd hh.2 (by decide), ka, ?_, trivial⟩, by decide⟩
    rintro ⟨_, hh⟩; exact absurd hh (by decide)
  | .paren ws x ws2, rest, p, h => by
    have k := text_apart x _ c!"(" h.2.2
    simp only [Cst.text, List.append_assoc, List.cons_append, bangFree_append, bangFree, ends_append, ends]
    refine ⟨⟨spaces_apart h.1 p, fun hh => absurd hh.2 (by decide), k.1, spaces_apart h.2.1 _, ?_, trivial⟩, by decide⟩
    rintro ⟨_, hh⟩; exact absurd hh (by decide)
  | .sign ws neg x, rest, p, h => by
    have k := text_apart x _ (if neg then c!"-" else c!"+") h.2.1
    simp only [Cst.text, bangFree_append, bangFree, ends_append, ends]
    refine ⟨⟨spaces_apart h.1 p, ?_, k.1⟩, k.2⟩
    rintro ⟨_, hh⟩; cases neg <;> exact absurd hh (by decide)
  | .fact x ws, rest, p, h => by
    have k := text_apart x _ p h.2.2
    simp only [Cst.text, List.append_assoc, bangFree_append, bangFree, ends_append, ends]
    exact ⟨⟨k.1, spaces_apart h.2.1 _, fun hh => spaces_ends h.2.1 k.2 hh.1, trivial⟩, by decide⟩
  | .bin l ws op r, rest, p, h => by
    have k := text_apart l _ p h.2.1
    have kr := text_apart r _ (opChar op) h.2.2.2.1
    simp only [Cst.text, List.append_assoc, bangFree_append, bangFree, ends_append, ends]
    exact ⟨⟨k.1, spaces_apart h.1 _, fun hh => spaces_ends h.1 k.2 hh.1, kr.1⟩, kr.2⟩
  | .juxt l r, rest, p, h => by
    have k := text_apart l _ p h.1
    have kr := text_apart r _ (ends p l.text) h.2.2.1
    simp only [Cst.text, bangFree_append, ends_append]
    exact ⟨⟨k.1, kr.1⟩, kr.2⟩
theorem args_apart {cfg : Cfg} {fn : Elem → PM Elem} {ctx : Context} : ∀ (as : CArgs) (rest : Bytes)
    (p : UInt8), as.wf cfg fn ctx rest → bangFree p as.text
  | .last x ws, rest, p, h => by
    have k := text_apart x _ p h.2
    rw [CArgs.text, bangFree_append]
    exact ⟨k.1, spaces_apart h.1 _⟩
  | .more x ws as, rest, p, h => by
    have k := text_apart x _ p h.2.1
    have ka := args_apart as rest c!"," h.2.2
    simp only [CArgs.text, List.append_assoc, bangFree_append, bangFree]
    exact ⟨k.1, spaces_apart h.1 _, fun hh => absurd hh.2 (by decide), ka⟩
end

/-- A text with `(!` in it is not accepted. -/
theorem no_paren_bang {cfg : Cfg} {w : World} {ctx : Context} {input : Bytes} {x : Xpr}
    (h : parseImpl cfg w ctx input = .ok x) : ¬ b!"(!" <:+: input := by
  obtain ⟨c, tw, _, h1, h2, h3, _⟩ := parseImpl_den h
  refine bangFree_infix (p := 0) ?_
  rw [h1, bangFree_append]
  exact ⟨(text_apart c _ _ h3).1, spaces_apart h2 _⟩

/-- The text of a part is in the text of the whole. -/
theorem show_sub {fmt : F64 → Bytes} {t e : Elem} (h : Sub t e) : showE fmt t <:+: showE fmt e := by
  induction h with
  | refl => exact List.infix_refl _
  | @left op l r _ ih =>
    refine ih.trans ⟨b!"(", b!" " ++ opText op ++ b!" " ++ showE fmt r ++ b!")", ?_⟩
    simp [showE]
  | @right op l r _ ih =>
    refine ih.trans ⟨b!"(" ++ showE fmt l ++ b!" " ++ opText op ++ b!" ", b!")", ?_⟩
    simp [showE]
  | @operand op a _ ih =>
    refine ih.trans ⟨b!"(" ++ opText op, b!")", ?_⟩
    simp [showE]
  | @arg f args a ha _ ih =>
    have : ∀ (as : List Elem), a ∈ as → showE fmt a <:+: joinWith b!", " (showL fmt as) := by
      intro as
      induction as with
      | nil => intro h; cases h
      | cons b as ih =>
        intro h
        cases as with
        | nil =>
          rw [List.mem_singleton.1 h]
          exact List.infix_refl _
        | cons c as =>
          rw [showL, showL, joinWith, ← showL]
          rcases List.mem_cons.1 h with rfl | h
          · exact ⟨[], b!", " ++ joinWith b!", " (showL fmt (c :: as)), by simp⟩
          · exact (ih h).trans ⟨showE fmt b ++ b!", ", [], by simp⟩
          · simp
    refine (ih.trans (this args ha)).trans ⟨f.name ++ b!"(", b!")", ?_⟩
    simp [showE]

end Xprs
