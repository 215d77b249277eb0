import Verif.Spec.Parts
import Verif.Lemmas.Compose
/-
Every part of an accepted text that is in parentheses is an accepted text itself, or
consists of accepted texts with commas between them.
-/
namespace Xprs
open Spec

/-! ### Cutting off what follows a text -/

theorem literal_open {txt rest u : Bytes} {v : F64} (h : Literal txt (rest ++ u) v) :
    Literal txt rest v := by
  have hh : ∀ {P : UInt8 → Prop}, notHead P (rest ++ u) → notHead P rest := by
    intro P h c hc; exact h c (head_append hc)
  obtain ⟨mant, ip, fp, h1, h2, h3, h⟩ := h
  refine ⟨mant, ip, fp, h1, h2, h3, ?_⟩
  rcases h with ⟨ht, h4, h5, hv⟩ | ⟨e, sg, ds, he, hne, hds, ht, hr, h⟩
  · refine .inl ⟨ht, hh h4, ?_, hv⟩
    rintro ⟨e, sg, d, t, k1, k2, k3, rfl⟩
    exact h5 ⟨e, sg, d, t ++ u, k1, k2, k3, by simp⟩
  · exact .inr ⟨e, sg, ds, he, hne, hds, ht, hh hr, h⟩

theorem name_open {nm rest u : Bytes} (h : Name nm (rest ++ u)) : Name nm rest :=
  ⟨h.1, h.2.1, fun c hc => h.2.2 c (head_append hc)⟩

section
variable {cfg : Cfg} {fin : Elem → PM Elem} {ctx : Context} {d : UInt8}

theorem stops_open (hd : Closer d) {q : Nat} {P : Prop} {rest u : Bytes}
    (h : stops cfg q P (rest ++ d :: u)) : stops cfg q P rest := by
  intro c hc
  rcases firstTok_close hd rest u with h1 | ⟨h1, _⟩
  · exact h c (h1.trans hc)
  · rw [h1] at hc; cases hc

theorem noBang_open (hd : Closer d) {rest u : Bytes} (h : noBang (rest ++ d :: u)) : noBang rest := by
  unfold noBang at h ⊢
  rcases firstTok_close hd rest u with h1 | ⟨h1, _⟩
  · rwa [← h1]
  · rw [h1]; exact nofun

theorem closed_open (hd : Closer d) {rest u : Bytes} : ∀ x : Cst, x.closed cfg fin ctx (rest ++ d :: u) →
    x.closed cfg fin ctx rest
  | .num .., h => noBang_open hd h
  | .name .., h => noBang_open hd h
  | .call .., h => noBang_open hd h
  | .paren .., h => noBang_open hd h
  | .sign _ _ x, h => ⟨stops_open hd h.1, closed_open hd x h.2⟩
  | .fact _ _, _ => trivial
  | .bin _ _ _ r, h => ⟨stops_open hd h.1, closed_open hd r h.2⟩
  | .juxt _ r, h => ⟨stops_open hd h.1, closed_open hd r h.2⟩

/-- A legal text stays legal if what follows it is cut off at a closing parenthesis or a comma. -/
theorem wf_open (hd : Closer d) (u : Bytes) :
    (∀ (x : Cst) (rest : Bytes), x.wf cfg fin ctx (rest ++ d :: u) → x.wf cfg fin ctx rest) ∧
    (∀ (as : CArgs) (rest : Bytes), as.wf cfg fin ctx (rest ++ d :: u) → as.wf cfg fin ctx rest) := by
  refine cst_ind ?_ ?_ ?_ ?_ ?_ ?_ ?_ ?_ ?_ ?_
  · intro ws txt v rest h; exact ⟨h.1, literal_open h.2⟩
  · intro ws nm rest h; exact ⟨h.1, name_open h.2.1, h.2.2⟩
  · intro ws nm ws2 as ih rest h
    exact ⟨h.1, h.2.1, h.2.2.1, h.2.2.2.1, ih _ h.2.2.2.2⟩
  · intro ws x ws2 ih rest h
    refine ⟨h.1, h.2.1, ih _ ?_⟩
    have := h.2.2
    rwa [List.append_assoc, List.cons_append]
  · intro ws neg x ih rest h
    exact ⟨h.1, ih _ h.2.1, h.2.2⟩
  · intro x ws ih rest h
    refine ⟨h.1, h.2.1, ih _ ?_⟩
    have := h.2.2
    rwa [List.append_assoc, List.cons_append]
  · intro l ws op r ihl ihr rest h
    obtain ⟨h1, h2, h3, h4, h5⟩ := h
    rw [← List.append_assoc] at h2 h3
    exact ⟨h1, ihl _ h2, closed_open hd _ h3, ihr _ h4, h5⟩
  · intro l r ihl ihr rest h
    obtain ⟨h1, h2, h3, h4, c, hc, hl⟩ := h
    rw [← List.append_assoc] at h1 h2 hc
    refine ⟨ihl _ h1, closed_open hd _ h2, ihr _ h3, h4, c, ?_, hl⟩
    rcases firstTok_close hd (r.text ++ rest) u with h | ⟨_, h⟩
    · rw [← h]; exact hc
    · rw [h] at hc
      cases hc
      exfalso
      have h1 : ¬ lower d := hd.elim (P := fun d => ¬ lower d) (by decide) (by decide)
      have h2 : d ≠ c!"(" := hd.elim (P := fun d => d ≠ c!"(") (by decide) (by decide)
      have h3 : ¬ digit d := hd.elim (P := fun d => ¬ digit d) (by decide) (by decide)
      rcases hl with hl | hl | hl
      · exact h1 hl
      · exact h2 hl
      · exact h3 hl.1
  · intro x ws ih rest h
    refine ⟨h.1, ih _ ?_⟩
    have := h.2
    rwa [List.append_assoc, List.cons_append]
  · intro x ws as ih ihs rest h
    have e : ws ++ c!"," :: (as.text ++ c!")" :: rest) ++ d :: u =
        ws ++ c!"," :: (as.text ++ c!")" :: (rest ++ d :: u)) := by simp
    exact ⟨h.1, ih _ (by rw [e]; exact h.2.1), ihs _ h.2.2⟩

end

/-! ### Where a group can stand -/

theorem depth_cons_open (t : Bytes) : depth (c!"(" :: t) = 1 + depth t := by
  rw [show c!"(" :: t = [c!"("] ++ t from rfl, depth_append]
  rw [show depth [c!"("] = 1 by decide]

theorem depth_cons_close (t : Bytes) : depth (c!")" :: t) = depth t - 1 := by
  rw [show c!")" :: t = [c!")"] ++ t from rfl, depth_append]
  rw [show depth [c!")"] = -1 by decide]; omega

/-- A group lies within a balanced first half of a text, or within the second half. -/
theorem group_left {l r a t b : Bytes} (hl : Balanced l) (h : Group (l ++ r) a t b) :
    (∃ b1, Group l a t b1 ∧ b = b1 ++ r) ∨ ∃ a2, a = l ++ a2 ∧ Group r a2 t b := by
  obtain ⟨h, ht⟩ := h
  rcases List.append_eq_append_iff.1 h with ⟨a2, h1, h2⟩ | ⟨c, h1, h2⟩
  · exact .inr ⟨a2, h1, h2, ht⟩
  · cases c with
    | nil =>
      refine .inr ⟨[], by simpa using h1.symm, ?_, ht⟩
      simpa using h2.symm
    | cons x c =>
      rw [List.cons_append] at h2
      obtain ⟨rfl, h3⟩ := List.cons.inj h2
      have ha : 0 ≤ depth a := hl.2 a ⟨_, h1.symm⟩
      have h0 := hl.1
      rcases List.append_eq_append_iff.1 h3 with ⟨d, k1, k2⟩ | ⟨d, k1, k2⟩
      · cases d with
        | nil =>
          exfalso
          rw [h1, depth_append, depth_cons_open, k1, List.append_nil, ht.1] at h0
          omega
        | cons y d =>
          rw [List.cons_append] at k2
          obtain ⟨rfl, k3⟩ := List.cons.inj k2
          exact .inl ⟨d, ⟨by rw [h1, k1], ht⟩, k3⟩
      · exfalso
        have := ht.2 c ⟨d, k1.symm⟩
        rw [h1, depth_append, depth_cons_open] at h0
        omega

theorem group_mem {s a t b : Bytes} (h : Group s a t b) : c!"(" ∈ s := by rw [h.1]; simp

/-- There is no group in a text without parentheses. -/
theorem group_plain {l r a t b : Bytes} (hl : Balanced l) (hn : c!"(" ∉ l) (h : Group (l ++ r) a t b) :
    ∃ a2, a = l ++ a2 ∧ Group r a2 t b := by
  rcases group_left hl h with ⟨b1, h1, _⟩ | h
  · exact absurd (group_mem h1) hn
  · exact h

/-- The group that begins with the first byte. -/
theorem group_own {s t b : Bytes} (hs : Balanced s) (h : Group (c!"(" :: (s ++ [c!")"])) [] t b) : t = s := by
  obtain ⟨h, ht⟩ := h
  rw [List.nil_append] at h
  have h := (List.cons.inj h).2
  rcases List.append_eq_append_iff.1 h with ⟨d, k1, k2⟩ | ⟨d, k1, k2⟩
  · cases d with
    | nil => rw [k1, List.append_nil]
    | cons y d =>
      exfalso
      rw [List.cons_append] at k2
      obtain ⟨rfl, k2⟩ := List.cons.inj k2
      have := ht.2 (s ++ [c!")"]) ⟨d, by rw [k1]; simp⟩
      rw [depth_append, hs.1, depth_cons_close] at this
      exact absurd this (by decide)
  · cases d with
    | nil => rw [k1, List.append_nil]
    | cons y d =>
      exfalso
      rw [List.cons_append] at k2
      obtain ⟨rfl, k2⟩ := List.cons.inj k2
      have := hs.2 (t ++ [c!")"]) ⟨d, by rw [k1]; simp⟩
      rw [depth_append, ht.1, depth_cons_close] at this
      exact absurd this (by decide)

/-- A group in a text in parentheses is the whole, or lies within. -/
theorem group_inside {s a t b : Bytes} (hs : Balanced s) (h : Group (c!"(" :: (s ++ [c!")"])) a t b) :
    (a = [] ∧ t = s) ∨ ∃ a1 b1, a = c!"(" :: a1 ∧ Group s a1 t b1 := by
  cases a with
  | nil => exact .inl ⟨rfl, group_own hs h⟩
  | cons x a1 =>
    obtain ⟨h, ht⟩ := h
    rw [List.cons_append] at h
    obtain ⟨rfl, h1⟩ := List.cons.inj h
    rcases group_left hs ⟨h1, ht⟩ with ⟨b1, k, _⟩ | ⟨a2, _, k⟩
    · exact .inr ⟨a1, b1, rfl, k⟩
    · exact absurd (group_mem k) (by decide)

/-! ### The parts -/

section
variable {cfg : Cfg} {w : World} {ctx : Context}

/-- What stands in a group: a text, or the arguments of a function that is named in
front of it; in builds without optimizations their trees are found in `e`. -/
def IsPart (cfg : Cfg) (w : World) (ctx : Context) (e : Elem) (a t : Bytes) : Prop :=
  (∃ z, parseImpl cfg w ctx t = .ok z ∧ (cfg.opt = false → Sub z.root e)) ∨
  ∃ a' nm ws f parts zs, a = a' ++ nm ++ ws ∧ spaces ws ∧ IsName nm ∧ lookup ctx nm = .func f ∧
    (∀ n, f.nbArgs = some n → parts.length = n) ∧ parts ≠ [] ∧ t = commas parts ∧
    List.Forall₂ (fun p z => parseImpl cfg w ctx p = .ok z) parts zs ∧
    (cfg.opt = false → Sub (.call f (zs.map (·.root))) e)

theorem IsPart.mono {e e' : Elem} {a t : Bytes} (h : IsPart cfg w ctx e a t)
    (hs : cfg.opt = false → ∀ u, Sub u e → Sub u e') : IsPart cfg w ctx e' a t := by
  rcases h with ⟨z, h1, h2⟩ | ⟨a', nm, ws, f, parts, zs, h1, h2, h3, h4, h5, h6, h7, h8, h9⟩
  · exact .inl ⟨z, h1, fun ho => hs ho _ (h2 ho)⟩
  · exact .inr ⟨a', nm, ws, f, parts, zs, h1, h2, h3, h4, h5, h6, h7, h8, fun ho => hs ho _ (h9 ho)⟩

theorem IsPart.left {e : Elem} {a l t : Bytes} (h : IsPart cfg w ctx e a t) : IsPart cfg w ctx e (l ++ a) t := by
  rcases h with h | ⟨a', nm, ws, f, parts, zs, h1, h2⟩
  · exact .inl h
  · exact .inr ⟨l ++ a', nm, ws, f, parts, zs, by rw [h1]; simp, h2⟩

/-- A text up to a closing parenthesis or comma is accepted. -/
theorem accepted_part {x : Cst} {ws u : Bytes} {d : UInt8} {e e' : Elem} (hd : Closer d)
    (hw : x.wf cfg (finOf cfg w) ctx (ws ++ d :: u)) (hs : spaces ws)
    (h1 : x.den (finOf cfg w) ctx = .ok e) (h2 : finOf cfg w e = .ok e') :
    parseImpl cfg w ctx (x.text ++ ws) = .ok ⟨e', findVars e' []⟩ := by
  rw [parseImpl_text cfg w ctx x ws ((wf_open hd u).1 x ws hw) hs, Cst.meaning, h1]
  simp only [h2]

/-- Arguments are accepted texts. -/
theorem accepted_args : ∀ (as : CArgs) {rest : Bytes} {es : List Elem},
    as.wf cfg (finOf cfg w) ctx rest → as.den (finOf cfg w) ctx = .ok es →
    ∃ parts zs, as.text = commas parts ∧ parts ≠ [] ∧ parts.length = as.count ∧
      List.Forall₂ (fun p (z : Xpr) => parseImpl cfg w ctx p = .ok z) parts zs ∧ es = zs.map (·.root)
  | .last x ws, rest, es, hw, hd => by
    rw [CArgs.den] at hd
    cases h1 : x.den (finOf cfg w) ctx with
    | error p => rw [h1] at hd; cases hd
    | ok e =>
      rw [h1] at hd
      simp only at hd
      cases h2 : finOf cfg w e with
      | error p => rw [h2] at hd; cases hd
      | ok e' =>
        rw [h2] at hd
        cases hd
        exact ⟨[x.text ++ ws], [⟨e', _⟩], rfl, by simp, rfl,
          .cons (accepted_part closer_paren hw.2 hw.1 h1 h2) .nil, rfl⟩
  | .more x ws as, rest, es, hw, hd => by
    rw [CArgs.den] at hd
    cases h1 : x.den (finOf cfg w) ctx with
    | error p => rw [h1] at hd; cases hd
    | ok e =>
      rw [h1] at hd
      simp only at hd
      cases h2 : finOf cfg w e with
      | error p => rw [h2] at hd; cases hd
      | ok e' =>
        rw [h2] at hd
        simp only at hd
        cases h3 : as.den (finOf cfg w) ctx with
        | error p => rw [h3] at hd; cases hd
        | ok es' =>
          rw [h3] at hd
          cases hd
          obtain ⟨parts, zs, k1, k2, k3, k4, k5⟩ := accepted_args as hw.2.2 h3
          refine ⟨(x.text ++ ws) :: parts, ⟨e', _⟩ :: zs, ?_, by simp, by simp [CArgs.count, k3],
            .cons (accepted_part closer_comma hw.2.1 hw.1 h1 h2) k4, by simp [k5]⟩
          cases parts with
          | nil => exact absurd rfl k2
          | cons p ps => simp [CArgs.text, commas, k1]

theorem literal_no_open {txt rest : Bytes} {v : F64} (h : Literal txt rest v) : c!"(" ∉ txt := by
  obtain ⟨mant, ip, fp, _, h2, _, h4⟩ := h
  intro hm
  rcases h4 with ⟨rfl, _⟩ | ⟨e, sg, ds, he, _, hds, rfl, _, h5⟩
  · exact absurd (h2 _ hm) (by decide)
  · simp only [List.mem_append, List.mem_cons] at hm
    rcases hm with hm | hm | hm | hm
    · exact absurd (h2 _ hm) (by decide)
    · rcases he with rfl | rfl <;> exact absurd hm (by decide)
    · have : sg = [] ∨ sg = [c!"+"] ∨ sg = [c!"-"] := by
        rcases h5 with ⟨h | h, _⟩ | ⟨h, _⟩ <;> simp [h]
      rcases this with rfl | rfl | rfl <;> exact absurd hm (by decide)
    · exact absurd (hds _ hm) (by decide)

theorem not_open_spaces {ws : Bytes} (h : spaces ws) : c!"(" ∉ ws := fun hm => absurd (h _ hm) (by decide)

theorem not_open_name {nm : Bytes} (h : ∀ c ∈ nm, nameChar c) : c!"(" ∉ nm := fun hm => absurd (h _ hm) (by decide)

theorem group_parts :
    (∀ (x : Cst) (rest a t b : Bytes) (e : Elem), x.wf cfg (finOf cfg w) ctx rest →
      x.den (finOf cfg w) ctx = .ok e → Group x.text a t b → IsPart cfg w ctx e a t) ∧
    (∀ (as : CArgs) (rest a t b : Bytes) (es : List Elem), as.wf cfg (finOf cfg w) ctx rest →
      as.den (finOf cfg w) ctx = .ok es → Group as.text a t b → ∃ e, (cfg.opt = false → e ∈ es) ∧
        IsPart cfg w ctx e a t) := by
  have plain : cfg.opt = false → ∀ {e e' : Elem}, finOf cfg w e = .ok e' → e' = e := by
    intro ho e e' h
    rw [finOf_plain ho] at h
    exact (Except.ok.inj h).symm
  refine cst_ind ?_ ?_ ?_ ?_ ?_ ?_ ?_ ?_ ?_ ?_
  · intro ws txt v rest a t b e hw hd hg
    obtain ⟨a2, _, g1⟩ := group_plain (balanced_spaces hw.1) (not_open_spaces hw.1) hg
    exact absurd (group_mem g1) (literal_no_open hw.2)
  · intro ws nm rest a t b e hw hd hg
    obtain ⟨a2, _, g2⟩ := group_plain (balanced_spaces hw.1) (not_open_spaces hw.1) hg
    exact absurd (group_mem g2) (not_open_name hw.2.1.2.1)
  · intro ws nm ws2 as ih rest a t b e hw hd hg
    obtain ⟨w1, w2, w3, ⟨f, f1, f2⟩, w4⟩ := hw
    have e1 : (Cst.call ws nm ws2 as).text = ws ++ (nm ++ (ws2 ++ c!"(" :: (as.text ++ [c!")"]))) := by
      simp [Cst.text]
    rw [e1] at hg
    obtain ⟨a1, rfl, g3⟩ := group_plain (balanced_spaces w1) (not_open_spaces w1) hg
    obtain ⟨a2, rfl, g4⟩ := group_plain (balanced_name w2.2.1) (not_open_name w2.2.1) g3
    obtain ⟨a3, rfl, g5⟩ := group_plain (balanced_spaces w3) (not_open_spaces w3) g4
    rw [Cst.den] at hd
    cases h1 : as.den (finOf cfg w) ctx with
    | error p => rw [h1] at hd; cases hd
    | ok es =>
      rw [h1, f1] at hd
      cases hd
      rcases group_inside (balanced_text.2 as _ w4) g5 with ⟨rfl, rfl⟩ | ⟨a4, b4, rfl, g6⟩
      · obtain ⟨parts, zs, k1, k2, k3, k4, k5⟩ := accepted_args as w4 h1
        refine .inr ⟨ws, nm, ws2, f, parts, zs, by simp, w3, name_isName w2, f1, ?_, k2, k1, k4, ?_⟩
        · intro n hn; rw [k3]; exact f2 n hn
        · intro _; rw [← k5]; exact .refl
      · obtain ⟨e, he, hp⟩ := ih _ _ _ _ _ w4 h1 g6
        have := ((hp.left (l := [c!"("])).left (l := ws ++ nm ++ ws2)).mono (e' := .call f es)
          fun ho u hu => .arg (he ho) hu
        simpa using this
  · intro ws x ws2 ih rest a t b e hw hd hg
    obtain ⟨w1, w2, w3⟩ := hw
    have e1 : (Cst.paren ws x ws2).text = ws ++ (c!"(" :: ((x.text ++ ws2) ++ [c!")"])) := by
      simp [Cst.text]
    rw [e1] at hg
    obtain ⟨a1, rfl, g7⟩ := group_plain (balanced_spaces w1) (not_open_spaces w1) hg
    have hb := balanced_append (balanced_text.1 x _ w3) (balanced_spaces w2)
    rw [Cst.den] at hd
    cases h1 : x.den (finOf cfg w) ctx with
    | error p => rw [h1] at hd; cases hd
    | ok e0 =>
      rw [h1] at hd
      simp only at hd
      rcases group_inside hb g7 with ⟨rfl, rfl⟩ | ⟨a4, b4, rfl, g8⟩
      · exact .inl ⟨_, accepted_part closer_paren w3 w2 h1 hd, fun _ => .refl⟩
      · rcases group_left (balanced_text.1 x _ w3) g8 with ⟨b1, g9, _⟩ | ⟨a2, _, g10⟩
        · have := ((ih _ _ _ _ _ w3 h1 g9).left (l := [c!"("])).left (l := ws)
          exact this.mono fun ho u hu => plain ho hd ▸ hu
        · exact absurd (group_mem g10) (not_open_spaces w2)
  · intro ws neg x ih rest a t b e hw hd hg
    have e1 : (Cst.sign ws neg x).text = ws ++ ([if neg then c!"-" else c!"+"] ++ x.text) := by
      simp [Cst.text]
    rw [e1] at hg
    obtain ⟨a1, rfl, g11⟩ := group_plain (balanced_spaces hw.1) (not_open_spaces hw.1) hg
    obtain ⟨a2, rfl, g12⟩ := group_plain (balanced_plain (by cases neg <;> decide)) (by cases neg <;> decide) g11
    rw [Cst.den] at hd
    cases h1 : x.den (finOf cfg w) ctx with
    | error p => rw [h1] at hd; cases hd
    | ok e0 =>
      rw [h1] at hd
      simp only at hd
      cases h2 : finOf cfg w e0 with
      | error p => rw [h2] at hd; cases hd
      | ok e' =>
        rw [h2] at hd
        cases hd
        exact (ih _ _ _ _ _ hw.2.1 h1 g12).left.left.mono fun ho u hu => .operand (plain ho h2 ▸ hu)
  · intro x ws ih rest a t b e hw hd hg
    have e1 : (Cst.fact x ws).text = x.text ++ (ws ++ [c!"!"]) := by simp [Cst.text]
    rw [e1] at hg
    rw [Cst.den] at hd
    cases h1 : x.den (finOf cfg w) ctx with
    | error p => rw [h1] at hd; cases hd
    | ok e0 =>
      rw [h1] at hd
      cases hd
      rcases group_left (balanced_text.1 x _ hw.2.2) hg with ⟨b1, g13, _⟩ | ⟨a2, _, g14⟩
      · exact (ih _ _ _ _ _ hw.2.2 h1 g13).mono fun _ u hu => .operand hu
      · obtain ⟨a3, _, g15⟩ := group_plain (balanced_spaces hw.2.1) (not_open_spaces hw.2.1) g14
        exact absurd (group_mem g15) (by decide)
  · intro l ws op r ihl ihr rest a t b e hw hd hg
    obtain ⟨w1, w2, w3, w4, w5⟩ := hw
    have e1 : (Cst.bin l ws op r).text = l.text ++ (ws ++ ([opChar op] ++ r.text)) := by simp [Cst.text]
    rw [e1] at hg
    rw [Cst.den] at hd
    cases h1 : l.den (finOf cfg w) ctx with
    | error p => rw [h1] at hd; cases hd
    | ok e1 =>
      rw [h1] at hd
      simp only at hd
      cases h2 : r.den (finOf cfg w) ctx with
      | error p => rw [h2] at hd; cases hd
      | ok e2 =>
        rw [h2] at hd
        simp only at hd
        cases h3 : finOf cfg w e2 with
        | error p => rw [h3] at hd; cases hd
        | ok e3 =>
          rw [h3] at hd
          cases hd
          rcases group_left (balanced_text.1 l _ w2) hg with ⟨b1, g16, _⟩ | ⟨a2, rfl, g17⟩
          · exact (ihl _ _ _ _ _ w2 h1 g16).mono fun _ u hu => .left hu
          · obtain ⟨a3, rfl, g18⟩ := group_plain (balanced_spaces w1) (not_open_spaces w1) g17
            obtain ⟨a4, rfl, g19⟩ := group_plain (balanced_plain (by cases op <;> decide))
              (by cases op <;> decide) g18
            exact (ihr _ _ _ _ _ w4 h2 g19).left.left.left.mono fun ho u hu => .right (plain ho h3 ▸ hu)
  · intro l r ihl ihr rest a t b e hw hd hg
    obtain ⟨w2, w3, w4, w5⟩ := hw
    rw [Cst.text] at hg
    rw [Cst.den] at hd
    cases h1 : l.den (finOf cfg w) ctx with
    | error p => rw [h1] at hd; cases hd
    | ok e1 =>
      rw [h1] at hd
      simp only at hd
      cases h2 : r.den (finOf cfg w) ctx with
      | error p => rw [h2] at hd; cases hd
      | ok e2 =>
        rw [h2] at hd
        simp only at hd
        cases h3 : finOf cfg w e2 with
        | error p => rw [h3] at hd; cases hd
        | ok e3 =>
          rw [h3] at hd
          cases hd
          rcases group_left (balanced_text.1 l _ w2) hg with ⟨b1, g20, _⟩ | ⟨a2, rfl, g21⟩
          · exact (ihl _ _ _ _ _ w2 h1 g20).mono fun _ u hu => .left hu
          · exact (ihr _ _ _ _ _ w4 h2 g21).left.mono fun ho u hu => .right (plain ho h3 ▸ hu)
  · intro x ws ih rest a t b es hw hd hg
    rw [CArgs.text] at hg
    rw [CArgs.den] at hd
    cases h1 : x.den (finOf cfg w) ctx with
    | error p => rw [h1] at hd; cases hd
    | ok e =>
      rw [h1] at hd
      simp only at hd
      cases h2 : finOf cfg w e with
      | error p => rw [h2] at hd; cases hd
      | ok e' =>
        rw [h2] at hd
        cases hd
        rcases group_left (balanced_text.1 x _ hw.2) hg with ⟨b1, g22, _⟩ | ⟨a2, _, g23⟩
        · exact ⟨e, fun ho => by rw [plain ho h2]; simp, ih _ _ _ _ _ hw.2 h1 g22⟩
        · exact absurd (group_mem g23) (not_open_spaces hw.1)
  · intro x ws as ih ihs rest a t b es hw hd hg
    have e1 : (CArgs.more x ws as).text = x.text ++ (ws ++ ([c!","] ++ as.text)) := by simp [CArgs.text]
    rw [e1] at hg
    rw [CArgs.den] at hd
    cases h1 : x.den (finOf cfg w) ctx with
    | error p => rw [h1] at hd; cases hd
    | ok e =>
      rw [h1] at hd
      simp only at hd
      cases h2 : finOf cfg w e with
      | error p => rw [h2] at hd; cases hd
      | ok e' =>
        rw [h2] at hd
        simp only at hd
        cases h3 : as.den (finOf cfg w) ctx with
        | error p => rw [h3] at hd; cases hd
        | ok es' =>
          rw [h3] at hd
          cases hd
          rcases group_left (balanced_text.1 x _ hw.2.1) hg with ⟨b1, g24, _⟩ | ⟨a2, rfl, g25⟩
          · exact ⟨e, fun ho => by rw [plain ho h2]; simp, ih _ _ _ _ _ hw.2.1 h1 g24⟩
          · obtain ⟨a3, rfl, g26⟩ := group_plain (balanced_spaces hw.1) (not_open_spaces hw.1) g25
            obtain ⟨a4, rfl, g27⟩ := group_plain (balanced_plain (by decide)) (by decide) g26
            obtain ⟨e0, k1, k2⟩ := ihs _ _ _ _ _ hw.2.2 h3 g27
            exact ⟨e0, fun ho => by simp [k1 ho], k2.left.left.left⟩

/-- The groups of an accepted text. -/
theorem parseImpl_parts {s a t b : Bytes} {x : Xpr} (h : parseImpl cfg w ctx s = .ok x) (hg : Group s a t b) :
    IsPart cfg w ctx x.root a t := by
  obtain ⟨c, tw, e, rfl, h2, h3, h4, h5, _⟩ := parseImpl_den h
  rcases group_left (balanced_text.1 c _ h3) hg with ⟨b1, hg, _⟩ | ⟨a2, _, hg⟩
  · refine (group_parts.1 c _ _ _ _ _ h3 h4 hg).mono fun ho u hu => ?_
    rw [finOf_plain ho] at h5
    exact Except.ok.inj h5 ▸ hu
  · exact absurd (group_mem hg) (not_open_spaces h2)

end

end Xprs
