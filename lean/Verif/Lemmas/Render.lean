import Verif.Lemmas.Parse
import Verif.Spec.Doc
/-
Facts about the texts of concrete syntax trees: alphabet, parentheses, the plain
grammar, and the written-out trees (`good`) as legal texts.
-/
namespace Xprs
open Spec

/-- Simultaneous induction on trees and argument lists. -/
theorem cst_ind {P : Cst → Prop} {Q : CArgs → Prop}
    (num : ∀ ws txt v, P (.num ws txt v)) (name : ∀ ws nm, P (.name ws nm))
    (call : ∀ ws nm ws2 as, Q as → P (.call ws nm ws2 as))
    (paren : ∀ ws x ws2, P x → P (.paren ws x ws2))
    (sign : ∀ ws neg x, P x → P (.sign ws neg x))
    (fact : ∀ x ws, P x → P (.fact x ws))
    (bin : ∀ l ws op r, P l → P r → P (.bin l ws op r))
    (juxt : ∀ l r, P l → P r → P (.juxt l r))
    (last : ∀ x ws, P x → Q (.last x ws))
    (more : ∀ x ws as, P x → Q as → Q (.more x ws as)) : (∀ x, P x) ∧ (∀ as, Q as) :=
  ⟨fun x => Cst.rec (motive_1 := P) (motive_2 := Q) num name call paren sign fact bin juxt
      last more x,
    fun as => CArgs.rec (motive_1 := P) (motive_2 := Q) num name call paren sign fact bin juxt
      last more as⟩

section
variable {cfg : Cfg} {fin : Elem → PM Elem} {ctx : Context}

/-! ### Alphabet -/

theorem alphabet_space {c : UInt8} (h : space c) : alphabet c := .inr (.inr (.inl h))
theorem alphabet_mant {c : UInt8} (h : mantChar c) : alphabet c := by
  rcases h with h | rfl | rfl
  · exact .inr (.inl h)
  · decide
  · decide
theorem alphabet_name {c : UInt8} (h : nameChar c) : alphabet c := by
  rcases h with h | h | rfl | rfl
  · exact .inl h
  · exact .inr (.inl h)
  · decide
  · decide
theorem alphabet_op (op : Op) : alphabet (opChar op) := by cases op <;> decide

theorem alphabet_literal {txt rest : Bytes} {v : F64} (h : Literal txt rest v) :
    ∀ c ∈ txt, alphabet c := by
  obtain ⟨mant, ip, fp, _, h2, _, h4⟩ := h
  rcases h4 with ⟨rfl, _⟩ | ⟨e, sg, ds, he, _, hds, rfl, _, h5⟩
  · exact fun c hc => alphabet_mant (h2 c hc)
  · intro c hc
    simp only [List.mem_append, List.mem_cons] at hc
    rcases hc with hc | rfl | hc | hc
    · exact alphabet_mant (h2 c hc)
    · rcases he with rfl | rfl <;> decide
    · have : sg = [] ∨ sg = [c!"+"] ∨ sg = [c!"-"] := by
        rcases h5 with ⟨h | h, _⟩ | ⟨h, _⟩ <;> simp [h]
      rcases this with rfl | rfl | rfl
      · cases hc
      · simp at hc; subst hc; decide
      · simp at hc; subst hc; decide
    · exact .inr (.inl (hds c hc))

theorem alphabet_text :
    (∀ (x : Cst) (rest : Bytes), x.wf cfg fin ctx rest → ∀ c ∈ x.text, alphabet c) ∧
    (∀ (as : CArgs) (rest : Bytes), as.wf cfg fin ctx rest → ∀ c ∈ as.text, alphabet c) := by
  refine cst_ind ?_ ?_ ?_ ?_ ?_ ?_ ?_ ?_ ?_ ?_
  · intro ws txt v rest hw c hc
    rw [Cst.text, List.mem_append] at hc
    exact hc.elim (fun h => alphabet_space (hw.1 c h)) (alphabet_literal hw.2 c)
  · intro ws nm rest hw c hc
    rw [Cst.text, List.mem_append] at hc
    exact hc.elim (fun h => alphabet_space (hw.1 c h)) (fun h => alphabet_name (hw.2.1.2.1 c h))
  · intro ws nm ws2 as ih rest hw c hc
    simp only [Cst.text, List.mem_append, List.mem_cons, List.append_assoc, List.not_mem_nil,
      or_false] at hc
    rcases hc with h | h | h | (rfl | h) | rfl
    · exact alphabet_space (hw.1 c h)
    · exact alphabet_name (hw.2.1.2.1 c h)
    · exact alphabet_space (hw.2.2.1 c h)
    · decide
    · exact ih _ hw.2.2.2.2 c h
    · decide
  · intro ws x ws2 ih rest hw c hc
    simp only [Cst.text, List.mem_append, List.mem_cons, List.append_assoc, List.not_mem_nil,
      or_false] at hc
    rcases hc with h | (rfl | h) | h | rfl
    · exact alphabet_space (hw.1 c h)
    · decide
    · exact ih _ hw.2.2 c h
    · exact alphabet_space (hw.2.1 c h)
    · decide
  · intro ws neg x ih rest hw c hc
    simp only [Cst.text, List.mem_append, List.mem_cons] at hc
    rcases hc with h | rfl | h
    · exact alphabet_space (hw.1 c h)
    · cases neg <;> decide
    · exact ih _ hw.2.1 c h
  · intro x ws ih rest hw c hc
    simp only [Cst.text, List.mem_append, List.mem_cons, List.append_assoc, List.not_mem_nil,
      or_false] at hc
    rcases hc with h | h | rfl
    · exact ih _ hw.2.2 c h
    · exact alphabet_space (hw.2.1 c h)
    · decide
  · intro l ws op r ihl ihr rest hw c hc
    simp only [Cst.text, List.mem_append, List.mem_cons, List.append_assoc] at hc
    rcases hc with h | h | rfl | h
    · exact ihl _ hw.2.1 c h
    · exact alphabet_space (hw.1 c h)
    · exact alphabet_op op
    · exact ihr _ hw.2.2.2.1 c h
  · intro l r ihl ihr rest hw c hc
    simp only [Cst.text, List.mem_append] at hc
    exact hc.elim (ihl _ hw.1 c) (ihr _ hw.2.2.1 c)
  · intro x ws ih rest hw c hc
    simp only [CArgs.text, List.mem_append] at hc
    exact hc.elim (ih _ hw.2 c) (fun h => alphabet_space (hw.1 c h))
  · intro x ws as ih ihs rest hw c hc
    simp only [CArgs.text, List.mem_append, List.mem_cons, List.append_assoc] at hc
    rcases hc with h | h | rfl | h
    · exact ih _ hw.2.1 c h
    · exact alphabet_space (hw.1 c h)
    · decide
    · exact ihs _ hw.2.2 c h

/-! ### Parentheses -/

theorem depth_append (a b : Bytes) : depth (a ++ b) = depth a + depth b := by
  simp only [depth, List.count_append]; omega

theorem balanced_nil : Balanced [] :=
  ⟨rfl, fun p hp => by rw [List.prefix_nil.1 hp]; decide⟩

theorem prefix_append {p a b : Bytes} (h : p <+: a ++ b) : p <+: a ∨ ∃ q, p = a ++ q ∧ q <+: b := by
  induction a generalizing p with
  | nil => exact .inr ⟨p, rfl, h⟩
  | cons c t ih =>
    cases p with
    | nil => exact .inl (List.nil_prefix)
    | cons d u =>
      obtain ⟨v, hv⟩ := h
      simp only [List.cons_append, List.cons.injEq] at hv
      obtain ⟨rfl, hv⟩ := hv
      rcases ih ⟨v, hv⟩ with ⟨z, hz⟩ | ⟨q, rfl, hq⟩
      · exact .inl ⟨z, by simp [hz]⟩
      · exact .inr ⟨q, rfl, hq⟩

theorem balanced_append {a b : Bytes} (ha : Balanced a) (hb : Balanced b) : Balanced (a ++ b) := by
  refine ⟨by rw [depth_append, ha.1, hb.1]; rfl, fun p hp => ?_⟩
  rcases prefix_append hp with h | ⟨q, rfl, h⟩
  · exact ha.2 p h
  · rw [depth_append, ha.1, Int.zero_add]; exact hb.2 q h

theorem balanced_wrap {a : Bytes} (ha : Balanced a) : Balanced (c!"(" :: a ++ [c!")"]) := by
  have d1 : depth [c!"("] = 1 := by decide
  have d2 : depth [c!")"] = -1 := by decide
  have e : c!"(" :: a ++ [c!")"] = [c!"("] ++ (a ++ [c!")"]) := by simp
  refine ⟨by rw [e, depth_append, depth_append, d1, d2, ha.1]; decide, fun p hp => ?_⟩
  rw [e] at hp
  rcases prefix_append hp with h | ⟨q, rfl, h⟩
  · cases p with
    | nil => decide
    | cons c t =>
      obtain ⟨u, hu⟩ := h
      simp at hu
      rw [hu.1, hu.2.1]; decide
  · rw [depth_append, d1]
    rcases prefix_append h with h | ⟨r, rfl, h⟩
    · have := ha.2 q h; omega
    · rw [depth_append, ha.1]
      cases r with
      | nil => decide
      | cons c t =>
        obtain ⟨u, hu⟩ := h
        simp at hu
        rw [hu.1, hu.2.1]; decide

theorem balanced_plain {a : Bytes} (h : ∀ c ∈ a, c ≠ c!"(" ∧ c ≠ c!")") : Balanced a := by
  have key : ∀ p : Bytes, p <+: a → depth p = 0 := by
    intro p hp
    have h1 : p.count c!"(" = 0 := List.count_eq_zero.2 fun hm => (h _ (hp.subset hm)).1 rfl
    have h2 : p.count c!")" = 0 := List.count_eq_zero.2 fun hm => (h _ (hp.subset hm)).2 rfl
    rw [depth, h1, h2]; rfl
  exact ⟨key a (List.prefix_refl a), fun p hp => by rw [key p hp]; decide⟩

theorem balanced_spaces {ws : Bytes} (h : spaces ws) : Balanced ws :=
  balanced_plain fun c hc => by
    have := h c hc
    constructor <;> rintro rfl <;> revert this <;> decide

theorem balanced_name {nm : Bytes} (h : ∀ c ∈ nm, nameChar c) : Balanced nm :=
  balanced_plain fun c hc => by
    have := h c hc
    constructor <;> rintro rfl <;> revert this <;> decide

theorem balanced_literal {txt rest : Bytes} {v : F64} (h : Literal txt rest v) : Balanced txt := by
  obtain ⟨mant, ip, fp, _, h2, _, h4⟩ := h
  refine balanced_plain fun c hc => ?_
  have : mantChar c ∨ digit c ∨ c ∈ b!"eE+-" := by
    rcases h4 with ⟨rfl, _⟩ | ⟨e, sg, ds, he, _, hds, rfl, _, h5⟩
    · exact .inl (h2 c hc)
    · simp only [List.mem_append, List.mem_cons] at hc
      rcases hc with hc | rfl | hc | hc
      · exact .inl (h2 c hc)
      · rcases he with rfl | rfl <;> simp
      · have : sg = [] ∨ sg = [c!"+"] ∨ sg = [c!"-"] := by
          rcases h5 with ⟨h | h, _⟩ | ⟨h, _⟩ <;> simp [h]
        rcases this with rfl | rfl | rfl
        · cases hc
        · simp at hc; subst hc; simp
        · simp at hc; subst hc; simp
      · exact .inr (.inl (hds c hc))
  constructor <;> rintro rfl <;> revert this <;> decide

theorem balanced_text :
    (∀ (x : Cst) (rest : Bytes), x.wf cfg fin ctx rest → Balanced x.text) ∧
    (∀ (as : CArgs) (rest : Bytes), as.wf cfg fin ctx rest → Balanced as.text) := by
  have hop : ∀ op : Op, Balanced [opChar op] := by
    intro op
    refine balanced_plain fun c hc => ?_
    simp at hc; subst hc
    cases op <;> decide
  have hc1 : ∀ c, c ≠ c!"(" → c ≠ c!")" → Balanced [c] := by
    intro c h1 h2
    refine balanced_plain fun d hd => ?_
    simp at hd; subst hd; exact ⟨h1, h2⟩
  refine cst_ind ?_ ?_ ?_ ?_ ?_ ?_ ?_ ?_ ?_ ?_
  · intro ws txt v rest hw
    exact balanced_append (balanced_spaces hw.1) (balanced_literal hw.2)
  · intro ws nm rest hw
    exact balanced_append (balanced_spaces hw.1) (balanced_name hw.2.1.2.1)
  · intro ws nm ws2 as ih rest hw
    have := balanced_append (balanced_append (balanced_append (balanced_spaces hw.1)
      (balanced_name hw.2.1.2.1)) (balanced_spaces hw.2.2.1)) (balanced_wrap (ih _ hw.2.2.2.2))
    simpa [Cst.text] using this
  · intro ws x ws2 ih rest hw
    have := balanced_append (balanced_spaces hw.1)
      (balanced_wrap (balanced_append (ih _ hw.2.2) (balanced_spaces hw.2.1)))
    simpa [Cst.text] using this
  · intro ws neg x ih rest hw
    have := balanced_append (balanced_append (balanced_spaces hw.1)
      (hc1 (if neg then c!"-" else c!"+") (by cases neg <;> decide) (by cases neg <;> decide)))
      (ih _ hw.2.1)
    simpa [Cst.text] using this
  · intro x ws ih rest hw
    have := balanced_append (balanced_append (ih _ hw.2.2) (balanced_spaces hw.2.1))
      (hc1 c!"!" (by decide) (by decide))
    simpa [Cst.text] using this
  · intro l ws op r ihl ihr rest hw
    have := balanced_append (balanced_append (balanced_append (ihl _ hw.2.1) (balanced_spaces hw.1))
      (hop op)) (ihr _ hw.2.2.2.1)
    simpa [Cst.text] using this
  · intro l r ihl ihr rest hw
    exact balanced_append (ihl _ hw.1) (ihr _ hw.2.2.1)
  · intro x ws ih rest hw
    exact balanced_append (ih _ hw.2) (balanced_spaces hw.1)
  · intro x ws as ih ihs rest hw
    have := balanced_append (balanced_append (balanced_append (ih _ hw.2.1) (balanced_spaces hw.1))
      (hc1 c!"," (by decide) (by decide))) (ihs _ hw.2.2)
    simpa [CArgs.text] using this

/-! ### The plain grammar -/

theorem literal_nil {txt rest : Bytes} {v : F64} (h : Literal txt rest v) : Literal txt [] v := by
  obtain ⟨mant, ip, fp, h1, h2, h3, h4⟩ := h
  refine ⟨mant, ip, fp, h1, h2, h3, ?_⟩
  rcases h4 with ⟨rfl, _, _, hv⟩ | ⟨e, sg, ds, he, hne, hds, rfl, _, h5⟩
  · refine .inl ⟨rfl, fun c hc => (by cases hc), ?_, hv⟩
    rintro ⟨e, sg, d, t, _, _, _, h⟩; simp at h
  · exact .inr ⟨e, sg, ds, he, hne, hds, rfl, fun c hc => (by cases hc), h5⟩

theorem name_isName {nm rest : Bytes} (h : Name nm rest) : IsName nm := ⟨h.1, h.2.1⟩

theorem firstTok_append {a b : Bytes} {c : UInt8} (h : firstTok a = some c) :
    firstTok (a ++ b) = some c := by
  induction a with
  | nil => cases h
  | cons d t ih =>
    simp only [List.cons_append, firstTok] at h ⊢
    split at h
    · rename_i hd; rw [if_pos hd]; exact ih h
    · rename_i hd; rw [if_neg hd]; exact h

theorem firstTok_none {a : Bytes} (h : firstTok a = none) : spaces a := by
  induction a with
  | nil => intro c hc; cases hc
  | cons d t ih =>
    simp only [firstTok] at h
    split at h
    · rename_i hd
      intro c hc
      rcases List.mem_cons.1 hc with rfl | hc
      · exact hd
      · exact ih h c hc
    · cases h

/-- A legal text has a token. -/
theorem text_tok : ∀ (x : Cst) (rest : Bytes), x.wf cfg fin ctx rest → ∃ c, firstTok x.text = some c := by
  refine (cst_ind (Q := fun _ => True) ?_ ?_ ?_ ?_ ?_ ?_ ?_ ?_ (fun _ _ _ => trivial)
    (fun _ _ _ _ _ => trivial)).1
  · intro ws txt v rest hw
    obtain ⟨mant, ip, fp, ⟨c, h1, hc⟩, h2, h3, h4⟩ := hw.2
    refine ⟨c, ?_⟩
    rw [Cst.text, firstTok_spaces hw.1]
    have : ∃ t, txt = c :: t := by
      cases mant with
      | nil => cases h1
      | cons d m =>
        simp at h1; subst h1
        rcases h4 with ⟨rfl, _⟩ | ⟨e, sg, ds, _, _, _, rfl, _⟩
        · exact ⟨_, rfl⟩
        · exact ⟨_, rfl⟩
    obtain ⟨t, rfl⟩ := this
    exact firstTok_cons (digit_not_space hc)
  · intro ws nm rest hw
    obtain ⟨c, h1, hc⟩ := hw.2.1.1
    refine ⟨c, ?_⟩
    rw [Cst.text, firstTok_spaces hw.1]
    cases nm with
    | nil => cases h1
    | cons d m => simp at h1; subst h1; exact firstTok_cons (letter_facts hc).1
  · intro ws nm ws2 as _ rest hw
    obtain ⟨c, h1, hc⟩ := hw.2.1.1
    refine ⟨c, ?_⟩
    rw [Cst.text, List.append_assoc, List.append_assoc, List.append_assoc, firstTok_spaces hw.1]
    cases nm with
    | nil => cases h1
    | cons d m => simp at h1; subst h1; exact firstTok_cons (letter_facts hc).1
  · intro ws x ws2 _ rest hw
    refine ⟨c!"(", ?_⟩
    rw [Cst.text, List.append_assoc, List.append_assoc, firstTok_spaces hw.1]
    exact firstTok_cons (by decide)
  · intro ws neg x _ rest hw
    refine ⟨if neg then c!"-" else c!"+", ?_⟩
    rw [Cst.text, firstTok_spaces hw.1]
    exact firstTok_cons (by cases neg <;> decide)
  · intro x ws ih rest hw
    obtain ⟨c, hc⟩ := ih _ hw.2.2
    exact ⟨c, by rw [Cst.text, List.append_assoc]; exact firstTok_append hc⟩
  · intro l ws op r ih _ rest hw
    obtain ⟨c, hc⟩ := ih _ hw.2.1
    exact ⟨c, by rw [Cst.text, List.append_assoc]; exact firstTok_append hc⟩
  · intro l r ih _ rest hw
    obtain ⟨c, hc⟩ := ih _ hw.1
    exact ⟨c, by rw [Cst.text]; exact firstTok_append hc⟩

theorem opChar_mem {op : Op} (h : op ≠ .factorial) : opChar op ∈ b!"+-*/^%" := by
  cases op <;> first | exact absurd rfl h | decide

theorem doc_text :
    (∀ (x : Cst) (rest : Bytes), x.wf cfg fin ctx rest → ¬ DoubleBang x.text → Doc ctx x.text) ∧
    (∀ (as : CArgs) (rest : Bytes), as.wf cfg fin ctx rest → ¬ DoubleBang as.text →
      DocArgs ctx as.text as.count) := by
  have s1 : ∀ {a b : Bytes}, ¬ DoubleBang (a ++ b) → ¬ DoubleBang a := fun h hb => h (hb.left _)
  have s2 : ∀ {a b : Bytes}, ¬ DoubleBang (a ++ b) → ¬ DoubleBang b := fun h hb => h (hb.right _)
  refine cst_ind ?_ ?_ ?_ ?_ ?_ ?_ ?_ ?_ ?_ ?_
  · intro ws txt v rest hw _
    exact .before hw.1 (.num ⟨v, literal_nil hw.2⟩)
  · intro ws nm rest hw _
    exact .before hw.1 (.name (name_isName hw.2.1) hw.2.2)
  · intro ws nm ws2 as ih rest hw hb
    obtain ⟨f, hf, hn⟩ := hw.2.2.2.1
    have hb' : ¬ DoubleBang as.text := by
      have e : (Cst.call ws nm ws2 as).text = (ws ++ nm ++ ws2 ++ [c!"("]) ++ (as.text ++ [c!")"]) := by
        simp [Cst.text]
      rw [e] at hb; exact s1 (s2 hb)
    have := Doc.before hw.1 (.call (name_isName hw.2.1) hf hw.2.2.1 (ih _ hw.2.2.2.2 hb') hn)
    simpa [Cst.text] using this
  · intro ws x ws2 ih rest hw hb
    have hb' : ¬ DoubleBang x.text := by
      have e : (Cst.paren ws x ws2).text = (ws ++ [c!"("]) ++ (x.text ++ (ws2 ++ [c!")"])) := by
        simp [Cst.text]
      rw [e] at hb; exact s1 (s2 hb)
    have := Doc.before hw.1 (.paren (.after hw.2.1 (ih _ hw.2.2 hb')))
    simpa [Cst.text] using this
  · intro ws neg x ih rest hw hb
    have hb' : ¬ DoubleBang x.text := by
      have e : (Cst.sign ws neg x).text = (ws ++ [if neg then c!"-" else c!"+"]) ++ x.text := by
        simp [Cst.text]
      rw [e] at hb; exact s2 hb
    have hd := ih _ hw.2.1 hb'
    cases neg
    · exact .before hw.1 (.pos hd)
    · exact .before hw.1 (.neg hd)
  · intro x ws ih rest hw hb
    have hb' : ¬ DoubleBang x.text := by
      rw [Cst.text] at hb; exact s1 (s1 hb)
    exact .fact (.after hw.2.1 (ih _ hw.2.2 hb'))
  · intro l ws op r ihl ihr rest hw hb
    have ho : op ≠ .factorial := by
      rintro rfl; exact hb (bin_bang hw)
    have e : (Cst.bin l ws op r).text = (l.text ++ ws) ++ ([opChar op] ++ r.text) := by
      simp [Cst.text]
    have hb' := hb
    rw [e] at hb'
    exact .bin (.after hw.1 (ihl _ hw.2.1 (s1 (s1 hb')))) (opChar_mem ho)
      (ihr _ hw.2.2.2.1 (s2 (s2 hb')))
  · intro l r ihl ihr rest hw hb
    obtain ⟨c, hc, hcc⟩ := hw.2.2.2.2
    obtain ⟨d, hd⟩ := text_tok r _ hw.2.2.1
    rw [firstTok_append hd] at hc
    cases hc
    exact .juxt (ihl _ hw.1 (s1 hb)) (ihr _ hw.2.2.1 (s2 hb)) hd
      (by rcases hcc with h | h | h <;> simp [h])
  · intro x ws ih rest hw hb
    exact .last (.after hw.1 (ih _ hw.2 (s1 hb)))
  · intro x ws as ih ihs rest hw hb
    have e : (CArgs.more x ws as).text = (x.text ++ ws) ++ ([c!","] ++ as.text) := by
      simp [CArgs.text]
    have hb' := hb
    rw [e] at hb'
    exact .more (.after hw.1 (ih _ hw.2.1 (s1 (s1 hb')))) (ihs _ hw.2.2 (s2 (s2 hb')))

/-! ### Written-out trees are legal texts -/

theorem edge_le_top : ∀ x : Cst, x.edge cfg ≤ x.top cfg
  | .num .. => Nat.le_refl _
  | .name .. => Nat.le_refl _
  | .call .. => Nat.le_refl _
  | .paren .. => Nat.le_refl _
  | .fact .. => Nat.le_refl _
  | .sign _ _ x => Nat.le_trans (Nat.min_le_left _ _) (show signLevel ≤ 7 by decide)
  | .bin .. => Nat.min_le_left _ _
  | .juxt .. => Nat.min_le_left _ _

theorem good_chain {L : Nat} (hL : L < 7) : ∀ x : Cst, x.good cfg ctx → L < x.top cfg → L < x.chain cfg
  | .num .., _, _ => hL
  | .name .., _, _ => hL
  | .call .., _, _ => hL
  | .paren .., _, _ => hL
  | .fact .., _, _ => hL
  | .sign .., _, _ => hL
  | .bin l ws op r, hg, h => by
    rw [Cst.top] at h
    rw [Cst.chain, Nat.lt_min]
    exact ⟨h, good_chain hL l hg.2.2.1
      (Nat.lt_of_lt_of_le h (Nat.le_trans hg.2.2.2.2.1 (edge_le_top l)))⟩
  | .juxt l r, hg, h => by
    rw [Cst.top] at h
    rw [Cst.chain, Nat.lt_min]
    exact ⟨h, good_chain hL l hg.1
      (Nat.lt_of_lt_of_le h (Nat.le_trans hg.2.2.1 (edge_le_top l)))⟩

theorem stops_mono {q q' : Nat} {P : Prop} {rest : Bytes} (h : stops cfg q False rest) (hq : q ≤ q') :
    stops cfg q' P rest := by
  intro c hc
  obtain ⟨h1, h2, h3⟩ := h c hc
  exact ⟨fun op ho => Nat.le_trans (h1 op ho) hq, fun hl => Nat.le_trans (h2 hl) hq,
    fun hd => .inl (Nat.le_trans ((h3 hd).resolve_right id) hq)⟩

theorem good_closed {rest : Bytes} (hb : noBang rest) :
    ∀ x : Cst, stops cfg (x.edge cfg) False rest → x.closed cfg fin ctx rest
  | .num .., _ => hb
  | .name .., _ => hb
  | .call .., _ => hb
  | .paren .., _ => hb
  | .fact .., _ => trivial
  | .sign _ _ x, h =>
    ⟨stops_mono h (Nat.min_le_left _ _), good_closed hb x (stops_mono h (Nat.min_le_right _ _))⟩
  | .bin _ _ _ r, h =>
    ⟨stops_mono h (Nat.min_le_left _ _), good_closed hb r (stops_mono h (Nat.min_le_right _ _))⟩
  | .juxt _ r, h =>
    ⟨stops_mono h (Nat.min_le_left _ _), good_closed hb r (stops_mono h (Nat.min_le_right _ _))⟩

/-- `rest` does not continue the last token. -/
def Follow (x : Cst) (rest : Bytes) : Prop :=
  (x.endsName = true → notHead nameChar rest) ∧
  (x.endsNum = true → notHead mantChar rest ∧ ¬ expStart rest)

/-- The text begins with a character that cannot continue a token. -/
def apart (c : UInt8) : Prop := ¬ nameChar c ∧ ¬ mantChar c

instance : DecidablePred apart := fun _ => inferInstanceAs (Decidable (_ ∧ _))

theorem apart_op (op : Op) : apart (opChar op) := by cases op <;> decide
theorem apart_space : ∀ {c : UInt8}, space c → apart c :=
  fun {c} => forall_byte (P := fun c => space c → apart c) (by decide +kernel) c

theorem follow_apart {x : Cst} {rest : Bytes} (h : notHead (fun c => ¬ apart c) rest) :
    Follow x rest := by
  refine ⟨fun _ c hc hn => h c hc fun ha => ha.1 hn, fun _ => ⟨fun c hc hn => h c hc fun ha => ha.2 hn, ?_⟩⟩
  rintro ⟨e, sg, d, t, he, _, _, rfl⟩
  refine h e rfl fun ha => ha.1 ?_
  rcases he with rfl | rfl <;> decide

theorem follow_spaces {x : Cst} {ws t : Bytes} {c : UInt8} (hw : spaces ws) (hc : apart c) :
    Follow x (ws ++ c :: t) := by
  refine follow_apart fun d hd hn => ?_
  cases ws with
  | nil => simp at hd; subst hd; exact hn hc
  | cons e ws => simp at hd; subst hd; exact hn (apart_space (hw _ (by simp)))

theorem follow_end {x : Cst} {ws : Bytes} (hw : spaces ws) : Follow x ws := by
  refine follow_apart fun d hd hn => ?_
  cases ws with
  | nil => cases hd
  | cons e ws => simp at hd; subst hd; exact hn (apart_space (hw _ (by simp)))

theorem literal_rest {txt rest : Bytes} {v : F64} (h : Literal txt [] v)
    (h1 : notHead mantChar rest) (h2 : ¬ expStart rest) : Literal txt rest v := by
  obtain ⟨mant, ip, fp, a1, a2, a3, a4⟩ := h
  refine ⟨mant, ip, fp, a1, a2, a3, ?_⟩
  rcases a4 with ⟨rfl, _, _, hv⟩ | ⟨e, sg, ds, he, hne, hds, rfl, _, h5⟩
  · exact .inl ⟨rfl, h1, h2, hv⟩
  · exact .inr ⟨e, sg, ds, he, hne, hds, rfl, fun c hc hd => h1 c hc (.inl hd), h5⟩

theorem opChar_inj {op op' : Op} (h : opChar op = opChar op') : op = op' := by
  have := opOfByte_opChar op
  rw [h, opOfByte_opChar] at this
  exact (Option.some.inj this).symm

theorem op_facts (op : Op) : ¬ lower (opChar op) ∧ opChar op ≠ c!"(" ∧ ¬ digit (opChar op) := by
  cases op <;> decide

theorem stops_op {q : Nat} {P : Prop} {ws t : Bytes} {op : Op} (hw : spaces ws) (h : level op ≤ q) :
    stops cfg q P (ws ++ opChar op :: t) := by
  intro c hc
  rw [firstTok_spaces hw, firstTok_cons (not_space_opChar op)] at hc
  cases hc
  refine ⟨fun op' ho => by rw [opChar_inj ho]; exact h, fun hl => ?_, fun hd => ?_⟩
  · exact absurd hl (by have := op_facts op; simp [this])
  · exact absurd hd (op_facts op).2.2

theorem noBang_op {ws t : Bytes} {op : Op} (hw : spaces ws) (h : op ≠ .factorial) :
    noBang (ws ++ opChar op :: t) := by
  intro hc
  rw [firstTok_spaces hw, firstTok_cons (not_space_opChar op)] at hc
  refine h (opChar_inj (op' := .factorial) ?_)
  exact Option.some.inj hc

theorem juxt_facts : ∀ {c : UInt8}, (lower c ∨ c = c!"(") →
    ¬ digit c ∧ c ≠ c!"!" ∧ (∀ op, opChar op ≠ c) ∧ ¬ mantChar c := by
  intro c
  have : ∀ c : UInt8, (lower c ∨ c = c!"(") → ¬ digit c ∧ c ≠ c!"!" ∧ opOfByte c = none ∧ ¬ mantChar c :=
    forall_byte (by decide +kernel)
  intro h
  obtain ⟨h1, h2, h3, h4⟩ := this c h
  refine ⟨h1, h2, fun op ho => ?_, h4⟩
  rw [← ho, opOfByte_opChar] at h3
  cases h3

theorem stops_juxt {q : Nat} {P : Prop} {t : Bytes} {c : UInt8} (hc : firstTok t = some c)
    (hl : lower c ∨ c = c!"(") (h : implLevel cfg ≤ q) : stops cfg q P t := by
  intro d hd
  rw [hc] at hd
  cases hd
  have := juxt_facts hl
  exact ⟨fun op ho => absurd ho (this.2.2.1 op), fun _ => h, fun hd => absurd hd this.1⟩

theorem follow_juxt {l : Cst} {t rest : Bytes} {c : UInt8} (hc : firstTok t = some c)
    (hl : lower c ∨ c = c!"(") (h1 : l.endsName = true → notHead nameChar t)
    (h2 : l.endsNum = true → notExp t) : Follow l (t ++ rest) := by
  have hne : ∃ d u, t = d :: u := by
    cases t with
    | nil => cases hc
    | cons d u => exact ⟨d, u, rfl⟩
  obtain ⟨d, u, rfl⟩ := hne
  refine ⟨fun h c hcc => h1 h c (by simpa using hcc), fun h => ⟨?_, ?_⟩⟩
  · intro e he hm
    simp at he; subst he
    by_cases hs : space d
    · exact (apart_space hs).2 hm
    · rw [firstTok_cons hs] at hc
      cases hc
      exact (juxt_facts hl).2.2.2 hm
  · rintro ⟨e, sg, dd, tt, he, hsg, hdd, heq⟩
    simp only [List.cons_append, List.cons.injEq] at heq
    obtain ⟨rfl, heq⟩ := heq
    obtain ⟨d2, t2, rfl, a1, a2, a3⟩ := h2 h d u rfl he
    rcases hsg with rfl | rfl | rfl
    · simp at heq; exact a1 (heq.1 ▸ hdd)
    · simp at heq; exact a2 heq.1
    · simp at heq; exact a3 heq.1

theorem isName_name {nm rest : Bytes} (h : IsName nm) (hr : notHead nameChar rest) : Name nm rest :=
  ⟨h.1, h.2, hr⟩

theorem good_wf :
    (∀ (x : Cst) (rest : Bytes), x.good cfg ctx → Follow x rest → x.wf cfg fin ctx rest) ∧
    (∀ (as : CArgs) (rest : Bytes), as.good cfg ctx → as.wf cfg fin ctx rest) := by
  refine cst_ind ?_ ?_ ?_ ?_ ?_ ?_ ?_ ?_ ?_ ?_
  · intro ws txt v rest hg hf
    exact ⟨hg.1, literal_rest hg.2 (hf.2 rfl).1 (hf.2 rfl).2⟩
  · intro ws nm rest hg hf
    exact ⟨hg.1, isName_name hg.2.1 (hf.1 rfl), hg.2.2⟩
  · intro ws nm ws2 as ih rest hg hf
    exact ⟨hg.1, isName_name hg.2.1 (by intro c hc; cases hc), hg.2.2.1, hg.2.2.2.1, ih _ hg.2.2.2.2⟩
  · intro ws x ws2 ih rest hg hf
    exact ⟨hg.1, hg.2.1, ih _ hg.2.2 (follow_spaces hg.2.1 (by decide))⟩
  · intro ws neg x ih rest hg hf
    exact ⟨hg.1, ih _ hg.2.1 hf, good_chain (by decide) x hg.2.1 hg.2.2⟩
  · intro x ws ih rest hg hf
    exact ⟨hg.1, hg.2.1, ih _ hg.2.2 (follow_spaces hg.2.1 (by decide))⟩
  · intro l ws op r ihl ihr rest hg hf
    have e : ws ++ opChar op :: r.text ++ rest = ws ++ opChar op :: (r.text ++ rest) := by simp
    refine ⟨hg.2.1, ?_, ?_, ihr _ hg.2.2.2.1 hf, good_chain (level_lt op) r hg.2.2.2.1 hg.2.2.2.2.2⟩
    · rw [e]; exact ihl _ hg.2.2.1 (follow_spaces hg.2.1 (apart_op op))
    · rw [e]
      exact good_closed (noBang_op hg.2.1 hg.1) l (stops_op hg.2.1 hg.2.2.2.2.1)
  · intro l r ihl ihr rest hg hf
    obtain ⟨g1, g2, g3, g4, ⟨c, hc, hl⟩, g6, g7⟩ := hg
    have hc' : firstTok (r.text ++ rest) = some c := firstTok_append hc
    refine ⟨ihl _ g1 (follow_juxt hc hl g6 g7), ?_, ihr _ g2 hf,
      good_chain (implLevel_lt cfg) r g2 g4, c, hc', hl.elim .inl (fun h => .inr (.inl h))⟩
    refine good_closed ?_ l (stops_juxt hc' hl g3)
    intro hb
    rw [hc'] at hb
    exact (juxt_facts hl).2.1 (Option.some.inj hb)
  · intro x ws ih rest hg
    exact ⟨hg.1, ih _ hg.2 (follow_spaces hg.1 (by decide))⟩
  · intro x ws as ih ihs rest hg
    exact ⟨hg.1, ih _ hg.2.1 (follow_spaces hg.1 (by decide)), ihs _ hg.2.2⟩

/-- With no simplification a text denotes its tree. -/
theorem den_tree :
    (∀ (x : Cst), x.good cfg ctx → x.den .ok ctx = .ok (x.tree ctx)) ∧
    (∀ (as : CArgs), as.good cfg ctx → as.den .ok ctx = .ok (as.trees ctx)) := by
  refine cst_ind ?_ ?_ ?_ ?_ ?_ ?_ ?_ ?_ ?_ ?_
  · intro ws txt v _; rfl
  · intro ws nm _
    rw [Cst.den, Cst.tree]
    split <;> simp_all
  · intro ws nm ws2 as ih hg
    obtain ⟨f, hf, _⟩ := hg.2.2.2.1
    rw [Cst.den, Cst.tree, ih hg.2.2.2.2]
    simp only [hf]
  · intro ws x ws2 ih hg; rw [Cst.den, Cst.tree, ih hg.2.2]
  · intro ws neg x ih hg; rw [Cst.den, Cst.tree, ih hg.2.1]
  · intro x ws ih hg; rw [Cst.den, Cst.tree, ih hg.2.2]
  · intro l ws op r ihl ihr hg; rw [Cst.den, Cst.tree, ihl hg.2.2.1, ihr hg.2.2.2.1]
  · intro l r ihl ihr hg; rw [Cst.den, Cst.tree, ihl hg.1, ihr hg.2.1]
  · intro x ws ih hg; rw [CArgs.den, CArgs.trees, ih hg.2]
  · intro x ws as ih ihs hg; rw [CArgs.den, CArgs.trees, ih hg.2.1, ihs hg.2.2]

/-- A written-out tree, with any whitespace behind it, parses to its meaning. -/
theorem parseImpl_written (w : World) {x : Cst} {tw : Bytes} (hg : x.good cfg ctx) (ht : spaces tw) :
    parseImpl cfg w ctx (x.text ++ tw) =
      match x.meaning (finOf cfg w) ctx with
      | .ok e => .ok ⟨e, findVars e []⟩
      | .error p => .panic p :=
  parseImpl_text cfg w ctx x tw (good_wf.1 x tw hg (follow_end ht)) ht

theorem finOf_plain {w : World} (ho : cfg.opt = false) : finOf cfg w = .ok := by
  funext e; unfold finOf; rw [if_neg (by simp [ho])]

theorem parseImpl_plain (w : World) (ho : cfg.opt = false) {x : Cst} {tw : Bytes}
    (hg : x.good cfg ctx) (ht : spaces tw) :
    parseImpl cfg w ctx (x.text ++ tw) = .ok ⟨x.tree ctx, findVars (x.tree ctx) []⟩ := by
  rw [parseImpl_written w hg ht, finOf_plain ho, Cst.meaning, den_tree.1 x hg]


/-- In any build, a written-out tree denotes a tree obtained from its own by
simplifications; if the functions are total nothing panics. -/
theorem den_rewrites {w : World} (hc : CtxTotal w ctx) :
    (∀ (x : Cst), x.good cfg ctx → ∃ e, x.den (finOf cfg w) ctx = .ok e ∧
      Proper (FnTotal w) e ∧ Rewrites cfg w (x.tree ctx) e) ∧
    (∀ (as : CArgs), as.good cfg ctx → ∃ es, as.den (finOf cfg w) ctx = .ok es ∧
      (∀ a ∈ es, Proper (FnTotal w) a) ∧ RewritesL cfg w (as.trees ctx) es) := by
  have hfin : ∀ e, Proper (FnTotal w) e → ∃ e', finOf cfg w e = .ok e' ∧ Proper (FnTotal w) e' ∧
      Rewrites cfg w e e' := by
    intro e he
    unfold finOf
    split
    · obtain ⟨e', h1, h2⟩ := simplify_proper cfg w (fun _ h => h) e he
      exact ⟨e', h1, h2, .simp h1⟩
    · exact ⟨e, rfl, he, .refl⟩
  refine cst_ind ?_ ?_ ?_ ?_ ?_ ?_ ?_ ?_ ?_ ?_
  · intro ws txt v _; exact ⟨_, rfl, .num v, .refl⟩
  · intro ws nm _
    rw [Cst.den, Cst.tree]
    cases lookup ctx nm
    case const => exact ⟨_, rfl, .num _, .refl⟩
    all_goals exact ⟨_, rfl, .var _, .refl⟩
  · intro ws nm ws2 as ih hg
    obtain ⟨f, hf, hn⟩ := hg.2.2.2.1
    obtain ⟨es, h1, h2, h3⟩ := ih hg.2.2.2.2
    rw [Cst.den, Cst.tree, h1]
    simp only [hf]
    have hl := den_count as h1
    exact ⟨_, rfl, .call (named_total hc ⟨nm, hf⟩) ⟨by rw [hl]; exact count_pos as,
      fun n h => by rw [hl]; exact hn n h⟩ h2, .call h3⟩
  · intro ws x ws2 ih hg
    obtain ⟨e, h1, h2, h3⟩ := ih hg.2.2
    obtain ⟨e', f1, f2, f3⟩ := hfin e h2
    rw [Cst.den, Cst.tree, h1]
    exact ⟨e', f1, f2, h3.trans f3⟩
  · intro ws neg x ih hg
    obtain ⟨e, h1, h2, h3⟩ := ih hg.2.1
    obtain ⟨e', f1, f2, f3⟩ := hfin e h2
    rw [Cst.den, Cst.tree, h1]
    simp only [f1]
    exact ⟨_, rfl, .un (by cases neg <;> simp) f2, .un (h3.trans f3)⟩
  · intro x ws ih hg
    obtain ⟨e, h1, h2, h3⟩ := ih hg.2.2
    rw [Cst.den, Cst.tree, h1]
    exact ⟨_, rfl, .un (by simp) h2, .un h3⟩
  · intro l ws op r ihl ihr hg
    obtain ⟨a, a1, a2, a3⟩ := ihl hg.2.2.1
    obtain ⟨b, b1, b2, b3⟩ := ihr hg.2.2.2.1
    obtain ⟨b', f1, f2, f3⟩ := hfin b b2
    rw [Cst.den, Cst.tree, a1, b1]
    simp only [f1]
    exact ⟨_, rfl, .bin hg.1 a2 f2, .bin a3 (b3.trans f3)⟩
  · intro l r ihl ihr hg
    obtain ⟨a, a1, a2, a3⟩ := ihl hg.1
    obtain ⟨b, b1, b2, b3⟩ := ihr hg.2.1
    obtain ⟨b', f1, f2, f3⟩ := hfin b b2
    rw [Cst.den, Cst.tree, a1, b1]
    simp only [f1]
    exact ⟨_, rfl, .bin (by decide) a2 f2, .bin a3 (b3.trans f3)⟩
  · intro x ws ih hg
    obtain ⟨e, h1, h2, h3⟩ := ih hg.2
    obtain ⟨e', f1, f2, f3⟩ := hfin e h2
    rw [CArgs.den, CArgs.trees, h1]
    simp only [f1]
    exact ⟨_, rfl, by simpa using f2, .cons (h3.trans f3) .nil⟩
  · intro x ws as ih ihs hg
    obtain ⟨e, h1, h2, h3⟩ := ih hg.2.1
    obtain ⟨e', f1, f2, f3⟩ := hfin e h2
    obtain ⟨es, s1, s2, s3⟩ := ihs hg.2.2
    rw [CArgs.den, CArgs.trees, h1, s1]
    simp only [f1]
    refine ⟨_, rfl, ?_, .cons (h3.trans f3) s3⟩
    intro a ha
    rcases List.mem_cons.1 ha with rfl | ha
    · exact f2
    · exact s2 a ha

theorem parseImpl_rewrites {w : World} (hc : CtxTotal w ctx) {x : Cst} {tw : Bytes}
    (hg : x.good cfg ctx) (ht : spaces tw) :
    ∃ e, parseImpl cfg w ctx (x.text ++ tw) = .ok ⟨e, findVars e []⟩ ∧
      Rewrites cfg w (x.tree ctx) e ∧ (cfg.opt = false → e = x.tree ctx) := by
  obtain ⟨e, h1, h2, h3⟩ := (den_rewrites (cfg := cfg) hc).1 x hg
  have : ∃ e', finOf cfg w e = .ok e' ∧ Rewrites cfg w e e' := by
    unfold finOf
    split
    · obtain ⟨e', h1, _⟩ := simplify_proper cfg w (fun _ h => h) e h2
      exact ⟨e', h1, .simp h1⟩
    · exact ⟨e, rfl, .refl⟩
  obtain ⟨e', f1, f2⟩ := this
  refine ⟨e', ?_, h3.trans f2, fun ho => ?_⟩
  · rw [parseImpl_written w hg ht, Cst.meaning, h1]
    simp only [f1]
  · rw [finOf_plain ho] at h1 f1
    rw [den_tree.1 x hg] at h1
    cases h1; cases f1; rfl

end

/-! ### `parse` from `parseImpl` -/

theorem parse_of_impl {cfg : Cfg} {w : World} {o : Oracle} {ctx : Context} {input : Bytes} {x : Xpr}
    (h : parseImpl cfg w ctx input = .ok x)
    (hv : ∀ vs, ctx.getExpected = some vs → ∀ n ∈ x.vars, n ∈ vs) :
    parse cfg w o ctx input = .ok x := by
  unfold parse
  rw [h]
  simp only
  split
  · rename_i vs hvs
    have : (diffVars o x.vars vs).head? = none := by
      rw [List.head?_eq_none_iff, List.eq_nil_iff_forall_not_mem]
      intro v hm
      have := mem_diffVars.1 hm
      exact this.2 (hv vs hvs v this.1)
    rw [this]
  · rfl

end Xprs
