import Verif.Lemmas.Parse
import Mathlib.Data.List.Chain
/-
Texts with `!!`: a legal text has two exclamation marks in a row exactly where the
parser takes the second one for a binary operator.
-/
namespace Xprs
open Spec
set_option linter.unusedSimpArgs false

/-! ### Unary nodes -/

/-- The unary nodes of the tree are signs and factorials. -/
def Unaries (e : Elem) : Prop :=
  ∀ op a, Sub (.un op a) e → op = .plus ∨ op = .minus ∨ op = .factorial

theorem unaries_num {x : F64} : Unaries (.num x) := fun _ _ h => nomatch h
theorem unaries_var {x : Bytes} : Unaries (.var x) := fun _ _ h => nomatch h

theorem unaries_bin {op : Op} {l r : Elem} : Unaries (.bin op l r) ↔ Unaries l ∧ Unaries r := by
  constructor
  · intro h
    exact ⟨fun o a hs => h o a (.left hs), fun o a hs => h o a (.right hs)⟩
  · rintro ⟨h1, h2⟩ o a hs
    cases hs with
    | left h => exact h1 o a h
    | right h => exact h2 o a h

theorem unaries_un {op : Op} {e : Elem} :
    Unaries (.un op e) ↔ (op = .plus ∨ op = .minus ∨ op = .factorial) ∧ Unaries e := by
  constructor
  · intro h
    exact ⟨h op e .refl, fun o a hs => h o a (.operand hs)⟩
  · rintro ⟨h1, h2⟩ o a hs
    cases hs with
    | refl => exact h1
    | operand h => exact h2 o a h

theorem unaries_call {f : Func} {args : List Elem} :
    Unaries (.call f args) ↔ ∀ a ∈ args, Unaries a := by
  constructor
  · intro h b hb o a hs
    exact h o a (.arg hb hs)
  · intro h o a hs
    cases hs with
    | arg hb h' => exact h _ hb o a h'

theorem BinShape.unaries {op : Op} {l r e : Elem} (h : BinShape op l r e)
    (hl : Unaries l) (hr : Unaries r) : Unaries e := by
  cases h with
  | left => exact hl
  | right => exact hr
  | num x => exact unaries_num
  | neg _ => exact unaries_un.2 ⟨.inr (.inl rfl), hr⟩
  | plus b _ hb => subst hb; exact unaries_bin.2 ⟨hl, (unaries_un.1 hr).2⟩
  | both a b ha hb =>
    subst ha hb; exact unaries_bin.2 ⟨(unaries_un.1 hl).2, (unaries_un.1 hr).2⟩
  | same => exact unaries_bin.2 ⟨hl, hr⟩

theorem simplify_unaries {cfg : Cfg} {w : World} : ∀ e e', simplify cfg w e = .ok e' →
    Unaries e → Unaries e' := by
  intro e
  induction e using Elem.ind with
  | num x => intro e' h hp; rw [simplify] at h; cases h; exact hp
  | var x => intro e' h hp; rw [simplify] at h; cases h; exact hp
  | bin op l r ihl ihr =>
    intro e' h hp
    obtain ⟨l', r', hl, hr, hb⟩ := simplify_bin_ok h
    have := unaries_bin.1 hp
    exact (simpBin_shape hb).unaries (ihl _ hl this.1) (ihr _ hr this.2)
  | un op a ih =>
    intro e' h hp
    obtain ⟨a', ha, hb⟩ := simplify_un_ok h
    have := unaries_un.1 hp
    cases simpUn_shape hb with
    | same _ => exact unaries_un.2 ⟨this.1, ih _ ha this.2⟩
    | operand => exact ih _ ha this.2
    | num x => exact unaries_num
  | call f args ih =>
    intro e' h hp
    obtain ⟨args', ha, hb⟩ := simplify_call_ok h
    have hargs := unaries_call.1 hp
    rcases simpCall_shape hb with rfl | ⟨x, rfl⟩
    · refine unaries_call.2 ?_
      clear h hb hp
      induction args generalizing args' with
      | nil => rw [simplifyL] at ha; cases ha; simp
      | cons b bs ihb =>
        obtain ⟨b', bs', hb1, hb2, rfl⟩ := simplifyL_cons_ok ha
        intro d hd
        rcases List.mem_cons.1 hd with rfl | hd
        · exact ih b (by simp) _ hb1 (hargs b (by simp))
        · exact ihb (fun a ha => ih a (by simp [ha])) _ hb2 (fun a ha => hargs a (by simp [ha])) d hd
    · exact unaries_num

theorem simplifyFor_unaries {cfg : Cfg} {w : World} {x : Bytes} {v : F64} :
    ∀ e e', simplifyFor cfg w x v e = .ok e' → Unaries e → Unaries e' := by
  intro e
  induction e using Elem.ind with
  | num y => intro e' h hp; rw [simplifyFor] at h; cases h; exact hp
  | var y =>
    intro e' h hp
    rw [simplifyFor] at h
    split at h
    · cases h; exact unaries_num
    · cases h; exact hp
  | bin op l r ihl ihr =>
    intro e' h hp
    obtain ⟨l', r', hl, hr, hb⟩ := simplifyFor_bin_ok h
    have := unaries_bin.1 hp
    exact simplify_unaries _ _ hb (unaries_bin.2 ⟨ihl _ hl this.1, ihr _ hr this.2⟩)
  | un op a ih =>
    intro e' h hp
    obtain ⟨a', ha, hb⟩ := simplifyFor_un_ok h
    have := unaries_un.1 hp
    exact simplify_unaries _ _ hb (unaries_un.2 ⟨this.1, ih _ ha this.2⟩)
  | call f args ih =>
    intro e' h hp
    obtain ⟨args', ha, hb⟩ := simplifyFor_call_ok h
    have hargs := unaries_call.1 hp
    refine simplify_unaries _ _ hb (unaries_call.2 ?_)
    clear h hb hp
    induction args generalizing args' with
    | nil => rw [simplifyForL] at ha; cases ha; simp
    | cons b bs ihb =>
      obtain ⟨b', bs', hb1, hb2, rfl⟩ := simplifyForL_cons_ok ha
      intro d hd
      rcases List.mem_cons.1 hd with rfl | hd
      · exact ih b (by simp) _ hb1 (hargs b (by simp))
      · exact ihb (fun a ha => ih a (by simp [ha])) _ hb2 (fun a ha => hargs a (by simp [ha])) d hd

theorem reach_unaries {cfg : Cfg} {w : World} {ctx : Context} {input : Bytes} {y : Xpr}
    (h : Reach cfg w ctx input y) : Unaries y.root := by
  refine reach_ind (Q := fun e _ => Unaries e) ?_ (fun _ _ _ _ _ hq h => simplifyFor_unaries _ _ h hq) h
  intro x hx
  obtain ⟨c, tw, e, h1, h2, h3, h4, h5, h6⟩ := parseImpl_den hx
  refine keeps_finOf simplify_unaries _ _ h5 ?_
  refine (den_ind (cfg := cfg) (ctx := ctx) (Q := Unaries) (B := fun _ => True) (fun _ => True)
    (keeps_finOf simplify_unaries) (fun _ => unaries_num) (fun _ _ _ _ _ => unaries_var)
    (fun f es _ _ h => unaries_call.2 h) (fun op a h ha => unaries_un.2 ⟨h, ha⟩)
    (fun op a b _ ha hb => unaries_bin.2 ⟨ha, hb⟩) trivial (fun _ _ _ _ _ _ _ => trivial)
    (fun _ _ _ _ => trivial)).1 c tw e h3 trivial h4

/-- A tree without a binary `!` is proper. -/
theorem proper_of_no_bang {P : Func → Prop} : ∀ e : Elem, Calls P e → Unaries e →
    (∀ l r, ¬ Sub (.bin .factorial l r) e) → Proper P e := by
  intro e
  induction e using Elem.ind with
  | num x => intro _ _ _; exact .num x
  | var x => intro _ _ _; exact .var x
  | bin op l r ihl ihr =>
    intro hc hu hb
    have h1 := calls_bin.1 hc
    have h2 := unaries_bin.1 hu
    refine .bin ?_ (ihl h1.1 h2.1 fun a b h => hb a b (.left h))
      (ihr h1.2 h2.2 fun a b h => hb a b (.right h))
    rintro rfl
    exact hb l r .refl
  | un op a ih =>
    intro hc hu hb
    have h2 := unaries_un.1 hu
    exact .un h2.1 (ih (calls_un.1 hc) h2.2 fun a b h => hb a b (.operand h))
  | call f args ih =>
    intro hc hu hb
    have h1 := calls_call.1 hc
    exact .call h1.1.1 h1.1.2 fun a ha => ih a ha (h1.2 a ha) (unaries_call.1 hu a ha)
      fun l r h => hb l r (.arg ha h)

/-- A tree with a binary `!` has no value. -/
theorem no_value_of_bang {w : World} {m : HMap F64} {l r : Elem} : ∀ e : Elem,
    Sub (.bin .factorial l r) e → ∀ v, eval w m e ≠ .ok v := by
  intro e hs
  induction hs with
  | refl =>
    intro v h
    rw [eval] at h
    split at h
    · cases h
    · split at h
      · cases h
      · simp [binF, liftP] at h
  | left _ ih =>
    intro v h
    rw [eval] at h
    split at h
    · cases h
    · rename_i a ha; exact ih a ha
  | right _ ih =>
    intro v h
    rw [eval] at h
    split at h
    · cases h
    · split at h
      · cases h
      · rename_i b hb; exact ih b hb
  | operand _ ih =>
    intro v h
    rw [eval] at h
    split at h
    · cases h
    · rename_i b hb; exact ih b hb
  | @arg f args a hm _ ih =>
    intro v h
    rw [eval] at h
    split at h
    · cases h
    · rename_i vs hvs
      clear h
      induction args generalizing vs with
      | nil => cases hm
      | cons b bs ihb =>
        rw [evalL] at hvs
        split at hvs
        · cases hvs
        · rename_i u hu
          split at hvs
          · cases hvs
          · rename_i us hus
            rcases List.mem_cons.1 hm with rfl | hm
            · exact ih u hu
            · exact ihb hm us hus

/-! ### Texts -/

/-- The text without its whitespace. -/
def squeeze (l : Bytes) : Bytes := l.filter fun c => !decide (space c)

/-- No two exclamation marks in a row. -/
abbrev Apart : Bytes → Prop := List.IsChain fun a b : UInt8 => ¬ (a = c!"!" ∧ b = c!"!")

theorem squeeze_append (a b : Bytes) : squeeze (a ++ b) = squeeze a ++ squeeze b :=
  List.filter_append ..

theorem squeeze_spaces {a : Bytes} (h : spaces a) : squeeze a = [] := by
  unfold squeeze
  rw [List.filter_eq_nil_iff]
  intro c hc
  simpa using h c hc

theorem squeeze_cons {c : UInt8} (h : ¬ space c) (l : Bytes) : squeeze (c :: l) = c :: squeeze l := by
  unfold squeeze
  rw [List.filter_cons_of_pos (by simpa using h)]

/-- A text with `!!` is not `Apart` once its whitespace is taken out. -/
theorem bang_not_apart {l : Bytes} (h : DoubleBang l) : ¬ Apart (squeeze l) := by
  obtain ⟨a, ws, b, hws, rfl⟩ := h
  have h1 : ¬ space c!"!" := by decide
  rw [squeeze_append, squeeze_cons h1, squeeze_append, squeeze_spaces hws, List.nil_append,
    squeeze_cons h1]
  intro h
  have := (List.isChain_append_cons_cons.1 h).2.1
  exact this ⟨rfl, rfl⟩

theorem apart_of_none : ∀ {l : Bytes}, c!"!" ∉ l → Apart l
  | [], _ => .nil
  | [a], _ => .singleton a
  | a :: b :: l, h => by
    refine List.isChain_cons_cons.2 ⟨fun hab => h (by simp [hab.1]), apart_of_none fun hm => h ?_⟩
    exact List.mem_cons_of_mem _ hm

theorem squeeze_none {l : Bytes} (h : c!"!" ∉ l) : c!"!" ∉ squeeze l := fun hm =>
  h (List.mem_filter.1 hm).1

theorem literal_none {txt rest : Bytes} {v : F64} (h : Literal txt rest v) : c!"!" ∉ txt := by
  obtain ⟨mant, ip, fp, _, h2, _, h⟩ := h
  have hm : c!"!" ∉ mant := fun hc => absurd (h2 _ hc) (by decide)
  rcases h with ⟨rfl, _⟩ | ⟨e, sg, ds, he, _, hds, rfl, _, hsg⟩
  · exact hm
  · have hd : c!"!" ∉ ds := fun hc => absurd (hds _ hc) (by decide)
    have hs : c!"!" ∉ sg := by
      rcases hsg with ⟨rfl | rfl, _⟩ | ⟨rfl, _⟩ <;> decide
    have he' : c!"!" ≠ e := by rcases he with rfl | rfl <;> decide
    simp [hm, hd, hs, he']

theorem name_none {nm rest : Bytes} (h : Name nm rest) : c!"!" ∉ nm := fun hc =>
  absurd (h.2.1 _ hc) (by decide)

mutual
/-- The tree takes a `!` for a binary operator somewhere. -/
def Stray : Cst → Prop
  | .num .. => False
  | .name .. => False
  | .call _ _ _ as => StrayL as
  | .paren _ x _ => Stray x
  | .sign _ _ x => Stray x
  | .fact x _ => Stray x
  | .bin l _ op r => op = .factorial ∨ Stray l ∨ Stray r
  | .juxt l r => Stray l ∨ Stray r
def StrayL : CArgs → Prop
  | .last x _ => Stray x
  | .more x _ as => Stray x ∨ StrayL as
end

/-- What the squeezed text of a tree without a stray `!` is like. -/
structure Tidy (l : Bytes) : Prop where
  apart : Apart l
  head : l.head? ≠ some c!"!"

theorem tidy_none {l : Bytes} (h : c!"!" ∉ l) : Tidy l :=
  ⟨apart_of_none h, fun hh => h (List.mem_of_mem_head? hh)⟩

theorem Tidy.append {a b : Bytes} (ha : Tidy a) (hb : Tidy b) : Tidy (a ++ b) := by
  refine ⟨List.isChain_append.2 ⟨ha.1, hb.1, fun x _ y hy hxy => hb.2 ?_⟩, ?_⟩
  · rw [← hxy.2]; exact hy
  · cases a with
    | nil => exact hb.2
    | cons c l => exact ha.2

theorem Tidy.bang {a : Bytes} (ha : Tidy a) (hl : a.getLast? ≠ some c!"!") (hn : a ≠ []) :
    Tidy (a ++ [c!"!"]) := by
  refine ⟨List.isChain_append.2 ⟨ha.1, .singleton _, fun x hx y _ hxy => hl ?_⟩, ?_⟩
  · rw [← hxy.1]; exact hx
  · cases a with
    | nil => exact absurd rfl hn
    | cons c l => exact ha.2

theorem tidy_one {c : UInt8} (h : c ≠ c!"!") : Tidy [c] :=
  tidy_none (by simpa using fun h' => h h'.symm)

theorem last_none {l : Bytes} (h : c!"!" ∉ l) : l.getLast? ≠ some c!"!" := fun hh =>
  h (List.mem_of_getLast? hh)

section
variable {cfg : Cfg} {fin : Elem → PM Elem} {ctx : Context}

theorem name_squeeze {nm rest : Bytes} (h : Name nm rest) : squeeze nm ≠ [] := by
  obtain ⟨⟨c, hc, hl⟩, _⟩ := h
  have hs : ¬ space c := by revert hl; exact forall_byte (P := fun c => letter c → ¬ space c) (by decide +kernel) c
  intro h0
  have : c ∈ squeeze nm := List.mem_filter.2 ⟨List.mem_of_mem_head? hc, by simpa using hs⟩
  rw [h0] at this; cases this

theorem literal_squeeze {txt rest : Bytes} {v : F64} (h : Literal txt rest v) : squeeze txt ≠ [] := by
  obtain ⟨mant, ip, fp, ⟨c, hc, hd⟩, _, _, h⟩ := h
  have hs : ¬ space c := by
    revert hd
    exact forall_byte (P := fun c => (digit c ∨ c = c!".") → ¬ space c) (by decide +kernel) c
  have hm : c ∈ txt := by
    have := List.mem_of_mem_head? hc
    rcases h with ⟨rfl, _⟩ | ⟨e, sg, ds, _, _, _, rfl, _⟩
    · exact this
    · simp [this]
  intro h0
  have : c ∈ squeeze txt := List.mem_filter.2 ⟨hm, by simpa using hs⟩
  rw [h0] at this; cases this

mutual
theorem tidy_text : ∀ (x : Cst) (rest : Bytes), x.wf cfg fin ctx rest → ¬ Stray x →
    Tidy (squeeze x.text) ∧
      (x.primary → (squeeze x.text).getLast? ≠ some c!"!" ∧ squeeze x.text ≠ [])
  | .num ws txt v, rest, hw, _ => by
    obtain ⟨h1, h2⟩ := hw
    rw [Cst.text, squeeze_append, squeeze_spaces h1, List.nil_append]
    have := squeeze_none (literal_none h2)
    exact ⟨tidy_none this, fun _ => ⟨last_none this, literal_squeeze h2⟩⟩
  | .name ws nm, rest, hw, _ => by
    obtain ⟨h1, h2, _⟩ := hw
    rw [Cst.text, squeeze_append, squeeze_spaces h1, List.nil_append]
    have := squeeze_none (name_none h2)
    exact ⟨tidy_none this, fun _ => ⟨last_none this, name_squeeze h2⟩⟩
  | .call ws nm ws2 as, rest, hw, hs => by
    rw [Cst.wf] at hw
    obtain ⟨h1, h2, h3, _, h5⟩ := hw
    have ha := tidy_textL as rest h5 (by rw [Stray] at hs; exact hs)
    have e : squeeze (Cst.call ws nm ws2 as).text =
        squeeze nm ++ ([c!"("] ++ squeeze as.text) ++ [c!")"] := by
      rw [Cst.text]
      simp only [squeeze_append, squeeze_spaces h1, squeeze_spaces h3, List.nil_append, List.append_nil,
        List.append_assoc]
      rw [squeeze_cons (by decide)]
      rfl
    rw [e]
    refine ⟨((tidy_none (squeeze_none (name_none h2))).append ((tidy_one (by decide)).append ha)).append
      (tidy_one (by decide)), fun _ => ⟨?_, ?_⟩⟩
    · rw [List.getLast?_concat]; decide
    · simp
  | .paren ws x ws2, rest, hw, hs => by
    rw [Cst.wf] at hw
    obtain ⟨h1, h2, h3⟩ := hw
    have ha := (tidy_text x _ h3 (by rw [Stray] at hs; exact hs)).1
    have e : squeeze (Cst.paren ws x ws2).text = [c!"("] ++ squeeze x.text ++ [c!")"] := by
      rw [Cst.text]
      simp only [squeeze_append, squeeze_spaces h1, List.nil_append, List.append_assoc]
      rw [List.cons_append, squeeze_cons (by decide)]
      simp only [squeeze_append, squeeze_spaces h2, List.nil_append, List.append_assoc]
      rfl
    rw [e]
    refine ⟨((tidy_one (by decide)).append ha).append (tidy_one (by decide)), fun _ => ⟨?_, ?_⟩⟩
    · rw [List.getLast?_concat]; decide
    · simp
  | .sign ws neg x, rest, hw, hs => by
    rw [Cst.wf] at hw
    obtain ⟨h1, h2, _⟩ := hw
    have ha := (tidy_text x _ h2 (by rw [Stray] at hs; exact hs)).1
    rw [Cst.text, squeeze_append, squeeze_spaces h1, List.nil_append,
      squeeze_cons (by cases neg <;> decide), ← List.singleton_append]
    exact ⟨(tidy_one (by cases neg <;> decide)).append ha, False.elim⟩
  | .fact x ws, rest, hw, hs => by
    rw [Cst.wf] at hw
    obtain ⟨h1, h2, h3⟩ := hw
    have ha := tidy_text x _ h3 (by rw [Stray] at hs; exact hs)
    rw [Cst.text, squeeze_append, squeeze_append, squeeze_spaces h2, List.append_nil]
    exact ⟨ha.1.bang (ha.2 h1).1 (ha.2 h1).2, False.elim⟩
  | .bin l ws op r, rest, hw, hs => by
    rw [Cst.wf] at hw
    obtain ⟨h1, h2, _, h4, _⟩ := hw
    rw [Stray, not_or, not_or] at hs
    have hl := (tidy_text l _ h2 hs.2.1).1
    have hr := (tidy_text r _ h4 hs.2.2).1
    rw [Cst.text, squeeze_append, squeeze_append, squeeze_spaces h1, List.append_nil,
      squeeze_cons (by cases op <;> decide), ← List.singleton_append]
    refine ⟨hl.append ((tidy_one ?_).append hr), False.elim⟩
    have := hs.1
    revert this
    cases op <;> decide
  | .juxt l r, rest, hw, hs => by
    rw [Cst.wf] at hw
    obtain ⟨h2, _, h4, _⟩ := hw
    rw [Stray, not_or] at hs
    have hl := (tidy_text l _ h2 hs.1).1
    have hr := (tidy_text r _ h4 hs.2).1
    rw [Cst.text, squeeze_append]
    exact ⟨hl.append hr, False.elim⟩
theorem tidy_textL : ∀ (as : CArgs) (rest : Bytes), as.wf cfg fin ctx rest → ¬ StrayL as →
    Tidy (squeeze as.text)
  | .last x ws, rest, hw, hs => by
    rw [CArgs.wf] at hw
    rw [CArgs.text, squeeze_append, squeeze_spaces hw.1, List.append_nil]
    exact (tidy_text x _ hw.2 (by rw [StrayL] at hs; exact hs)).1
  | .more x ws as, rest, hw, hs => by
    rw [CArgs.wf] at hw
    rw [StrayL, not_or] at hs
    rw [CArgs.text, squeeze_append, squeeze_append, squeeze_spaces hw.1, List.append_nil,
      squeeze_cons (by decide), ← List.singleton_append]
    exact (tidy_text x _ hw.2.1 hs.1).1.append
      ((tidy_one (by decide)).append (tidy_textL as _ hw.2.2 hs.2))
end

/-- A legal text with `!!` has a stray `!`. -/
theorem stray_of_bang {x : Cst} {rest tw : Bytes} (hw : x.wf cfg fin ctx rest) (ht : spaces tw)
    (hb : DoubleBang (x.text ++ tw)) : Stray x := by
  refine Classical.byContradiction fun hs => bang_not_apart hb ?_
  rw [squeeze_append, squeeze_spaces ht, List.append_nil]
  exact (tidy_text x rest hw hs).1.1

end

mutual
/-- Without optimizations a stray `!` is a binary node. -/
theorem stray_den {ctx : Context} {cfg : Cfg} {fin : Elem → PM Elem} (hfin : ∀ e e', fin e = .ok e' → e' = e) :
    ∀ (x : Cst) (rest : Bytes) (e : Elem), x.wf cfg fin ctx rest → x.den fin ctx = .ok e → Stray x →
      ∃ l r, Sub (.bin .factorial l r) e
  | .num .., rest, e, _, _, hs => hs.elim
  | .name .., rest, e, _, _, hs => hs.elim
  | .call ws nm ws2 as, rest, e, hw, h, hs => by
    rw [Cst.wf] at hw
    obtain ⟨_, _, _, ⟨f, hf, _⟩, h5⟩ := hw
    obtain ⟨es, he, rfl⟩ := den_call hf h
    rw [Stray] at hs
    obtain ⟨a, ha, l, r, hb⟩ := stray_denL hfin as rest es h5 he hs
    exact ⟨l, r, .arg ha hb⟩
  | .paren ws x ws2, rest, e, hw, h, hs => by
    rw [Cst.wf] at hw
    obtain ⟨a, ha, hf⟩ := den_paren h
    cases hfin _ _ hf
    rw [Stray] at hs
    exact stray_den hfin x _ _ hw.2.2 ha hs
  | .sign ws neg x, rest, e, hw, h, hs => by
    rw [Cst.wf] at hw
    obtain ⟨a, a', ha, hf, rfl⟩ := den_sign h
    cases hfin _ _ hf
    rw [Stray] at hs
    obtain ⟨l, r, hb⟩ := stray_den hfin x _ _ hw.2.1 ha hs
    exact ⟨l, r, .operand hb⟩
  | .fact x ws, rest, e, hw, h, hs => by
    rw [Cst.wf] at hw
    obtain ⟨a, ha, rfl⟩ := den_fact h
    rw [Stray] at hs
    obtain ⟨l, r, hb⟩ := stray_den hfin x _ _ hw.2.2 ha hs
    exact ⟨l, r, .operand hb⟩
  | .bin l ws op r, rest, e, hw, h, hs => by
    rw [Cst.wf] at hw
    obtain ⟨a, b, b', ha, hb, hf, rfl⟩ := den_bin h
    cases hfin _ _ hf
    rw [Stray] at hs
    rcases hs with rfl | hs | hs
    · exact ⟨_, _, .refl⟩
    · obtain ⟨l, r, hb⟩ := stray_den hfin l _ _ hw.2.1 ha hs
      exact ⟨l, r, .left hb⟩
    · obtain ⟨l, r, hb⟩ := stray_den hfin r _ _ hw.2.2.2.1 hb hs
      exact ⟨l, r, .right hb⟩
  | .juxt l r, rest, e, hw, h, hs => by
    rw [Cst.wf] at hw
    obtain ⟨a, b, b', ha, hb, hf, rfl⟩ := den_juxt h
    cases hfin _ _ hf
    rw [Stray] at hs
    rcases hs with hs | hs
    · obtain ⟨l, r, hb⟩ := stray_den hfin l _ _ hw.1 ha hs
      exact ⟨l, r, .left hb⟩
    · obtain ⟨l, r, hb⟩ := stray_den hfin r _ _ hw.2.2.1 hb hs
      exact ⟨l, r, .right hb⟩
theorem stray_denL {ctx : Context} {cfg : Cfg} {fin : Elem → PM Elem} (hfin : ∀ e e', fin e = .ok e' → e' = e) :
    ∀ (as : CArgs) (rest : Bytes) (es : List Elem), as.wf cfg fin ctx rest → as.den fin ctx = .ok es →
      StrayL as → ∃ a ∈ es, ∃ l r, Sub (.bin .factorial l r) a
  | .last x ws, rest, es, hw, h, hs => by
    rw [CArgs.wf] at hw
    obtain ⟨a, a', ha, hf, rfl⟩ := den_last h
    cases hfin _ _ hf
    rw [StrayL] at hs
    exact ⟨_, by simp, stray_den hfin x _ _ hw.2 ha hs⟩
  | .more x ws as, rest, es, hw, h, hs => by
    rw [CArgs.wf] at hw
    obtain ⟨a, a', es', ha, hf, hes, rfl⟩ := den_more h
    cases hfin _ _ hf
    rw [StrayL] at hs
    rcases hs with hs | hs
    · exact ⟨_, by simp, stray_den hfin x _ _ hw.2.1 ha hs⟩
    · obtain ⟨b, hb, hx⟩ := stray_denL hfin as _ _ hw.2.2 hes hs
      exact ⟨b, by simp [hb], hx⟩
end

end Xprs
