import Verif.Lemmas.Converse
import Verif.Lemmas.Simplify
import Verif.Spec.Text
/-
Properties of the expression a legal text denotes.
-/
namespace Xprs
open Spec
set_option linter.unusedSimpArgs false
set_option linter.unusedSectionVars false

/-! ### Double exclamation marks -/

theorem _root_.Xprs.Spec.DoubleBang.infix {y : Bytes} (h : DoubleBang y) (x z : Bytes) : DoubleBang (x ++ y ++ z) := by
  obtain ⟨a, ws, b, hws, rfl⟩ := h
  exact ⟨x ++ a, ws, b ++ z, hws, by simp⟩

theorem _root_.Xprs.Spec.DoubleBang.right {y : Bytes} (h : DoubleBang y) (x : Bytes) : DoubleBang (x ++ y) := by
  have := h.infix x []; simpa using this

theorem _root_.Xprs.Spec.DoubleBang.left {y : Bytes} (h : DoubleBang y) (z : Bytes) : DoubleBang (y ++ z) := by
  have := h.infix [] z; simpa using this

/-- If the next token is `!` and the operand does not extend over it, the operand ends
in `!`. -/
theorem closed_bang {cfg : Cfg} {fin : Elem → PM Elem} {ctx : Context} {rest : Bytes}
    (hb : firstTok rest = some c!"!") : ∀ x : Cst, x.closed cfg fin ctx rest →
      ∃ t, x.text = t ++ [c!"!"]
  | .num .., h => absurd hb h
  | .name .., h => absurd hb h
  | .call .., h => absurd hb h
  | .paren .., h => absurd hb h
  | .sign _ _ x, h => by
    have := (h.1 _ hb).1 .factorial rfl
    simp [level, signLevel] at this
  | .fact x ws, _ => ⟨_, rfl⟩
  | .bin l ws op r, h => by
    obtain ⟨t, ht⟩ := closed_bang hb r h.2
    exact ⟨l.text ++ ws ++ opChar op :: t, by simp [Cst.text, ht]⟩
  | .juxt l r, h => by
    obtain ⟨t, ht⟩ := closed_bang hb r h.2
    exact ⟨l.text ++ t, by simp [Cst.text, ht]⟩

theorem bin_bang {cfg : Cfg} {fin : Elem → PM Elem} {ctx : Context} {rest : Bytes}
    {l : Cst} {ws : Bytes} {r : Cst} (h : (Cst.bin l ws .factorial r).wf cfg fin ctx rest) :
    DoubleBang (Cst.bin l ws .factorial r).text := by
  obtain ⟨hws, _, hc, _⟩ := h
  have hb : firstTok (ws ++ opChar .factorial :: r.text ++ rest) = some c!"!" := by
    rw [List.append_assoc, firstTok_spaces hws]
    rfl
  obtain ⟨t, ht⟩ := closed_bang hb l hc
  exact ⟨t, ws, r.text, hws, by simp [Cst.text, ht, opChar]⟩

/-! ### Denotations -/

/-- A predicate on expressions that `fin` preserves. -/
def Keeps (fin : Elem → PM Elem) (Q : Elem → Prop) : Prop :=
  ∀ e e', fin e = .ok e' → Q e → Q e'

section
variable {cfg : Cfg} {fin : Elem → PM Elem} {ctx : Context}

/-- Matching on a computation that succeeded. -/
theorem bindPM_ok {α β : Type} {x : PM α} {f : α → PM β} {b : β}
    (h : (match x with | .error p => .error p | .ok a => f a : PM β) = .ok b) :
    ∃ a, x = .ok a ∧ f a = .ok b := by
  cases x with
  | error p => cases h
  | ok a => exact ⟨a, rfl, h⟩

theorem den_paren {ws ws2 : Bytes} {x : Cst} {e : Elem} (h : (Cst.paren ws x ws2).den fin ctx = .ok e) :
    ∃ a, x.den fin ctx = .ok a ∧ fin a = .ok e := by
  rw [Cst.den] at h
  cases hx : x.den fin ctx with
  | error p => simp [hx] at h
  | ok a => simp only [hx] at h; exact ⟨a, rfl, h⟩

theorem den_sign {ws : Bytes} {neg : Bool} {x : Cst} {e : Elem}
    (h : (Cst.sign ws neg x).den fin ctx = .ok e) :
    ∃ a a', x.den fin ctx = .ok a ∧ fin a = .ok a' ∧
      e = .un (if neg then .minus else .plus) a' := by
  rw [Cst.den] at h
  cases hx : x.den fin ctx with
  | error p => simp [hx] at h
  | ok a =>
    simp only [hx] at h
    cases hf : fin a with
    | error p => simp [hf] at h
    | ok a' => simp only [hf] at h; cases h; exact ⟨a, a', rfl, hf, rfl⟩

theorem den_fact {ws : Bytes} {x : Cst} {e : Elem} (h : (Cst.fact x ws).den fin ctx = .ok e) :
    ∃ a, x.den fin ctx = .ok a ∧ e = .un .factorial a := by
  rw [Cst.den] at h
  cases hx : x.den fin ctx with
  | error p => simp [hx] at h
  | ok a => simp only [hx] at h; cases h; exact ⟨a, rfl, rfl⟩

theorem den_bin {l r : Cst} {ws : Bytes} {op : Op} {e : Elem}
    (h : (Cst.bin l ws op r).den fin ctx = .ok e) :
    ∃ a b b', l.den fin ctx = .ok a ∧ r.den fin ctx = .ok b ∧ fin b = .ok b' ∧ e = .bin op a b' := by
  rw [Cst.den] at h
  cases hl : l.den fin ctx with
  | error p => simp [hl] at h
  | ok a =>
    simp only [hl] at h
    cases hr : r.den fin ctx with
    | error p => simp [hr] at h
    | ok b =>
      simp only [hr] at h
      cases hf : fin b with
      | error p => simp [hf] at h
      | ok b' => simp only [hf] at h; cases h; exact ⟨a, b, b', rfl, rfl, hf, rfl⟩

theorem den_juxt {l r : Cst} {e : Elem}
    (h : (Cst.juxt l r).den fin ctx = .ok e) :
    ∃ a b b', l.den fin ctx = .ok a ∧ r.den fin ctx = .ok b ∧ fin b = .ok b' ∧
      e = .bin .times a b' := by
  rw [Cst.den] at h
  cases hl : l.den fin ctx with
  | error p => simp [hl] at h
  | ok a =>
    simp only [hl] at h
    cases hr : r.den fin ctx with
    | error p => simp [hr] at h
    | ok b =>
      simp only [hr] at h
      cases hf : fin b with
      | error p => simp [hf] at h
      | ok b' => simp only [hf] at h; cases h; exact ⟨a, b, b', rfl, rfl, hf, rfl⟩

theorem den_last {x : Cst} {ws : Bytes} {es : List Elem}
    (h : (CArgs.last x ws).den fin ctx = .ok es) :
    ∃ a a', x.den fin ctx = .ok a ∧ fin a = .ok a' ∧ es = [a'] := by
  rw [CArgs.den] at h
  cases hx : x.den fin ctx with
  | error p => simp [hx] at h
  | ok a =>
    simp only [hx] at h
    cases hf : fin a with
    | error p => simp [hf] at h
    | ok a' => simp only [hf] at h; cases h; exact ⟨a, a', rfl, hf, rfl⟩

theorem den_more {x : Cst} {ws : Bytes} {as : CArgs} {es : List Elem}
    (h : (CArgs.more x ws as).den fin ctx = .ok es) :
    ∃ a a' es', x.den fin ctx = .ok a ∧ fin a = .ok a' ∧ as.den fin ctx = .ok es' ∧
      es = a' :: es' := by
  rw [CArgs.den] at h
  cases hx : x.den fin ctx with
  | error p => simp [hx] at h
  | ok a =>
    simp only [hx] at h
    cases hf : fin a with
    | error p => simp [hf] at h
    | ok a' =>
      simp only [hf] at h
      cases ha : as.den fin ctx with
      | error p => simp [ha] at h
      | ok es' => simp only [ha] at h; cases h; exact ⟨a, a', es', rfl, hf, rfl, rfl⟩

theorem den_call {ws nm ws2 : Bytes} {as : CArgs} {e : Elem} {f : Func}
    (hl : lookup ctx nm = .func f) (h : (Cst.call ws nm ws2 as).den fin ctx = .ok e) :
    ∃ es, as.den fin ctx = .ok es ∧ e = .call f es := by
  rw [Cst.den] at h
  cases hx : as.den fin ctx with
  | error p => simp [hx] at h
  | ok es => simp only [hx, hl] at h; cases h; exact ⟨es, rfl, rfl⟩

theorem den_name {ws nm : Bytes} {e : Elem} (h : (Cst.name ws nm).den fin ctx = .ok e) :
    (∃ x, lookup ctx nm = .const x ∧ e = .num x) ∨
    ((∀ x, lookup ctx nm ≠ .const x) ∧ e = .var nm) := by
  rw [Cst.den] at h
  split at h
  · cases h; rename_i x hx; exact .inl ⟨x, hx, rfl⟩
  · rename_i hx; cases h; exact .inr ⟨fun x hh => hx x hh, rfl⟩

theorem den_count : ∀ (as : CArgs) {es : List Elem},
    as.den fin ctx = .ok es → es.length = as.count
  | .last x ws, es, h => by
    obtain ⟨a, a', _, _, rfl⟩ := den_last h; rfl
  | .more x ws as, es, h => by
    obtain ⟨a, a', es', _, _, h', rfl⟩ := den_more h
    simp [CArgs.count, den_count as h']

theorem count_pos (as : CArgs) : 0 < as.count := by cases as <;> simp [CArgs.count]

/-- Induction principle over the denotation of a legal text: a predicate on
expressions that holds of the leaves, is closed under the constructors the grammar
uses, and is preserved by `fin`, holds of what a text denotes. -/
theorem den_ind_name {Q : Elem → Prop} {B : Op → Prop} (txt : Bytes → Prop) (hfin : Keeps fin Q)
    (hnum : ∀ v, ((∃ t rest, Literal t rest v) ∨ ∃ nm, Name nm [] ∧ lookup ctx nm = .const v) → Q (.num v))
    (hvar : ∀ nm, (∃ c, nm.head? = some c ∧ letter c) → (∀ c ∈ nm, nameChar c) →
      lookup ctx nm = .var nm → txt nm → Q (.var nm))
    (hcall : ∀ f es, (∃ nm, Name nm [] ∧ lookup ctx nm = .func f) → ArityOk f es.length → (∀ a ∈ es, Q a) → Q (.call f es))
    (hun : ∀ op a, (op = .plus ∨ op = .minus ∨ (op = .factorial ∧ ∃ t, txt (t ++ [c!"!"]))) → Q a →
      Q (.un op a))
    (hbin : ∀ op a b, B op → Q a → Q b → Q (.bin op a b)) (htimes : B .times)
    (hB : ∀ l ws op r rest, (Cst.bin l ws op r).wf cfg fin ctx rest →
      txt (Cst.bin l ws op r).text → B op)
    (hsub : ∀ x y z, txt (x ++ y ++ z) → txt y) :
    (∀ (x : Cst) (rest : Bytes) (e : Elem), x.wf cfg fin ctx rest → txt x.text →
      x.den fin ctx = .ok e → Q e) ∧
    (∀ (as : CArgs) (rest : Bytes) (es : List Elem), as.wf cfg fin ctx rest → txt as.text →
      as.den fin ctx = .ok es → ∀ a ∈ es, Q a) := by
  have hs2 : ∀ x y, txt (x ++ y) → txt y := by
    intro x y h; exact hsub x y [] (by simpa using h)
  have hs1 : ∀ x y, txt (x ++ y) → txt x := by
    intro x y h; exact hsub [] x y (by simpa using h)
  have main : ∀ n, (∀ (x : Cst) (rest : Bytes) (e : Elem), sizeOf x ≤ n → x.wf cfg fin ctx rest →
      txt x.text → x.den fin ctx = .ok e → Q e) ∧
    (∀ (as : CArgs) (rest : Bytes) (es : List Elem), sizeOf as ≤ n → as.wf cfg fin ctx rest →
      txt as.text → as.den fin ctx = .ok es → ∀ a ∈ es, Q a) := by
    intro n
    induction n with
    | zero =>
      constructor
      · intro x rest e hn; cases x <;> simp at hn
      · intro x rest e hn; cases x <;> simp at hn
    | succ n ih =>
      obtain ⟨ih1, ih2⟩ := ih
      constructor
      · intro x rest e hn hw ht hd
        cases x with
        | num ws txt v => rw [Cst.den] at hd; cases hd; exact hnum v (.inl ⟨_, _, hw.2⟩)
        | name ws nm =>
          obtain ⟨hws, ⟨h1, h2, h3⟩, hf⟩ := hw
          rcases den_name hd with ⟨x, hx, rfl⟩ | ⟨hc, rfl⟩
          · exact hnum x (.inr ⟨nm, ⟨h1, h2, by intro c hc; cases hc⟩, hx⟩)
          · refine hvar nm h1 h2 ?_ (hs2 ws nm ht)
            cases hl : lookup ctx nm with
            | func f => exact absurd hl (hf f)
            | const x => exact absurd hl (hc x)
            | var m => rw [lookup_var hl]
        | call ws nm ws2 as =>
          obtain ⟨_, hnm, _, ⟨f, hf, har⟩, hwa⟩ := hw
          obtain ⟨es, hes, rfl⟩ := den_call hf hd
          have hlen := den_count as hes
          refine hcall f es ⟨nm, hnm, hf⟩ ⟨?_, ?_⟩ ?_
          · rw [hlen]; exact count_pos as
          · intro n hn; rw [hlen]; exact har n hn
          · refine ih2 as rest es (by simp at hn; omega) hwa ?_ hes
            have : txt ((ws ++ nm ++ ws2 ++ [c!"("]) ++ as.text ++ [c!")"]) := by
              simpa [Cst.text] using ht
            exact hsub _ _ _ this
        | paren ws x ws2 =>
          obtain ⟨a, ha, hfa⟩ := den_paren hd
          refine hfin _ _ hfa (ih1 x _ a (by simp at hn; omega) hw.2.2 ?_ ha)
          have : txt ((ws ++ [c!"("]) ++ x.text ++ (ws2 ++ [c!")"])) := by
            simpa [Cst.text] using ht
          exact hsub _ _ _ this
        | sign ws neg x =>
          obtain ⟨a, a', ha, hfa, rfl⟩ := den_sign hd
          refine hun _ _ (by cases neg <;> simp) (hfin _ _ hfa
            (ih1 x _ a (by simp at hn; omega) hw.2.1 ?_ ha))
          have : txt ((ws ++ [if neg then c!"-" else c!"+"]) ++ x.text) := by
            simpa [Cst.text] using ht
          exact hs2 _ _ this
        | fact x ws =>
          obtain ⟨a, ha, rfl⟩ := den_fact hd
          refine hun _ _ (.inr (.inr ⟨rfl, _, ht⟩)) (ih1 x _ a (by simp at hn; omega) hw.2.2 ?_ ha)
          have : txt (x.text ++ (ws ++ [c!"!"])) := by simpa [Cst.text] using ht
          exact hs1 _ _ this
        | bin l ws op r =>
          obtain ⟨a, b, b', ha, hb, hfb, rfl⟩ := den_bin hd
          refine hbin _ _ _ (hB l ws op r rest hw ht)
            (ih1 l _ a (by simp at hn; omega) hw.2.1 ?_ ha)
            (hfin _ _ hfb (ih1 r _ b (by simp at hn; omega) hw.2.2.2.1 ?_ hb))
          · have : txt (l.text ++ (ws ++ opChar op :: r.text)) := by simpa [Cst.text] using ht
            exact hs1 _ _ this
          · have : txt ((l.text ++ ws ++ [opChar op]) ++ r.text) := by simpa [Cst.text] using ht
            exact hs2 _ _ this
        | juxt l r =>
          obtain ⟨a, b, b', ha, hb, hfb, rfl⟩ := den_juxt hd
          refine hbin _ _ _ htimes
            (ih1 l _ a (by simp at hn; omega) hw.1 ?_ ha)
            (hfin _ _ hfb (ih1 r _ b (by simp at hn; omega) hw.2.2.1 ?_ hb))
          · exact hs1 _ _ ht
          · exact hs2 _ _ ht
      · intro as rest es hn hw ht hd
        cases as with
        | last x ws =>
          obtain ⟨a, a', ha, hfa, rfl⟩ := den_last hd
          intro b hb
          simp at hb; subst hb
          exact hfin _ _ hfa (ih1 x _ a (by simp at hn; omega) hw.2 (hs1 _ _ ht) ha)
        | more x ws as =>
          obtain ⟨a, a', es', ha, hfa, hes, rfl⟩ := den_more hd
          intro b hb
          rcases List.mem_cons.1 hb with rfl | hb
          · refine hfin _ _ hfa (ih1 x _ a (by simp at hn; omega) hw.2.1 ?_ ha)
            have : txt (x.text ++ (ws ++ c!"," :: as.text)) := by simpa [CArgs.text] using ht
            exact hs1 _ _ this
          · refine ih2 as rest es' (by simp at hn; omega) hw.2.2 ?_ hes b hb
            have : txt ((x.text ++ ws ++ [c!","]) ++ as.text) := by simpa [CArgs.text] using ht
            exact hs2 _ _ this
  exact ⟨fun x rest e => (main _).1 x rest e (Nat.le_refl _),
    fun x rest e => (main _).2 x rest e (Nat.le_refl _)⟩

theorem den_ind {Q : Elem → Prop} {B : Op → Prop} (txt : Bytes → Prop) (hfin : Keeps fin Q)
    (hnum : ∀ v, Q (.num v))
    (hvar : ∀ nm, (∃ c, nm.head? = some c ∧ letter c) → (∀ c ∈ nm, nameChar c) →
      lookup ctx nm = .var nm → txt nm → Q (.var nm))
    (hcall : ∀ f es, Named ctx f → ArityOk f es.length → (∀ a ∈ es, Q a) → Q (.call f es))
    (hun : ∀ op a, op = .plus ∨ op = .minus ∨ op = .factorial → Q a → Q (.un op a))
    (hbin : ∀ op a b, B op → Q a → Q b → Q (.bin op a b)) (htimes : B .times)
    (hB : ∀ l ws op r rest, (Cst.bin l ws op r).wf cfg fin ctx rest →
      txt (Cst.bin l ws op r).text → B op)
    (hsub : ∀ x y z, txt (x ++ y ++ z) → txt y) :
    (∀ (x : Cst) (rest : Bytes) (e : Elem), x.wf cfg fin ctx rest → txt x.text →
      x.den fin ctx = .ok e → Q e) ∧
    (∀ (as : CArgs) (rest : Bytes) (es : List Elem), as.wf cfg fin ctx rest → txt as.text →
      as.den fin ctx = .ok es → ∀ a ∈ es, Q a) :=
  den_ind_name txt hfin (fun v _ => hnum v) hvar (fun f es h => hcall f es (h.imp fun _ h => h.2))
    (fun op a h => hun op a (h.imp_right fun h => h.imp_right fun h => h.1)) hbin htimes hB hsub

/-- Variables of the denotation: names written in the text that mean nothing else. -/
theorem den_occurs (hfin : ∀ n, Keeps fin fun e => ¬ Occurs n e) {n : Bytes}
    {x : Cst} {rest : Bytes} {e : Elem} (hw : x.wf cfg fin ctx rest)
    (hd : x.den fin ctx = .ok e) (ho : Occurs n e) :
    (∃ c, n.head? = some c ∧ letter c) ∧ (∀ c ∈ n, nameChar c) ∧ lookup ctx n = .var n := by
  by_cases h : (∃ c, n.head? = some c ∧ letter c) ∧ (∀ c ∈ n, nameChar c) ∧ lookup ctx n = .var n
  · exact h
  · refine absurd ho ((den_ind (cfg := cfg) (ctx := ctx) (Q := fun e => ¬ Occurs n e)
      (B := fun _ => True) (fun _ => True) (hfin n) (by simp) ?_ ?_ ?_ ?_ trivial
      (fun _ _ _ _ _ _ _ => trivial) (fun _ _ _ _ => trivial)).1 x rest e hw trivial hd)
    · intro nm h1 h2 h3 _ hn
      simp at hn; subst hn
      exact h ⟨h1, h2, h3⟩
    · intro f es _ _ hes hn
      simp at hn
      obtain ⟨a, ha, hn⟩ := hn
      exact hes a ha hn
    · intro op a _ ha hn; simp at hn; exact ha hn
    · intro op a b _ ha hb hn
      simp at hn
      exact hn.elim ha hb

/-- … and they occur in the text. -/
theorem den_occurs_text (hfin : ∀ n, Keeps fin fun e => ¬ Occurs n e) {n : Bytes}
    {x : Cst} {rest : Bytes} {e : Elem} (hw : x.wf cfg fin ctx rest)
    (hd : x.den fin ctx = .ok e) (ho : Occurs n e) : n <:+: x.text := by
  refine Classical.byContradiction fun h => ?_
  refine absurd ho ((den_ind (cfg := cfg) (ctx := ctx) (Q := fun e => ¬ Occurs n e)
      (B := fun _ => True) (fun t => ¬ n <:+: t) (hfin n) (by simp) ?_ ?_ ?_ ?_ trivial
      (fun _ _ _ _ _ _ _ => trivial) ?_).1 x rest e hw h hd)
  · intro nm h1 h2 h3 h4 hn
    simp at hn; subst hn
    exact h4 (List.infix_refl _)
  · intro f es _ _ hes hn
    simp at hn
    obtain ⟨a, ha, hn⟩ := hn
    exact hes a ha hn
  · intro op a _ ha hn; simp at hn; exact ha hn
  · intro op a b _ ha hb hn
    simp at hn
    exact hn.elim ha hb
  · intro x y z h h'; exact h (h'.trans (List.infix_append _ _ _))

theorem den_calls {P : Func → Prop} (hP : ∀ f, Named ctx f → P f) (hfin : Keeps fin (Calls P))
    {x : Cst} {rest : Bytes} {e : Elem} (hw : x.wf cfg fin ctx rest)
    (hd : x.den fin ctx = .ok e) : Calls P e := by
  refine (den_ind (cfg := cfg) (ctx := ctx) (Q := Calls P)
    (B := fun _ => True) (fun _ => True) hfin (by simp) (by simp) ?_ ?_ ?_ trivial
    (fun _ _ _ _ _ _ _ => trivial) (fun _ _ _ _ => trivial)).1 x rest e hw trivial hd
  · intro f es hf ha hes; exact calls_call.2 ⟨⟨hP f hf, ha⟩, hes⟩
  · intro op a _ ha; exact calls_un.2 ha
  · intro op a b _ ha hb; exact calls_bin.2 ⟨ha, hb⟩

theorem den_calls_name {P : Func → Prop} (hP : ∀ f nm, Name nm [] → lookup ctx nm = .func f → P f)
    (hfin : Keeps fin (Calls P)) {x : Cst} {rest : Bytes} {e : Elem} (hw : x.wf cfg fin ctx rest)
    (hd : x.den fin ctx = .ok e) : Calls P e := by
  refine (den_ind_name (cfg := cfg) (ctx := ctx) (Q := Calls P)
    (B := fun _ => True) (fun _ => True) hfin (fun _ _ => calls_num) (by simp) ?_ ?_ ?_ trivial
    (fun _ _ _ _ _ _ _ => trivial) (fun _ _ _ _ => trivial)).1 x rest e hw trivial hd
  · rintro f es ⟨nm, h1, h2⟩ ha hes; exact calls_call.2 ⟨⟨hP f nm h1 h2, ha⟩, hes⟩
  · intro op a _ ha; exact calls_un.2 ha
  · intro op a b _ ha hb; exact calls_bin.2 ⟨ha, hb⟩

theorem den_proper {P : Func → Prop} (hP : ∀ f, Named ctx f → P f) (hfin : Keeps fin (Proper P))
    {x : Cst} {rest : Bytes} {e : Elem} (hw : x.wf cfg fin ctx rest)
    (hn : ¬ DoubleBang x.text) (hd : x.den fin ctx = .ok e) : Proper P e := by
  refine (den_ind (cfg := cfg) (ctx := ctx) (Q := Proper P)
    (B := fun op => op ≠ .factorial) (fun t => ¬ DoubleBang t) hfin (fun v => .num v)
    (fun nm _ _ _ _ => .var nm) ?_ ?_ ?_ (by decide) ?_ ?_).1 x rest e hw hn hd
  · intro f es hf ha hes; exact .call (hP f hf) ha hes
  · intro op a ho ha; exact .un ho ha
  · intro op a b ho ha hb; exact .bin ho ha hb
  · rintro l ws op r rest hw ht rfl
    exact ht (bin_bang hw)
  · intro x y z h h'; exact h (h'.infix x z)

end

/-! ### `finOf` keeps everything simplification keeps -/

theorem keeps_finOf {cfg : Cfg} {w : World} {Q : Elem → Prop}
    (h : ∀ e e', simplify cfg w e = .ok e' → Q e → Q e') : Keeps (finOf cfg w) Q := by
  intro e e' he hq
  unfold finOf at he
  split at he
  · exact h e e' he hq
  · cases he; exact hq

theorem keeps_occurs (cfg : Cfg) (w : World) (n : Bytes) :
    Keeps (finOf cfg w) fun e => ¬ Occurs n e :=
  keeps_finOf fun _ _ h hq ho => hq (simplify_occurs _ h ho)

theorem keeps_calls (cfg : Cfg) (w : World) (P : Func → Prop) : Keeps (finOf cfg w) (Calls P) :=
  keeps_finOf fun _ _ h hq => simplify_calls _ h hq

theorem keeps_proper (cfg : Cfg) (w : World) {P : Func → Prop} (hP : ∀ f, P f → FnTotal w f) :
    Keeps (finOf cfg w) (Proper P) := by
  refine keeps_finOf fun e e' h hq => ?_
  obtain ⟨e'', h1, h2⟩ := simplify_proper cfg w hP e hq
  rw [h1] at h; cases h; exact h2

/-- Named functions are total if those of the context are. -/
theorem named_total {w : World} {ctx : Context} (h : CtxTotal w ctx) {f : Func}
    (hf : Named ctx f) : FnTotal w f := by
  obtain ⟨nm, hl⟩ := hf
  unfold lookup at hl
  split at hl
  · rename_i s hs
    cases s with
    | var x => cases hl
    | func g => injection hl with hl; subst hl; exact h nm g hs
  · unfold Ident.fromStr at hl
    split at hl
    · cases hl
    split at hl
    · cases hl
    split at hl
    · cases hl; exact builtin_total w _
    · cases hl

end Xprs
