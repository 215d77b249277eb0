import Verif.Lemmas.OnBoth
import Verif.Lemmas.Builds
import Verif.Spec.Binding
/-
What is assumed of `powf` matters only for trees with a `^`: a tree without one does not
see whether `powf` is replaced by a function that has the properties assumed.
-/
namespace Xprs
open Spec

/-- The platform with a `powf` for which the laws of powers hold. -/
def evenPow (w : World) : World :=
  { w with powf := fun a b => if F64.beq b F64.f1 then a else if F64.beq a F64.f0 then F64.f0
                              else F64.f1 }

theorem evenPow_laws (w : World) : PowLaws (evenPow w) := by
  have h1 : ∀ b, F64.beq b F64.f1 = true ↔ b = F64.f1 := by
    intro b
    rw [beq_iff]
    exact ⟨fun h => (h.2.symm.of_not_zero f1_not_zero).symm, by rintro rfl; exact ⟨f1_ne_nan, .refl _⟩⟩
  have h0 : ∀ a, F64.beq a F64.f0 = true ↔ IsZero a := by
    intro a
    rw [beq_iff]
    exact ⟨fun h => h.2.isZero.2 ⟨_, rfl⟩,
      fun h => ⟨by rintro rfl; exact not_isZero_nan h, .inr ⟨h, ⟨_, rfl⟩⟩⟩⟩
  constructor
  · intro a
    show (if _ then _ else _) = _
    rw [if_pos ((h1 _).2 rfl)]
  · intro a b ha _
    show IsZero (if _ then _ else _)
    split
    · exact ha
    · rw [if_pos ((h0 _).2 ha)]; exact ⟨_, rfl⟩
  · intro a a' b b' ha hb _
    show Same (if _ then _ else _) (if _ then _ else _)
    have e1 : F64.beq b F64.f1 = F64.beq b' F64.f1 := by
      rw [Bool.eq_iff_iff, h1, h1]
      exact ⟨fun h => (by subst h; exact (hb.of_not_zero f1_not_zero).symm),
        fun h => (by subst h; exact (hb.symm.of_not_zero f1_not_zero).symm)⟩
    have e0 : F64.beq a F64.f0 = F64.beq a' F64.f0 := by
      rw [Bool.eq_iff_iff, h0, h0]; exact ha.isZero
    rw [e1, e0]
    split
    · exact ha
    · exact .refl _

theorem callFn_evenPow (w : World) (f : Func) (vs : List F64) : callFn w f vs = callFn (evenPow w) f vs := by
  unfold callFn
  split
  · rename_i b _
    cases b <;> rfl
  · rfl

theorem noPower_both (w : World) (e : Elem) : NoPower e → OnBoth w (evenPow w) e := by
  induction e using Elem.ind with
  | num x => exact fun _ => .num x
  | var n => exact fun _ => .var n
  | un op e ih => exact fun h => .un (ih fun l r hs => h l r (.operand hs))
  | bin op l r ihl ihr =>
    intro h
    refine .bin ?_ (ihl fun a b hs => h a b (.left hs)) (ihr fun a b hs => h a b (.right hs))
    rintro rfl
    exact absurd .refl (h l r)
  | call f args ih =>
    exact fun h => .call (callFn_evenPow w f) fun a ha => ih a ha fun l r hs => h l r (.arg ha hs)

section
variable {w w' : World} {cfg : Cfg} {m : HMap F64}

theorem Spec.BinStep.both {op : Op} {a b v : F64} (ho : op = .power → ∀ a b, w.powf a b = w'.powf a b)
    (h : BinStep w op a b v) : BinStep w' op a b v := by
  cases h with
  | plus h => exact .plus h
  | minus h => exact .minus h
  | times h => exact .times h
  | divide h h' => exact .divide h h'
  | power h => rw [ho rfl]; exact .power h
  | modulo h h' => exact .modulo h h'

theorem Spec.CallStep.both {f : Func} {vs : List F64} {v : F64} (hf : ∀ vs, callFn w f vs = callFn w' f vs)
    (h : CallStep w f vs v) : CallStep w' f vs v := by
  unfold CallStep at h ⊢
  simpa only [hf] using h

theorem OnBoth.symm {e : Elem} (h : OnBoth w w' e) : OnBoth w' w e := by
  induction h with
  | num x => exact .num x
  | var n => exact .var n
  | un _ ih => exact .un ih
  | bin ho _ _ ih1 ih2 => exact .bin (fun h a b => (ho h a b).symm) ih1 ih2
  | call hf _ ih => exact .call (fun vs => (hf vs).symm) ih

theorem runs_both (e : Elem) : ∀ {v : F64}, OnBoth w w' e → Runs w m e v → Runs w' m e v := by
  induction e using Elem.ind with
  | num x => intro v _ h; cases h; exact .num
  | var n => intro v _ h; cases h with | var h => exact .var h
  | un op e ih =>
    intro v hb h
    cases h with
    | un h hs => exact .un (ih hb.un_inv h) hs
  | bin op l r ihl ihr =>
    intro v hb h
    cases hb with
    | bin ho hl hr =>
      cases h with
      | bin h1 h2 hs => exact .bin (ihl hl h1) (ihr hr h2) (hs.both ho)
  | call f args ih =>
    intro v hb h
    cases hb with
    | call hf hargs =>
      cases h with
      | call h hs =>
        refine .call ?_ (hs.both hf)
        clear hs hf
        rename_i vs
        induction args generalizing vs with
        | nil => cases h; exact .nil
        | cons b bs ihb =>
          cases h with
          | cons h1 h2 =>
            exact .cons (ih b (by simp) (hargs b (by simp)) h1)
              (ihb (fun a ha => ih a (by simp [ha])) (fun a ha => hargs a (by simp [ha])) h2)

/-! ### Simplification, equality and building, without laws for powers that do not occur -/

theorem simplify_runs' {e : Elem} (hw : NoPower e ∨ PowLaws w) {v : F64} {e' : Elem} (hr : Runs w m e v)
    (h : simplify cfg w e = .ok e') : ∃ u, Runs w m e' u ∧ Same v u := by
  rcases hw with hp | hw
  · have hb := noPower_both w e hp
    obtain ⟨h1, h2⟩ := simplify_both (cfg := cfg) e hb
    obtain ⟨u, h3, h4⟩ := simplify_runs (evenPow_laws w) e (runs_both e hb hr) (h1 ▸ h)
    exact ⟨u, runs_both e' (h2 _ h).symm h3, h4⟩
  · exact simplify_runs hw e hr h

theorem simplifyFor_runs' {e : Elem} (hw : NoPower e ∨ PowLaws w) {x : Bytes} {c v : F64} {e' : Elem}
    (hr : Runs w (m.insert x c) e v) (h : simplifyFor cfg w x c e = .ok e') :
    ∃ u, Runs w m e' u ∧ Same v u := by
  rcases hw with hp | hw
  · have hb := noPower_both w e hp
    obtain ⟨h1, h2⟩ := simplifyFor_both (cfg := cfg) x c e hb
    obtain ⟨u, h3, h4⟩ := simplifyFor_runs (evenPow_laws w) e (runs_both e hb hr) (h1 ▸ h)
    exact ⟨u, runs_both e' (h2 _ h).symm h3, h4⟩
  · exact simplifyFor_runs hw e hr h

theorem eqE_same' {a b : Elem} (hw : (NoPower a ∧ NoPower b) ∨ PowLaws w) {u v : F64}
    (ha : Runs w m a u) (hb : Runs w m b v) (h : eqE a b = .ok true) : Same u v := by
  rcases hw with ⟨h1, h2⟩ | hw
  · exact eqE_same (evenPow_laws w) a b (runs_both a (noPower_both w a h1) ha)
      (runs_both b (noPower_both w b h2) hb) h
  · exact eqE_same hw a b ha hb h

/-- A platform with another `powf`. -/
def otherPow (w : World) : World :=
  { w with powf := fun a b => if w.powf a b = .nan then F64.f0 else .nan }

theorem otherPow_ne (w : World) (a b : F64) : w.powf a b ≠ (otherPow w).powf a b := by
  show _ ≠ (if _ then _ else _)
  split
  · rename_i h; rw [h]; decide
  · assumption

theorem callFn_otherPow (w : World) (f : Func) (vs : List F64) : callFn w f vs = callFn (otherPow w) f vs := by
  unfold callFn
  split
  · rename_i b _
    cases b <;> rfl
  · rfl

/-- A tree has no powers exactly if changing `powf` does not matter for it. -/
theorem noPower_iff (w : World) (e : Elem) : NoPower e ↔ OnBoth w (otherPow w) e := by
  constructor
  · induction e using Elem.ind with
    | num x => exact fun _ => .num x
    | var n => exact fun _ => .var n
    | un op e ih => exact fun h => .un (ih fun l r hs => h l r (.operand hs))
    | bin op l r ihl ihr =>
      intro h
      refine .bin ?_ (ihl fun a b hs => h a b (.left hs)) (ihr fun a b hs => h a b (.right hs))
      rintro rfl
      exact absurd .refl (h l r)
    | call f args ih =>
      exact fun h => .call (callFn_otherPow w f) fun a ha => ih a ha fun l r hs => h l r (.arg ha hs)
  · intro h l r hs
    induction hs with
    | refl => cases h with | bin ho _ _ => exact otherPow_ne w .nan .nan (ho rfl _ _)
    | left _ ih => cases h with | bin _ h _ => exact ih h
    | right _ ih => cases h with | bin _ _ h => exact ih h
    | operand _ ih => exact ih h.un_inv
    | arg ha _ ih => cases h with | call _ h => exact ih (h _ ha)

/-- What simplification leaves has no powers if there were none before. -/
theorem simplify_noPower {e e' : Elem} (h : NoPower e) (hs : simplify cfg w e = .ok e') : NoPower e' :=
  (noPower_iff w e').2 ((simplify_both e ((noPower_iff w e).1 h)).2 e' hs)

theorem simplifyFor_noPower {x : Bytes} {v : F64} {e e' : Elem} (h : NoPower e)
    (hs : simplifyFor cfg w x v e = .ok e') : NoPower e' :=
  (noPower_iff w e').2 ((simplifyFor_both x v e ((noPower_iff w e).1 h)).2 e' hs)

theorem noPower_un {op : Op} {a : Elem} : NoPower (.un op a) ↔ NoPower a :=
  ⟨fun h l r hs => h l r (.operand hs), fun h l r hs => by
    cases hs with | operand hs => exact h l r hs⟩

theorem noPower_bin {op : Op} {a b : Elem} : NoPower (.bin op a b) ↔ op ≠ .power ∧ NoPower a ∧ NoPower b :=
  ⟨fun h => ⟨by rintro rfl; exact h a b .refl, fun l r hs => h l r (.left hs), fun l r hs => h l r (.right hs)⟩,
    fun h l r hs => by
    cases hs with
    | refl => exact h.1 rfl
    | left hs => exact h.2.1 l r hs
    | right hs => exact h.2.2 l r hs⟩

theorem noPower_call {f : Func} {args : List Elem} : NoPower (.call f args) ↔ ∀ a ∈ args, NoPower a :=
  ⟨fun h a ha l r hs => h l r (.arg ha hs), fun h l r hs => by
    cases hs with | arg ha hs => exact h _ ha l r hs⟩

theorem noPower_subst {σ : Bytes → Elem} (e : Elem) : NoPower e → (∀ n, Occurs n e → NoPower (σ n)) →
    NoPower (subst σ e) := by
  induction e using Elem.ind with
  | num x => intro h _; rw [subst]; exact h
  | var n => intro _ h; rw [subst]; exact h n .here
  | un op e ih => intro h hs; rw [subst]; exact noPower_un.2 (ih (noPower_un.1 h) fun n hn => hs n (.operand hn))
  | bin op l r ihl ihr =>
    intro h hs
    rw [subst]
    obtain ⟨h1, h2, h3⟩ := noPower_bin.1 h
    exact noPower_bin.2 ⟨h1, ihl h2 fun n hn => hs n (.left hn), ihr h3 fun n hn => hs n (.right hn)⟩
  | call f args ih =>
    intro h hs
    rw [subst, noPower_call]
    replace h := noPower_call.1 h
    replace hs : ∀ a ∈ args, ∀ n, Occurs n a → NoPower (σ n) := fun a ha n hn => hs n (.arg ha hn)
    induction args with
    | nil => rw [substL]; simp
    | cons b bs ihb =>
      rw [substL]
      intro a ha
      rcases List.mem_cons.1 ha with rfl | ha
      · exact ih b (by simp) (h b (by simp)) (hs b (by simp))
      · exact ihb (fun a ha => ih a (by simp [ha])) (fun a ha => h a (by simp [ha]))
          (fun a ha => hs a (by simp [ha])) a ha

theorem Spec.BinStep.congr' {op : Op} {a a' b b' v : F64} (hw : op ≠ .power ∨ PowLaws w)
    (h : BinStep w op a b v) (ha : Same a a') (hb : Same b b') :
    ∃ u, BinStep w op a' b' u ∧ Same v u := by
  rcases hw with ho | hw
  · obtain ⟨u, h1, h2⟩ := (h.both (w' := evenPow w) fun h => absurd h ho).congr (evenPow_laws w) ha hb
    exact ⟨u, h1.both fun h => absurd h ho, h2⟩
  · exact h.congr hw ha hb

theorem finOf_runs' {e : Elem} (hw : NoPower e ∨ PowLaws w) {v : F64} {e' : Elem} (hr : Runs w m e v)
    (h : finOf cfg w e = .ok e') : (∃ u, Runs w m e' u ∧ Same v u) ∧ (NoPower e → NoPower e') := by
  unfold finOf at h
  split at h
  · exact ⟨simplify_runs' hw hr h, fun hp => simplify_noPower hp h⟩
  · cases h; exact ⟨⟨v, hr, .refl _⟩, id⟩

variable {ctx : Context}

/-- The plain tree of a text and the finished one evaluate alike. -/
theorem den_runs :
    (∀ (x : Cst) (e e' : Elem) (v : F64), x.den .ok ctx = .ok e → x.den (finOf cfg w) ctx = .ok e' →
      (NoPower e ∨ PowLaws w) → Runs w m e v →
      (∃ u, Runs w m e' u ∧ Same v u) ∧ (NoPower e → NoPower e')) ∧
    (∀ (as : CArgs) (es es' : List Elem) (vs : List F64), as.den .ok ctx = .ok es →
      as.den (finOf cfg w) ctx = .ok es' → ((∀ e ∈ es, NoPower e) ∨ PowLaws w) → RunsL w m es vs →
      (∃ us, RunsL w m es' us ∧ SameL vs us) ∧ ((∀ e ∈ es, NoPower e) → ∀ e ∈ es', NoPower e)) := by
  have hf : ∀ {d e e' : Elem} {v : F64}, finOf cfg w e = .ok e' → (NoPower d ∨ PowLaws w) →
      ((∃ u, Runs w m e u ∧ Same v u) ∧ (NoPower d → NoPower e)) →
      (∃ u, Runs w m e' u ∧ Same v u) ∧ (NoPower d → NoPower e') := by
    intro d e e' v h hw ⟨⟨u, h1, h2⟩, h3⟩
    obtain ⟨⟨u', h4, h5⟩, h6⟩ := finOf_runs' (hw.imp_left h3) h1 h
    exact ⟨⟨u', h4, h2.trans h5⟩, fun h => h6 (h3 h)⟩
  have hbin : ∀ {op : Op} {a b a' b' : Elem} {v : F64}, (NoPower (.bin op a b) ∨ PowLaws w) →
      Runs w m (.bin op a b) v →
      (∀ {v}, (NoPower a ∨ PowLaws w) → Runs w m a v →
        (∃ u, Runs w m a' u ∧ Same v u) ∧ (NoPower a → NoPower a')) →
      (∀ {v}, (NoPower b ∨ PowLaws w) → Runs w m b v →
        (∃ u, Runs w m b' u ∧ Same v u) ∧ (NoPower b → NoPower b')) →
      (∃ u, Runs w m (.bin op a' b') u ∧ Same v u) ∧
        (NoPower (.bin op a b) → NoPower (.bin op a' b')) := by
    intro op a b a' b' v hw hr ha hb
    cases hr with
    | bin hl hr hs =>
      obtain ⟨⟨u, h3, h4⟩, h9⟩ := ha (hw.imp_left fun h => (noPower_bin.1 h).2.1) hl
      obtain ⟨⟨t, h5, h6⟩, h10⟩ := hb (hw.imp_left fun h => (noPower_bin.1 h).2.2) hr
      obtain ⟨z, h7, h8⟩ := hs.congr' (hw.imp_left fun h => (noPower_bin.1 h).1) h4 h6
      exact ⟨⟨z, .bin h3 h5 h7, h8⟩, fun h =>
        noPower_bin.2 ⟨(noPower_bin.1 h).1, h9 (noPower_bin.1 h).2.1, h10 (noPower_bin.1 h).2.2⟩⟩
  have hun : ∀ {op : Op} {a a' : Elem} {v : F64}, (NoPower (.un op a) ∨ PowLaws w) →
      Runs w m (.un op a) v →
      (∀ {v}, (NoPower a ∨ PowLaws w) → Runs w m a v →
        (∃ u, Runs w m a' u ∧ Same v u) ∧ (NoPower a → NoPower a')) →
      (∃ u, Runs w m (.un op a') u ∧ Same v u) ∧ (NoPower (.un op a) → NoPower (.un op a')) := by
    intro op a a' v hw hr ha
    cases hr with
    | un hr hs =>
      obtain ⟨⟨u, h3, h4⟩, h7⟩ := ha (hw.imp_left noPower_un.1) hr
      obtain ⟨t, h5, h6⟩ := hs.congr h4
      exact ⟨⟨t, .un h3 h5, h6⟩, fun h => noPower_un.2 (h7 (noPower_un.1 h))⟩
  refine cst_ind ?_ ?_ ?_ ?_ ?_ ?_ ?_ ?_ ?_ ?_
  · intro ws txt v e e' u h h' _ hr; cases h; cases h'; exact ⟨⟨u, hr, .refl _⟩, id⟩
  · intro ws nm e e' v h h' _ hr
    rw [Cst.den] at h h'
    rw [h] at h'; cases h'; exact ⟨⟨v, hr, .refl _⟩, id⟩
  · intro ws nm ws2 as ih e e' v h h' hw hr
    rw [Cst.den] at h h'
    cases h1 : as.den .ok ctx with
    | error p => rw [h1] at h; cases h
    | ok es =>
      cases h2 : as.den (finOf cfg w) ctx with
      | error p => rw [h2] at h'; cases h'
      | ok es' =>
        rw [h1] at h; rw [h2] at h'
        simp only at h h'
        cases hl : lookup ctx nm with
        | func f =>
          rw [hl] at h h'; cases h; cases h'
          cases hr with
          | call ha hc =>
            obtain ⟨h3, h4⟩ := ih es es' _ h1 h2 (hw.imp_left noPower_call.1) ha
            exact ⟨runsL_congr h3 hc, fun h => noPower_call.2 (h4 (noPower_call.1 h))⟩
        | _ => rw [hl] at h h'; cases h; cases h'; exact ⟨⟨v, hr, .refl _⟩, id⟩
  · intro ws x ws2 ih e e' v h h' hw hr
    obtain ⟨d, h1, h2⟩ := den_paren h
    obtain ⟨a', h1', h2'⟩ := den_paren h'
    cases h2
    exact hf h2' hw (ih _ a' v h1 h1' hw hr)
  · intro ws neg x ih e e' v h h' hw hr
    obtain ⟨a, b, h1, h2, rfl⟩ := den_sign h
    obtain ⟨a', b', h1', h2', rfl⟩ := den_sign h'
    cases h2
    exact hun hw hr fun hw hr => hf h2' hw (ih a a' _ h1 h1' hw hr)
  · intro x ws ih e e' v h h' hw hr
    obtain ⟨a, h1, rfl⟩ := den_fact h
    obtain ⟨a', h1', rfl⟩ := den_fact h'
    exact hun hw hr fun hw hr => ih a a' _ h1 h1' hw hr
  · intro l ws op r ihl ihr e e' v h h' hw hr
    obtain ⟨a, b, c, h1, h2, h3, rfl⟩ := den_bin h
    obtain ⟨a', b', c', h1', h2', h3', rfl⟩ := den_bin h'
    cases h3
    exact hbin hw hr (fun hw hr => ihl a a' _ h1 h1' hw hr)
      fun hw hr => hf h3' hw (ihr b b' _ h2 h2' hw hr)
  · intro l r ihl ihr e e' v h h' hw hr
    obtain ⟨a, b, c, h1, h2, h3, rfl⟩ := den_juxt h
    obtain ⟨a', b', c', h1', h2', h3', rfl⟩ := den_juxt h'
    cases h3
    exact hbin hw hr (fun hw hr => ihl a a' _ h1 h1' hw hr)
      fun hw hr => hf h3' hw (ihr b b' _ h2 h2' hw hr)
  · intro x ws ih es es' vs h h' hw hr
    obtain ⟨a, b, h1, h2, rfl⟩ := den_last h
    obtain ⟨a', b', h1', h2', rfl⟩ := den_last h'
    cases h2
    cases hr with
    | cons hr hn =>
      cases hn
      have hw' : NoPower a ∨ PowLaws w := hw.imp_left fun h => h a (by simp)
      obtain ⟨⟨u, h3, h4⟩, h5⟩ := hf h2' hw' (ih a a' _ h1 h1' hw' hr)
      exact ⟨⟨[u], .cons h3 .nil, .cons h4 .nil⟩, fun h => by simpa using h5 (h a (by simp))⟩
  · intro x ws as ih ihs es es' vs h h' hw hr
    obtain ⟨a, b, t, h1, h2, h3, rfl⟩ := den_more h
    obtain ⟨a', b', t', h1', h2', h3', rfl⟩ := den_more h'
    cases h2
    cases hr with
    | cons hr hn =>
      have hw' : NoPower a ∨ PowLaws w := hw.imp_left fun h => h a (by simp)
      obtain ⟨⟨u, h4, h5⟩, h8⟩ := hf h2' hw' (ih a a' _ h1 h1' hw' hr)
      obtain ⟨⟨us, h6, h7⟩, h9⟩ := ihs t t' _ h3 h3' (hw.imp_left fun h e he => h e (by simp [he])) hn
      refine ⟨⟨u :: us, .cons h4 h6, .cons h5 h7⟩, fun h e he => ?_⟩
      rcases List.mem_cons.1 he with rfl | he
      · exact h8 (h a (by simp))
      · exact h9 (fun e he => h e (by simp [he])) e he

end

end Xprs
