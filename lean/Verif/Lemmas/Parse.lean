import Verif.Lemmas.Invariants
import Verif.Spec.History
/-
Facts about `parse` and about the expressions obtained from it, assembled from the
facts about the parser.
-/
namespace Xprs
open Spec

/-! ### `parse` and `parseImpl` -/

theorem mem_diffVars {o : Oracle} {vars given : List Bytes} {v : Bytes} :
    v ∈ diffVars o vars given ↔ v ∈ vars ∧ v ∉ given := by
  simp [diffVars, (o.perm vars).mem_iff]

theorem parse_ok {cfg : Cfg} {w : World} {o : Oracle} {ctx : Context} {input : Bytes} {x : Xpr}
    (h : parse cfg w o ctx input = .ok x) : parseImpl cfg w ctx input = .ok x := by
  unfold parse at h
  cases hp : parseImpl cfg w ctx input with
  | ok y =>
    simp only [hp] at h
    split at h
    · split at h
      · cases h
      · exact h
    · exact h
  | err e => simp [hp] at h
  | panic p => simp [hp] at h
  | fuel => simp [hp] at h

theorem parse_panic {cfg : Cfg} {w : World} {o : Oracle} {ctx : Context} {input : Bytes} {p : Panic} :
    parse cfg w o ctx input = .panic p ↔ parseImpl cfg w ctx input = .panic p := by
  unfold parse
  cases hp : parseImpl cfg w ctx input with
  | ok y =>
    simp only
    split
    · split <;> simp
    · simp
  | err e => simp
  | panic p => simp
  | fuel => simp

theorem parse_err {cfg : Cfg} {w : World} {o : Oracle} {ctx : Context} {input : Bytes} {e : PErr}
    (h : parse cfg w o ctx input = .err e) :
    parseImpl cfg w ctx input = .err e ∨
    ∃ x vs v, parseImpl cfg w ctx input = .ok x ∧ ctx.getExpected = some vs ∧
      v ∈ x.vars ∧ v ∉ vs ∧ e = ⟨.variableNotDeclared v (o.ord vs), 0, input.length⟩ := by
  unfold parse at h
  cases hp : parseImpl cfg w ctx input with
  | ok y =>
    right
    simp only [hp] at h
    split at h
    · rename_i vs hvs
      split at h
      · rename_i v hv
        cases h
        have := mem_diffVars.1 (List.mem_of_mem_head? hv)
        exact ⟨y, vs, v, rfl, hvs, this.1, this.2, rfl⟩
      · cases h
    · cases h
  | err e' => left; simpa [hp] using h
  | panic p => simp [hp] at h
  | fuel => simp [hp] at h

theorem parseImpl_ne_fuel (cfg : Cfg) (w : World) (ctx : Context) (input : Bytes) :
    parseImpl cfg w ctx input ≠ .fuel := by
  unfold parseImpl
  have := element_noFuel cfg w ctx (input.length + 1) noPrec ⟨0, input⟩ (Nat.lt_succ_self _)
  cases he : element cfg w ctx (input.length + 1) noPrec ⟨0, input⟩ with
  | ok root s => simp only; split <;> simp
  | err e s => simp
  | panic p => simp
  | fuel => exact absurd he this

/-! ### Expected variables play no role in `parseImpl` -/

theorem lookup_congr {c c' : Context} (h : c.symbols = c'.symbols) (n : Bytes) :
    lookup c n = lookup c' n := by
  unfold lookup Context.get; rw [h]

theorem element_ctx (cfg : Cfg) (w : World) {c c' : Context} (h : c.symbols = c'.symbols) :
    ∀ n, element cfg w c n = element cfg w c' n
  | 0 => rfl
  | n + 1 => by
    funext p s
    rw [element, element, element_ctx cfg w h n]
    simp only [elementF, atom, parseIdent, lookup_congr h]

theorem parseImpl_ctx (cfg : Cfg) (w : World) {c c' : Context} (h : c.symbols = c'.symbols)
    (input : Bytes) : parseImpl cfg w c input = parseImpl cfg w c' input := by
  unfold parseImpl; rw [element_ctx cfg w h]

/-! ### Accepted inputs -/

/-- What `parseImpl_ok` says, with the meaning taken apart. -/
theorem parseImpl_den {cfg : Cfg} {w : World} {ctx : Context} {input : Bytes} {x : Xpr}
    (h : parseImpl cfg w ctx input = .ok x) :
    ∃ (c : Cst) (tw : Bytes) (e : Elem), input = c.text ++ tw ∧ spaces tw ∧
      c.wf cfg (finOf cfg w) ctx tw ∧ c.den (finOf cfg w) ctx = .ok e ∧
      finOf cfg w e = .ok x.root ∧ x.vars = findVars x.root [] := by
  obtain ⟨c, tw, h1, h2, h3, h4, h5⟩ := parseImpl_ok h
  unfold Cst.meaning at h4
  cases hd : c.den (finOf cfg w) ctx with
  | error p => simp [hd] at h4
  | ok e => simp only [hd] at h4; exact ⟨c, tw, e, h1, h2, h3, hd, h4, h5⟩

theorem parseImpl_occurs {cfg : Cfg} {w : World} {ctx : Context} {input : Bytes} {x : Xpr}
    (h : parseImpl cfg w ctx input = .ok x) {n : Bytes} (ho : Occurs n x.root) :
    (∃ c, n.head? = some c ∧ letter c) ∧ (∀ c ∈ n, nameChar c) ∧ lookup ctx n = .var n ∧
      n <:+: input := by
  obtain ⟨c, tw, e, h1, h2, h3, h4, h5, h6⟩ := parseImpl_den h
  have ho' : Occurs n e := by
    refine Classical.byContradiction fun hn => ?_
    exact keeps_occurs cfg w n e _ h5 hn ho
  obtain ⟨a1, a2, a3⟩ := den_occurs (keeps_occurs cfg w) h3 h4 ho'
  refine ⟨a1, a2, a3, ?_⟩
  have := den_occurs_text (keeps_occurs cfg w) h3 h4 ho'
  rw [h1]
  exact this.trans (List.infix_append' [] c.text tw)

theorem parseImpl_calls {cfg : Cfg} {w : World} {ctx : Context} {input : Bytes} {x : Xpr}
    (h : parseImpl cfg w ctx input = .ok x) : Calls (Named ctx) x.root := by
  obtain ⟨c, tw, e, h1, h2, h3, h4, h5, h6⟩ := parseImpl_den h
  exact keeps_calls cfg w _ _ _ h5 (den_calls (fun _ h => h) (keeps_calls cfg w _) h3 h4)

theorem parseImpl_calls_name {cfg : Cfg} {w : World} {ctx : Context} {input : Bytes} {x : Xpr}
    (h : parseImpl cfg w ctx input = .ok x) :
    Calls (fun f => ∃ nm, Name nm [] ∧ lookup ctx nm = .func f) x.root := by
  obtain ⟨c, tw, e, h1, h2, h3, h4, h5, h6⟩ := parseImpl_den h
  exact keeps_calls cfg w _ _ _ h5
    (den_calls_name (fun f nm h1 h2 => ⟨nm, h1, h2⟩) (keeps_calls cfg w _) h3 h4)

/-- Like `den_proper`, without assuming the functions to be total: a `fin` that
returns preserves properness. -/
theorem simplify_proper_ok {P : Func → Prop} {cfg : Cfg} {w : World} :
    ∀ e e', simplify cfg w e = .ok e' → Proper P e → Proper P e' := by
  intro e
  induction e using Elem.ind with
  | num x => intro e' h hp; rw [simplify] at h; cases h; exact hp
  | var x => intro e' h hp; rw [simplify] at h; cases h; exact hp
  | bin op l r ihl ihr =>
    intro e' h hp
    obtain ⟨l', r', hl, hr, hb⟩ := simplify_bin_ok h
    cases hp with
    | bin ho hpl hpr => exact (simpBin_shape hb).proper ho (ihl _ hl hpl) (ihr _ hr hpr)
  | un op a ih =>
    intro e' h hp
    obtain ⟨a', ha, hb⟩ := simplify_un_ok h
    cases hp with
    | un ho hpa => exact (simpUn_shape hb).proper (ih _ ha hpa)
  | call f args ih =>
    intro e' h hp
    obtain ⟨args', ha, hb⟩ := simplify_call_ok h
    cases hp with
    | call hf har hargs =>
      rcases simpCall_shape hb with rfl | ⟨x, rfl⟩
      · refine .call hf (by rw [simplifyL_length _ ha]; exact har) ?_
        clear h hb har
        induction args generalizing args' with
        | nil => rw [simplifyL] at ha; cases ha; simp
        | cons b bs ihb =>
          obtain ⟨b', bs', hb1, hb2, rfl⟩ := simplifyL_cons_ok ha
          intro d hd
          rcases List.mem_cons.1 hd with rfl | hd
          · exact ih b (by simp) _ hb1 (hargs b (by simp))
          · exact ihb (fun a ha => ih a (by simp [ha])) _ hb2 (fun a ha => hargs a (by simp [ha])) d hd
      · exact .num x

theorem simplify_proper_any {P : Func → Prop} {cfg : Cfg} {w : World} :
    Keeps (finOf cfg w) (Proper P) := keeps_finOf simplify_proper_ok

theorem parseImpl_proper {cfg : Cfg} {w : World} {ctx : Context} {input : Bytes} {x : Xpr}
    (h : parseImpl cfg w ctx input = .ok x) (hn : ¬ DoubleBang input) :
    Proper (Named ctx) x.root := by
  obtain ⟨c, tw, e, h1, h2, h3, h4, h5, h6⟩ := parseImpl_den h
  refine simplify_proper_any _ _ h5 (den_proper (fun _ h => h) simplify_proper_any h3 ?_ h4)
  intro hb; apply hn; rw [h1]; exact hb.left _

/-! ### Histories -/

/-- A property of trees that simplification preserves holds along a history. -/
theorem simplifyLoop_ind {cfg : Cfg} {w : World} {Q : Elem → List Bytes → Prop}
    (hs : ∀ e e' vs x v, Q e vs → simplifyFor cfg w x v e = .ok e' → Q e' (Xpr.removeVar vs x)) :
    ∀ (l : List (Bytes × F64)) (e : Elem) (vs : List Bytes) (y : Xpr), Q e vs →
      Xpr.simplifyLoop cfg w l e vs = .ok y → Q y.root y.vars
  | [], e, vs, y, hq, h => by rw [Xpr.simplifyLoop] at h; cases h; exact hq
  | (x, v) :: l, e, vs, y, hq, h => by
    rw [Xpr.simplifyLoop] at h
    split at h
    · cases h
    · rename_i e' he
      exact simplifyLoop_ind hs l e' _ y (hs _ _ _ _ _ hq he) h

theorem reach_ind {cfg : Cfg} {w : World} {ctx : Context} {input : Bytes}
    {Q : Elem → List Bytes → Prop}
    (hp : ∀ x, parseImpl cfg w ctx input = .ok x → Q x.root x.vars)
    (hs : ∀ e e' vs x v, Q e vs → simplifyFor cfg w x v e = .ok e' → Q e' (Xpr.removeVar vs x))
    {y : Xpr} (h : Reach cfg w ctx input y) : Q y.root y.vars := by
  induction h with
  | parsed h => exact hp _ (parse_ok h)
  | simplified _ h ih =>
    unfold Xpr.simplifyFor at h
    split at h
    · cases h
    · rename_i root hr; cases h; exact hs _ _ _ _ _ ih hr
  | multiple _ h ih => exact simplifyLoop_ind hs _ _ _ _ ih h

theorem reach_calls {cfg : Cfg} {w : World} {ctx : Context} {input : Bytes} {y : Xpr}
    (h : Reach cfg w ctx input y) : Calls (Named ctx) y.root :=
  reach_ind (Q := fun e _ => Calls (Named ctx) e) (fun _ h => parseImpl_calls h)
    (fun _ _ _ _ _ hq h => simplifyFor_calls _ h hq) h

/-- Properness along a history (again without totality). -/
theorem simplifyFor_proper_any {P : Func → Prop} {cfg : Cfg} {w : World} {x : Bytes} {v : F64} :
    ∀ e e', simplifyFor cfg w x v e = .ok e' → Proper P e → Proper P e' := by
  intro e
  induction e using Elem.ind with
  | num y => intro e' h hp; rw [simplifyFor] at h; cases h; exact hp
  | var y =>
    intro e' h hp
    rw [simplifyFor] at h
    split at h
    · cases h; exact .num v
    · cases h; exact hp
  | bin op l r ihl ihr =>
    intro e' h hp
    obtain ⟨l', r', hl, hr, hb⟩ := simplifyFor_bin_ok h
    cases hp with
    | bin ho hpl hpr => exact simplify_proper_ok _ _ hb (.bin ho (ihl _ hl hpl) (ihr _ hr hpr))
  | un op a ih =>
    intro e' h hp
    obtain ⟨a', ha, hb⟩ := simplifyFor_un_ok h
    cases hp with
    | un ho hpa => exact simplify_proper_ok _ _ hb (.un ho (ih _ ha hpa))
  | call f args ih =>
    intro e' h hp
    obtain ⟨args', ha, hb⟩ := simplifyFor_call_ok h
    cases hp with
    | call hf har hargs =>
      refine simplify_proper_ok _ _ hb (.call hf (by rw [simplifyForL_length _ ha]; exact har) ?_)
      clear h hb har
      induction args generalizing args' with
      | nil => rw [simplifyForL] at ha; cases ha; simp
      | cons b bs ihb =>
        obtain ⟨b', bs', hb1, hb2, rfl⟩ := simplifyForL_cons_ok ha
        intro d hd
        rcases List.mem_cons.1 hd with rfl | hd
        · exact ih b (by simp) _ hb1 (hargs b (by simp))
        · exact ihb (fun a ha => ih a (by simp [ha])) _ hb2 (fun a ha => hargs a (by simp [ha])) d hd

theorem reach_proper {cfg : Cfg} {w : World} {ctx : Context} {input : Bytes} {y : Xpr}
    (h : Reach cfg w ctx input y) (hn : ¬ DoubleBang input) : Proper (Named ctx) y.root :=
  reach_ind (Q := fun e _ => Proper (Named ctx) e) (fun _ h => parseImpl_proper h hn)
    (fun _ _ _ _ _ hq h => simplifyFor_proper_any _ _ h hq) h

theorem proper_mono {P Q : Func → Prop} (h : ∀ f, P f → Q f) : ∀ e, Proper P e → Proper Q e := by
  intro e
  induction e using Elem.ind with
  | num x => intro _; exact .num x
  | var x => intro _; exact .var x
  | bin op l r ihl ihr => intro hp; cases hp with | bin ho a b => exact .bin ho (ihl a) (ihr b)
  | un op a ih => intro hp; cases hp with | un ho a => exact .un ho (ih a)
  | call f args ih =>
    intro hp
    cases hp with | call hf ha hargs => exact .call (h f hf) ha fun a hm => ih a hm (hargs a hm)

/-- Along a history `vars` has no duplicates and contains the variables of the tree. -/
theorem reach_vars {cfg : Cfg} {w : World} {ctx : Context} {input : Bytes} {y : Xpr}
    (h : Reach cfg w ctx input y) :
    y.vars.Nodup ∧ ∀ n, Occurs n y.root → n ∈ y.vars := by
  refine reach_ind (Q := fun e vs => vs.Nodup ∧ ∀ n, Occurs n e → n ∈ vs) ?_ ?_ h
  · intro x h
    obtain ⟨c, tw, h1, h2, h3, h4, h5⟩ := parseImpl_ok h
    rw [h5]
    exact ⟨nodup_findVars _ _ List.nodup_nil, fun n hn => (mem_findVars _ _ _).2 (.inr hn)⟩
  · intro e e' vs x v hq h
    refine ⟨hq.1.filter _, fun n hn => ?_⟩
    have := simplifyFor_occurs e h hn
    unfold Xpr.removeVar
    rw [List.mem_filter]
    exact ⟨hq.2 n this.1, by simpa using this.2⟩

end Xprs
