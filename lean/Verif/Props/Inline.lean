import Verif.Lemmas.Inline
import Verif.Props.Builds
import Verif.Props.Constant
import Verif.Props.Tokens
/-
Property C84: a name may be replaced by a text in parentheses.
-/
namespace Xprs
namespace Props
open Spec

/-- Every text that is put in is accepted, for a name that is a variable; `trees` are the results. -/
def Accepted (cfg : Cfg) (w : World) (o : Oracle) (ctx : Context) (defs : Bytes → Option Bytes)
    (trees : Bytes → Xpr) : Prop :=
  ∀ n t, defs n = some t → IsName n ∧ lookup ctx n = .var n ∧ parse cfg w o ctx t = .ok (trees n)

/-- The variables of the original text have in `m'` the values that what replaces them has in `m`. -/
def Given (w : World) (defs : Bytes → Option Bytes) (trees : Bytes → Xpr) (m m' : HMap F64) (n : Bytes) :
    Prop :=
  ∃ v, m' n = some v ∧ ((defs n = none ∧ m n = some v) ∨ ∃ t, defs n = some t ∧ (trees n).eval w m = .ok v)

/-- C84 as stated. -/
def C84_claim : Prop := ∀ (cfg : Cfg) (w : World) (o : Oracle) (ctx : Context) (defs : Bytes → Option Bytes)
    (trees : Bytes → Xpr) (s s' : Bytes) (ts ts' : List Bytes) (x : Xpr),
  Accepted cfg w o ctx defs trees → Lex s ts → Inlines defs ts ts' → Lex s' ts' →
  parse cfg w o ctx s = .ok x →
  ∃ y, parse cfg w o ctx s' = .ok y ∧
    ∀ m m', (∀ n ∈ x.vars, Given w defs trees m m' n) → y.eval w m = x.eval w m'

/-- `2` for `x`. -/
def twoForX : Bytes → Option Bytes := fun n => if n = b!"x" then some b!"2" else none

theorem lex_two {rest : Bytes} {ts : List Bytes} (h : Lex rest ts) (h1 : notHead mantChar rest)
    (h2 : ¬ expStart rest) (ws : Bytes) (hw : spaces ws) : Lex (ws ++ c!"2" :: rest) (b!"2" :: ts) := by
  have := Lex.num (ws := ws) (txt := b!"2") hw (literal_two h1 h2) h
  simpa using this

theorem expStart_head {c : UInt8} {t : Bytes} (h1 : c ≠ c!"e") (h2 : c ≠ c!"E") : ¬ expStart (c :: t) := by
  rintro ⟨e, sg, d, t, he, _, _, h⟩
  have := (List.cons.inj h).1
  rcases he with rfl | rfl
  · exact h1 this
  · exact h2 this

theorem not_expStart_nil : ¬ expStart [] := by
  rintro ⟨e, sg, d, t, he, _, _, h⟩; cases h

theorem lex_end2 : Lex b!" 2" [b!"2"] :=
  lex_two (.nil (ws := []) (by decide)) (by intro c hc; cases hc) not_expStart_nil b!" " (by decide)

theorem lex_x2 : Lex b!"x 2" [b!"x", b!"2"] :=
  .name (ws := []) (nm := b!"x") (by decide) ⟨⟨c!"x", rfl, by decide⟩, by decide, by intro c hc; cases hc; decide⟩
    lex_end2

theorem lex_p2 : Lex b!"(2) 2" [b!"(", b!"2", b!")", b!"2"] :=
  .sym (ws := []) (by decide) (by decide) (lex_two (.sym (ws := []) (by decide) (by decide) lex_end2)
    (by intro c hc; cases hc; decide) (expStart_head (by decide) (by decide)) [] (by decide))

theorem inlines_x2 : Inlines twoForX [b!"x", b!"2"] [b!"(", b!"2", b!")", b!"2"] :=
  .text (s := b!"2") (us := [b!"2"]) rfl
    (lex_two (.nil (ws := []) (by decide)) (by intro c hc; cases hc) not_expStart_nil [] (by decide))
    (.keep rfl .nil)

/-- What `2` is parsed to. -/
def two : Xpr := ⟨.num (F64.ofDecimal 2 0), []⟩

theorem two_accepted {cfg : Cfg} (h : parse cfg wPow Oracle.id Context.default b!"2" = .ok two) :
    Accepted cfg wPow Oracle.id Context.default twoForX fun _ => two := by
  intro n t h'
  unfold twoForX at h'
  split at h'
  · subst_vars
    cases h'
    exact ⟨⟨⟨c!"x", rfl, by decide⟩, by decide⟩, rfl, h⟩
  · cases h'

/-- C84 is false: `x 2` is a product, `(2) 2` is an error. -/
theorem C84_refuted : ¬ C84_claim := by
  intro h
  obtain ⟨y, hy, -⟩ := h cfgPlain wPow Oracle.id Context.default twoForX (fun _ => two) _ _ _ _
    ⟨.bin .times (.var b!"x") (.num (F64.ofDecimal 2 0)), [b!"x"]⟩
    (two_accepted (by decide +kernel)) lex_x2 inlines_x2 lex_p2 (by decide +kernel)
  have : (match parse cfgPlain wPow Oracle.id Context.default b!"(2) 2" with
    | .ok _ => true | _ => false) = false := by decide +kernel
  rw [hy] at this
  cases this

/-- The values can differ too: `2+x 2` is 6 at `x = 2`, but `2+(2) 2` is 8. -/
theorem C84_value_refuted : ∃ x y : Xpr, parse cfgPlain wPow Oracle.id Context.default b!"2+x 2" = .ok x ∧
    parse cfgPlain wPow Oracle.id Context.default b!"2+(2) 2" = .ok y ∧
    x.eval wPow (HMap.empty.insert b!"x" (F64.ofNat 2)) = .ok (F64.ofNat 6) ∧
    y.eval wPow HMap.empty = .ok (F64.ofNat 8) ∧
    Lex b!"2+x 2" [b!"2", b!"+", b!"x", b!"2"] ∧
    Inlines twoForX [b!"2", b!"+", b!"x", b!"2"] [b!"2", b!"+", b!"(", b!"2", b!")", b!"2"] ∧
    Lex b!"2+(2) 2" [b!"2", b!"+", b!"(", b!"2", b!")", b!"2"] := by
  refine ⟨⟨.bin .plus (.num (F64.ofDecimal 2 0)) (.bin .times (.var b!"x") (.num (F64.ofDecimal 2 0))), [b!"x"]⟩,
    ⟨.bin .times (.bin .plus (.num (F64.ofDecimal 2 0)) (.num (F64.ofDecimal 2 0))) (.num (F64.ofDecimal 2 0)), []⟩,
    by decide +kernel, by decide +kernel, by decide +kernel, by decide +kernel, ?_,
    .keep rfl (.keep rfl inlines_x2), ?_⟩
  · exact lex_two (.sym (ws := []) (by decide) (by decide) lex_x2) (by intro c hc; cases hc; decide)
      (expStart_head (by decide) (by decide)) [] (by decide)
  · exact lex_two (.sym (ws := []) (by decide) (by decide) lex_p2) (by intro c hc; cases hc; decide)
      (expStart_head (by decide) (by decide)) [] (by decide)

/-- The tree for a name: that of its text, or the variable. -/
def treeFor (defs : Bytes → Option Bytes) (trees : Bytes → Xpr) (n : Bytes) : Elem :=
  match defs n with
  | some _ => (trees n).root
  | none => .var n

theorem pieces {cfg : Cfg} {w : World} {o : Oracle} {ctx : Context} {defs : Bytes → Option Bytes}
    {trees : Bytes → Xpr} (ho : cfg.opt = false) (ha : Accepted cfg w o ctx defs trees) :
    ∃ E : Bytes → Option Cst, Pieces cfg ctx E (treeFor defs trees) ∧
      (∀ n, E n = none ↔ defs n = none) ∧
      ∀ n t c us, defs n = some t → E n = some c → Lex t us → c.toks = b!"(" :: (us ++ [b!")"]) := by
  have key : ∀ n, ∃ e : Option Cst, (e = none ↔ defs n = none) ∧ ∀ t, defs n = some t → ∃ c, e = some c ∧
      c.primary ∧ c.chain cfg = 7 ∧ (∀ rest, c.wf cfg .ok ctx rest) ∧
      (∀ rest, noBang rest → c.closed cfg .ok ctx rest) ∧
      c.den .ok ctx = .ok (trees n).root ∧
      ∃ us, Lex t us ∧ c.toks = b!"(" :: (us ++ [b!")"]) := by
    intro n
    cases hd : defs n with
    | none => exact ⟨none, by simp, by intro t h; cases h⟩
    | some t =>
      obtain ⟨h1, h2, h3⟩ := ha n t hd
      obtain ⟨c, tw, e, k1, k2, k3, k4, k5, k6⟩ := parseImpl_den (parse_ok h3)
      rw [finOf_plain ho] at k3 k4 k5
      cases k5
      refine ⟨some (.paren [] c tw), by simp, ?_⟩
      intro t' ht
      cases ht
      refine ⟨_, rfl, trivial, rfl, fun rest => ?_, fun rest h => h, by rw [Cst.den, k4], c.toks, ?_, rfl⟩
      · exact ⟨by simp [spaces], k2, (wf_close closer_paren rest).1 c tw k3⟩
      · rw [k1]
        have := lex_text.1 c tw [] k3 (.nil k2)
        rwa [List.append_nil] at this
  obtain ⟨E, hE⟩ := Classical.axiomOfChoice key
  have get : ∀ n c, E n = some c → ∃ t, defs n = some t := by
    intro n c h
    cases hd : defs n with
    | none => rw [(hE n).1.2 hd] at h; cases h
    | some t => exact ⟨t, rfl⟩
  have get' : ∀ n c, E n = some c → ∃ t, defs n = some t ∧ 
      c.primary ∧ c.chain cfg = 7 ∧ (∀ rest, c.wf cfg .ok ctx rest) ∧
      (∀ rest, noBang rest → c.closed cfg .ok ctx rest) ∧
      c.den .ok ctx = .ok (trees n).root ∧
      ∃ us, Lex t us ∧ c.toks = b!"(" :: (us ++ [b!")"]) := by
    intro n c h
    obtain ⟨t, ht⟩ := get n c h
    obtain ⟨c', h1, h2⟩ := (hE n).2 t ht
    rw [h] at h1
    cases h1
    exact ⟨t, ht, h2⟩
  refine ⟨E, ⟨?_, ?_, ?_, ?_, ?_, ?_, ?_, ?_, ?_⟩, fun n => (hE n).1, ?_⟩
  · intro n c h; obtain ⟨t, ht⟩ := get n c h; exact (ha n t ht).1
  · intro n c h; obtain ⟨t, ht⟩ := get n c h; exact (ha n t ht).2.1
  · intro n c h; obtain ⟨t, ht, h1, _⟩ := get' n c h; exact h1
  · intro n c h; obtain ⟨t, ht, _, h1, _⟩ := get' n c h; exact h1
  · intro n c h; obtain ⟨t, ht, _, _, h1, _⟩ := get' n c h; exact h1
  · intro n c h; obtain ⟨t, ht, _, _, _, h1, _⟩ := get' n c h; exact h1
  · intro n c h; obtain ⟨t, ht, _, _, _, _, h1, _⟩ := get' n c h
    unfold treeFor; rw [ht]; exact h1
  · intro n c h; obtain ⟨t, ht, _, _, _, _, _, us, _, h1⟩ := get' n c h; exact ⟨_, h1⟩
  · intro n h
    unfold treeFor; rw [(hE n).1.1 h]
  · intro n t c us ht h hl
    obtain ⟨t', ht', _, _, _, _, _, us', h0, h1⟩ := get' n c h
    rw [ht] at ht'
    cases ht'
    rw [h1, lex_unique h0 hl]

theorem inlines_eq {defs : Bytes → Option Bytes} {E : Bytes → Option Cst}
    (h1 : ∀ n, E n = none ↔ defs n = none)
    (h2 : ∀ n t c us, defs n = some t → E n = some c → Lex t us → c.toks = b!"(" :: (us ++ [b!")"]))
    {ts ts' : List Bytes} (h : Inlines defs ts ts') : inlined E ts = ts' := by
  induction h with
  | nil => rfl
  | keep hd _ ih => rw [inlined, (h1 _).2 hd, ih]
  | @text t s us ts ts' hd hl _ ih =>
    rw [inlined]
    cases he : E t with
    | none => rw [(h1 t).1 he] at hd; cases hd
    | some c => simp [h2 t s c us hd he hl, ih]

mutual
theorem occurs_subst {σ : Bytes → Elem} {k : Bytes} : ∀ e : Elem,
    Occurs k (subst σ e) ↔ ∃ n, Occurs n e ∧ Occurs k (σ n)
  | .num x => by
    rw [subst]
    constructor
    · intro h; cases h
    · rintro ⟨n, h, _⟩; cases h
  | .var j => by
    rw [subst]
    constructor
    · intro h; exact ⟨j, .here, h⟩
    · rintro ⟨n, h, h'⟩; cases h; exact h'
  | .un op e => by
    rw [subst]
    constructor
    · intro h; cases h with
      | operand h => obtain ⟨n, h1, h2⟩ := (occurs_subst e).1 h; exact ⟨n, .operand h1, h2⟩
    · rintro ⟨n, h, h'⟩; cases h with
      | operand h => exact .operand ((occurs_subst e).2 ⟨n, h, h'⟩)
  | .bin op l r => by
    rw [subst]
    constructor
    · intro h; cases h with
      | left h => obtain ⟨n, h1, h2⟩ := (occurs_subst l).1 h; exact ⟨n, .left h1, h2⟩
      | right h => obtain ⟨n, h1, h2⟩ := (occurs_subst r).1 h; exact ⟨n, .right h1, h2⟩
    · rintro ⟨n, h, h'⟩; cases h with
      | left h => exact .left ((occurs_subst l).2 ⟨n, h, h'⟩)
      | right h => exact .right ((occurs_subst r).2 ⟨n, h, h'⟩)
  | .call f args => by
    rw [subst]
    constructor
    · intro h; cases h with
      | arg ha h =>
        obtain ⟨b, n, hb, h1, h2⟩ := (occurs_substL args).1 ⟨_, ha, h⟩
        exact ⟨n, .arg hb h1, h2⟩
    · rintro ⟨n, h, h'⟩; cases h with
      | arg ha h =>
        obtain ⟨b, hb, hc⟩ := (occurs_substL args).2 ⟨_, n, ha, h, h'⟩
        exact .arg hb hc
theorem occurs_substL {σ : Bytes → Elem} {k : Bytes} : ∀ es : List Elem,
    (∃ b ∈ substL σ es, Occurs k b) ↔ ∃ a n, a ∈ es ∧ Occurs n a ∧ Occurs k (σ n)
  | [] => by simp [substL]
  | a :: as => by
    rw [substL]
    constructor
    · rintro ⟨b, hb, h⟩
      rcases List.mem_cons.1 hb with rfl | hb
      · obtain ⟨n, h1, h2⟩ := (occurs_subst a).1 h; exact ⟨a, n, by simp, h1, h2⟩
      · obtain ⟨c, n, h1, h2, h3⟩ := (occurs_substL as).1 ⟨b, hb, h⟩
        exact ⟨c, n, by simp [h1], h2, h3⟩
    · rintro ⟨c, n, h1, h2, h3⟩
      rcases List.mem_cons.1 h1 with hc | h1
      · rw [hc] at h2
        exact ⟨_, by simp, (occurs_subst a).2 ⟨n, h2, h3⟩⟩
      · obtain ⟨b, hb, h⟩ := (occurs_substL as).2 ⟨c, n, h1, h2, h3⟩
        exact ⟨b, by simp [hb], h⟩
end

mutual
theorem runs_subst {w : World} {m m' : HMap F64} {σ : Bytes → Elem} : ∀ (e : Elem) {u : F64},
    (∀ n, Occurs n e → ∀ v, m' n = some v → Runs w m (σ n) v) → Runs w m' e u → Runs w m (subst σ e) u
  | .num x, u, _, h => by cases h; exact .num
  | .var k, u, hs, h => by
    cases h with
    | var h => exact hs k .here u h
  | .un op e, u, hs, h => by
    cases h with
    | un h1 h2 => exact .un (runs_subst e (fun n hn => hs n (.operand hn)) h1) h2
  | .bin op l r, u, hs, h => by
    cases h with
    | bin h1 h2 h3 =>
      exact .bin (runs_subst l (fun n hn => hs n (.left hn)) h1) (runs_subst r (fun n hn => hs n (.right hn)) h2) h3
  | .call f args, u, hs, h => by
    cases h with
    | call h1 h2 => exact .call (runs_substL args (fun a ha n hn => hs n (.arg ha hn)) h1) h2
theorem runs_substL {w : World} {m m' : HMap F64} {σ : Bytes → Elem} : ∀ (es : List Elem) {us : List F64},
    (∀ a ∈ es, ∀ n, Occurs n a → ∀ v, m' n = some v → Runs w m (σ n) v) → RunsL w m' es us →
    RunsL w m (substL σ es) us
  | [], us, _, h => by cases h; exact .nil
  | a :: as, us, hs, h => by
    cases h with
    | cons h1 h2 =>
      exact .cons (runs_subst a (hs a (by simp)) h1) (runs_substL as (fun b hb => hs b (by simp [hb])) h2)
end

/-- C84 for builds without optimizations, if no text that is put in is a number or no number
follows a replaced name or a closing parenthesis directly: the result is accepted; its tree
is the tree of the original with the trees of the texts filled in; its variables are those
of the texts and those that stay; and its value is the value of the original with the values
of the texts for the variables.  Missing, and refuted above: numbers before numbers; builds with
optimizations (`C84_builds_partial`). -/
theorem C84_partial (cfg : Cfg) (w : World) (o : Oracle) (ctx : Context) (defs : Bytes → Option Bytes)
    (trees : Bytes → Xpr) (s s' : Bytes) (ts ts' : List Bytes) (x : Xpr) (ho : cfg.opt = false)
    (ha : Accepted cfg w o ctx defs trees) (hs : Lex s ts) (hi : Inlines defs ts ts') (hs' : Lex s' ts')
    (hn : (∀ n t, defs n = some t → ∀ v, (trees n).root ≠ .num v) ∨ ApartFromAll defs ts)
    (h : parse cfg w o ctx s = .ok x) :
    ∃ y, parse cfg w o ctx s' = .ok y ∧ y.root = subst (treeFor defs trees) x.root ∧
      (∀ k, k ∈ y.vars ↔ ∃ n ∈ x.vars, (defs n = none ∧ k = n) ∨ ∃ t, defs n = some t ∧ k ∈ (trees n).vars) ∧
      ∀ m m', (∀ n ∈ x.vars, Given w defs trees m m' n) → y.eval w m = x.eval w m' := by
  obtain ⟨E, hp, h1, h2⟩ := pieces ho ha
  have he := inlines_eq h1 h2 hi
  subst he
  have hc : Clear E (treeFor defs trees) ts := by
    refine hn.imp ?_ ?_
    · intro hn n c hc v
      cases hd : defs n with
      | none => rw [(h1 n).2 hd] at hc; cases hc
      | some t => unfold treeFor; rw [hd]; exact hn n t hd v
    · intro hn p a b q e hb
      exact ⟨(h1 a).2 (hn p a b q e hb).1, (hn p a b q e hb).2⟩
  have hx := parse_ok h
  have hy := parseImpl_inline ho hp hs hs' hc hx
  have vars : ∀ {t : Bytes} {z : Xpr}, parse cfg w o ctx t = .ok z → ∀ k, k ∈ z.vars ↔ Occurs k z.root := by
    intro t z hz k
    obtain ⟨_, _, _, _, _, _, _, _, hv⟩ := parseImpl_den (parse_ok hz)
    rw [hv, mem_findVars]
    simp
  have hv : ∀ k, k ∈ findVars (subst (treeFor defs trees) x.root) [] ↔
      ∃ n ∈ x.vars, (defs n = none ∧ k = n) ∨ ∃ t, defs n = some t ∧ k ∈ (trees n).vars := by
    intro k
    rw [mem_findVars]
    simp only [List.not_mem_nil, false_or]
    rw [occurs_subst]
    constructor
    · rintro ⟨n, k1, k2⟩
      refine ⟨n, (vars h n).2 k1, ?_⟩
      unfold treeFor at k2
      cases hd : defs n with
      | none => rw [hd] at k2; cases k2; exact .inl ⟨rfl, rfl⟩
      | some t => rw [hd] at k2; exact .inr ⟨t, rfl, (vars (ha n t hd).2.2 k).2 k2⟩
    · rintro ⟨n, k1, k2⟩
      refine ⟨n, (vars h n).1 k1, ?_⟩
      unfold treeFor
      rcases k2 with ⟨hd, rfl⟩ | ⟨t, hd, k2⟩
      · rw [hd]; exact .here
      · rw [hd]; exact (vars (ha n t hd).2.2 k).1 k2
  refine ⟨⟨subst (treeFor defs trees) x.root, _⟩, parse_of_impl hy ?_, rfl, hv, ?_⟩
  · intro vs hvs k hk
    obtain ⟨n, k1, k2⟩ := (hv k).1 hk
    rcases k2 with ⟨hd, rfl⟩ | ⟨t, hd, k2⟩
    · exact parse_expected h hvs k1
    · exact parse_expected (ha n t hd).2.2 hvs k2
  · intro m m' hg
    refine eval_subst w m m' _ x.root fun n hn => ?_
    obtain ⟨v, g1, g2⟩ := hg n ((vars h n).2 hn)
    refine ⟨v, g1, ?_⟩
    unfold treeFor
    rcases g2 with ⟨hd, g2⟩ | ⟨t, hd, g2⟩
    · rw [hd]
      simp [eval, HMap.get, g2]
    · rw [hd]; exact g2

/-- C84 for any build, acceptance: if the original and the texts are accepted without
optimizations, and the result has no two `!` in a row and no number directly behind an operand,
the result is accepted in the build at hand. -/
theorem C84_builds_accept_partial (cfg : Cfg) (w : World) (o : Oracle) (ctx : Context)
    (defs : Bytes → Option Bytes) (trees : Bytes → Xpr) (s s' : Bytes) (ts ts' : List Bytes) (x : Xpr)
    (hw : CtxTotal w ctx) (hb : ¬ DoubleBang s') (he : ctx.getExpected = none)
    (ha : Accepted (plainOf cfg) w o ctx defs trees) (hs : Lex s ts)
    (hi : Inlines defs ts ts') (hs' : Lex s' ts')
    (hn : (∀ n t, defs n = some t → ∀ v, (trees n).root ≠ .num v) ∨ ApartFromAll defs ts)
    (hn' : ParensApart ts') (h : parse (plainOf cfg) w o ctx s = .ok x) :
    ∃ y, parse cfg w o ctx s' = .ok y := by
  obtain ⟨y0, h1, -⟩ := C84_partial (plainOf cfg) w o ctx defs trees s s' ts ts' x rfl ha hs hi hs' hn h
  have hl : ∀ us, Lex s' us → ParensApart us := by
    intro us hu; rw [lex_unique hu hs']; exact hn'
  exact (C16_accept_partial (plainOf cfg) cfg w o o ctx s' rfl hw hb hl he).1 ⟨y0, h1⟩

/-- C84 for any build, for results in which no number follows `)` directly: the
values are those of the variant that is not optimized, up to the sign of zero, whenever that
variant computes them without a doubtful step.  Missing: doubtful steps (see C16), numbers
that follow `)` directly. -/
theorem C84_builds_partial (cfg : Cfg) (w : World) (o : Oracle) (ctx : Context) (defs : Bytes → Option Bytes)
    (trees : Bytes → Xpr) (s s' : Bytes) (ts ts' : List Bytes) (x y : Xpr) (m m' : HMap F64) (u : F64)
    (hw : (NoPower x.root ∧ ∀ n t, defs n = some t → NoPower (trees n).root) ∨ PowLaws w)
    (ha : Accepted (plainOf cfg) w o ctx defs trees) (hs : Lex s ts)
    (hi : Inlines defs ts ts') (hs' : Lex s' ts')
    (hn : (∀ n t, defs n = some t → ∀ v, (trees n).root ≠ .num v) ∨ ApartFromAll defs ts)
    (hn' : ParensApart ts')
    (h : parse (plainOf cfg) w o ctx s = .ok x) (hr : Runs w m' x.root u)
    (hg : ∀ n ∈ x.vars, ∃ v, m' n = some v ∧
      ((defs n = none ∧ m n = some v) ∨ ∃ t, defs n = some t ∧ Runs w m (trees n).root v))
    (h' : parse cfg w o ctx s' = .ok y) :
    ∃ b, y.eval w m = .ok b ∧ Same u b := by
  obtain ⟨y0, h1, h2, -, -⟩ := C84_partial (plainOf cfg) w o ctx defs trees s s' ts ts' x rfl ha hs hi hs' hn h
  have hl : ∀ us, Lex s' us → ParensApart us := by
    intro us hu; rw [lex_unique hu hs']; exact hn'
  refine (C16_value_partial (plainOf cfg) cfg w o o ctx s' y0 y m u rfl rfl
    (hw.imp_left fun hp => h2 ▸ noPower_subst _ hp.1 fun k _ => ?_) hl h1 h' ?_).2
  · unfold treeFor
    split
    · rename_i t ht; exact hp.2 k _ ht
    · intro l r h; cases h
  rw [h2]
  refine runs_subst x.root ?_ hr
  intro n ho v hv
  have hm : n ∈ x.vars := by
    obtain ⟨_, _, _, _, _, _, _, _, hv⟩ := parseImpl_den (parse_ok h)
    rw [hv, mem_findVars]
    exact .inr ho
  obtain ⟨v', g1, g2⟩ := hg n hm
  rw [hv] at g1
  cases g1
  unfold treeFor
  rcases g2 with ⟨hd, g2⟩ | ⟨t, hd, g2⟩
  · rw [hd]; exact .var g2
  · rw [hd]; exact g2

/-! The hypotheses hold of `2+x` with `y` for `x`: `2+(y)`.  Its value at `y = 2` is
that of `2+x` at `x = 2`. -/

/-- `y` for `x`. -/
def yForX : Bytes → Option Bytes := fun n => if n = b!"x" then some b!"y" else none

theorem y_accepted {cfg : Cfg} (h : parse cfg wPow Oracle.id Context.default b!"y" = .ok ⟨.var b!"y", [b!"y"]⟩) :
    Accepted cfg wPow Oracle.id Context.default yForX fun _ => ⟨.var b!"y", [b!"y"]⟩ := by
  intro n t h'
  unfold yForX at h'
  split at h'
  · subst_vars
    cases h'
    exact ⟨⟨⟨c!"x", rfl, by decide⟩, by decide⟩, rfl, h⟩
  · cases h'

theorem lex_one {c : UInt8} {rest : Bytes} {ts : List Bytes} (hc : letter c) (hn : nameChar c)
    (h : notHead nameChar rest) (hl : Lex rest ts) : Lex (c :: rest) ([c] :: ts) :=
  .name (ws := []) (nm := [c]) (by decide) ⟨⟨c, rfl, hc⟩, by simpa using hn, h⟩ hl

theorem lex_2x : Lex b!"2+x" [b!"2", b!"+", b!"x"] :=
  lex_two (.sym (ws := []) (by decide) (by decide)
    (lex_one (by decide) (by decide) (by intro c hc; cases hc) (.nil (ws := []) (by decide))))
    (by intro c hc; cases hc; decide) (expStart_head (by decide) (by decide)) [] (by decide)

theorem lex_2y : Lex b!"2+(y)" [b!"2", b!"+", b!"(", b!"y", b!")"] :=
  lex_two (.sym (ws := []) (by decide) (by decide) (.sym (ws := []) (by decide) (by decide)
    (lex_one (by decide) (by decide) (by intro c hc; cases hc; decide) (.sym (ws := []) (by decide) (by decide)
      (.nil (ws := []) (by decide))))))
    (by intro c hc; cases hc; decide) (expStart_head (by decide) (by decide)) [] (by decide)

theorem inlines_2x : Inlines yForX [b!"2", b!"+", b!"x"] [b!"2", b!"+", b!"(", b!"y", b!")"] :=
  .keep rfl (.keep rfl (.text (s := b!"y") (us := [b!"y"]) rfl
    (lex_one (by decide) (by decide) (by intro c hc; cases hc) (.nil (ws := []) (by decide))) .nil))

/-- `2+x`. -/
def twoPlusX : Xpr := ⟨.bin .plus (.num (F64.ofDecimal 2 0)) (.var b!"x"), [b!"x"]⟩

example : ∃ y, parse cfgPlain wPow Oracle.id Context.default b!"2+(y)" = .ok y ∧
    y.root = .bin .plus (.num (F64.ofDecimal 2 0)) (.var b!"y") ∧
    y.eval wPow (HMap.empty.insert b!"y" (F64.ofNat 2)) = .ok (F64.ofNat 4) := by
  obtain ⟨y, h1, h2, -, h3⟩ := C84_partial cfgPlain wPow Oracle.id Context.default yForX
    (fun _ => ⟨.var b!"y", [b!"y"]⟩) _ _ _ _ twoPlusX rfl (y_accepted (by decide +kernel)) lex_2x inlines_2x lex_2y
    (.inl fun _ _ _ _ h => by cases h) (by decide +kernel)
  refine ⟨y, h1, h2, ?_⟩
  rw [h3 _ (HMap.empty.insert b!"x" (F64.ofNat 2))]
  · decide +kernel
  · intro n hn
    cases List.mem_singleton.1 hn
    exact ⟨F64.ofNat 2, rfl, .inr ⟨b!"y", rfl, by decide +kernel⟩⟩

example : ∀ y, parse cfgOpt wPow Oracle.id Context.default b!"2+(y)" = .ok y →
    ∃ b, y.eval wPow (HMap.empty.insert b!"y" (F64.ofNat 2)) = .ok b ∧ Same (F64.ofNat 4) b := by
  intro y hy
  refine C84_builds_partial cfgOpt wPow Oracle.id Context.default yForX
    (fun _ => ⟨.var b!"y", [b!"y"]⟩) _ _ _ _ twoPlusX y _ (HMap.empty.insert b!"x" (F64.ofNat 2)) _ (.inr wPow_laws)
    (y_accepted (by decide +kernel)) lex_2x inlines_2x lex_2y (.inl fun _ _ _ _ h => by cases h) ?_ (by decide +kernel)
    (.bin (.num) (.var rfl) ?_) ?_ hy
  · have nd : ∀ {c : UInt8} {t a : Bytes}, ¬ digit c → digitTok (c :: t) → a ≠ b!")" :=
      fun h h' => absurd h' (not_digitTok h)
    exact apart_cons (nd (by decide)) (apart_cons (nd (by decide)) (apart_cons (nd (by decide))
      (apart_cons (nd (by decide)) (apart_one _))))
  · have : F64.ofNat 4 = F64.add (F64.ofDecimal 2 0) (F64.ofNat 2) := by decide +kernel
    rw [this]
    exact .plus (by decide +kernel)
  · intro n hn
    cases List.mem_singleton.1 hn
    exact ⟨F64.ofNat 2, rfl, .inr ⟨b!"y", rfl, .var rfl⟩⟩

end Props
end Xprs
