import Verif.Lemmas.Rename
import Verif.Props.Builds
import Verif.Props.Tokens
import Verif.Props.Values
/-
Property C73: the names of variables do not matter.
-/
namespace Xprs
namespace Props
open Spec

/-- C73 as stated: `s'` is `s` under other names (each with the same meaning, different
variables under different names). -/
def C73_claim : Prop := ∀ (cfg : Cfg) (w : World) (o : Oracle) (ctx ctx' : Context) (σ : Bytes → Bytes)
    (s s' : Bytes) (ts : List Bytes) (x : Xpr), Lex s ts → Lex s' (ts.map (renamed σ)) →
  Renaming σ ctx ctx' ts → Distinct σ ctx ts → (∀ vs, ctx'.getExpected = some vs → ∀ n ∈ x.vars, σ n ∈ vs) →
  parse cfg w o ctx s = .ok x → ∃ y, parse cfg w o ctx' s' = .ok y

/-- A capital letter for a small one. -/
def capital : Bytes → Bytes := fun n => if n = b!"x" then b!"X" else n

theorem lex_2 {nm : Bytes} (hn : Name nm []) (h : ¬ expStart nm) (hm : notHead mantChar nm) :
    Lex (b!"2" ++ nm) [b!"2", nm] := by
  have h1 : Lex nm [nm] := by
    have := Lex.name (ws := []) (nm := nm) (rest := []) (by decide) hn (.nil (by decide))
    simpa using this
  have := Lex.num (ws := []) (txt := b!"2") (rest := nm) (v := F64.ofDecimal 2 0) (by decide)
    (literal_two hm h) h1
  simpa using this

theorem not_expStart_x : ¬ expStart b!"x" ∧ ¬ expStart b!"X" := by
  constructor <;>
  · rintro ⟨e, sg, d, t, he, _, _, h⟩
    have := (List.cons.inj h).1
    rcases he with rfl | rfl <;> exact absurd this (by decide)

/-- C73 is false: `2x` is a product, `2X` is an error (implicit multiplication needs a
small letter). -/
theorem C73_refuted : ¬ C73_claim := by
  intro h
  have hn : ∀ nm : Bytes, (∃ c, nm.head? = some c ∧ letter c) → (∀ c ∈ nm, nameChar c) → Name nm [] :=
    fun nm h1 h2 => ⟨h1, h2, by intro c hc; cases hc⟩
  have two : ¬ IsName b!"2" := by
    rintro ⟨⟨c, h1, h2⟩, -⟩
    cases h1
    exact absurd h2 (by decide)
  have hx := lex_2 (hn b!"x" ⟨c!"x", rfl, by decide⟩ (by decide)) not_expStart_x.1 (by intro c hc; cases hc; decide)
  have hX := lex_2 (hn b!"X" ⟨c!"X", rfl, by decide⟩ (by decide)) not_expStart_x.2 (by intro c hc; cases hc; decide)
  have key : ∀ nm ∈ [b!"2", b!"x"], IsName nm → nm = b!"x" := by
    intro nm hm hi
    rcases List.mem_cons.1 hm with rfl | hm
    · exact absurd hi two
    · exact List.mem_singleton.1 hm
  have lx : lookup Context.default b!"x" = .var b!"x" := rfl
  have lX : lookup Context.default b!"X" = .var b!"X" := rfl
  obtain ⟨y, hy⟩ := h cfgPlain w0 Oracle.id Context.default Context.default capital (b!"2" ++ b!"x")
    (b!"2" ++ b!"X") _ ⟨.bin .times (.num (F64.ofDecimal 2 0)) (.var b!"x"), [b!"x"]⟩ hx (by
      have : [b!"2", b!"x"].map (renamed capital) = [b!"2", b!"X"] := by decide
      rw [this]; exact hX)
    ⟨fun nm hm hi => key nm hm hi ▸ ⟨⟨c!"X", rfl, by decide⟩, by decide⟩,
      fun nm hm hi v hv => absurd (hv.symm.trans (key nm hm hi ▸ lx)) (by simp),
      fun nm hm hi v hv => absurd (hv.symm.trans (key nm hm hi ▸ lx)) (by simp),
      fun nm hm hi _ => key nm hm hi ▸ lX⟩
    (fun a ha ha' _ b hb hb' _ _ => (key a ha ha').trans (key b hb hb').symm)
    (fun vs hv => by cases hv) (by decide +kernel)
  have : (match parse cfgPlain w0 Oracle.id Context.default (b!"2" ++ b!"X") with
    | .ok _ => true | _ => false) = false := by decide +kernel
  rw [hy] at this
  cases this

/-- What is missing from C73: renamings that put a capital letter for a small one in a
name behind an operand.  For all others: the text is accepted, the tree is the old one
under the new names, and the variables are the new names of the old ones. -/
theorem C73_partial (cfg : Cfg) (w : World) (o : Oracle) (ctx ctx' : Context) (σ : Bytes → Bytes)
    (s s' : Bytes) (ts : List Bytes) (x : Xpr) (hs : Lex s ts) (hs' : Lex s' (ts.map (renamed σ)))
    (hr : Renaming σ ctx ctx' ts) (hd : Distinct σ ctx ts)
    (he : ∀ vs, ctx'.getExpected = some vs → ∀ n ∈ x.vars, σ n ∈ vs) (hk : KeepsCase σ ts)
    (h : parse cfg w o ctx s = .ok x) :
    parse cfg w o ctx' s' = .ok ⟨rename σ x.root, x.vars.map σ⟩ :=
  parse_of_impl (parseImpl_rename hs hs' hr hd hk (parse_ok h)) fun vs hv n hn => by
    obtain ⟨k, hk, rfl⟩ := List.mem_map.1 hn
    exact he vs hv k hk

/-- `a` for `x`. -/
def xToA : Bytes → Bytes := fun n => if n = b!"x" then b!"a" else n

/-- `2x` and `2a`. -/
example : ∃ σ ts x, Lex b!"2x" ts ∧ Lex b!"2a" (ts.map (renamed σ)) ∧
    Renaming σ Context.default Context.default ts ∧ Distinct σ Context.default ts ∧ KeepsCase σ ts ∧
    parse0 cfgOpt b!"2x" = .ok x ∧ rename σ x.root ≠ x.root := by
  have hn : ∀ nm : Bytes, (∃ c, nm.head? = some c ∧ letter c) → (∀ c ∈ nm, nameChar c) → Name nm [] :=
    fun nm h1 h2 => ⟨h1, h2, by intro c hc; cases hc⟩
  have ea : ¬ expStart b!"a" := by
    rintro ⟨e, sg, d, t, he, _, _, h⟩
    have := (List.cons.inj h).1
    rcases he with rfl | rfl <;> exact absurd this (by decide)
  have hx := lex_2 (hn b!"x" ⟨c!"x", rfl, by decide⟩ (by decide)) not_expStart_x.1 (by intro c hc; cases hc; decide)
  have ha := lex_2 (hn b!"a" ⟨c!"a", rfl, by decide⟩ (by decide)) ea (by intro c hc; cases hc; decide)
  have key : ∀ nm ∈ [b!"2", b!"x"], IsName nm → nm = b!"x" := by
    intro nm hm hi
    rcases List.mem_cons.1 hm with rfl | hm
    · obtain ⟨⟨c, h1, h2⟩, -⟩ := hi
      cases h1
      exact absurd h2 (by decide)
    · exact List.mem_singleton.1 hm
  have lx : lookup Context.default b!"x" = .var b!"x" := rfl
  have la : lookup Context.default b!"a" = .var b!"a" := rfl
  refine ⟨xToA, _,
    ⟨.bin .times (.num (F64.ofDecimal 2 0)) (.var b!"x"), [b!"x"]⟩, hx, ha,
    ⟨fun nm hm hi => key nm hm hi ▸ ⟨⟨c!"a", rfl, by decide⟩, by decide⟩,
      fun nm hm hi v hv => absurd (hv.symm.trans (key nm hm hi ▸ lx)) (by simp),
      fun nm hm hi v hv => absurd (hv.symm.trans (key nm hm hi ▸ lx)) (by simp),
      fun nm hm hi _ => key nm hm hi ▸ la⟩,
    fun a ha ha' _ b hb hb' _ _ => (key a ha ha').trans (key b hb hb').symm, ?_, by decide +kernel, by decide +kernel⟩
  intro p o nm q he _ hi c d hc hd
  have := key nm (he ▸ by simp) hi
  subst this
  cases hc
  cases hd
  decide

/-- The exception is a real one: where a name behind a number, a name or `)` gets a capital
letter, the text is not accepted. -/
theorem C73_capital (cfg : Cfg) (w : World) (o : Oracle) (ctx : Context) (s : Bytes) (ts : List Bytes)
    (hs : Lex s ts) (p : List Bytes) (a nm : Bytes) (q : List Bytes) (ht : ts = p ++ a :: nm :: q)
    (ha : endsOperand a) (hb : a ≠ b!"!") (hn : IsName nm) (c : UInt8) (hc : nm.head? = some c) (hl : ¬ lower c)
    (x : Xpr) : parse cfg w o ctx s ≠ .ok x :=
  fun h => hl (parseImpl_small hs (parse_ok h) p a nm q ht ha hb hn c hc)

/-- Where different names stay different, the old text is accepted if and only if the new
one is. -/
theorem C73_iff (cfg : Cfg) (w : World) (o : Oracle) (ctx ctx' : Context) (σ : Bytes → Bytes)
    (s s' : Bytes) (ts : List Bytes) (hs : Lex s ts) (hs' : Lex s' (ts.map (renamed σ)))
    (hr : Renaming σ ctx ctx' ts) (hd : ∀ a ∈ ts, IsName a → ∀ b ∈ ts, IsName b → σ a = σ b → a = b)
    (he : ctx.getExpected = none) (he' : ctx'.getExpected = none) (hk : KeepsCase σ ts) :
    (∃ x, parse cfg w o ctx s = .ok x) ↔ ∃ y, parse cfg w o ctx' s' = .ok y := by
  constructor
  · rintro ⟨x, hx⟩
    exact ⟨_, C73_partial cfg w o ctx ctx' σ s s' ts x hs hs' hr
      (fun a ha ha' _ b hb hb' _ => hd a ha ha' b hb hb') (fun vs hv => by rw [he'] at hv; cases hv) hk hx⟩
  · rintro ⟨y, hy⟩
    obtain ⟨ρ, h1, h2, h3, h4⟩ := renaming_inverse hs hr hk hd
    exact ⟨_, C73_partial cfg w o ctx' ctx ρ s' s _ y hs' (by rw [renamed_back hs hr.name h1]; exact hs) h2 h4
      (fun vs hv => by rw [he] at hv; cases hv) h3 hy⟩

/-- The value under the new names is the value under the old ones; if a variable is missing,
it is the new name of the one that is missing. -/
theorem C73_eval (w : World) (σ : Bytes → Bytes) (x : Xpr) (m : HMap F64) :
    (Xpr.mk (rename σ x.root) (x.vars.map σ)).eval w m =
      (x.eval w fun n => m (σ n)).mapError (EvErr.rename σ) :=
  eval_rename w σ m x.root

/-- `simplify_for` under the new names. -/
theorem C73_simplify (cfg : Cfg) (w : World) (σ : Bytes → Bytes) (hσ : Function.Injective σ) (x : Xpr)
    (n : Bytes) (v : F64) :
    (Xpr.mk (rename σ x.root) (x.vars.map σ)).simplifyFor cfg w (σ n) v =
      (x.simplifyFor cfg w n v).map fun y => ⟨rename σ y.root, y.vars.map σ⟩ := by
  unfold Xpr.simplifyFor
  simp only
  rw [simplifyFor_rename cfg w hσ]
  cases simplifyFor cfg w n v x.root with
  | error p => rfl
  | ok r =>
    simp only [Except.map]
    congr 2
    unfold Xpr.removeVar
    rw [List.filter_map]
    congr 1
    refine List.filter_congr fun k _ => ?_
    simp [hσ.eq_iff]

/-- `2x+y` and `2a+X`. -/
example : ∃ x y, parse0 cfgOpt b!"2x + sin(y)" = .ok x ∧ parse0 cfgOpt b!"2a+sin(X)" = .ok y ∧
    y.root = rename (fun n => if n = b!"x" then b!"a" else if n = b!"y" then b!"X" else n) x.root ∧
    x.vars = [b!"x", b!"y"] ∧ y.vars = [b!"a", b!"X"] := by
  have : (match parse0 cfgOpt b!"2x + sin(y)", parse0 cfgOpt b!"2a+sin(X)" with
    | .ok x, .ok y =>
      decide (y.root = rename (fun n => if n = b!"x" then b!"a" else if n = b!"y" then b!"X" else n) x.root ∧
        x.vars = [b!"x", b!"y"] ∧ y.vars = [b!"a", b!"X"])
    | _, _ => false) = true := by decide +kernel
  split at this
  · rename_i x y hx hy
    exact ⟨x, y, hx, hy, by simpa using this⟩
  · cases this

end Props
end Xprs
