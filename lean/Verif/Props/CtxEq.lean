import Verif.CtxEq
import Verif.Spec.Twin
import Verif.Lemmas.Related
import Verif.Props.Equality
import Verif.Props.Mention
/-
Property C82: parsers that compare equal.
-/
namespace Xprs
namespace Props
open Spec

/-! ### Twins -/

mutual
theorem twin_alike : ∀ {a b : Elem}, Twin a b → Alike NumEq a b
  | _, _, .num h => .num h
  | _, _, .var => .var
  | _, _, .un h => .un (twin_alike h)
  | _, _, .bin h h' => .bin (twin_alike h) (twin_alike h')
  | _, _, .call h => .call (twinL_alike h)
theorem twinL_alike : ∀ {as bs : List Elem}, TwinL as bs → AlikeL NumEq as bs
  | _, _, .nil => .nil
  | _, _, .cons h h' => .cons (twin_alike h) (twinL_alike h')
end

mutual
theorem twin_vars : ∀ {a b : Elem}, Twin a b → ∀ vs, findVars a vs = findVars b vs
  | _, _, .num _, vs => rfl
  | _, _, .var, vs => rfl
  | _, _, .un h, vs => by rw [findVars, findVars, twin_vars h]
  | _, _, .bin h h', vs => by rw [findVars, findVars, twin_vars h, twin_vars h']
  | _, _, .call h, vs => by rw [findVars, findVars, twinL_vars h]
theorem twinL_vars : ∀ {as bs : List Elem}, TwinL as bs → ∀ vs, findVarsL as vs = findVarsL bs vs
  | _, _, .nil, vs => rfl
  | _, _, .cons h h', vs => by rw [findVarsL, findVarsL, twin_vars h, twinL_vars h']
end

theorem twinL_of {as bs : List Elem} (h : List.Forall₂ Twin as bs) : TwinL as bs := by
  induction h with
  | nil => exact .nil
  | cons h _ ih => exact .cons h ih

theorem ofMag_ne_nan {s : Bool} {N D : Nat} : F64.ofMag s N D ≠ .nan := by
  unfold F64.ofMag; split <;> intro h <;> cases h

theorem ofDecimal_ne_nan {M : Nat} {E : Int} : F64.ofDecimal M E ≠ .nan := by
  unfold F64.ofDecimal; split <;> exact ofMag_ne_nan

theorem parseF64_ne_nan {t : Bytes} {x : F64} (h : parseF64 t = some x) : x ≠ .nan := by
  unfold parseF64 at h
  simp only at h
  repeat' split at h
  all_goals first
    | (injection h with h; rw [← h]; exact ofDecimal_ne_nan)
    | cases h

theorem relI_refl (nm : Bytes) : RelI Twin (Ident.fromStr nm) (Ident.fromStr nm) := by
  unfold Ident.fromStr
  split
  · exact .num ⟨ofDecimal_ne_nan, .refl _⟩
  · split
    · exact .num ⟨ofDecimal_ne_nan, .refl _⟩
    · cases builtinByName nm with
      | some b => exact ⟨rfl, fun _ _ h => .call (twinL_of h)⟩
      | none => exact ⟨rfl, .var⟩

theorem equal_lookup {c c' : Context} (h : c.Equal c') (nm : Bytes) :
    RelI Twin (lookup c nm) (lookup c' nm) := by
  have h1 := h.1 nm
  have e : ∀ c : Context, c.get nm = c.symbols.get nm := fun _ => rfl
  unfold lookup
  rw [e, e]
  cases hc : c.symbols.get nm with
  | none =>
    cases hc' : c'.symbols.get nm with
    | none => exact relI_refl nm
    | some b => rw [hc, hc'] at h1; exact False.elim h1
  | some a =>
    cases hc' : c'.symbols.get nm with
    | none => rw [hc, hc'] at h1; exact False.elim h1
    | some b =>
      rw [hc, hc'] at h1
      have h1 : a.eqS b = true := h1
      cases a with
      | var x =>
        cases b with
        | var y => exact .num (beq_iff.1 h1)
        | func g => cases h1
      | func f =>
        cases b with
        | var y => cases h1
        | func g =>
          have hfg : f = g := of_decide_eq_true h1
          subst hfg
          exact ⟨rfl, fun _ _ h => .call (twinL_of h)⟩

theorem equal_congruent {c c' : Context} (h : c.Equal c') : Congruent Twin c c' where
  lit := fun _ _ hx => .num ⟨parseF64_ne_nan hx, .refl _⟩
  look := equal_lookup h
  un := .un
  bin := .bin
  isNum := fun h => by cases h <;> rfl

theorem diffVars_congr (o : Oracle) (vars : List Bytes) {l l' : List Bytes} (h : ∀ v, v ∈ l ↔ v ∈ l') :
    diffVars o vars l = diffVars o vars l' := by
  unfold diffVars
  congr 1
  funext v
  rw [decide_eq_decide.2 (h v)]

/-- From `parseImpl` to `parse`. -/
theorem parse_matches {T : Elem → Elem → Prop} {c c' : Context} {cfg : Cfg} {w : World} (o : Oracle)
    {input : Bytes} (h : c.Equal c') (hv : ∀ a b, T a b → findVars a [] = findVars b [])
    (hp : RelP T (parseImpl cfg w c input) (parseImpl cfg w c' input)) :
    Matches T (parse cfg w o c input) (parse cfg w o c' input) := by
  unfold parse
  cases h1 : parseImpl cfg w c input <;> cases h2 : parseImpl cfg w c' input <;> rw [h1, h2] at hp <;>
    first | exact False.elim hp | skip
  · rename_i x y
    obtain ⟨ht, hx, hy⟩ := hp
    have hxy : x.vars = y.vars := by rw [hx, hy, hv _ _ ht]
    simp only
    have e : ∀ c : Context, c.getExpected = c.expectedVars := fun _ => rfl
    rw [e, e]
    have h2 := h.2
    cases he : c.expectedVars with
    | none =>
      cases he' : c'.expectedVars with
      | none => exact .ok ht hxy
      | some l => rw [he, he'] at h2; exact False.elim h2
    | some l =>
      cases he' : c'.expectedVars with
      | none => rw [he, he'] at h2; exact False.elim h2
      | some l' =>
        rw [he, he'] at h2
        have h2 : ∀ v, v ∈ l ↔ v ∈ l' := h2
        simp only
        rw [← hxy, ← diffVars_congr o x.vars h2]
        cases hd : (diffVars o x.vars l).head? with
        | none => exact .ok ht hxy
        | some v =>
          have hm := (mem_diffVars.1 (List.mem_of_head? hd)).2
          refine .undeclared (fun u => ?_) ?_
          · rw [(o.perm l).mem_iff, (o.perm l').mem_iff]; exact h2 u
          · rw [(o.perm l).mem_iff]; exact hm
  · cases hp; exact .err
  · cases hp; exact .panic
  · exact absurd h1 (parseImpl_ne_fuel _ _ _ _)

/-! ### C82 -/

/-- C82 as stated: parsers that compare equal accept the same texts, and the expressions they
return have the same values. -/
def C82_claim : Prop := ∀ (cfg : Cfg) (w : World) (o : Oracle) (c c' : Context) (input : Bytes) (x : Xpr),
  c.Equal c' → parse cfg w o c input = .ok x →
    ∃ y, parse cfg w o c' input = .ok y ∧ ∀ m, x.eval w m = y.eval w m

/-- A context with the constant `z`, in which no variables are expected. -/
def ctxZ (x : F64) : Context := (Context.default.setVar b!"z" x).setExpected []

theorem ctxZ_equal : (ctxZ F64.f0).Equal (ctxZ (F64.zero true)) := by
  refine ⟨fun nm => ?_, fun v => Iff.rfl⟩
  show optEq _ (if nm = b!"z" then _ else _) (if nm = b!"z" then _ else _)
  split
  · show Symbol.eqS (.var F64.f0) (.var (F64.zero true)) = true
    decide +kernel
  · trivial

/-- It is false already without `compile-time-optimizations`: the zeros compare equal, and
`1/z` is `inf` for the one and `-inf` for the other. -/
theorem C82_refuted : ¬ C82_claim := by
  intro h
  obtain ⟨y, hy, he⟩ := h cfgPlain w0 Oracle.id _ _ b!"1/z"
    ⟨.bin .divide (.num F64.f1) (.num F64.f0), []⟩ ctxZ_equal (by decide +kernel)
  have : parse cfgPlain w0 Oracle.id (ctxZ (F64.zero true)) b!"1/z" =
    .ok ⟨.bin .divide (.num F64.f1) (.num (F64.zero true)), []⟩ := by decide +kernel
  rw [this] at hy; cases hy
  have := he HMap.empty
  revert this
  decide +kernel

/-- With the feature equal parsers do not even accept the same texts:
`max(recip(z), 0) * y` has a variable for the one zero and none for the other. -/
theorem C82_acceptance_refuted : (ctxZ (F64.zero true)).Equal (ctxZ F64.f0) ∧
    parse cfgOpt w0 Oracle.id (ctxZ (F64.zero true)) b!"max(recip(z), 0) * y" = .ok ⟨.num F64.f0, []⟩ ∧
    parse cfgOpt w0 Oracle.id (ctxZ F64.f0) b!"max(recip(z), 0) * y" =
      .err ⟨.variableNotDeclared b!"y" [], 0, 20⟩ := by
  refine ⟨⟨fun nm => ?_, fun v => Iff.rfl⟩, by decide +kernel, by decide +kernel⟩
  show optEq _ (if nm = b!"z" then _ else _) (if nm = b!"z" then _ else _)
  split
  · show Symbol.eqS (.var (F64.zero true)) (.var F64.f0) = true
    decide +kernel
  · trivial

/-- `==` of parsers is symmetric and transitive, and reflexive exactly for those without a
NaN constant. -/
theorem C82_equivalence (c c' c'' : Context) :
    (c.Equal c' → c'.Equal c) ∧ (c.Equal c' → c'.Equal c'' → c.Equal c'') ∧
    (c.Equal c ↔ ∀ nm, c.get nm ≠ some (.var .nan)) := by
  have hsym : ∀ a b : Symbol, a.eqS b = true → b.eqS a = true := by
    intro a b h
    cases a <;> cases b <;> first | cases h | skip
    · exact beq_iff.2 (numEq_symm (beq_iff.1 h))
    · exact decide_eq_true (of_decide_eq_true h).symm
  have htrans : ∀ a b d : Symbol, a.eqS b = true → b.eqS d = true → a.eqS d = true := by
    intro a b d h h'
    cases a <;> cases b <;> first | cases h | skip
    · cases d <;> first | cases h' | skip
      exact beq_iff.2 (numEq_trans (beq_iff.1 h) (beq_iff.1 h'))
    · cases d <;> first | cases h' | skip
      exact decide_eq_true ((of_decide_eq_true h).trans (of_decide_eq_true h'))
  have osym : ∀ {α : Type} {p : α → α → Prop}, (∀ a b, p a b → p b a) → ∀ {x y : Option α},
      optEq p x y → optEq p y x := by
    intro α p hp x y h
    cases x <;> cases y <;> first | exact False.elim h | exact trivial | exact hp _ _ h
  have otrans : ∀ {α : Type} {p : α → α → Prop}, (∀ a b c, p a b → p b c → p a c) → ∀ {x y z : Option α},
      optEq p x y → optEq p y z → optEq p x z := by
    intro α p hp x y z h h'
    cases x <;> cases y <;> cases z <;>
      first | exact False.elim h | exact False.elim h' | exact trivial | exact hp _ _ _ h h'
  refine ⟨fun h => ⟨fun nm => osym hsym (h.1 nm), osym (fun _ _ h v => (h v).symm) h.2⟩,
    fun h h' => ⟨fun nm => otrans htrans (h.1 nm) (h'.1 nm),
      otrans (fun _ _ _ h h' v => (h v).trans (h' v)) h.2 h'.2⟩, ?_, ?_⟩
  · intro h nm hn
    have hn : c.symbols.get nm = some (.var .nan) := hn
    have := h.1 nm
    rw [hn] at this
    have this : F64.beq .nan .nan = true := this
    exact (beq_iff.1 this).1 rfl
  · intro h
    refine ⟨fun nm => ?_, ?_⟩
    · have hn : c.symbols.get nm ≠ some (.var .nan) := h nm
      cases hs : c.symbols.get nm with
      | none => trivial
      | some a =>
        show a.eqS a = true
        cases a with
        | var x => exact beq_iff.2 ⟨fun e => hn (by rw [hs, e]), .refl _⟩
        | func f => exact decide_eq_true rfl
    · cases c.expectedVars with
      | none => trivial
      | some l => exact fun v => Iff.rfl

/-- C82, partial: without `compile-time-optimizations` equal parsers have matching outcomes for
every text: trees of the same shape with equal numbers and the same variables, or the same
error, or the same panic. -/
theorem C82_plain_partial (cfg : Cfg) (w : World) (o : Oracle) (c c' : Context) (input : Bytes)
    (ho : cfg.opt = false) (h : c.Equal c') :
    Matches Twin (parse cfg w o c input) (parse cfg w o c' input) := by
  refine parse_matches o h (fun a b ht => twin_vars ht []) (parseImpl_related (equal_congruent h) ?_ input)
  intro a b s hab
  unfold finish
  rw [ho]
  exact ⟨hab, rfl⟩

/-- C82, partial: so for texts without `!!` the two expressions compare equal, and they have the
same value, up to the sign of zero, where both evaluations take no doubtful step. -/
theorem C82_equal_partial (cfg : Cfg) (w : World) (o : Oracle) (c c' : Context) (input : Bytes) (x : Xpr)
    (ho : cfg.opt = false) (h : c.Equal c') (hd : ¬ DoubleBang input)
    (hx : parse cfg w o c input = .ok x) :
    ∃ y, parse cfg w o c' input = .ok y ∧ x.eqX y = .ok true ∧
      ∀ m u v, (NoPower x.root ∧ NoPower y.root) ∨ PowLaws w → Runs w m x.root u → Runs w m y.root v → Same u v := by
  have hm := C82_plain_partial cfg w o c c' input ho h
  rw [hx] at hm
  cases hy : parse cfg w o c' input with
  | ok y =>
    rw [hy] at hm
    cases hm with
    | ok ht _ =>
      have hp := parseImpl_proper (parse_ok hx) hd
      refine ⟨y, rfl, (C38_parsed_partial cfg cfg w w o o c c' input input x y hd hx hy).2.2
        (twin_alike ht), fun m u v hw hu hv => ?_⟩
      exact eqE_same' hw hu hv ((C38_decides x.root y.root hp).2.2 (twin_alike ht))
  | _ => rw [hy] at hm; cases hm

/-- C82, partial: in every build equal parsers have the same outcome for a text if the constants
it mentions are not zero. -/
theorem C82_nonzero_partial (cfg : Cfg) (w : World) (o : Oracle) (c c' : Context) (input : Bytes)
    (h : c.Equal c') (hz : ∀ nm x, Mentions input nm → c.get nm = some (.var x) → ¬ IsZero x) :
    Matches Eq (parse cfg w o c input) (parse cfg w o c' input) := by
  have hc : AgreeCtx input c c' := by
    intro nm hm
    have h1 := h.1 nm
    have hz := hz nm
    have e : ∀ c : Context, c.get nm = c.symbols.get nm := fun _ => rfl
    unfold lookup
    rw [e] at *
    rw [e]
    cases hs : c.symbols.get nm with
    | none =>
      cases hs' : c'.symbols.get nm with
      | none => rfl
      | some b => rw [hs, hs'] at h1; exact False.elim h1
    | some a =>
      cases hs' : c'.symbols.get nm with
      | none => rw [hs, hs'] at h1; exact False.elim h1
      | some b =>
        rw [hs, hs'] at h1
        have h1 : a.eqS b = true := h1
        cases a <;> cases b <;> first | cases h1 | skip
        · rw [((beq_iff.1 h1).2).of_not_zero (hz _ hm hs)]
        · rw [of_decide_eq_true h1]
  refine parse_matches o h (fun a b ht => by rw [ht]) ?_
  rw [parseImpl_agree hc]
  cases hp : parseImpl cfg w c' input with
  | ok x =>
    have : x.vars = findVars x.root [] := by
      obtain ⟨_, _, _, _, _, _, _, _, h⟩ := parseImpl_den hp; exact h
    exact ⟨rfl, this, this⟩
  | _ => first | rfl | trivial

/-- `z * 3` with the two zeros: the trees differ, and the values are `0` and `-0`. -/
example : parse cfgPlain w0 Oracle.id (ctxZ F64.f0) b!"z * 3" =
      .ok ⟨.bin .times (.num F64.f0) (.num (F64.ofNat 3)), []⟩ ∧
    parse cfgPlain w0 Oracle.id (ctxZ (F64.zero true)) b!"z * 3" =
      .ok ⟨.bin .times (.num (F64.zero true)) (.num (F64.ofNat 3)), []⟩ ∧
    Runs w0 HMap.empty (.bin .times (.num F64.f0) (.num (F64.ofNat 3))) F64.f0 ∧
    Runs w0 HMap.empty (.bin .times (.num (F64.zero true)) (.num (F64.ofNat 3))) (F64.zero true) ∧
    ¬ DoubleBang b!"z * 3" := by
  refine ⟨by decide +kernel, by decide +kernel, ?_, ?_, ?_⟩
  · have h : BinStep w0 .times F64.f0 (F64.ofNat 3) (F64.mul F64.f0 (F64.ofNat 3)) :=
      .times (by decide +kernel)
    rw [show F64.mul F64.f0 (F64.ofNat 3) = F64.f0 by decide +kernel] at h
    exact .bin .num .num h
  · have h : BinStep w0 .times (F64.zero true) (F64.ofNat 3) (F64.mul (F64.zero true) (F64.ofNat 3)) :=
      .times (by decide +kernel)
    rw [show F64.mul (F64.zero true) (F64.ofNat 3) = F64.zero true by decide +kernel] at h
    exact .bin .num .num h
  · rintro ⟨a, ws, b, _, h⟩
    have : c!"!" ∈ b!"z * 3" := by rw [h]; simp
    revert this; decide

/-- The hypotheses are met by the contexts with `z = 2` and the same with the expected
variables given in another order and twice. -/
example : ((ctxZ (F64.ofNat 2)).setExpected [b!"x", b!"y"]).Equal
    ((ctxZ (F64.ofNat 2)).setExpected [b!"y", b!"x", b!"y"]) ∧ ¬ IsZero (F64.ofNat 2) := by
  refine ⟨⟨fun nm => ?_, fun v => ?_⟩, ?_⟩
  · show optEq _ (if nm = b!"z" then _ else _) (if nm = b!"z" then _ else _)
    split
    · show Symbol.eqS (.var (F64.ofNat 2)) (.var (F64.ofNat 2)) = true
      decide +kernel
    · trivial
  · simp only [List.mem_cons, List.not_mem_nil, or_false]; tauto
  · rintro ⟨s, hs⟩; revert hs; cases s <;> decide +kernel

end Props
end Xprs
