import Verif.Spec.Shared
import Verif.Props.Program
/-
Property C101: a dynamic function lives exactly as long as something refers to it.
-/
namespace Xprs
namespace Props
open Spec

theorem arcs_count (f : Func) (p : Nat) :
    (f.arcs.map Res.arc).count (.arc p) = if f.func = .dyn p then 1 else 0 := by
  unfold Func.arcs
  cases f.func with
  | dyn q =>
    simp only [List.map_cons, List.map_nil, List.count_cons, List.count_nil, beq_iff_eq, Res.arc.injEq,
      FnPtr.dyn.injEq, Nat.zero_add]
  | _ => simp

mutual
theorem owns_uses (p : Nat) : ∀ e : HElem, e.owns.count (.arc p) = uses p e.erase
  | .num _ => rfl
  | .var _ => rfl
  | .bin a op l r => by
    simp only [HElem.owns, HElem.erase, uses, List.count_cons, List.count_append, owns_uses p l, owns_uses p r]
    simp
  | .un a op e => by
    simp only [HElem.owns, HElem.erase, uses, List.count_cons, owns_uses p e]
    simp
  | .call a f args => by
    simp only [HElem.owns, HElem.erase, uses, List.count_cons, List.count_append, ownsL_uses p args, arcs_count]
    simp
theorem ownsL_uses (p : Nat) : ∀ es : List HElem, (ownsL es).count (.arc p) = usesL p (eraseL es)
  | [] => rfl
  | a :: as => by simp only [ownsL, eraseL, usesL, List.count_append, owns_uses p a, ownsL_uses p as]
end

theorem holdings_uses (p : Nat) (es : List HXpr) :
    (holdings es).count (.arc p) = usesX p (es.map HXpr.erase) := by
  induction es with
  | nil => rfl
  | cons e es ih =>
    have h1 : holdings (e :: es) = e.root.owns ++ holdings es := rfl
    rw [h1, List.count_append, ih, owns_uses]
    rfl

mutual
theorem sub_uses {p : Nat} {f : Func} {args : List Elem} (hf : f.func = .dyn p) :
    ∀ {e : Elem}, Sub (.call f args) e → 0 < uses p e
  | .num _, h => by cases h
  | .var _, h => by cases h
  | .bin op l r, h => by
    cases h with
    | left h => have := sub_uses hf h; rw [uses]; omega
    | right h => have := sub_uses hf h; rw [uses]; omega
  | .un op e, h => by
    cases h with
    | operand h => have := sub_uses hf h; rw [uses]; omega
  | .call g as, h => by
    cases h with
    | refl => rw [uses, if_pos hf]; omega
    | arg ha h => have := subL_uses hf ha h; rw [uses]; omega
theorem subL_uses {p : Nat} {f : Func} {args : List Elem} (hf : f.func = .dyn p) :
    ∀ {es : List Elem} {a : Elem}, a ∈ es → Sub (.call f args) a → 0 < usesL p es
  | [], _, h, _ => by cases h
  | b :: bs, a, h, hs => by
    rw [usesL]
    cases h with
    | head => have := sub_uses hf hs; omega
    | tail _ h => have := subL_uses hf h hs; omega
end

/-- The full claim of C101 (false, see `C101_refuted`): at any time, whatever a program has done and
whatever panics it has caught, the strong count of a dynamic function is the number of references the
program has itself plus the number of calls of the function in the expressions it holds. -/
def C101_claim : Prop := ∀ (cfg : Cfg) (w : World) (tr : List (Cmd × Obs)) (s : Store) (p own : Nat),
  Execution cfg w ⟨⟨0, [], []⟩, []⟩ tr s →
    strong own s.mem p = own + usesX p (s.owned.map HXpr.erase)

/-- C101 as long as no simplification panics. -/
theorem C101_partial (cfg : Cfg) (w : World) (tr : List (Cmd × Obs)) (s : Store) (p own : Nat)
    (h : Execution cfg w ⟨⟨0, [], []⟩, []⟩ tr s) (hc : Undisturbed tr) :
    strong own s.mem p = own + usesX p (s.owned.map HXpr.erase) := by
  have h1 := C99_memory cfg w tr s h hc (.arc p)
  rw [given_arc, holdings_uses] at h1
  unfold strong
  omega

/-- A function that is called in some expression the program holds is alive, also when the program
has dropped the context and everything else. -/
theorem C101_alive (cfg : Cfg) (w : World) (tr : List (Cmd × Obs)) (s : Store) (p : Nat) (e : HXpr) (f : Func)
    (args : List Elem) (h : Execution cfg w ⟨⟨0, [], []⟩, []⟩ tr s) (hc : Undisturbed tr) (he : e ∈ s.owned)
    (hs : Sub (.call f args) e.erase.root) (hf : f.func = .dyn p) : 0 < strong 0 s.mem p := by
  rw [C101_partial cfg w tr s p 0 h hc]
  have : 0 < usesX p (s.owned.map HXpr.erase) :=
    subL_uses hf (List.mem_map_of_mem (List.mem_map_of_mem he)) hs
  omega

/-- A function that no expression calls any more is released as often as it was cloned: only the
program itself keeps it alive. -/
theorem C101_released (cfg : Cfg) (w : World) (tr : List (Cmd × Obs)) (s : Store) (p own : Nat)
    (h : Execution cfg w ⟨⟨0, [], []⟩, []⟩ tr s) (hc : Undisturbed tr)
    (hn : ∀ e ∈ s.owned, ∀ f args, Sub (.call f args) e.erase.root → f.func ≠ .dyn p) :
    strong own s.mem p = own := by
  rw [C101_partial cfg w tr s p own h hc]
  have key : ∀ es : List HXpr, (∀ e ∈ es, ∀ f args, Sub (.call f args) e.erase.root → f.func ≠ .dyn p) →
      usesX p (es.map HXpr.erase) = 0 := by
    intro es hes
    induction es with
    | nil => rfl
    | cons e es ih =>
      have h1 : usesX p ((e :: es).map HXpr.erase) = uses p e.erase.root + usesX p (es.map HXpr.erase) := rfl
      rw [h1, ih fun e' he' => hes e' (List.mem_cons_of_mem _ he'),
        uses_zero p _ (hes e (List.mem_cons_self ..))]
  rw [key s.owned hn]
  omega
where
  uses_zero (p : Nat) : ∀ e : Elem, (∀ f args, Sub (.call f args) e → f.func ≠ .dyn p) → uses p e = 0
    | .num _, _ => rfl
    | .var _, _ => rfl
    | .bin op l r, h => by
      rw [uses, uses_zero p l fun f a k => h f a (.left k), uses_zero p r fun f a k => h f a (.right k)]
    | .un op e, h => by rw [uses, uses_zero p e fun f a k => h f a (.operand k)]
    | .call g as, h => by
      rw [uses, if_neg (h g as .refl), usesL_zero p as fun b hb f a k => h f a (.arg hb k)]
  usesL_zero (p : Nat) : ∀ es : List Elem, (∀ e ∈ es, ∀ f args, Sub (.call f args) e → f.func ≠ .dyn p) →
      usesL p es = 0
    | [], _ => rfl
    | e :: es, h => by
      rw [usesL, uses_zero p e (h e (List.mem_cons_self ..)),
        usesL_zero p es fun b hb => h b (List.mem_cons_of_mem _ hb)]

/-- C101 for all programs whose texts have no `!!` and whose functions do not panic. -/
theorem C101_tame (cfg : Cfg) (w : World) (tr : List (Cmd × Obs)) (s : Store) (p own : Nat)
    (h : Execution cfg w ⟨⟨0, [], []⟩, []⟩ tr s) (ht : Tame w tr) :
    strong own s.mem p = own + usesX p (s.owned.map HXpr.erase) :=
  C101_partial cfg w tr s p own h (C99_safe cfg w tr s h ht).1

/-- What goes wrong otherwise, exactly: when a simplification by value panics, the strong count falls
below the number of references that remain by the number of calls of the function in the
expression. -/
theorem C101_panic (cfg : Cfg) (w : World) (tr : List (Cmd × Obs)) (s t : Store) (i : Nat) (e : HXpr) (x : Bytes)
    (v : F64) (q : Panic) (p own : Nat) (h : Execution cfg w ⟨⟨0, [], []⟩, []⟩ tr s) (hc : Undisturbed tr)
    (hi : s.owned[i]? = some e) (hs : Does cfg w s (.into i x v) (.panic q) t) :
    strong own t.mem p = own + usesX p (t.owned.map HXpr.erase) - uses p e.erase.root := by
  have hl := C99_memory cfg w tr s h hc
  have h7 : Ledger s.mem (e.root.owns ++ holdings (s.owned.eraseIdx i)) :=
    ledger_congr hl fun a => by rw [holdings_split hi a, List.count_append]
  obtain ⟨m, es⟩ := s
  generalize ho : Obs.panic q = ob at hs
  cases hs with
  | @into _ _ _ e' _ _ hi' =>
    have he : e' = e := by rw [hi] at hi'; exact (Option.some.inj hi').symm
    subst he
    cases hq : (e'.simplifyForInPlace cfg w m x v).panic with
    | none => simp only [afterInto, byValue, hq] at ho; cases ho
    | some q' =>
      have h8 := C45_arc cfg w m e' _ _ q' h7 (.inl ⟨x, v, rfl⟩) hq p
      simp only [afterInto, byValue, hq]
      rw [holdings_uses, owns_uses] at h8
      dsimp only at h8
      unfold strong
      have h9 : ((e'.simplifyForInPlace cfg w m x v).mem.dropX (e'.simplifyForInPlace cfg w m x v).self).made =
          (e'.simplifyForInPlace cfg w m x v).mem.made := rfl
      rw [h9]
      have h10 : e'.erase.root = e'.root.erase := rfl
      rw [h10]
      omega

/-- A context with the dynamic function `f` numbered 7. -/
def ctxDyn : Context := Context.default.setFn ⟨b!"f", .dyn 7, some 1⟩

/-- A world in which user functions return `1`. -/
def wOne : World := { w0 with user := fun _ _ => some F64.f1 }

/-- `f(x) + 3!!x`, as parsed. -/
def fPlus : Xpr :=
  ⟨.bin .plus (.call ⟨b!"f", .dyn 7, some 1⟩ [.var b!"x"])
    (.bin .factorial (.un .factorial (.num (F64.ofNat 3))) (.var b!"x")), [b!"x"]⟩

/-- `f(x) + 3!!x` is parsed, and `x` is fixed: `Element::simplify` panics at the second `!`, the
reference to `f` is released twice, and the context is left with a function that is gone. -/
theorem C101_run : ∃ tr s, Execution cfgPlain wOne ⟨⟨0, [], []⟩, []⟩ tr s ∧ s.owned = [] ∧
    strong 1 s.mem 7 = 0 := by
  have hp : parse cfgPlain wOne Oracle.id ctxDyn b!"f(x) + 3!!x" = .ok fPlus := by decide +kernel
  have herr : fPlus.simplifyFor cfgPlain wOne b!"x" (F64.ofNat 2) = .error .unreachable := by decide +kernel
  have h1 : act cfgPlain wOne [] (.parse Oracle.id ctxDyn b!"f(x) + 3!!x") = some (.parsed (.ok fPlus), [fPlus]) := by
    simp only [act, hp]; rfl
  obtain ⟨ob, s, d⟩ := (C99_progress cfgPlain wOne ⟨⟨0, [], []⟩, []⟩ _).2 ⟨_, h1⟩
  obtain ⟨ys, h2, h3⟩ := does_act d
  rw [show (Store.mk ⟨0, [], []⟩ []).owned.map HXpr.erase = [] from rfl, h1] at h2
  obtain ⟨rfl, rfl⟩ := Prod.mk.inj (Option.some.inj h2)
  have h4 := h3 fun p h => nomatch h
  have hx : Execution cfgPlain wOne ⟨⟨0, [], []⟩, []⟩ [(.parse Oracle.id ctxDyn b!"f(x) + 3!!x", .parsed (.ok fPlus))] s :=
    .next .start d
  have hu : Undisturbed [(.parse Oracle.id ctxDyn b!"f(x) + 3!!x", .parsed (.ok fPlus))] := fun c p h => by
    rw [List.mem_singleton] at h
    cases h
  obtain ⟨m, es⟩ := s
  obtain ⟨e, rfl⟩ : ∃ e, es = [e] := by
    cases es with
    | nil => cases h4
    | cons e es =>
      cases es with
      | nil => exact ⟨e, rfl⟩
      | cons _ _ => simp at h4
  have he : e.erase = fPlus := by simp at h4; exact h4.symm
  have d' := Does.into (cfg := cfgPlain) (w := wOne) (m := m) (es := [e]) (i := 0) (e := e) (x := b!"x")
    (v := F64.ofNat 2) rfl
  have hs := C45_same cfgPlain wOne m e b!"x" (F64.ofNat 2)
  rw [he, herr] at hs
  cases hq : (e.simplifyForInPlace cfgPlain wOne m b!"x" (F64.ofNat 2)).panic with
  | none => simp only [byValue, hq] at hs; cases hs
  | some q =>
    have ho : (afterInto [e] 0 (byValue (e.simplifyForInPlace cfgPlain wOne m b!"x" (F64.ofNat 2)))).1 = .panic q := by
      simp only [afterInto, byValue, hq]
    have hn : (afterInto [e] 0 (byValue (e.simplifyForInPlace cfgPlain wOne m b!"x" (F64.ofNat 2)))).2.owned = [] := by
      simp only [afterInto, byValue, hq]; rfl
    refine ⟨_, _, hx.next d', hn, ?_⟩
    rw [ho] at d'
    rw [C101_panic cfgPlain wOne _ _ _ 0 e b!"x" (F64.ofNat 2) q 7 1 hx hu rfl d', hn, he]
    decide

theorem C101_refuted : ¬ C101_claim := by
  intro h
  obtain ⟨tr, s, h1, h2, h3⟩ := C101_run
  have := h cfgPlain wOne tr s 7 1 h1
  rw [h2, h3] at this
  revert this
  decide

/-! `f(x) + f(y)` in a context with a dynamic `f`: two references are made; when `x` is fixed in a
copy of the expression, one of the copy's two is released. -/

def twice : Xpr :=
  ⟨.bin .plus (.call ⟨b!"f", .dyn 7, some 1⟩ [.var b!"x"]) (.call ⟨b!"f", .dyn 7, some 1⟩ [.var b!"y"]),
    [b!"x", b!"y"]⟩

example : parse cfgPlain wOne Oracle.id ctxDyn b!"f(x) + f(y)" = .ok twice := by decide +kernel
example : uses 7 twice.root = 2 := by decide
example : (parseH cfgPlain wOne Oracle.id ctxDyn ⟨0, [], []⟩ b!"f(x) + f(y)").2 = ⟨3, [7, 7], []⟩ := by
  decide +kernel
example : (parseH cfgPlain wOne Oracle.id ctxDyn ⟨0, [], []⟩ b!"f(x) + f(y, 2)").2 =
    ⟨1, [7, 7], [.box 0, .arc 7, .arc 7]⟩ := by decide +kernel
example : ∃ x, parseH cfgPlain wOne Oracle.id ctxDyn ⟨0, [], []⟩ b!"f(x) + f(y)" = (.ok x, ⟨3, [7, 7], []⟩) ∧
    (x.simplifyForInPlace cfgPlain wOne ⟨3, [7, 7], []⟩ b!"x" F64.f1).mem.freed.count (.arc 7) = 1 := by
  refine ⟨⟨.bin 2 .plus (.call 0 ⟨b!"f", .dyn 7, some 1⟩ [.var b!"x"]) (.call 1 ⟨b!"f", .dyn 7, some 1⟩ [.var b!"y"]),
    [b!"x", b!"y"]⟩, by rfl, by decide +kernel⟩

/-- The hypotheses of `C101_partial` and `C101_tame` can be met: the program of C99. -/
example : strong 1 ⟨2, [], [.box 0, .box 1]⟩ 7 = 1 + usesX 7 [] :=
  C101_partial cfgPlain w0 demo _ 7 1 demo_runs fun c p h => by
    simp only [demo, List.mem_cons, Prod.mk.injEq, reduceCtorEq, and_false, or_false, List.not_mem_nil] at h

end Props
end Xprs
