import Verif.Lemmas.Heap
import Verif.Props.Parsing
/-
Property C45: what happens to the nodes of an expression when simplification in place
panics.
-/
namespace Xprs
namespace Props
open Spec

/-- `r` is the outcome of a call of `simplify_for_in_place` or
`simplify_for_multiple_in_place` on `e`. -/
def InPlaceCall (cfg : Cfg) (w : World) (m : Mem) (e : HXpr) (r : InPlace) : Prop :=
  (∃ x v, r = e.simplifyForInPlace cfg w m x v) ∨ ∃ l, r = e.simplifyForMultipleInPlace cfg w m l

/-- The full claim of C45 (false, see `C45_refuted`): `live` are the boxes of everything
else; when the expression is dropped after the call, all boxes but those have been
freed exactly once. Stated for the expressions a caller can hold. -/
def C45_claim : Prop := ∀ (cfg : Cfg) (w : World) (ctx : Context) (input : Bytes) (m : Mem) (e : HXpr)
    (live : List Res) (r : InPlace), CtxTotal w ctx → Reach cfg w ctx input e.erase →
  Ledger m (e.root.owns ++ live) → InPlaceCall cfg w m e r → Ledger (r.mem.dropX r.self) live

theorem ledger_of {m m' : Mem} {i o live : List Res} (h : Ledger m (i ++ live)) (hc : Conserves m i o m') :
    Ledger m' (o ++ live) := by
  intro a
  have h1 := h a
  have h2 := hc.eq a
  rw [List.count_append] at h1 ⊢
  omega

theorem loop_cons (cfg : Cfg) (w : World) (root : HElem) : ∀ (l : List (Bytes × F64)) (tmp : HElem)
    (vars : List Bytes) (m : Mem),
    ((simplifyLoopH cfg w root l tmp vars m).panic = none →
      Conserves m tmp.owns (simplifyLoopH cfg w root l tmp vars m).self.root.owns
        (simplifyLoopH cfg w root l tmp vars m).mem) ∧
    (∀ p, (simplifyLoopH cfg w root l tmp vars m).panic = some p →
      (simplifyLoopH cfg w root l tmp vars m).self.root = root ∧
      Conserves m tmp.owns [] (simplifyLoopH cfg w root l tmp vars m).mem)
  | [], tmp, vars, m => ⟨fun _ => refl_cons m _, fun p h => nomatch h⟩
  | (x, v) :: l, tmp, vars, m => by
    have h1 := simplifyForH_cons cfg w x v tmp m
    rw [simplifyLoopH]
    rcases hs : simplifyForH cfg w x v m tmp with ⟨p | tmp', m1⟩
    all_goals
      rw [hs] at h1
      simp only [outs] at h1 ⊢
    · exact ⟨(fun h => nomatch h), fun _ _ => ⟨trivial, h1⟩⟩
    · have ih := loop_cons cfg w root l tmp' (Xpr.removeVar vars x) m1
      refine ⟨fun h => ?_, fun p h => ⟨(ih.2 p h).1, ?_⟩⟩
      · exact (h1.trans (k := []) (ih.1 h) (by simp)).perm (by simp)
      · exact (h1.trans (k := []) (ih.2 p h).2 (by simp)).perm (by simp)

theorem call_cons {cfg : Cfg} {w : World} {m : Mem} {e : HXpr} {r : InPlace}
    (hr : InPlaceCall cfg w m e r) :
    (r.panic = none → Conserves m e.root.owns r.self.root.owns r.mem) ∧
    (∀ p, r.panic = some p → r.self.root = e.root ∧ Conserves m e.root.owns [] r.mem) := by
  rcases hr with ⟨x, v, rfl⟩ | ⟨l, rfl⟩
  · have h1 := simplifyForH_cons cfg w x v e.root m
    unfold HXpr.simplifyForInPlace
    rcases hs : simplifyForH cfg w x v m e.root with ⟨p | tmp', m1⟩
    all_goals
      rw [hs] at h1
      simp only [outs] at h1 ⊢
    · exact ⟨(fun h => nomatch h), fun _ _ => ⟨trivial, h1⟩⟩
    · exact ⟨fun _ => h1, fun p h => nomatch h⟩
  · exact loop_cons cfg w e.root l e.root e.vars m

/-- C45, where it holds: after a call that does not panic, the expression owns its new
boxes, and when it is dropped every box has been freed exactly once. -/
theorem C45_partial (cfg : Cfg) (w : World) (m : Mem) (e : HXpr) (live : List Res) (r : InPlace)
    (hm : Ledger m (e.root.owns ++ live)) (hr : InPlaceCall cfg w m e r) (hp : r.panic = none) :
    Ledger r.mem (r.self.root.owns ++ live) ∧ Ledger (r.mem.dropX r.self) live := by
  have h := ledger_of hm ((call_cons hr).1 hp)
  refine ⟨h, ?_⟩
  have := ledger_of h (drop_cons r.mem r.self.root)
  rwa [List.nil_append] at this

/-- Only boxed nodes are at stake, and a panic needs one. -/
theorem panic_boxes {cfg : Cfg} {w : World} {x : Bytes} {v : F64} {e : HElem} {p : Panic} {m m1 : Mem}
    (h : simplifyForH cfg w x v m e = (.error p, m1)) : ∃ a, Res.box a ∈ e.owns := by
  cases e with
  | num y => rw [simplifyForH] at h; cases h
  | var y => rw [simplifyForH] at h; split at h <;> cases h
  | bin a op l r => exact ⟨a, by simp [HElem.owns]⟩
  | un a op l => exact ⟨a, by simp [HElem.owns]⟩
  | call a f l => exact ⟨a, by simp [HElem.owns]⟩

theorem no_box {e : HElem} (h : ¬ ∃ a, Res.box a ∈ e.owns) : e.owns = [] := by
  cases e with
  | num y => rfl
  | var y => rfl
  | bin a op l r => exact absurd ⟨a, by simp [HElem.owns]⟩ h
  | un a op l => exact absurd ⟨a, by simp [HElem.owns]⟩ h
  | call a f l => exact absurd ⟨a, by simp [HElem.owns]⟩ h

theorem num_var_no_panic {cfg : Cfg} {w : World} {root : HElem} : ∀ (l : List (Bytes × F64)) (tmp : HElem)
    (vars : List Bytes) (m : Mem) (p : Panic), tmp.owns = [] →
    (simplifyLoopH cfg w root l tmp vars m).panic ≠ some p
  | [], tmp, vars, m, p, _, h => by cases h
  | (x, v) :: l, tmp, vars, m, p, hb, h => by
    rw [simplifyLoopH] at h
    cases tmp with
    | num y =>
      simp only [simplifyForH] at h
      exact num_var_no_panic l _ _ _ p rfl h
    | var y =>
      by_cases hy : y = x
      · simp only [simplifyForH, if_pos hy] at h
        exact num_var_no_panic l _ _ _ p rfl h
      · simp only [simplifyForH, if_neg hy] at h
        exact num_var_no_panic l _ _ _ p rfl h
    | bin a op l r => simp [HElem.owns] at hb
    | un a op l => simp [HElem.owns] at hb
    | call a f l => simp [HElem.owns] at hb

/-- After a call that panics everything the expression owned has been given back, and
dropping the expression gives it back once more. -/
theorem panic_count {cfg : Cfg} {w : World} {m : Mem} {e : HXpr} {live : List Res} {r : InPlace} {p : Panic}
    (hm : Ledger m (e.root.owns ++ live)) (hr : InPlaceCall cfg w m e r) (hp : r.panic = some p) (q : Res) :
    r.mem.freed.count q + live.count q = given r.mem q ∧
    (r.mem.dropX r.self).freed.count q + live.count q = given r.mem q + e.root.owns.count q := by
  obtain ⟨h1, h2⟩ := (call_cons hr).2 p hp
  have h3 := ledger_of hm h2 q
  have hd : (r.mem.dropX r.self).freed.count q = e.root.owns.count q + r.mem.freed.count q := by
    simp only [Mem.dropX, Mem.drop, h1, List.count_append]
  rw [List.nil_append] at h3
  exact ⟨h3, by rw [hd]; omega⟩

/-- C45 fails at every panic, not only at some: after a call that panics, dropping the
expression frees each of its boxes a second time (and there is at least one). -/
theorem C45_panic (cfg : Cfg) (w : World) (m : Mem) (e : HXpr) (live : List Res) (r : InPlace) (p : Panic)
    (hm : Ledger m (e.root.owns ++ live)) (hr : InPlaceCall cfg w m e r) (hp : r.panic = some p) :
    (∀ a, .box a ∈ e.root.owns →
      r.mem.freed.count (.box a) = 1 ∧ (r.mem.dropX r.self).freed.count (.box a) = 2) ∧
    ∃ a, .box a ∈ e.root.owns := by
  constructor
  · intro a ha
    have hc : 0 < e.root.owns.count (.box a) := List.count_pos_iff.2 ha
    obtain ⟨h1, h2⟩ := panic_count hm hr hp (.box a)
    have k0 := hm (.box a)
    have kc := ((call_cons hr).2 p hp).2.eq (.box a)
    rw [List.count_append] at k0
    simp only [List.count_nil] at kc
    have g0 := ((call_cons hr).2 p hp).2.grow (.box a)
    have g1 : given m (.box a) ≤ 1 := by rw [given_box]; split <;> omega
    have g2 : given r.mem (.box a) ≤ 1 := by rw [given_box]; split <;> omega
    omega
  · rcases hr with ⟨x, v, rfl⟩ | ⟨l, rfl⟩
    · unfold HXpr.simplifyForInPlace at hp
      split at hp
      · rename_i hs; exact panic_boxes hs
      · cases hp
    · refine Classical.byContradiction fun hn => ?_
      exact num_var_no_panic l e.root e.vars m p (no_box hn) hp

/-- The references to dynamic functions fare the same: after the drop there are fewer left than
there are holders, one fewer for each call in the expression. -/
theorem C45_arc (cfg : Cfg) (w : World) (m : Mem) (e : HXpr) (live : List Res) (r : InPlace) (p : Panic)
    (hm : Ledger m (e.root.owns ++ live)) (hr : InPlaceCall cfg w m e r) (hp : r.panic = some p) (q : Nat) :
    (r.mem.dropX r.self).freed.count (.arc q) + live.count (.arc q) =
      r.mem.made.count q + e.root.owns.count (.arc q) :=
  (panic_count hm hr hp (.arc q)).2

/-- The methods taking `self` by value: they free the boxes twice themselves while
unwinding, with nothing but safe code in the caller. -/
theorem C45_by_value (cfg : Cfg) (w : World) (m : Mem) (e : HXpr) (live : List Res) (r : InPlace) (p : Panic)
    (hm : Ledger m (e.root.owns ++ live)) (hr : InPlaceCall cfg w m e r)
    (hp : (byValue r).1 = .error p) : ∃ a, 2 ≤ (byValue r).2.freed.count (.box a) := by
  unfold byValue at hp ⊢
  cases hpan : r.panic with
  | none => rw [hpan] at hp; cases hp
  | some q =>
    obtain ⟨h1, a, ha⟩ := C45_panic cfg w m e live r q hm hr hpan
    exact ⟨a, by simp only; rw [(h1 a ha).2]; exact Nat.le_refl 2⟩

/-- The outcome and the new expression are those of the model without memory. -/
theorem C45_same (cfg : Cfg) (w : World) (m : Mem) (e : HXpr) (x : Bytes) (v : F64) :
    (byValue (e.simplifyForInPlace cfg w m x v)).1.map HXpr.erase = e.erase.simplifyFor cfg w x v := by
  have := simplifyForH_erase cfg w x v e.root m
  unfold byValue HXpr.simplifyForInPlace Xpr.simplifyFor
  have he : e.erase.root = e.root.erase := rfl
  rw [he, ← this]
  rcases simplifyForH cfg w x v m e.root with ⟨p | tmp, m1⟩ <;> rfl

theorem C45_same_multiple (cfg : Cfg) (w : World) (m : Mem) (e : HXpr) (l : List (Bytes × F64)) :
    (byValue (e.simplifyForMultipleInPlace cfg w m l)).1.map HXpr.erase = e.erase.simplifyForMultiple cfg w l := by
  have : ∀ (l : List (Bytes × F64)) (tmp : HElem) (vars : List Bytes) (m : Mem),
      (byValue (simplifyLoopH cfg w e.root l tmp vars m)).1.map HXpr.erase =
        Xpr.simplifyLoop cfg w l tmp.erase vars := by
    intro l
    induction l with
    | nil => intro tmp vars m; rfl
    | cons a l ih =>
      intro tmp vars m
      obtain ⟨x, v⟩ := a
      rw [simplifyLoopH, Xpr.simplifyLoop, ← simplifyForH_erase cfg w x v tmp m]
      rcases simplifyForH cfg w x v m tmp with ⟨p | tmp', m1⟩
      · rfl
      · exact ih tmp' _ m1
  exact this l e.root e.vars m

/-- C45 for everything obtained from an input without `!!`, in a context whose functions
do not panic: no call panics, so every box is freed exactly once. -/
theorem C45_parsed (cfg : Cfg) (w : World) (ctx : Context) (input : Bytes) (m : Mem) (e : HXpr)
    (live : List Res) (r : InPlace) (hc : CtxTotal w ctx) (hn : ¬ DoubleBang input)
    (he : Reach cfg w ctx input e.erase) (hm : Ledger m (e.root.owns ++ live))
    (hr : InPlaceCall cfg w m e r) :
    r.panic = none ∧ Ledger r.mem (r.self.root.owns ++ live) ∧ Ledger (r.mem.dropX r.self) live := by
  have hpan : r.panic = none := by
    have hpr : Proper (Named ctx) e.root.erase := reach_proper he hn
    have htot : ∀ f, Named ctx f → FnTotal w f := fun f hf => named_total hc hf
    cases hp : r.panic with
    | none => rfl
    | some p =>
      exfalso
      have hv : (byValue r).1 = .error p := by unfold byValue; rw [hp]
      rcases hr with ⟨x, v, rfl⟩ | ⟨l, rfl⟩
      · have h1 := C45_same cfg w m e x v
        rw [hv] at h1
        obtain ⟨e', h2, _⟩ := simplifyFor_proper cfg w htot x v _ hpr
        unfold Xpr.simplifyFor at h1
        have he : e.erase.root = e.root.erase := rfl
        rw [he, h2] at h1
        cases h1
      · have h1 := C45_same_multiple cfg w m e l
        rw [hv] at h1
        have : ∀ (l : List (Bytes × F64)) (t : Elem) (vars : List Bytes), Proper (Named ctx) t →
            ∃ y, Xpr.simplifyLoop cfg w l t vars = .ok y := by
          intro l
          induction l with
          | nil => intro t vars _; exact ⟨_, rfl⟩
          | cons a l ih =>
            intro t vars ht
            obtain ⟨x, v⟩ := a
            obtain ⟨t', h2, h3⟩ := simplifyFor_proper cfg w htot x v _ ht
            rw [Xpr.simplifyLoop, h2]
            exact ih t' _ h3
        obtain ⟨y, hy⟩ := this l e.root.erase e.vars hpr
        unfold Xpr.simplifyForMultiple at h1
        have he : e.erase.root = e.root.erase := rfl
        have he2 : e.erase.vars = e.vars := rfl
        rw [he, he2, hy] at h1
        cases h1
  exact ⟨hpan, C45_partial cfg w m e live r hm hr hpan⟩

/-- Every expression can be in memory with a correct ledger. -/
theorem layout_ledger (x : Xpr) : ∃ (m : Mem) (e : HXpr), e.erase = x ∧ Ledger m (e.root.owns ++ []) := by
  obtain ⟨h, m, h1, h3⟩ := exists_layout x.root ⟨0, [], []⟩
  refine ⟨m, ⟨h, x.vars⟩, ?_, ?_⟩
  · unfold HXpr.erase; rw [h1]
  · exact ledger_of (i := []) (fun a => by cases a <;> simp [given]) h3

/-- `3!!x` with `x = 2`: parsed from that text, in memory with a correct ledger, and
simplified, it is freed twice. -/
theorem C45_refuted : ¬ C45_claim := by
  intro h
  have hp : parse0 cfgOpt b!"3!!x" = .ok ⟨.bin .factorial (.num (F64.ofNat 6)) (.var b!"x"), [b!"x"]⟩ := by
    decide +kernel
  obtain ⟨m, e, he, hl⟩ := layout_ledger ⟨.bin .factorial (.num (F64.ofNat 6)) (.var b!"x"), [b!"x"]⟩
  have hs := C45_same cfgOpt w0 m e b!"x" (F64.ofNat 2)
  rw [he] at hs
  have herr : Xpr.simplifyFor cfgOpt w0 ⟨.bin .factorial (.num (F64.ofNat 6)) (.var b!"x"), [b!"x"]⟩
      b!"x" (F64.ofNat 2) = .error .unreachable := by decide +kernel
  rw [herr] at hs
  have hcall : InPlaceCall cfgOpt w0 m e (e.simplifyForInPlace cfgOpt w0 m b!"x" (F64.ofNat 2)) :=
    .inl ⟨_, _, rfl⟩
  have hL := h cfgOpt w0 Context.default b!"3!!x" m e [] _ (ctxTotal_default w0)
    (he ▸ .parsed (o := Oracle.id) hp) hl hcall
  cases hpan : (e.simplifyForInPlace cfgOpt w0 m b!"x" (F64.ofNat 2)).panic with
  | none => unfold byValue at hs; rw [hpan] at hs; cases hs
  | some p =>
    obtain ⟨h1, a, ha⟩ := C45_panic cfgOpt w0 m e [] _ p hl hcall hpan
    have := hL (.box a)
    rw [(h1 a ha).2] at this
    rw [given_box] at this
    split at this <;> simp at this

/-- `f(x + 1) * 2` with a dynamic function that panics: each of the three boxes is freed twice, and
the one reference to the function is released twice. -/
example : ∃ (m : Mem) (e : HXpr) (w : World), Ledger m (e.root.owns ++ []) ∧
    e.erase.root = .bin .times (.call ⟨b!"f", .dyn 7, some 1⟩ [.bin .plus (.var b!"x") (.num F64.f1)])
      (.num (F64.ofNat 2)) ∧
    (e.simplifyForInPlace cfgOpt w m b!"x" F64.f1).panic = some .user ∧
    (∀ a, a < 3 → ((e.simplifyForInPlace cfgOpt w m b!"x" F64.f1).mem.dropX
      (e.simplifyForInPlace cfgOpt w m b!"x" F64.f1).self).freed.count (.box a) = 2) ∧
    ((e.simplifyForInPlace cfgOpt w m b!"x" F64.f1).mem.dropX
      (e.simplifyForInPlace cfgOpt w m b!"x" F64.f1).self).freed.count (.arc 7) = 2 := by
  refine ⟨⟨3, [7], []⟩, ⟨.bin 0 .times (.call 1 ⟨b!"f", .dyn 7, some 1⟩ [.bin 2 .plus (.var b!"x") (.num F64.f1)])
    (.num (F64.ofNat 2)), [b!"x"]⟩, { w0 with user := fun _ _ => none }, ?_, rfl, ?_, ?_, ?_⟩
  · intro a
    cases a with
    | box a =>
      simp only [HElem.owns, ownsL, Func.arcs, List.map_cons, List.map_nil, List.nil_append, List.cons_append,
        List.append_nil, List.count_cons, List.count_nil, beq_iff_eq, Res.box.injEq, reduceCtorEq, given_box]
      repeat' split
      all_goals first | omega | contradiction | simp_all
    | arc p => simp [HElem.owns, ownsL, Func.arcs, given_arc, List.count_cons]
  · decide +kernel
  · decide +kernel
  · decide +kernel

/-- `x*2 + y` for `x = 3`, in place: two new boxes replace the old ones, none is lost. -/
example : ∃ (m : Mem) (e : HXpr), Ledger m (e.root.owns ++ []) ∧
    (e.simplifyForInPlace cfgOpt w0 m b!"x" (F64.ofNat 3)).panic = none ∧
    (e.simplifyForInPlace cfgOpt w0 m b!"x" (F64.ofNat 3)).self.root.owns = [.box 2] ∧
    (e.simplifyForInPlace cfgOpt w0 m b!"x" (F64.ofNat 3)).mem.freed = [.box 1, .box 0] := by
  refine ⟨⟨2, [], []⟩, ⟨.bin 0 .plus (.bin 1 .times (.var b!"x") (.num (F64.ofNat 2))) (.var b!"y"), [b!"x", b!"y"]⟩,
    ?_, by decide +kernel, by decide +kernel, by decide +kernel⟩
  intro a
  cases a with
  | box a =>
    simp only [HElem.owns, List.append_nil, List.count_cons, List.count_nil, beq_iff_eq, Res.box.injEq, given_box]
    split <;> split <;> split <;> omega
  | arc p => simp [HElem.owns, given_arc]

end Props
end Xprs
