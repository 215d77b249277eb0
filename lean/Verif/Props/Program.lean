import Verif.Spec.Program
import Verif.Props.HeapParser
import Verif.Props.Histories
/-
Property C99: programs that hold any number of expressions.
-/
namespace Xprs
namespace Props
open Spec

theorem holdings_append (es fs : List HXpr) : holdings (es ++ fs) = holdings es ++ holdings fs := by
  simp [holdings]

theorem holdings_one (e : HXpr) : holdings [e] = e.root.owns := by simp [holdings]

theorem eraseIdx_map {α β : Type} (f : α → β) : ∀ (l : List α) (i : Nat),
    (l.map f).eraseIdx i = (l.eraseIdx i).map f
  | [], _ => rfl
  | _ :: _, 0 => rfl
  | a :: l, i + 1 => by simp [eraseIdx_map f l i]

/-- Everything but the `i`-th. -/
theorem holdings_split {es : List HXpr} {i : Nat} {e : HXpr} (h : es[i]? = some e) :
    ∀ a, (holdings es).count a = e.root.owns.count a + (holdings (es.eraseIdx i)).count a := by
  induction es generalizing i with
  | nil => simp at h
  | cons f fs ih =>
    intro a
    cases i with
    | zero => simp at h; subst h; simp [holdings]
    | succ i =>
      have := ih (i := i) (by simpa using h) a
      simp only [holdings, List.flatMap_cons, List.count_append, List.eraseIdx_cons_succ] at this ⊢
      omega

theorem holdings_set {es : List HXpr} {i : Nat} {e : HXpr} (f : HXpr) (h : es[i]? = some e) :
    ∀ a, (holdings (es.set i f)).count a = f.root.owns.count a + (holdings (es.eraseIdx i)).count a := by
  intro a
  have hi : i < es.length := by
    rcases Nat.lt_or_ge i es.length with h1 | h1
    · exact h1
    · rw [List.getElem?_eq_none h1] at h; cases h
  have h1 : (es.set i f)[i]? = some f := by
    rw [List.getElem?_set_self hi]
  have h2 := holdings_split h1 a
  rw [h2]
  congr 2
  rw [List.eraseIdx_set_eq]

theorem ledger_congr {m : Mem} {l l' : List Res} (h : Ledger m l) (he : ∀ a, l.count a = l'.count a) :
    Ledger m l' := fun a => by rw [← he a]; exact h a

theorem both_cons {m m1 m2 : Mem} {o1 o2 : List Res} (h1 : Conserves m [] o1 m1) (h2 : Conserves m1 [] o2 m2) :
    Conserves m [] (o1 ++ o2) m2 := by
  refine ⟨fun a => ?_, fun a => Nat.le_trans (h1.grow a) (h2.grow a)⟩
  have e1 := h1.eq a
  have e2 := h2.eq a
  rw [List.count_append]
  simp only [List.count_nil] at e1 e2 ⊢
  omega

mutual
theorem cloneH_cons : ∀ (e : HElem) (m : Mem), Conserves m [] (cloneH m e).1.owns (cloneH m e).2
  | .num x, m => by rw [cloneH]; exact refl_cons m _
  | .var x, m => by rw [cloneH]; exact refl_cons m _
  | .bin a op l r, m => by
    have h1 := both_cons (cloneH_cons l m) (cloneH_cons r (cloneH m l).2)
    have h2 := h1.trans (k := []) (newBin_cons (cloneH (cloneH m l).2 r).2 op (cloneH m l).1
      (cloneH (cloneH m l).2 r).1) (by simp)
    simp only [cloneH]
    exact h2
  | .un a op e, m => by
    have h2 := (cloneH_cons e m).trans (k := []) (newUn_cons (cloneH m e).2 op (cloneH m e).1) (by simp)
    simp only [cloneH]
    exact h2
  | .call a f args, m => by
    have h1 := both_cons (cloneHL_cons args m) (share_cons (cloneHL m args).2 f)
    have h2 := h1.trans (k := []) (newCall_cons ((cloneHL m args).2.share f) f (cloneHL m args).1)
      (fun c => by simp only [List.count_append, List.count_nil]; omega)
    simp only [cloneH]
    exact h2
theorem cloneHL_cons : ∀ (es : List HElem) (m : Mem), Conserves m [] (ownsL (cloneHL m es).1) (cloneHL m es).2
  | [], m => by rw [cloneHL]; exact refl_cons m _
  | a :: as, m => by
    have h2 := both_cons (cloneH_cons a m) (cloneHL_cons as (cloneH m a).2)
    simp only [cloneHL]
    exact h2
end

mutual
theorem cloneH_erase : ∀ (e : HElem) (m : Mem), (cloneH m e).1.erase = e.erase
  | .num x, m => by rw [cloneH]
  | .var x, m => by rw [cloneH]
  | .bin a op l r, m => by
    simp only [cloneH, HElem.erase, cloneH_erase l m, cloneH_erase r (cloneH m l).2]
  | .un a op e, m => by simp only [cloneH, HElem.erase, cloneH_erase e m]
  | .call a f args, m => by simp only [cloneH, HElem.erase, cloneHL_erase args m]
theorem cloneHL_erase : ∀ (es : List HElem) (m : Mem), eraseL (cloneHL m es).1 = eraseL es
  | [], m => by rw [cloneHL]
  | a :: as, m => by simp only [cloneHL, eraseL, cloneH_erase a m, cloneHL_erase as (cloneH m a).2]
end

theorem clone_erase (m : Mem) (e : HXpr) : (e.clone m).1.erase = e.erase := by
  simp only [HXpr.clone, HXpr.erase, cloneH_erase]

/-- One command that does not panic keeps the books. -/
theorem does_ledger {cfg : Cfg} {w : World} {s t : Store} {c : Cmd} {ob : Obs} (h : Does cfg w s c ob t)
    (hp : ∀ p, ob ≠ .panic p) (hl : Ledger s.mem (holdings s.owned)) : Ledger t.mem (holdings t.owned) := by
  have put : ∀ {m : Mem} {es : List HXpr} {i : Nat} {e : HXpr} {r : InPlace}, es[i]? = some e →
      Ledger m (holdings es) → InPlaceCall cfg w m e r → r.panic = none →
      Ledger r.mem (holdings (es.set i r.self)) := by
    intro m es i e r hi hl hr hp
    have h1 : Ledger m (e.root.owns ++ holdings (es.eraseIdx i)) :=
      ledger_congr hl fun a => by rw [holdings_split hi a, List.count_append]
    refine ledger_congr (C45_partial cfg w m e _ r h1 hr hp).1 fun a => ?_
    rw [holdings_set r.self hi a, List.count_append]
  cases h with
  | @parse m es o ctx input =>
    have := ledger_of (live := holdings es) (i := []) (by simpa using hl) (parseH_tidy cfg w o ctx m input).2
    refine ledger_congr this fun a => ?_
    simp only [List.flatMap_append, List.count_append, HRes.owns, holdings]; omega
  | @clone m es i e hi =>
    have h2 : Conserves m [] (e.clone m).1.root.owns (e.clone m).2 := cloneH_cons e.root m
    have := ledger_of (live := holdings es) (i := []) (by simpa using hl) h2
    refine ledger_congr this fun a => ?_
    simp only [holdings_append, holdings_one, List.count_append]; omega
  | @drop m es i e hi =>
    have h1 : Ledger m (e.root.owns ++ holdings (es.eraseIdx i)) :=
      ledger_congr hl fun a => by rw [holdings_split hi a, List.count_append]
    have := ledger_of h1 (drop_cons m e.root)
    rwa [List.nil_append] at this
  | eval _ => exact hl
  | @fix m es i e x v hi =>
    cases hq : (e.simplifyForInPlace cfg w m x v).panic with
    | some p => simp only [afterFix, hq] at hp; exact absurd rfl (hp p)
    | none =>
      have := put hi hl (.inl ⟨x, v, rfl⟩) hq
      simpa only [afterFix, hq] using this
  | @fixAll m es i e l hi =>
    cases hq : (e.simplifyForMultipleInPlace cfg w m l).panic with
    | some p => simp only [afterFix, hq] at hp; exact absurd rfl (hp p)
    | none =>
      have := put hi hl (.inr ⟨l, rfl⟩) hq
      simpa only [afterFix, hq] using this
  | @into m es i e x v hi =>
    cases hq : (e.simplifyForInPlace cfg w m x v).panic with
    | some p => simp only [afterInto, byValue, hq] at hp; exact absurd rfl (hp p)
    | none =>
      have := put hi hl (.inl ⟨x, v, rfl⟩) hq
      simpa only [afterInto, byValue, hq] using this
  | @intoAll m es i e l hi =>
    cases hq : (e.simplifyForMultipleInPlace cfg w m l).panic with
    | some p => simp only [afterInto, byValue, hq] at hp; exact absurd rfl (hp p)
    | none =>
      have := put hi hl (.inr ⟨l, rfl⟩) hq
      simpa only [afterInto, byValue, hq] using this

theorem erase_get {es : List HXpr} {i : Nat} {e : HXpr} (h : es[i]? = some e) :
    (es.map HXpr.erase)[i]? = some e.erase := by rw [List.getElem?_map, h]; rfl

/-- One command shows what it shows if there is no memory. -/
theorem does_act {cfg : Cfg} {w : World} {s t : Store} {c : Cmd} {ob : Obs} (h : Does cfg w s c ob t) :
    ∃ ys, act cfg w (s.owned.map HXpr.erase) c = some (ob, ys) ∧
      ((∀ p, ob ≠ .panic p) → ys = t.owned.map HXpr.erase) := by
  have fx : ∀ {es : List HXpr} {i : Nat} {r : InPlace} {x : PM Xpr}, (byValue r).1.map HXpr.erase = x →
      (afterFix es i r).1 = (replace (es.map HXpr.erase) i x).1 ∧
      ((∀ p, (afterFix es i r).1 ≠ .panic p) →
        (replace (es.map HXpr.erase) i x).2 = (afterFix es i r).2.owned.map HXpr.erase) := by
    intro es i r x hx
    cases hq : r.panic with
    | some p =>
      simp only [byValue, hq, Except.map] at hx
      subst hx
      simp only [afterFix, hq, replace]
      exact ⟨trivial, fun h => absurd rfl (h p)⟩
    | none =>
      simp only [byValue, hq, Except.map] at hx
      subst hx
      simp only [afterFix, hq, replace, List.map_set]
      exact ⟨trivial, fun _ => trivial⟩
  have it : ∀ {es : List HXpr} {i : Nat} {r : InPlace} {x : PM Xpr}, (byValue r).1.map HXpr.erase = x →
      (afterInto es i (byValue r)).1 = (replace (es.map HXpr.erase) i x).1 ∧
      ((∀ p, (afterInto es i (byValue r)).1 ≠ .panic p) →
        (replace (es.map HXpr.erase) i x).2 = (afterInto es i (byValue r)).2.owned.map HXpr.erase) := by
    intro es i r x hx
    cases hq : r.panic with
    | some p =>
      simp only [byValue, hq, Except.map] at hx
      subst hx
      simp only [afterInto, byValue, hq, replace]
      exact ⟨trivial, fun h => absurd rfl (h p)⟩
    | none =>
      simp only [byValue, hq, Except.map] at hx
      subst hx
      simp only [afterInto, byValue, hq, replace, List.map_set]
      exact ⟨trivial, fun _ => trivial⟩
  cases h with
  | @parse m es o ctx input =>
    have h1 := C100_same cfg w o ctx m input
    generalize parseH cfg w o ctx m input = y at h1 ⊢
    rcases y with ⟨x | e | p | _, m1⟩
    · exact ⟨es.map HXpr.erase ++ [x.erase], by simp only [act, ← h1, HRes.erase], fun _ => by simp [HRes.kept]⟩
    all_goals exact ⟨es.map HXpr.erase, by simp only [act, ← h1, HRes.erase], fun _ => by simp [HRes.kept]⟩
  | @clone m es i e hi =>
    refine ⟨es.map HXpr.erase ++ [e.erase], by simp only [act, erase_get hi, Option.map_some], fun _ => ?_⟩
    simp [clone_erase]
  | @drop m es i e hi =>
    refine ⟨(es.map HXpr.erase).eraseIdx i, by simp only [act, erase_get hi, Option.map_some], fun _ => ?_⟩
    exact eraseIdx_map _ _ _
  | @eval m es i e vars hi =>
    exact ⟨es.map HXpr.erase, by simp only [act, erase_get hi, Option.map_some], fun _ => rfl⟩
  | @fix m es i e x v hi =>
    obtain ⟨h1, h2⟩ := fx (es := es) (i := i) (C45_same cfg w m e x v)
    refine ⟨_, ?_, h2⟩
    simp only [act, erase_get hi, Option.map_some, Option.some.injEq]; rw [h1]
  | @fixAll m es i e l hi =>
    obtain ⟨h1, h2⟩ := fx (es := es) (i := i) (C45_same_multiple cfg w m e l)
    refine ⟨_, ?_, h2⟩
    simp only [act, erase_get hi, Option.map_some, Option.some.injEq]; rw [h1]
  | @into m es i e x v hi =>
    obtain ⟨h1, h2⟩ := it (es := es) (i := i) (C45_same cfg w m e x v)
    refine ⟨_, ?_, h2⟩
    simp only [act, erase_get hi, Option.map_some, Option.some.injEq]; rw [h1]
  | @intoAll m es i e l hi =>
    obtain ⟨h1, h2⟩ := it (es := es) (i := i) (C45_same_multiple cfg w m e l)
    refine ⟨_, ?_, h2⟩
    simp only [act, erase_get hi, Option.map_some, Option.some.injEq]; rw [h1]

theorem undisturbed_append {tr : List (Cmd × Obs)} {c : Cmd} {ob : Obs} (h : Undisturbed (tr ++ [(c, ob)])) :
    Undisturbed tr ∧ ∀ p, ob ≠ .panic p :=
  ⟨fun c' p h' => h c' p (List.mem_append_left _ h'), fun p h' => h c p (by simp [h'])⟩

/-- C99: as long as no simplification panics, a program sees exactly what it would see if
expressions were values and there was no memory: copies are independent, and what is done
to one expression changes no other. -/
theorem C99_values (cfg : Cfg) (w : World) (m : Mem) (tr : List (Cmd × Obs)) (s : Store)
    (h : Execution cfg w ⟨m, []⟩ tr s) (hc : Undisturbed tr) : Plays cfg w tr (s.owned.map HXpr.erase) := by
  induction h with
  | start => exact .start
  | next _ h2 ih =>
    obtain ⟨h3, h4⟩ := undisturbed_append hc
    obtain ⟨ys, h5, h6⟩ := does_act h2
    rw [h6 h4] at h5
    exact .next (ih h3) h5

/-- C99, memory: at any time every box that was ever allocated either belongs to exactly one of
the expressions the program holds, and there only once, or has been freed exactly once; so
nothing is freed twice, nothing leaks, and nothing that is held has been freed. -/
theorem C99_memory (cfg : Cfg) (w : World) (tr : List (Cmd × Obs)) (s : Store)
    (h : Execution cfg w ⟨⟨0, [], []⟩, []⟩ tr s) (hc : Undisturbed tr) : Ledger s.mem (holdings s.owned) := by
  induction h with
  | start => intro a; cases a <;> simp [holdings, given]
  | next _ h2 ih =>
    obtain ⟨h3, h4⟩ := undisturbed_append hc
    exact does_ledger h2 h4 (ih h3)

/-- When the program has dropped everything, every box has been freed exactly once, and every
reference to a dynamic function has been released. -/
theorem C99_end (cfg : Cfg) (w : World) (tr : List (Cmd × Obs)) (s : Store)
    (h : Execution cfg w ⟨⟨0, [], []⟩, []⟩ tr s) (hc : Undisturbed tr) (he : s.owned = []) :
    (∀ a, s.mem.freed.count (.box a) = if a < s.mem.next then 1 else 0) ∧
    ∀ p, s.mem.freed.count (.arc p) = s.mem.made.count p := by
  suffices h : ∀ a, s.mem.freed.count a = given s.mem a from ⟨fun a => h (.box a), fun p => h (.arc p)⟩
  intro a
  have := C99_memory cfg w tr s h hc a
  rw [he] at this
  simpa [holdings] using this

/-- Everything a program holds without memory comes from a text it has parsed. -/
theorem plays_reach {cfg : Cfg} {w : World} {tr : List (Cmd × Obs)} {xs : List Xpr} (h : Plays cfg w tr xs) :
    ∀ x ∈ xs, ∃ o ctx input ob, (Cmd.parse o ctx input, ob) ∈ tr ∧ Reach cfg w ctx input x := by
  induction h with
  | start => intro x hx; simp at hx
  | @next tr xs c ob ys _ h2 ih =>
    have old : ∀ x ∈ xs, ∃ o ctx input ob', (Cmd.parse o ctx input, ob') ∈ tr ++ [(c, ob)] ∧
        Reach cfg w ctx input x := fun x hx => by
      obtain ⟨o, ctx, input, ob', h3, h4⟩ := ih x hx
      exact ⟨o, ctx, input, ob', List.mem_append_left _ h3, h4⟩
    have rep : ∀ {i : Nat} {e : Xpr} {r : PM Xpr} {ob' : Obs} {zs : List Xpr}, xs[i]? = some e →
        (∀ ctx input e', Reach cfg w ctx input e → r = .ok e' → Reach cfg w ctx input e') →
        replace xs i r = (ob', zs) → ∀ x ∈ zs, ∃ o ctx input ob', (Cmd.parse o ctx input, ob') ∈ tr ++ [(c, ob)] ∧
        Reach cfg w ctx input x := by
      intro i e r ob' zs hi hr hz x hx
      cases r with
      | error p => cases hz; exact old x hx
      | ok e' =>
        cases hz
        rcases List.mem_or_eq_of_mem_set hx with hx | rfl
        · exact old x hx
        · obtain ⟨o, ctx, input, ob', h3, h4⟩ := old e (List.mem_of_getElem? hi)
          exact ⟨o, ctx, input, ob', h3, hr ctx input _ h4 rfl⟩
    cases c with
    | parse o ctx input =>
      simp only [act] at h2
      split at h2
      · rename_i x hp
        simp only [Option.some.injEq, Prod.mk.injEq] at h2
        obtain ⟨rfl, rfl⟩ := h2
        intro y hy
        rcases List.mem_append.1 hy with hy | hy
        · exact old y hy
        · rw [List.mem_singleton] at hy
          subst hy
          exact ⟨o, ctx, input, _, List.mem_append_right _ (List.mem_singleton.2 rfl), .parsed hp⟩
      · simp only [Option.some.injEq, Prod.mk.injEq] at h2
        obtain ⟨rfl, rfl⟩ := h2
        exact old
    | clone i =>
      simp only [act, Option.map_eq_some_iff] at h2
      obtain ⟨e, hi, h2⟩ := h2
      cases h2
      intro y hy
      rcases List.mem_append.1 hy with hy | hy
      · exact old y hy
      · rw [List.mem_singleton] at hy
        subst hy
        exact old _ (List.mem_of_getElem? hi)
    | drop i =>
      simp only [act, Option.map_eq_some_iff] at h2
      obtain ⟨e, hi, h2⟩ := h2
      cases h2
      exact fun y hy => old y (List.mem_of_mem_eraseIdx hy)
    | eval i vars =>
      simp only [act, Option.map_eq_some_iff] at h2
      obtain ⟨e, hi, h2⟩ := h2
      cases h2
      exact old
    | fix i x v =>
      simp only [act, Option.map_eq_some_iff] at h2
      obtain ⟨e, hi, h2⟩ := h2
      exact rep hi (fun ctx input e' h k => .simplified h k) h2
    | fixAll i l =>
      simp only [act, Option.map_eq_some_iff] at h2
      obtain ⟨e, hi, h2⟩ := h2
      exact rep hi (fun ctx input e' h k => .multiple h k) h2
    | into i x v =>
      simp only [act, Option.map_eq_some_iff] at h2
      obtain ⟨e, hi, h2⟩ := h2
      exact rep hi (fun ctx input e' h k => .simplified h k) h2
    | intoAll i l =>
      simp only [act, Option.map_eq_some_iff] at h2
      obtain ⟨e, hi, h2⟩ := h2
      exact rep hi (fun ctx input e' h k => .multiple h k) h2

/-- The first command that panics is a simplification, of an expression that was held. -/
theorem does_panic {cfg : Cfg} {w : World} {s t : Store} {c : Cmd} {p : Panic}
    (h : Does cfg w s c (.panic p) t) :
    ∃ i e r, s.owned[i]? = some e ∧ InPlaceCall cfg w s.mem e r ∧ r.panic = some p ∧
      (t = ⟨r.mem, s.owned.set i r.self⟩ ∨ t = ⟨r.mem.dropX r.self, s.owned.eraseIdx i⟩) := by
  have fx : ∀ {es : List HXpr} {i : Nat} {r : InPlace} {ob : Obs} {t : Store}, afterFix es i r = (ob, t) →
      ob = .panic p → r.panic = some p ∧ t = ⟨r.mem, es.set i r.self⟩ := by
    intro es i r ob t h ho
    subst ho
    unfold afterFix at h
    cases hq : r.panic with
    | none => rw [hq] at h; cases h
    | some q => rw [hq] at h; cases h; exact ⟨rfl, rfl⟩
  have it : ∀ {es : List HXpr} {i : Nat} {r : InPlace} {ob : Obs} {t : Store},
      afterInto es i (byValue r) = (ob, t) →
      ob = .panic p → r.panic = some p ∧ t = ⟨r.mem.dropX r.self, es.eraseIdx i⟩ := by
    intro es i r ob t h ho
    subst ho
    unfold byValue at h
    cases hq : r.panic with
    | none => rw [hq] at h; cases h
    | some q => rw [hq] at h; cases h; exact ⟨rfl, rfl⟩
  generalize ho : Obs.panic p = ob at h
  cases h with
  | parse => cases ho
  | clone _ => cases ho
  | drop _ => cases ho
  | eval _ => cases ho
  | fix hi => exact ⟨_, _, _, hi, .inl ⟨_, _, rfl⟩, (fx rfl ho.symm).1, .inl (fx rfl ho.symm).2⟩
  | fixAll hi => exact ⟨_, _, _, hi, .inr ⟨_, rfl⟩, (fx rfl ho.symm).1, .inl (fx rfl ho.symm).2⟩
  | into hi => exact ⟨_, _, _, hi, .inl ⟨_, _, rfl⟩, (it rfl ho.symm).1, .inr (it rfl ho.symm).2⟩
  | intoAll hi => exact ⟨_, _, _, hi, .inr ⟨_, rfl⟩, (it rfl ho.symm).1, .inr (it rfl ho.symm).2⟩

/-- C99, which programs are safe: if no text has two `!` in a row and functions do not panic,
no simplification and no evaluation panics, so that the theorems above apply; parsing panics
only for the empty text. -/
theorem C99_safe (cfg : Cfg) (w : World) (tr : List (Cmd × Obs)) (s : Store)
    (h : Execution cfg w ⟨⟨0, [], []⟩, []⟩ tr s) (ht : Tame w tr) :
    Undisturbed tr ∧ (∀ c p, (c, Obs.value (.error (.panic p))) ∉ tr) ∧
    ∀ o ctx input p, (Cmd.parse o ctx input, Obs.parsed (.panic p)) ∈ tr → input = [] := by
  induction h with
  | start => exact ⟨fun c p h => by simp at h, fun c p h => by simp at h, fun o ctx input p h => by simp at h⟩
  | @next tr t c ob u h1 h2 ih =>
    have ht' : Tame w tr := fun o ctx input ob h => ht o ctx input ob (List.mem_append_left _ h)
    obtain ⟨i1, i2, i3⟩ := ih ht'
    have hl := C99_memory cfg w tr t h1 i1
    have hv := plays_reach (C99_values cfg w _ tr t h1 i1)
    refine ⟨fun c' p hm => ?_, fun c' p hm => ?_, fun o ctx input p hm => ?_⟩
    · rcases List.mem_append.1 hm with hm | hm
      · exact i1 c' p hm
      · rw [List.mem_singleton] at hm
        cases hm
        obtain ⟨i, e, r, hi, hr, hp, -⟩ := does_panic h2
        obtain ⟨o, ctx, input, ob', h3, h4⟩ := hv e.erase
          (List.mem_map_of_mem (List.mem_of_getElem? hi))
        obtain ⟨h5, h6⟩ := ht' o ctx input ob' h3
        have h7 : Ledger t.mem (e.root.owns ++ holdings (t.owned.eraseIdx i)) :=
          ledger_congr hl fun a => by rw [holdings_split hi a, List.count_append]
        have := (C45_parsed cfg w ctx input t.mem e _ r h6 h5 h4 h7 hr).1
        rw [hp] at this
        cases this
    · rcases List.mem_append.1 hm with hm | hm
      · exact i2 c' p hm
      · rw [List.mem_singleton] at hm
        obtain ⟨rfl, rfl⟩ := Prod.mk.inj hm
        generalize ho : Obs.value (.error (.panic p)) = ob at h2
        have fx : ∀ (es : List HXpr) (i : Nat) (r : InPlace), Obs.value (.error (.panic p)) ≠ (afterFix es i r).1 := by
          intro es i r h
          unfold afterFix at h
          split at h <;> cases h
        have it : ∀ (es : List HXpr) (i : Nat) (r : Run HXpr), Obs.value (.error (.panic p)) ≠ (afterInto es i r).1 := by
          intro es i r h
          unfold afterInto at h
          split at h <;> cases h
        cases h2 with
        | parse => cases ho
        | clone _ => cases ho
        | drop _ => cases ho
        | @eval m es i e vars hi =>
          obtain ⟨o, ctx, input, ob', h3, h4⟩ := hv e.erase
            (List.mem_map_of_mem (List.mem_of_getElem? hi))
          obtain ⟨h5, h6⟩ := ht' o ctx input ob' h3
          injection ho with ho
          exact (C23_partial cfg w ctx input e.erase vars h6 h5 h4).1 p ho.symm
        | fix _ => exact fx _ _ _ ho
        | fixAll _ => exact fx _ _ _ ho
        | into _ => exact it _ _ _ ho
        | intoAll _ => exact it _ _ _ ho
    · rcases List.mem_append.1 hm with hm' | hm'
      · exact i3 o ctx input p hm'
      · rw [List.mem_singleton] at hm'
        obtain ⟨rfl, rfl⟩ := Prod.mk.inj hm'
        obtain ⟨h5, h6⟩ := ht o ctx input _ hm
        refine Classical.byContradiction fun hne => ?_
        generalize ho : Obs.parsed (.panic p) = ob at h2
        cases h2 with
        | parse =>
          injection ho with ho
          rw [C100_same] at ho
          rcases C02_partial cfg w o ctx input h6 hne h5 with ⟨x, h8⟩ | ⟨x, h8⟩ <;>
            rw [← ho] at h8 <;> cases h8

/-- C99, otherwise: the first simplification that panics leaves a box that is held though it
has been freed, or has freed one twice. -/
theorem C99_panic (cfg : Cfg) (w : World) (tr : List (Cmd × Obs)) (s t : Store) (c : Cmd) (p : Panic)
    (h : Execution cfg w ⟨⟨0, [], []⟩, []⟩ tr s) (hc : Undisturbed tr) (hs : Does cfg w s c (.panic p) t) :
    (∃ a, .box a ∈ holdings t.owned ∧ t.mem.freed.count (.box a) = 1) ∨
    ∃ a, t.mem.freed.count (.box a) = 2 := by
  obtain ⟨i, e, r, hi, hr, hp, ht⟩ := does_panic hs
  have hl := C99_memory cfg w tr s h hc
  have h7 : Ledger s.mem (e.root.owns ++ holdings (s.owned.eraseIdx i)) :=
    ledger_congr hl fun a => by rw [holdings_split hi a, List.count_append]
  obtain ⟨h8, a, ha⟩ := C45_panic cfg w s.mem e _ r p h7 hr hp
  rcases ht with rfl | rfl
  · refine .inl ⟨a, ?_, (h8 a ha).1⟩
    have : 0 < (holdings (s.owned.set i r.self)).count (.box a) := by
      rw [holdings_set r.self hi (.box a), ((call_cons hr).2 p hp).1]
      have := List.count_pos_iff.2 ha
      omega
    exact List.count_pos_iff.1 this
  · exact .inr ⟨a, (h8 a ha).2⟩

/-- A program can always go on: every command that refers to expressions it holds can be
carried out. -/
theorem C99_progress (cfg : Cfg) (w : World) (s : Store) (c : Cmd) :
    (∃ ob t, Does cfg w s c ob t) ↔ ∃ r, act cfg w (s.owned.map HXpr.erase) c = some r := by
  constructor
  · rintro ⟨ob, t, h⟩
    obtain ⟨ys, h1, -⟩ := does_act h
    exact ⟨_, h1⟩
  · obtain ⟨m, es⟩ := s
    have get : ∀ {i : Nat} {g : Xpr → Obs × List Xpr} {r : Obs × List Xpr},
        ((es.map HXpr.erase)[i]?).map g = some r → ∃ e, es[i]? = some e := by
      intro i g r h
      rw [List.getElem?_map] at h
      cases he : es[i]? with
      | none => rw [he] at h; cases h
      | some e => exact ⟨e, rfl⟩
    rintro ⟨r, h⟩
    cases c with
    | parse o ctx input => exact ⟨_, _, .parse⟩
    | clone i => obtain ⟨e, he⟩ := get h; exact ⟨_, _, .clone he⟩
    | drop i => obtain ⟨e, he⟩ := get h; exact ⟨_, _, .drop he⟩
    | eval i vars => obtain ⟨e, he⟩ := get h; exact ⟨_, _, .eval he⟩
    | fix i x v => obtain ⟨e, he⟩ := get h; exact ⟨_, _, .fix he⟩
    | fixAll i l => obtain ⟨e, he⟩ := get h; exact ⟨_, _, .fixAll he⟩
    | into i x v => obtain ⟨e, he⟩ := get h; exact ⟨_, _, .into he⟩
    | intoAll i l => obtain ⟨e, he⟩ := get h; exact ⟨_, _, .intoAll he⟩

/-! A program: parse `x + 1`, copy it, fix `x` in the copy, evaluate both, drop both. -/

def demoTree : HXpr := ⟨.bin 0 .plus (.var b!"x") (.num F64.f1), [b!"x"]⟩
def demoCopy : HXpr := ⟨.bin 1 .plus (.var b!"x") (.num F64.f1), [b!"x"]⟩

def demo : List (Cmd × Obs) :=
  [(.parse Oracle.id Context.default b!"x + 1", .parsed (.ok demoTree.erase)),
   (.clone 0, .done),
   (.fix 1 b!"x" (F64.ofNat 2), .done),
   (.eval 1 HMap.empty, .value (.ok (F64.ofNat 3))),
   (.eval 0 (HMap.empty.insert b!"x" (F64.ofNat 5)), .value (.ok (F64.ofNat 6))),
   (.drop 0, .done),
   (.drop 0, .done)]

theorem demo_runs : Execution cfgPlain w0 ⟨⟨0, [], []⟩, []⟩ demo ⟨⟨2, [], [.box 0, .box 1]⟩, []⟩ := by
  have d1 : Does cfgPlain w0 ⟨⟨0, [], []⟩, []⟩ (.parse Oracle.id Context.default b!"x + 1")
      (.parsed (.ok demoTree.erase)) ⟨⟨1, [], []⟩, [demoTree]⟩ := by
    have h1 : parseH cfgPlain w0 Oracle.id Context.default ⟨0, [], []⟩ b!"x + 1" = (.ok demoTree, ⟨1, [], []⟩) := by rfl
    have := Does.parse (cfg := cfgPlain) (w := w0) (m := ⟨0, [], []⟩) (es := []) (o := Oracle.id)
      (ctx := Context.default) (input := b!"x + 1")
    rwa [h1] at this
  have d2 : Does cfgPlain w0 ⟨⟨1, [], []⟩, [demoTree]⟩ (.clone 0) .done ⟨⟨2, [], []⟩, [demoTree, demoCopy]⟩ :=
    .clone (i := 0) (e := demoTree) rfl
  have hf : afterFix [demoTree, demoCopy] 1 (demoCopy.simplifyForInPlace cfgPlain w0 ⟨2, [], []⟩ b!"x" (F64.ofNat 2)) =
      (.done, ⟨⟨2, [], [.box 1]⟩, [demoTree, ⟨.num (F64.ofNat 3), []⟩]⟩) := by
    have h1 : (demoCopy.simplifyForInPlace cfgPlain w0 ⟨2, [], []⟩ b!"x" (F64.ofNat 2)).panic = none := by decide +kernel
    have h2 : (demoCopy.simplifyForInPlace cfgPlain w0 ⟨2, [], []⟩ b!"x" (F64.ofNat 2)).mem.next = 2 := by decide +kernel
    have h3 : (demoCopy.simplifyForInPlace cfgPlain w0 ⟨2, [], []⟩ b!"x" (F64.ofNat 2)).mem.freed = [.box 1] := by
      decide +kernel
    have h6 : (demoCopy.simplifyForInPlace cfgPlain w0 ⟨2, [], []⟩ b!"x" (F64.ofNat 2)).mem.made = [] := by
      decide +kernel
    have h4 : (demoCopy.simplifyForInPlace cfgPlain w0 ⟨2, [], []⟩ b!"x" (F64.ofNat 2)).self.vars = [] := by decide +kernel
    have h5 : (demoCopy.simplifyForInPlace cfgPlain w0 ⟨2, [], []⟩ b!"x" (F64.ofNat 2)).self.root.erase =
        .num (F64.ofNat 3) := by decide +kernel
    generalize demoCopy.simplifyForInPlace cfgPlain w0 ⟨2, [], []⟩ b!"x" (F64.ofNat 2) = r at *
    obtain ⟨p, ⟨root, vars⟩, ⟨n, md, f⟩⟩ := r
    cases h1; cases h2; cases h3; cases h4; cases h6
    cases root <;> cases h5
    rfl
  have d3 : Does cfgPlain w0 ⟨⟨2, [], []⟩, [demoTree, demoCopy]⟩ (.fix 1 b!"x" (F64.ofNat 2)) .done
      ⟨⟨2, [], [.box 1]⟩, [demoTree, ⟨.num (F64.ofNat 3), []⟩]⟩ := by
    have := Does.fix (cfg := cfgPlain) (w := w0) (m := ⟨2, [], []⟩) (es := [demoTree, demoCopy]) (i := 1)
      (e := demoCopy) (x := b!"x") (v := F64.ofNat 2) rfl
    rwa [hf] at this
  have d4 : Does cfgPlain w0 ⟨⟨2, [], [.box 1]⟩, [demoTree, ⟨.num (F64.ofNat 3), []⟩]⟩ (.eval 1 HMap.empty)
      (.value (.ok (F64.ofNat 3))) ⟨⟨2, [], [.box 1]⟩, [demoTree, ⟨.num (F64.ofNat 3), []⟩]⟩ :=
    .eval (i := 1) (e := ⟨.num (F64.ofNat 3), []⟩) rfl
  have d5 : Does cfgPlain w0 ⟨⟨2, [], [.box 1]⟩, [demoTree, ⟨.num (F64.ofNat 3), []⟩]⟩ (.eval 0 (HMap.empty.insert b!"x" (F64.ofNat 5)))
      (.value (.ok (F64.ofNat 6))) ⟨⟨2, [], [.box 1]⟩, [demoTree, ⟨.num (F64.ofNat 3), []⟩]⟩ := by
    have := Does.eval (cfg := cfgPlain) (w := w0) (m := ⟨2, [], [.box 1]⟩) (es := [demoTree, ⟨.num (F64.ofNat 3), []⟩]) (i := 0)
      (e := demoTree) (vars := HMap.empty.insert b!"x" (F64.ofNat 5)) rfl
    rwa [show demoTree.erase.eval w0 (HMap.empty.insert b!"x" (F64.ofNat 5)) = .ok (F64.ofNat 6) by decide +kernel] at this
  have d6 : Does cfgPlain w0 ⟨⟨2, [], [.box 1]⟩, [demoTree, ⟨.num (F64.ofNat 3), []⟩]⟩ (.drop 0) .done
      ⟨⟨2, [], [.box 0, .box 1]⟩, [⟨.num (F64.ofNat 3), []⟩]⟩ := .drop (i := 0) (e := demoTree) rfl
  have d7 : Does cfgPlain w0 ⟨⟨2, [], [.box 0, .box 1]⟩, [⟨.num (F64.ofNat 3), []⟩]⟩ (.drop 0) .done ⟨⟨2, [], [.box 0, .box 1]⟩, []⟩ :=
    .drop (i := 0) (e := ⟨.num (F64.ofNat 3), []⟩) rfl
  exact ((((((Execution.start.next d1).next d2).next d3).next d4).next d5).next d6).next d7

example : Tame w0 demo := by
  intro o ctx input ob h
  simp only [demo, List.mem_cons, Prod.mk.injEq, Cmd.parse.injEq, reduceCtorEq, false_and, or_false,
    List.not_mem_nil] at h
  obtain ⟨⟨-, rfl, rfl⟩, -⟩ := h
  refine ⟨?_, ctxTotal_default w0⟩
  rintro ⟨a, ws, b, _, h⟩
  have : c!"!" ∈ b!"x + 1" := by rw [h]; simp
  revert this; decide

/-- There are programs that do panic: `3!!x` is parsed and `x` is fixed. -/
example : ∃ tr s t, Execution cfgOpt w0 ⟨⟨0, [], []⟩, []⟩ tr s ∧ Undisturbed tr ∧
    Does cfgOpt w0 s (.fix 0 b!"x" (F64.ofNat 2)) (.panic .unreachable) t := by
  have hp : parse cfgOpt w0 Oracle.id Context.default b!"3!!x" =
      .ok ⟨.bin .factorial (.num (F64.ofNat 6)) (.var b!"x"), [b!"x"]⟩ := by decide +kernel
  have herr : Xpr.simplifyFor cfgOpt w0 ⟨.bin .factorial (.num (F64.ofNat 6)) (.var b!"x"), [b!"x"]⟩
      b!"x" (F64.ofNat 2) = .error .unreachable := by decide +kernel
  have h1 : act cfgOpt w0 [] (.parse Oracle.id Context.default b!"3!!x") = some (.parsed (.ok
      ⟨.bin .factorial (.num (F64.ofNat 6)) (.var b!"x"), [b!"x"]⟩),
      [⟨.bin .factorial (.num (F64.ofNat 6)) (.var b!"x"), [b!"x"]⟩]) := by simp only [act, hp]; rfl
  obtain ⟨ob, s, d⟩ := (C99_progress cfgOpt w0 ⟨⟨0, [], []⟩, []⟩ _).2 ⟨_, h1⟩
  obtain ⟨ys, h2, h3⟩ := does_act d
  rw [show (Store.mk ⟨0, [], []⟩ []).owned.map HXpr.erase = [] from rfl, h1] at h2
  obtain ⟨rfl, rfl⟩ := Prod.mk.inj (Option.some.inj h2)
  have h4 := h3 fun p h => nomatch h
  have h5 : act cfgOpt w0 (s.owned.map HXpr.erase) (.fix 0 b!"x" (F64.ofNat 2)) =
      some (.panic .unreachable, s.owned.map HXpr.erase) := by
    rw [← h4]
    show some (replace _ 0 (Xpr.simplifyFor cfgOpt w0 _ b!"x" (F64.ofNat 2))) = _
    rw [herr]; rfl
  obtain ⟨ob, t, d'⟩ := (C99_progress cfgOpt w0 s _).2 ⟨_, h5⟩
  obtain ⟨ys, h6, -⟩ := does_act d'
  rw [h5] at h6
  obtain ⟨rfl, -⟩ := Prod.mk.inj (Option.some.inj h6)
  refine ⟨_, s, t, .next .start d, fun c p h => ?_, d'⟩
  rw [List.nil_append, List.mem_singleton] at h
  cases h

end Props
end Xprs
