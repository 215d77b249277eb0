import Verif.Lemmas.HeapParser
import Verif.Props.Memory
/-
Property C100: parsing leaks nothing and frees nothing twice, whether it succeeds, fails or
panics.
-/
namespace Xprs
namespace Props
open Spec

/-- The parser with boxes is the parser, except for the addresses. -/
theorem C100_same (cfg : Cfg) (w : World) (o : Oracle) (ctx : Context) (m : Mem) (input : Bytes) :
    (parseH cfg w o ctx m input).1.erase = parse cfg w o ctx input :=
  (parseH_tidy cfg w o ctx m input).1

/-- C100, accepted texts: every box allocated meanwhile has been freed exactly once or is in the
result exactly once, and what others hold (`live`) is untouched and not part of the result. -/
theorem C100_accepted (cfg : Cfg) (w : World) (o : Oracle) (ctx : Context) (m m' : Mem) (input : Bytes)
    (live : List Res) (x : HXpr) (hl : Ledger m live) (h : parseH cfg w o ctx m input = (.ok x, m')) :
    Ledger m' (x.root.owns ++ live) := by
  have hc := (parseH_tidy cfg w o ctx m input).2
  rw [h] at hc
  have := ledger_of (i := []) hl hc
  simpa [HRes.owns, HRes.kept] using this

/-- C100, rejected texts and panics: every box allocated meanwhile has been freed exactly once. -/
theorem C100_rejected (cfg : Cfg) (w : World) (o : Oracle) (ctx : Context) (m m' : Mem) (input : Bytes)
    (live : List Res) (r : HRes) (hl : Ledger m live) (hr : ∀ x, r ≠ .ok x)
    (h : parseH cfg w o ctx m input = (r, m')) : Ledger m' live := by
  have hc := (parseH_tidy cfg w o ctx m input).2
  rw [h] at hc
  have := ledger_of (i := []) hl hc
  cases r with
  | ok x => exact absurd rfl (hr x)
  | _ => exact this

/-! ### Without optimizations no box is freed -/

/-- If it succeeds nothing was freed. -/
def Frugal {α : Type} (m : Mem) (x : R α × Mem) : Prop := ∀ a s, x.1 = .ok a s → x.2.freed = m.freed

theorem frugal_then {α β : Type} {m : Mem} {x : R α × Mem} {clean : Mem → Mem} {f : α → St → Mem → R β × Mem}
    (h : Frugal m x) (hf : ∀ a s m1, Frugal m1 (f a s m1)) : Frugal m (R.thenH x clean f) := by
  obtain ⟨x, m1⟩ := x
  cases x with
  | ok a s => exact fun b t hb => (hf a s m1 b t hb).trans (h a s rfl)
  | err e s => exact fun b t hb => by cases hb
  | panic p => exact fun b t hb => by cases hb
  | fuel => exact fun b t hb => by cases hb

theorem frugal_same {α : Type} (m : Mem) (x : R α) : Frugal m (x, m) := fun _ _ _ => rfl

theorem frugal_fail {α : Type} {m m1 : Mem} {x : R α} (h : ∀ a s, x ≠ .ok a s) : Frugal m (x, m1) :=
  fun a s ha => absurd ha (h a s)

section
variable {cfg : Cfg} {w : World} {ctx : Context} {recH : Nat → St → Mem → R HElem × Mem}

theorem errEnd_ne {α : Type} (s : St) (a : α) (t : St) : errEnd cfg s ≠ .ok a t := by
  unfold errEnd; cases subOne cfg s.pos <;> exact fun h => by cases h

theorem parseArgsH_frugal (hr : ∀ p s m, Frugal m (recH p s m)) : ∀ (fuel : Nat) (args : List HElem) (s : St)
    (m : Mem), Frugal m (parseArgsH cfg recH fuel args s m)
  | 0, args, s, m => frugal_fail fun _ _ h => by cases h
  | fuel + 1, args, s, m => by
    rw [parseArgsH]
    refine frugal_then ?_ fun arg s1 m1 => ?_
    · have h := hr noPrec s m
      unfold argumentH
      generalize recH noPrec s m = x at h ⊢
      rcases x with ⟨_ | ⟨e, s'⟩ | _ | _, m1⟩
      · exact h
      · simp only
        split
        · refine frugal_fail fun a t => ?_
          unfold errMissing
          cases subOne cfg s'.pos <;> exact fun h => by cases h
        · exact frugal_fail fun _ _ h => by cases h
      · exact h
      · exact h
    · simp only
      split
      · split
        · exact parseArgsH_frugal hr fuel _ _ m1
        · split
          · exact frugal_same m1 _
          · exact frugal_fail fun _ _ h => by cases h
      · exact frugal_fail fun a t => errEnd_ne _ a t

theorem elementFH_frugal (hopt : cfg.opt = false) (hr : ∀ p s m, Frugal m (recH p s m)) (p : Nat) (s : St)
    (m : Mem) : Frugal m (elementFH cfg w ctx recH p s m) := by
  have loop : ∀ (fuel : Nat) (el : HElem) (s : St) (m : Mem), Frugal m (opLoopH cfg recH p fuel el s m) := by
    intro fuel
    induction fuel with
    | zero => exact fun el s m => frugal_fail fun _ _ h => by cases h
    | succ fuel ih =>
      intro el s m
      rw [opLoopH]
      split
      · exact frugal_same m _
      · refine frugal_then (hr _ _ m) fun rhs s2 m2 => ?_
        refine frugal_then (m := m2) ?_ fun el' s3 m3 => ih el' s3 m3
        exact fun _ _ _ => rfl
  unfold elementFH
  refine frugal_then ?_ fun a s1 m1 => ?_
  · unfold atomH
    simp only
    split
    · exact frugal_same m _
    split
    · exact frugal_same m _
    split
    · unfold parseIdentH
      simp only
      split
      · exact frugal_same m _
      · exact frugal_same m _
      · split
        · refine frugal_then (parseArgsH_frugal hr _ _ _ (m.share _)) fun args s3 m3 => ?_
          refine frugal_then (frugal_same m3 _) fun _ s4 m4 => ?_
          unfold checkArityH
          split
          · split
            · exact fun _ _ _ => rfl
            · split <;> exact frugal_fail fun _ _ h => by cases h
          · exact fun _ _ _ => rfl
        · exact frugal_fail fun _ _ h => by cases h
    split
    · exact frugal_then (hr _ _ m) fun _ _ _ _ _ _ => rfl
    split
    · exact frugal_then (hr _ _ m) fun _ _ _ _ _ _ => rfl
    split
    · refine frugal_then (hr _ _ m) fun e s' m' => ?_
      exact frugal_then (frugal_same m' _) fun _ _ m'' => frugal_same m'' _
    split <;> exact frugal_same m _
  · refine frugal_then (m := m1) ?_ fun el s2 m2 => ?_
    · cases (consumeIf c!"!" s1).1 <;> exact fun _ _ _ => rfl
    · refine frugal_then (loop _ el s2 m2) fun el' s3 m3 => ?_
      unfold finishH
      rw [if_neg (by rw [hopt]; exact Bool.false_ne_true)]
      exact frugal_same m3 _
end

theorem elementH_frugal {cfg : Cfg} (w : World) (ctx : Context) (hopt : cfg.opt = false) : ∀ (n p : Nat) (s : St)
    (m : Mem), Frugal m (elementH cfg w ctx n p s m)
  | 0 => fun _ _ m => frugal_same m _
  | n + 1 => fun p s m => elementFH_frugal hopt (elementH_frugal w ctx hopt n) p s m

/-- The boxes among what is owned. -/
def boxesOf (l : List Res) : List Nat := l.filterMap fun | .box a => some a | .arc _ => none

theorem boxesOf_count (l : List Res) (a : Nat) : (boxesOf l).count a = l.count (.box a) := by
  induction l with
  | nil => rfl
  | cons r l ih =>
    cases r with
    | box b =>
      have : boxesOf (.box b :: l) = b :: boxesOf l := rfl
      rw [this, List.count_cons, List.count_cons, ih]
      simp
    | arc p =>
      have : boxesOf (.arc p :: l) = boxesOf l := rfl
      rw [this, List.count_cons, ih]
      simp

/-- A list in which each of `n, …, k - 1` occurs once and nothing else occurs. -/
theorem length_of_counts {l : List Nat} {n k : Nat} (h : ∀ a, l.count a = if n ≤ a ∧ a < k then 1 else 0) :
    l.length = k - n := by
  have hp : l.Perm (List.range' n (k - n)) := by
    rw [List.perm_iff_count]
    intro a
    rw [h a, (List.nodup_range').count]
    simp only [List.mem_range'_1]
    split <;> split <;> omega
  rw [hp.length_eq, List.length_range']

/-- C100, builds without the optimizations: an accepted text frees nothing, and exactly the boxes
of the result are allocated, and exactly its references to dynamic functions are made. -/
theorem C100_plain (cfg : Cfg) (w : World) (o : Oracle) (ctx : Context) (m m' : Mem) (input : Bytes)
    (x : HXpr) (hopt : cfg.opt = false) (h : parseH cfg w o ctx m input = (.ok x, m')) :
    m'.freed = m.freed ∧ m'.next = m.next + (boxesOf x.root.owns).length ∧
    (∀ a, .box a ∈ x.root.owns ↔ m.next ≤ a ∧ a < m'.next) ∧
    ∀ p, m'.made.count p = m.made.count p + x.root.owns.count (.arc p) := by
  have hc := (parseH_tidy cfg w o ctx m input).2
  rw [h] at hc
  have hf : m'.freed = m.freed := by
    have h1 : parseImplH cfg w ctx m input = (.ok x, m') := by
      unfold parseH at h
      generalize parseImplH cfg w ctx m input = y at h ⊢
      rcases y with ⟨y | e | p | _, m1⟩
      · simp only at h
        split at h
        · split at h
          · cases h
          · exact h
        · exact h
      · cases h
      · cases h
      · cases h
    have hq := elementH_frugal w ctx hopt (input.length + 1) noPrec ⟨0, input⟩ m
    unfold parseImplH at h1
    generalize elementH cfg w ctx (input.length + 1) noPrec ⟨0, input⟩ m = y at h1 hq
    rcases y with ⟨⟨y, s⟩ | e | p | _, m1⟩
    · simp only at h1
      split at h1
      · cases h1
      · cases h1; exact hq y s rfl
    · cases h1
    · cases h1
    · cases h1
  have hq : ∀ r, x.root.owns.count r + given m r = given m' r := by
    intro r
    have := hc.eq r
    simp only [HRes.owns, HRes.kept, List.flatMap_cons, List.flatMap_nil, List.append_nil, hf, List.count_nil] at this
    omega
  have h1 : m.next ≤ m'.next := by
    have := hc.grow (.box m'.next)
    simp only [given_box] at this
    split at this <;> split at this <;> omega
  have hcnt : ∀ a, x.root.owns.count (.box a) = if m.next ≤ a ∧ a < m'.next then 1 else 0 := by
    intro a
    have := hq (.box a)
    rw [given_box, given_box] at this
    split at this <;> split at this <;> split <;> omega
  have hlen := length_of_counts (l := boxesOf x.root.owns) fun a => (boxesOf_count _ a).trans (hcnt a)
  refine ⟨hf, by omega, fun a => ?_, fun p => ?_⟩
  · rw [← List.count_pos_iff, hcnt a]
    split <;> simp_all
  · have := hq (.arc p)
    rw [given_arc, given_arc] at this
    omega

/-! Examples: an accepted text, with and without the optimizations; one that is rejected after three
boxes were made; one that panics. -/

example : (parseH cfgPlain w0 Oracle.id Context.default ⟨5, [], [.box 3]⟩ b!"x + sin(y)").2 = ⟨7, [], [.box 3]⟩ := by decide +kernel
example : (parseH cfgOpt w0 Oracle.id Context.default ⟨5, [], [.box 3]⟩ b!"1 + 2").2 = ⟨6, [], [.box 5, .box 3]⟩ := by decide +kernel
example : (parseH cfgOpt w0 Oracle.id Context.default ⟨5, [], [.box 3]⟩ b!"1 + 2").1.owns = [] := by decide +kernel
example : (parseH cfgPlain w0 Oracle.id Context.default ⟨0, [], []⟩ b!"x + max(y! + 1, -z").2 = ⟨3, [], [.box 1, .box 0, .box 2]⟩ := by
  decide +kernel
example : (parseH cfgOpt w0 Oracle.id Context.default ⟨0, [], []⟩ b!"-x + (3!!2)").1.erase = .panic .unreachable := by
  decide +kernel
example : Ledger (parseH cfgOpt w0 Oracle.id Context.default ⟨0, [], []⟩ b!"-x + (3!!2)").2 [] :=
  C100_rejected cfgOpt w0 Oracle.id Context.default ⟨0, [], []⟩ _ b!"-x + (3!!2)" []
    (parseH cfgOpt w0 Oracle.id Context.default ⟨0, [], []⟩ b!"-x + (3!!2)").1 (fun a => by cases a <;> simp [given])
    (fun x hx => by
      have h : (parseH cfgOpt w0 Oracle.id Context.default ⟨0, [], []⟩ b!"-x + (3!!2)").1.erase = .panic .unreachable := by
        decide +kernel
      rw [hx] at h; cases h) rfl

end Props
end Xprs
