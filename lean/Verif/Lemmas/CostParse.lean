import Verif.Lemmas.CostTree
import Verif.Lemmas.ParserBasics
/-
A bound on the steps of the parser.
-/
namespace Xprs
open Spec

/-- The input has `N` bytes. -/
def Tot (N : Nat) (s : St) : Prop := s.pos + s.rest.length = N

theorem Le.tot {N : Nat} {s s' : St} (h : Le s s') (ht : Tot N s) : Tot N s' := by
  have := h.total; unfold Tot at *; omega

/-- What an error may cost on top: one that replaces another one is a second copy. -/
def extraOf (N : Nat) (e : PErr) : Nat :=
  match e.kind with
  | .unexpectedToken _ => 0
  | _ => N + 1

/-- If the outcome is a value then `ok` holds, and otherwise at most `bad` steps have been
taken, apart from a second copy of the source. -/
def Bd {α : Type} (N : Nat) (ok : α → St → Nat → Prop) (bad : Nat) : R α × Nat → Prop
  | (.ok a s, n) => Tot N s ∧ ok a s n
  | (.err e s, n) => Tot N s ∧ n ≤ bad + extraOf N e
  | (.panic _, n) => n ≤ bad + (N + 1)
  | (.fuel, n) => n ≤ bad + (N + 1)

theorem Bd.tick {α : Type} {N k bad bad' : Nat} {ok : α → St → Nat → Prop} {x : R α × Nat}
    (h : Bd N (fun a s n => ok a s (k + n)) bad' x) (hb : k + bad' ≤ bad) :
    Bd N ok bad (Xprs.tick k x) := by
  rcases x with ⟨⟨a, s⟩ | ⟨e, s⟩ | p | _, n⟩
  · exact h
  · have := h.2; exact ⟨h.1, by dsimp only; omega⟩
  · have : n ≤ bad' + (N + 1) := h
    show k + n ≤ bad + (N + 1); omega
  · have : n ≤ bad' + (N + 1) := h
    show k + n ≤ bad + (N + 1); omega

theorem Bd.mono {α : Type} {N bad bad' : Nat} {ok ok' : α → St → Nat → Prop} {x : R α × Nat}
    (h : Bd N ok' bad' x) (ho : ∀ a s n, Tot N s → ok' a s n → ok a s n) (hb : bad' ≤ bad) :
    Bd N ok bad x := by
  rcases x with ⟨⟨a, s⟩ | ⟨e, s⟩ | p | _, n⟩
  · exact ⟨h.1, ho _ _ _ h.1 h.2⟩
  · have := h.2; exact ⟨h.1, by omega⟩
  · have : n ≤ bad' + (N + 1) := h
    show n ≤ bad + (N + 1); omega
  · have : n ≤ bad' + (N + 1) := h
    show n ≤ bad + (N + 1); omega

theorem Bd.bind {α β : Type} {N bad bad' : Nat} {ok : α → St → Nat → Prop} {ok' : β → St → Nat → Prop}
    {x : R α × Nat} {f : α → St → R β × Nat} (h : Bd N ok bad x) (hb : bad ≤ bad')
    (hf : ∀ a s n, Tot N s → ok a s n → Bd N ok' bad' (Xprs.tick n (f a s))) :
    Bd N ok' bad' (R.bindC x f) := by
  rcases x with ⟨⟨a, s⟩ | ⟨e, s⟩ | p | _, n⟩
  · exact hf a s n h.1 h.2
  · have := h.2; exact ⟨h.1, by omega⟩
  · have : n ≤ bad + (N + 1) := h
    show n ≤ bad' + (N + 1); omega
  · have : n ≤ bad + (N + 1) := h
    show n ≤ bad' + (N + 1); omega

/-- An error at `s`, or a panic. -/
def ErrAt {α : Type} (s : St) (r : R α) : Prop := (∃ e, r = .err e s) ∨ ∃ p, r = .panic p

theorem errAt_end {α : Type} (cfg : Cfg) (s : St) : ErrAt s (errEnd cfg s : R α) := by
  unfold errEnd
  split
  · exact .inr ⟨_, rfl⟩
  · exact .inl ⟨_, rfl⟩

theorem bd_errC {α : Type} {N bad : Nat} {ok : α → St → Nat → Prop} {s : St} {r : R α}
    (hs : Tot N s) (hr : ErrAt s r) (h : N + 1 ≤ bad) : Bd N ok bad (errC s r) := by
  have ht : s.pos + s.rest.length = N := hs
  rcases hr with ⟨e, rfl⟩ | ⟨p, rfl⟩
  · exact ⟨hs, by omega⟩
  · show s.pos + s.rest.length + 1 ≤ bad + (N + 1); omega

theorem gap_eq {N : Nat} {s s' : St} (h : Tot N s) (h' : Tot N s') :
    gap s s' = s.rest.length - s'.rest.length + 1 := by
  unfold gap Tot at *; omega

theorem mul_step {A Q a b : Nat} (hA : A = Q + 20) (h : b ≤ a) : A * b + 20 * (a - b) ≤ A * a := by
  have h1 : A * a = A * b + A * (a - b) := by rw [← Nat.mul_add]; congr 1; omega
  have h2 : 20 * (a - b) ≤ A * (a - b) := Nat.mul_le_mul_right _ (by omega)
  omega

theorem mul_step1 {A Q a b : Nat} (hA : A = Q + 20) (h : b + 1 ≤ a) :
    A * b + Q + 20 * (a - b) ≤ A * a := by
  have h1 := mul_step hA (show b ≤ a - 1 by omega)
  have h2 : A * a = A * (a - 1) + A := by
    have h3 : a = a - 1 + 1 := by omega
    have h4 := Nat.mul_add A (a - 1) 1
    rw [← h3, Nat.mul_one] at h4
    exact h4
  omega

theorem len_adv_one {s : St} {c : UInt8} (h : s.rest.head? = some c) :
    (adv s 1).rest.length + 1 = s.rest.length := by
  have := (eats_one h).len
  simp at this; omega

theorem bd_assert {N : Nat} {s : St} (c : UInt8) (hs : Tot N s) {bad : Nat}
    (h : s.rest.length + 1 + (N + 1) ≤ bad) :
    Bd N (fun _ s' n => s'.rest.length + 1 ≤ s.rest.length ∧ n = s.rest.length - s'.rest.length + 1)
      bad (assertConsumeC c s) := by
  have ht := (le_consumeIf c s).tot hs
  have hl := (le_consumeIf c s).len
  have hg := gap_eq hs ht
  unfold assertConsumeC
  cases e : (consumeIf c s).1
  · refine Bd.tick (bad' := N + 1) ?_ (by omega)
    exact bd_errC ht (.inl ⟨_, rfl⟩) (Nat.le_refl _)
  · have ⟨h1, h2⟩ := consumeIf_true e
    have h3 := len_adv_one h1
    have h4 := (le_trim s).len
    refine ⟨ht, ?_, ?_⟩
    · simp only [h2]; omega
    · simp only [hg]; rfl

/-- What the parsing functions guarantee of a tree they have read between `s` and `s'`. -/
def Grew (A d : Nat) (s : St) (e : Elem) (s' : St) (n : Nat) : Prop :=
  size e + 1 + 2 * s'.rest.length ≤ 2 * s.rest.length ∧
  n + d + A * s'.rest.length ≤ A * s.rest.length

section
variable {cfg : Cfg} {A Q N : Nat} (hA : A = Q + 20) {recC : Nat → St → R Elem × Nat}
  (hr : ∀ p s, Tot N s → Bd N (Grew A 1 s) (A * s.rest.length + (N + 20)) (recC p s))
include hr

theorem bd_argument (s : St) (hs : Tot N s) :
    Bd N (Grew A 1 s) (A * s.rest.length + (N + 20)) (argumentC cfg recC s) := by
  have h := hr noPrec s hs
  unfold argumentC
  generalize recC noPrec s = y at h ⊢
  rcases y with ⟨⟨a, s'⟩ | ⟨e, s'⟩ | p | _, n⟩
  · exact h
  · have ht : s'.pos + s'.rest.length = N := h.1
    have h2 := h.2
    rcases e with ⟨k, o, l⟩
    cases k with
    | unexpectedToken c =>
      simp only [extraOf] at h2
      simp only [errMissing]
      cases subOne cfg s'.pos with
      | error p => show n + (s'.pos + s'.rest.length + 1) ≤ _ + (N + 1); omega
      | ok o' =>
        refine ⟨h.1, ?_⟩
        show n + (s'.pos + s'.rest.length + 1) ≤ _ + (N + 1); omega
    | _ => exact h
  · exact h
  · exact h

include hA

theorem bd_args : ∀ (fuel : Nat) (args : List Elem) (s : St), Tot N s →
    Bd N (fun as s' n => sizeL as + 1 + 2 * s'.rest.length ≤ sizeL args + 2 * s.rest.length ∧
        n + A * s'.rest.length ≤ A * s.rest.length)
      (A * s.rest.length + (N + 20)) (parseArgsC cfg recC fuel args s)
  | 0, _, _, _ => by show 0 ≤ _; omega
  | fuel + 1, args, s, hs => by
    have sizeL_snoc : ∀ (as : List Elem) (a : Elem), sizeL (as ++ [a]) = sizeL as + size a := by
      intro as a
      induction as with
      | nil => simp [sizeL]
      | cons b bs ih => simp only [List.cons_append, sizeL, ih]; omega
    rw [parseArgsC]
    refine Bd.bind (bd_argument hr s hs) (Nat.le_refl _) ?_
    intro a s1 n hs1 ⟨h1, h2⟩
    have hle := (le_trim s1).len
    have ht := (le_trim s1).tot hs1
    have hg := gap_eq hs1 ht
    have hm := mul_step hA hle
    dsimp only
    cases hh : (trim s1).rest.head? with
    | none =>
      refine Bd.tick (bad' := A * s1.rest.length + (N + 20)) (Bd.tick (bad' := N + 1) ?_ ?_) ?_
      · exact bd_errC ht (errAt_end _ _) (Nat.le_refl _)
      · omega
      · omega
    | some c =>
      dsimp only
      have hadv := len_adv_one hh
      have hm1 := mul_step1 hA (show (adv (trim s1) 1).rest.length + 1 ≤ s1.rest.length by omega)
      split
      · refine Bd.tick (bad' := gap s1 (trim s1) + (A * (adv (trim s1) 1).rest.length + (N + 20)))
          (Bd.tick (bad' := A * (adv (trim s1) 1).rest.length + (N + 20)) ?_ (Nat.le_refl _)) ?_
        · refine Bd.mono (bd_args fuel (args ++ [a]) _ ((lt_one hh).le.tot ht)) ?_ (Nat.le_refl _)
          intro as s' n' _ ⟨h3, h4⟩
          rw [sizeL_snoc] at h3
          constructor
          · omega
          · omega
        · omega
      · split
        · refine ⟨ht, ?_, ?_⟩
          · rw [sizeL_snoc]; omega
          · simp only [tick, hg]; omega
        · refine Bd.tick (bad' := A * s1.rest.length + (N + 20)) (Bd.tick (bad' := N + 1) ?_ ?_) ?_
          · exact bd_errC ht (.inl ⟨_, rfl⟩) (Nat.le_refl _)
          · omega
          · omega

theorem bd_ident (ctx : Context) (s : St) (hs : Tot N s) {c : UInt8} (hc : s.rest.head? = some c)
    (hi : isIdChar c = true) :
    Bd N (Grew A (Q + 6) s) (A * s.rest.length + (N + 18)) (parseIdentC cfg ctx recC s) := by
  have hlt := lt_skipWhile hc hi
  have hl := hlt.len
  have ht := hlt.le.tot hs
  have hg := gap_eq hs ht
  have hm := mul_step1 hA (show (skipWhile isIdChar s).rest.length + 1 ≤ s.rest.length by omega)
  unfold parseIdentC
  dsimp only
  cases lookup ctx (s.rest.takeWhile isIdChar) with
  | const x =>
    refine ⟨ht, ?_, ?_⟩
    · simp only [size]; omega
    · simp only [hg]; omega
  | var x =>
    refine ⟨ht, ?_, ?_⟩
    · simp only [size]; omega
    · simp only [hg]; omega
  | func f =>
    dsimp only
    generalize skipWhile isIdChar s = s1 at *
    have ht2 := (le_consumeIf c!"(" s1).tot ht
    have hl2 := (le_consumeIf c!"(" s1).len
    have hg2 := gap_eq ht ht2
    have hm2 := mul_step hA hl2
    cases e : (consumeIf c!"(" s1).1
    · refine Bd.tick (bad' := gap s1 (consumeIf c!"(" s1).2 + (N + 1)) (Bd.tick (bad' := N + 1) ?_ ?_) ?_
      · exact bd_errC ht2 (.inl ⟨_, rfl⟩) (Nat.le_refl _)
      · omega
      · omega
    · have ⟨p1, p2⟩ := consumeIf_true e
      have hadv := len_adv_one p1
      have htr := (le_trim s1).len
      have hl3 : (consumeIf c!"(" s1).2.rest.length + 1 ≤ s1.rest.length := by rw [p2]; omega
      have hm3 := mul_step1 hA hl3
      generalize (consumeIf c!"(" s1).2 = s2 at *
      refine Bd.tick (bad' := gap s1 s2 + (A * s2.rest.length + (N + 20)))
        (Bd.tick (bad' := A * s2.rest.length + (N + 20)) ?_ (Nat.le_refl _)) ?_
      · refine Bd.bind (bd_args hA hr _ [] s2 ht2) (Nat.le_refl _) ?_
        intro args s3 n hs3 ⟨q1, q2⟩
        simp only [sizeL] at q1
        have hl4 : s3.rest.length ≤ s2.rest.length := by omega
        have hm4 := mul_step hA (Nat.zero_le s3.rest.length)
        refine Bd.tick (bad' := s3.rest.length + 1 + (N + 1)) ?_ ?_
        · refine Bd.bind (bd_assert _ hs3 (Nat.le_refl _)) (Nat.le_refl _) ?_
          intro _ s4 m hs4 ⟨r1, r2⟩
          have hm5 := mul_step hA (show s4.rest.length ≤ s3.rest.length by omega)
          have good : Bd N (fun e s' k => Grew A (Q + 6) s e s'
              (2 * gap s s1 + (gap s1 s2 + (n + (m + k))))) (N + 1) (.ok (.call f args) s4, 1) := by
            refine ⟨hs4, ?_, ?_⟩
            · simp only [size]; omega
            · simp only [hg, hg2]; omega
          refine Bd.tick (bad' := N + 1) ?_ ?_
          · unfold checkArityC
            cases f.nbArgs with
            | none => exact good
            | some k =>
              dsimp only
              split
              · exact good
              · split
                · exact bd_errC hs4 (.inl ⟨_, rfl⟩) (Nat.le_refl _)
                · exact bd_errC hs4 (.inl ⟨_, rfl⟩) (Nat.le_refl _)
          · omega
        · omega
      · omega

theorem bd_atom (ctx : Context) (s0 : St) (hs0 : Tot N s0) :
    Bd N (Grew A (Q + 5) s0) (A * s0.rest.length + (N + 19)) (atomC cfg ctx recC s0) := by
  have hl := (le_trim s0).len
  have hs := (le_trim s0).tot hs0
  have hg := gap_eq hs0 hs
  have hm := mul_step hA hl
  unfold atomC
  dsimp only
  generalize trim s0 = s at *
  cases hc : s.rest.head? with
  | none =>
    refine Bd.tick (bad' := N + 1) ?_ ?_
    · exact bd_errC hs (errAt_end _ _) (Nat.le_refl _)
    · omega
  | some c =>
    have hadv := len_adv_one hc
    have hta := (lt_one hc).le.tot hs
    have hm1 := mul_step1 hA (show (adv s 1).rest.length + 1 ≤ s.rest.length by omega)
    have hm0 := mul_step hA (Nat.zero_le (adv s 1).rest.length)
    dsimp only
    split
    · rename_i hd
      have hlt := lt_numEnd hc hd
      have hl1 := hlt.len
      have ht1 := hlt.le.tot hs
      have hg1 := gap_eq hs ht1
      have hm2 := mul_step1 hA (show (numEnd s).rest.length + 1 ≤ s.rest.length by omega)
      unfold parseNumberC
      dsimp only
      cases parseF64 ((s.rest.take ((numEnd s).pos - s.pos)).filter (· ≠ c!"_")) with
      | some x =>
        refine ⟨ht1, ?_, ?_⟩
        · simp only [size]; omega
        · simp only [tick, hg, hg1]; omega
      | none =>
        refine Bd.tick (bad' := 3 * gap s (numEnd s) + 3 + (N + 1)) (Bd.tick (bad' := N + 1) ?_ ?_) ?_
        · exact bd_errC ht1 (.inl ⟨_, rfl⟩) (Nat.le_refl _)
        · omega
        · omega
    split
    · rename_i hi
      have hi' : isIdChar c = true := by
        simp only [isIdStart, Bool.or_eq_true] at hi
        simp only [isIdChar, Bool.or_eq_true]
        rcases hi with h | h <;> simp [h]
      refine Bd.tick (bad' := A * s.rest.length + (N + 18)) ?_ ?_
      · refine Bd.mono (bd_ident hA hr ctx s hs hc hi') ?_ (Nat.le_refl _)
        intro e s' n _ ⟨h1, h2⟩
        refine ⟨by omega, ?_⟩
        simp only [hg]; omega
      · omega
    have signed : ∀ op, Bd N (Grew A (Q + 5) s0) (A * s0.rest.length + (N + 19))
        (tick (gap s0 s) (R.bindC (recC unopPrec (adv s 1)) fun e s' => (.ok (.un op e) s', 1))) := by
      intro op
      refine Bd.tick (bad' := A * (adv s 1).rest.length + (N + 20)) ?_ ?_
      · refine Bd.bind (hr unopPrec _ hta) (Nat.le_refl _) ?_
        intro e s' n hs' ⟨h1, h2⟩
        refine ⟨hs', ?_, ?_⟩
        · simp only [size]; omega
        · simp only [hg]; omega
      · omega
    split
    · exact signed _
    split
    · exact signed _
    split
    · refine Bd.tick (bad' := A * (adv s 1).rest.length + (N + 20)) ?_ ?_
      · refine Bd.bind (hr noPrec _ hta) (Nat.le_refl _) ?_
        intro e s' n hs' ⟨h1, h2⟩
        have hm4 := mul_step hA (Nat.zero_le s'.rest.length)
        refine Bd.tick (bad' := s'.rest.length + 1 + (N + 1)) ?_ ?_
        · refine Bd.bind (bd_assert _ hs' (Nat.le_refl _)) (Nat.le_refl _) ?_
          intro _ s4 m hs4 ⟨r1, r2⟩
          have hm5 := mul_step1 hA r1
          refine ⟨hs4, ?_, ?_⟩
          · omega
          · simp only [hg]; omega
        · omega
      · omega
    split
    · refine Bd.tick (bad' := N + 1) ?_ ?_
      · exact bd_errC hs (.inl ⟨_, rfl⟩) (Nat.le_refl _)
      · omega
    · refine Bd.tick (bad' := N + 1) ?_ ?_
      · exact bd_errC hs (.inl ⟨_, rfl⟩) (Nat.le_refl _)
      · omega

theorem bd_opLoop (p : Nat) : ∀ (fuel : Nat) (el : Elem) (s : St), Tot N s →
    Bd N (fun e s' n => size e + 2 * s'.rest.length ≤ size el + 2 * s.rest.length ∧
        n + A * s'.rest.length ≤ A * s.rest.length + 1)
      (A * s.rest.length + (N + 21)) (opLoopC cfg recC p fuel el s)
  | 0, _, _, _ => by show 0 ≤ _; omega
  | fuel + 1, el, s, hs => by
    rw [opLoopC]
    have hl := (le_trim s).len
    have ht := (le_trim s).tot hs
    have hg := gap_eq hs ht
    have hm := mul_step hA hl
    rcases ho : opInfo cfg el p (trim s) with _ | ⟨op, q, k⟩
    · refine ⟨ht, ?_, ?_⟩
      · omega
      · simp only [hg]; omega
    · have hle := opInfo_le ho
      have hl2 := hle.len
      have ht2 := hle.tot ht
      simp only []
      generalize adv (trim s) k = s1 at *
      have hm2 := mul_step hA hl2
      refine Bd.tick (bad' := A * s1.rest.length + (N + 20)) ?_ ?_
      · refine Bd.bind (hr q s1 ht2) (Nat.le_refl _) ?_
        intro e s2 n hs2 ⟨h1, h2⟩
        refine Bd.tick (bad' := A * s2.rest.length + (N + 21)) ?_ ?_
        · refine Bd.mono (bd_opLoop p fuel _ s2 hs2) ?_ (Nat.le_refl _)
          intro e' s' n' _ ⟨h3, h4⟩
          simp only [size] at h3
          constructor
          · omega
          · simp only [hg]; omega
        · omega
      · omega

theorem bd_elementF {w : World} (hQ : ∀ e s, size e + 1 ≤ 2 * N → (finishC cfg w e s).2 ≤ Q)
    (ctx : Context) (p : Nat) (s : St) (hs : Tot N s) :
    Bd N (Grew A 1 s) (A * s.rest.length + (N + 20)) (elementFC cfg w ctx recC p s) := by
  have hN : s.pos + s.rest.length = N := hs
  unfold elementFC
  refine Bd.tick (bad' := A * s.rest.length + (N + 19)) ?_ (by omega)
  refine Bd.bind (bd_atom hA hr ctx s hs) (Nat.le_refl _) ?_
  intro a s1 n hs1 ⟨h1, h2⟩
  dsimp only
  have hl := (le_consumeIf c!"!" s1).len
  have ht := (le_consumeIf c!"!" s1).tot hs1
  have hg := gap_eq hs1 ht
  have hm := mul_step hA hl
  have hel : size (if (consumeIf c!"!" s1).1 then .un .factorial a else a) + 1 +
      2 * (consumeIf c!"!" s1).2.rest.length ≤ 2 * s.rest.length := by
    split
    · rename_i e
      have ⟨p1, p2⟩ := consumeIf_true e
      have hadv := len_adv_one p1
      have htr := (le_trim s1).len
      rw [p2]; simp only [size]; omega
    · omega
  generalize (if (consumeIf c!"!" s1).1 then Elem.un .factorial a else a) = el at *
  generalize (consumeIf c!"!" s1).2 = s2 at *
  refine Bd.tick (bad' := gap s1 s2 + (A * s2.rest.length + (N + 21 + Q)))
    (Bd.tick (bad' := A * s2.rest.length + (N + 21 + Q)) ?_ (Nat.le_refl _)) (by omega)
  refine Bd.bind (bd_opLoop hA hr p _ el s2 ht) (by omega) ?_
  intro e s3 m hs3 ⟨h3, h4⟩
  have hfin := hQ e s3 (by omega)
  have hsz : ∀ e' s', (finishC cfg w e s3).1 = .ok e' s' → size e' ≤ size e ∧ s' = s3 := by
    intro e' s' h
    unfold finishC at h
    split at h
    · rcases e1 : simplifyC cfg w e with ⟨_ | e2, k⟩
      · rw [e1] at h; cases h
      · rw [e1] at h; cases h
        exact ⟨simplify_size e (by rw [← simplifyC_fst, e1]), rfl⟩
    · cases h; exact ⟨Nat.le_refl _, rfl⟩
  have herr : ∀ e' s', (finishC cfg w e s3).1 ≠ .err e' s' := by
    intro e' s' h
    unfold finishC at h
    split at h
    · rcases e1 : simplifyC cfg w e with ⟨_ | e2, k⟩
      · rw [e1] at h; cases h
      · rw [e1] at h; cases h
    · cases h
  generalize finishC cfg w e s3 = y at *
  rcases y with ⟨⟨e', s'⟩ | ⟨e', s'⟩ | p | _, k⟩
  · obtain ⟨q1, rfl⟩ := hsz e' s' rfl
    refine ⟨hs3, ?_, ?_⟩
    · omega
    · dsimp only at hfin; simp only [hg]; omega
  · exact absurd rfl (herr e' s')
  · dsimp only at hfin
    show m + k ≤ _ + (N + 1); omega
  · dsimp only at hfin
    show m + k ≤ _ + (N + 1); omega

end

theorem bd_element {cfg : Cfg} {A Q N : Nat} (hA : A = Q + 20) {w : World}
    (hQ : ∀ e s, size e + 1 ≤ 2 * N → (finishC cfg w e s).2 ≤ Q) (ctx : Context) :
    ∀ (n p : Nat) (s : St), Tot N s →
      Bd N (Grew A 1 s) (A * s.rest.length + (N + 20)) (elementC cfg w ctx n p s)
  | 0, _, _, _ => by show 0 ≤ _; omega
  | n + 1, p, s, hs => bd_elementF hA (bd_element hA hQ ctx n) hQ ctx p s hs

/-- The steps of parsing `N` bytes when a simplification of a sub-expression of this text
takes at most `Q` steps. -/
theorem parseC_le {cfg : Cfg} {Q : Nat} {w : World} {o : Oracle} {ctx : Context} {input : Bytes}
    (hQ : ∀ e s, size e + 1 ≤ 2 * input.length → (finishC cfg w e s).2 ≤ Q) :
    (parseC cfg w o ctx input).2 ≤
      Q * input.length + 26 * input.length + 22 + (ctx.getExpected.getD []).length := by
  have h := bd_element (A := Q + 20) rfl hQ ctx (input.length + 1) noPrec ⟨0, input⟩
    (by simp [Tot])
  have hmul : (Q + 20) * input.length = Q * input.length + 20 * input.length := Nat.add_mul _ _ _
  have himpl : (parseImplC cfg w ctx input).2 ≤ Q * input.length + 24 * input.length + 22 ∧
      ∀ x, (parseImplC cfg w ctx input).1 = .ok x → x.vars.length ≤ 2 * input.length ∧
        (parseImplC cfg w ctx input).2 ≤ Q * input.length + 23 * input.length + 22 := by
    unfold parseImplC
    generalize elementC cfg w ctx (input.length + 1) noPrec ⟨0, input⟩ = y at *
    rcases y with ⟨⟨e, s⟩ | ⟨e, s⟩ | p | _, n⟩
    · obtain ⟨ht, h1, h2⟩ := h
      dsimp only at h1 h2 ⊢
      have hl := (le_trim s).len
      have ht' := (le_trim s).tot ht
      have hg := gap_eq ht ht'
      have hm := mul_step (A := Q + 20) rfl hl
      have hv := findVars_length e []
      have hc := findCost_eq e
      simp only [List.length_nil] at hv
      cases (trim s).rest.head? with
      | some c =>
        constructor
        · simp only [tick_snd]; omega
        · intro x hx; cases hx
      | none =>
        constructor
        · simp only [tick_snd]; omega
        · intro x hx; cases hx
          refine ⟨?_, ?_⟩
          · dsimp only; omega
          · simp only [tick_snd]; omega
    · have h2 := h.2
      dsimp only at h2 ⊢
      have : extraOf input.length e ≤ input.length + 1 := by unfold extraOf; split <;> omega
      exact ⟨by omega, by intro x hx; cases hx⟩
    · have h2 : n ≤ _ := h
      dsimp only at h2 ⊢
      exact ⟨by omega, by intro x hx; cases hx⟩
    · have h2 : n ≤ _ := h
      dsimp only at h2 ⊢
      exact ⟨by omega, by intro x hx; cases hx⟩
  obtain ⟨g1, g2⟩ := himpl
  unfold parseC
  rcases e1 : parseImplC cfg w ctx input with ⟨x | e | p | _, n⟩
  · rw [e1] at g1 g2
    obtain ⟨g3, g4⟩ := g2 x rfl
    dsimp only at g1 g4 ⊢
    cases ctx.getExpected with
    | none => dsimp only; omega
    | some vs =>
      dsimp only [Option.getD]
      cases (diffVars o x.vars vs).head? <;> (dsimp only; omega)
  · rw [e1] at g1; dsimp only at g1 ⊢; omega
  · rw [e1] at g1; dsimp only at g1 ⊢; omega
  · rw [e1] at g1; dsimp only at g1 ⊢; omega

end Xprs
