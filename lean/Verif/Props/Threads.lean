import Verif.Threads
import Verif.Lemmas.Calls
import Verif.Props.Effects
/-
C52: evaluations in several threads.  The machine is in `Verif/Threads.lean`.
-/
namespace Xprs
open Spec

variable {σ : Type}

/-! ### A task and what it has been answered -/

/-- The task `T`, after the calls and answers of the list, has become `T'`. -/
inductive Feed : Task → List Call → Task → Prop
  | nil {T} : Feed T [] T
  | cons {p args k r cs T'} : Feed (k r) cs T' → Feed (.ask p args k) (⟨p, args, r⟩ :: cs) T'

theorem Feed.snoc {T : Task} {cs : List Call} {p : FnPtr} {args : List F64} {k : Option F64 → Task}
    (h : Feed T cs (.ask p args k)) (r : Option F64) : Feed T (cs ++ [⟨p, args, r⟩]) (k r) := by
  generalize he : Task.ask p args k = T' at h
  induction h with
  | nil => subst he; exact .cons .nil
  | cons _ ih => exact .cons (ih he)

theorem feed_done {r : Except EvErr F64} {cs : List Call} {T : Task} (h : Feed (.done r) cs T) :
    cs = [] ∧ T = .done r := by
  cases h; exact ⟨rfl, rfl⟩

/-- The evaluation stopped or stands at a call. -/
def Halted (calls : List FnPtr) (cs : List Call) (T : Task) : Prop :=
  cs.map (·.fn) <+: calls ∧
    ((∃ r, T = .done (.error r)) ∨ ∃ p args k, T = .ask p args k ∧ cs.map (·.fn) ++ [p] <+: calls)

theorem Halted.mono {c : List FnPtr} {cs : List Call} {T : Task} (h : Halted c cs T) (d : List FnPtr) :
    Halted (c ++ d) cs T := by
  obtain ⟨h1, h2⟩ := h
  refine ⟨h1.trans (List.prefix_append _ _), ?_⟩
  rcases h2 with h2 | ⟨p, args, k, h2, h3⟩
  · exact .inl h2
  · exact .inr ⟨p, args, k, h2, h3.trans (List.prefix_append _ _)⟩

theorem Halted.after {c d : List FnPtr} {ds cs : List Call} {T : Task} (hd : ds.map (·.fn) = d)
    (h : Halted c cs T) : Halted (d ++ c) (ds ++ cs) T := by
  obtain ⟨h1, h2⟩ := h
  rw [Halted, List.map_append, hd]
  refine ⟨(List.prefix_append_right_inj _).2 h1, ?_⟩
  rcases h2 with h2 | ⟨p, args, k, h2, h3⟩
  · exact .inl h2
  · exact .inr ⟨p, args, k, h2, by rw [List.append_assoc]; exact (List.prefix_append_right_inj _).2 h3⟩

/-- Either the part is done, with the value of the answers, or the evaluation halted in
it. -/
def Passed (calls : List FnPtr) {α : Type} (P : List Call → α → Prop) (k : α → Task) (cs : List Call) (T : Task) :
    Prop :=
  (∃ c c' v, cs = c ++ c' ∧ c.map (·.fn) = calls ∧ P c v ∧ Feed (k v) c' T) ∨ Halted calls cs T

theorem passed_ofPM {x : PM F64} {calls : List FnPtr} {P : List Call → F64 → Prop} {k : F64 → Task}
    {c cs : List Call} {T : Task} (h : Feed (.ofPM x k) cs T) (hc : c.map (·.fn) = calls)
    (hp : ∀ v, x = .ok v → P c v) : Passed calls P k (c ++ cs) T := by
  unfold Task.ofPM at h
  cases x with
  | ok v => exact .inl ⟨c, cs, v, rfl, hc, hp v rfl, h⟩
  | error p =>
    obtain ⟨h1, h2⟩ := feed_done h
    subst h1
    refine .inr ⟨?_, .inl ⟨_, h2⟩⟩
    rw [List.append_nil, hc]

mutual
theorem feed_evalK (w : World) (m : HMap F64) : ∀ (e : Elem) (k : F64 → Task) {cs : List Call} {T : Task},
    Feed (evalK w m e k) cs T → Passed (userCalls e) (Evaluates w m e) k cs T
  | .num x, k, cs, T, h => by
    rw [evalK] at h
    exact .inl ⟨[], cs, x, rfl, rfl, .num, h⟩
  | .var n, k, cs, T, h => by
    rw [evalK] at h
    cases hn : m.get n with
    | some x =>
      rw [hn] at h
      exact .inl ⟨[], cs, x, rfl, rfl, .var hn, h⟩
    | none =>
      rw [hn] at h
      obtain ⟨h1, h2⟩ := feed_done h
      subst h1
      exact .inr ⟨List.prefix_refl _, .inl ⟨_, h2⟩⟩
  | .un op e, k, cs, T, h => by
    rw [evalK] at h
    rw [userCalls]
    rcases feed_evalK w m e _ h with ⟨c, c', v, rfl, h1, h2, h3⟩ | h1
    · refine passed_ofPM h3 h1 fun y hy => trace_un w m e op v c h2 y ?_
      rw [hy]; rfl
    · exact .inr h1
  | .bin op l r, k, cs, T, h => by
    rw [evalK] at h
    rw [userCalls]
    rcases feed_evalK w m l _ h with ⟨c, c', a, rfl, h1, h2, h3⟩ | h1
    · rcases feed_evalK w m r _ h3 with ⟨d, d', b, rfl, g1, g2, g3⟩ | g1
      · rw [← List.append_assoc]
        refine passed_ofPM g3 (by rw [List.map_append, h1, g1]) fun y hy =>
          trace_bin w m l r op a b c d h2 g2 y ?_
        rw [hy]; rfl
      · exact .inr (g1.after h1)
    · exact .inr (h1.mono _)
  | .call f args, k, cs, T, h => by
    rw [evalK] at h
    rcases feed_evalKL w m args _ h with ⟨c, c', vs, rfl, h1, h2, h3⟩ | h1
    · rcases fn_cases f with ⟨b, hb⟩ | hf
      · rw [userCalls]
        simp only [hb, List.append_nil] at h3 ⊢
        exact passed_ofPM h3 h1 fun y hy => .builtin h2 hb hy
      · have hu : userCalls (.call f args) = userCallsL args ++ [f.func] := by
          rw [userCalls]
          cases h : f.func with
          | builtin b => exact absurd h (hf b)
          | static _ => rfl
          | dyn _ => rfl
        have h4 : Feed (.ask f.func vs fun | some v => k v | none => .done (.error (.panic .user))) c' T := by
          revert h3
          cases h : f.func with
          | builtin b => exact absurd h (hf b)
          | static _ => exact id
          | dyn _ => exact id
        rw [hu]
        cases h4 with
        | nil =>
          rw [List.append_nil]
          refine .inr ⟨by rw [h1]; exact List.prefix_append _ _, .inr ⟨_, _, _, rfl, ?_⟩⟩
          rw [h1]
        | @cons _ _ _ r cs' _ h5 =>
          cases r with
          | none =>
            obtain ⟨h6, h7⟩ := feed_done h5
            subst h6
            refine .inr ⟨?_, .inl ⟨_, h7⟩⟩
            rw [List.map_append, h1]
            exact List.prefix_refl _
          | some v =>
            refine .inl ⟨c ++ [⟨f.func, vs, some v⟩], cs', v, by rw [List.append_assoc]; rfl, ?_,
              .user h2 hf, h5⟩
            rw [List.map_append, h1]
            rfl
    · rw [userCalls]
      exact .inr (h1.mono _)
theorem feed_evalKL (w : World) (m : HMap F64) : ∀ (l : List Elem) (k : List F64 → Task) {cs : List Call} {T : Task},
    Feed (evalKL w m l k) cs T → Passed (userCallsL l) (EvaluatesL w m l) k cs T
  | [], k, cs, T, h => by
    rw [evalKL] at h
    exact .inl ⟨[], cs, [], rfl, rfl, .nil, h⟩
  | a :: as, k, cs, T, h => by
    rw [evalKL] at h
    rw [userCallsL]
    rcases feed_evalK w m a _ h with ⟨c, c', v, rfl, h1, h2, h3⟩ | h1
    · rcases feed_evalKL w m as _ h3 with ⟨d, d', vs, rfl, g1, g2, g3⟩ | g1
      · rw [← List.append_assoc]
        exact .inl ⟨c ++ d, d', v :: vs, rfl, by rw [List.map_append, h1, g1], .cons h2 g2, g3⟩
      · exact .inr (g1.after h1)
    · exact .inr (h1.mono _)
end

/-- A task alone is the evaluation with memory. -/
def goOn (u : Stateful σ) {α : Type} (x : Except EvErr α × σ) (k : α → Task) : Except EvErr F64 × σ :=
  match x with
  | (.ok v, t) => (k v).alone u t
  | (.error r, t) => (.error r, t)

theorem alone_ofPM (u : Stateful σ) (x : PM F64) (k : F64 → Task) (t : σ) :
    (Task.ofPM x k).alone u t = goOn u (liftP x, t) k := by
  cases x <;> rfl

mutual
theorem evalK_alone (w : World) (u : Stateful σ) (m : HMap F64) : ∀ (e : Elem) (k : F64 → Task) (t : σ),
    (evalK w m e k).alone u t = goOn u (evalS w u m e t) k
  | .num x, k, t => by rw [evalK, evalS]; rfl
  | .var n, k, t => by
    rw [evalK, evalS]
    cases m.get n <;> rfl
  | .un op e, k, t => by
    rw [evalK, evalS, evalK_alone w u m e]
    rcases evalS w u m e t with ⟨r | v, t1⟩
    · rfl
    · exact alone_ofPM u _ _ _
  | .bin op l r, k, t => by
    rw [evalK, evalS, evalK_alone w u m l]
    rcases evalS w u m l t with ⟨q | v, t1⟩
    · rfl
    · dsimp only [goOn]
      rw [evalK_alone w u m r]
      rcases evalS w u m r t1 with ⟨q | v', t2⟩
      · rfl
      · exact alone_ofPM u _ _ _
  | .call f args, k, t => by
    rw [evalK, evalS, evalKL_alone w u m args]
    rcases evalSL w u m args t with ⟨q | vs, t1⟩
    · rfl
    · dsimp only [goOn]
      rcases fn_cases f with ⟨b, hb⟩ | hf
      · rw [callS_builtin _ _ hb]
        simp only [hb]
        exact alone_ofPM u _ _ _
      · rw [callS_user _ _ hf]
        cases h : f.func with
        | builtin b => exact absurd h (hf b)
        | static a =>
          dsimp only [Task.alone]
          rcases u.call (.static a) vs t1 with ⟨_ | v, t2⟩ <;> rfl
        | dyn a =>
          dsimp only [Task.alone]
          rcases u.call (.dyn a) vs t1 with ⟨_ | v, t2⟩ <;> rfl
theorem evalKL_alone (w : World) (u : Stateful σ) (m : HMap F64) : ∀ (l : List Elem) (k : List F64 → Task) (t : σ),
    (evalKL w m l k).alone u t = goOn u (evalSL w u m l t) k
  | [], k, t => by rw [evalKL, evalSL]; rfl
  | a :: as, k, t => by
    rw [evalKL, evalSL, evalK_alone w u m a]
    rcases evalS w u m a t with ⟨q | v, t1⟩
    · rfl
    · dsimp only [goOn]
      rw [evalKL_alone w u m as]
      rcases evalSL w u m as t1 with ⟨q | v', t2⟩ <;> rfl
end

/-! ### The machine -/

namespace Props

/-- The calls of thread `i`. -/
def callsOf (i : Nat) (l : List Event) : List Call :=
  (l.filter fun e => e.thread = i).map fun e => ⟨e.fn, e.args, e.res⟩
/-- All calls, of whatever thread. -/
def allCalls (l : List Event) : List Call := l.map fun e => ⟨e.fn, e.args, e.res⟩

theorem callsOf_snoc (i : Nat) (l : List Event) (e : Event) :
    callsOf i (l ++ [e]) = callsOf i l ++ if e.thread = i then [⟨e.fn, e.args, e.res⟩] else [] := by
  unfold callsOf
  rw [List.filter_append, List.map_append]
  by_cases h : e.thread = i <;> simp [h]

/-- What is known of the machine at any time. -/
structure Sound (w : World) (u : Stateful σ) (es : Nat → Xpr) (ms : Nat → HMap F64) (t : σ) (s : Machine σ) :
    Prop where
  fed : ∀ i, Feed ((es i).task w (ms i)) (callsOf i s.log) (s.tasks i)
  mem : Outcomes u t (allCalls s.log) s.mem

theorem sound_turn {w : World} {u : Stateful σ} {es : Nat → Xpr} {ms : Nat → HMap F64} {t : σ} {s : Machine σ}
    (h : Sound w u es ms t s) (i : Nat) : Sound w u es ms t (s.turn u i) := by
  unfold Machine.turn
  cases ht : s.tasks i with
  | done r => exact h
  | ask p args k =>
    refine ⟨fun j => ?_, ?_⟩
    · dsimp only
      rw [callsOf_snoc]
      by_cases hj : j = i
      · subst hj
        rw [if_pos rfl, if_pos rfl]
        exact (ht ▸ h.fed j).snoc _
      · rw [if_neg hj, if_neg (fun q => hj q.symm), List.append_nil]
        exact h.fed j
    · dsimp only
      unfold allCalls
      rw [List.map_append]
      exact h.mem.append (.cons .nil)

theorem sound_run {w : World} {u : Stateful σ} {es : Nat → Xpr} {ms : Nat → HMap F64} {t : σ} :
    ∀ (is : List Nat) {s : Machine σ}, Sound w u es ms t s → Sound w u es ms t (s.run u is)
  | [], _, h => h
  | i :: is, _, h => sound_run is (sound_turn h i)

theorem sound_start (w : World) (u : Stateful σ) (es : Nat → Xpr) (ms : Nat → HMap F64) (t : σ) :
    Sound w u es ms t (.start w es ms t) := ⟨fun _ => .nil, .nil⟩

/-- A thread of the machine that is alone evaluates as `Xprs::eval` does. -/
theorem C52_alone (w : World) (u : Stateful σ) (e : Xpr) (m : HMap F64) (t : σ) :
    (e.task w m).alone u t = e.evalS w u m t := by
  unfold Xpr.task Xpr.evalS
  rw [evalK_alone]
  rcases evalS w u m e.root t with ⟨r | v, t1⟩ <;> rfl

/-- Under every schedule each thread makes the calls of its own tree in order, whatever
the others do, and when it is done its value is that of the answers it got itself.  The
functions see the calls of all threads in one row. -/
theorem C52_interleaved (w : World) (u : Stateful σ) (es : Nat → Xpr) (ms : Nat → HMap F64) (t : σ)
    (schedule : List Nat) :
    (∀ i, (callsOf i ((Machine.start w es ms t).run u schedule).log).map (·.fn) <+: userCalls (es i).root ∧
      ∀ v, ((Machine.start w es ms t).run u schedule).tasks i = .done (.ok v) →
        (callsOf i ((Machine.start w es ms t).run u schedule).log).map (·.fn) = userCalls (es i).root ∧
        Evaluates w (ms i) (es i).root (callsOf i ((Machine.start w es ms t).run u schedule).log) v) ∧
    Outcomes u t (allCalls ((Machine.start w es ms t).run u schedule).log)
      ((Machine.start w es ms t).run u schedule).mem := by
  have h := sound_run schedule (sound_start w u es ms t)
  refine ⟨fun i => ?_, h.mem⟩
  rcases feed_evalK w (ms i) (es i).root _ (h.fed i) with ⟨c, c', v, h1, h2, h3, h4⟩ | ⟨h1, h2⟩
  · obtain ⟨h5, h6⟩ := feed_done h4
    subst h5
    rw [List.append_nil] at h1
    rw [h1]
    refine ⟨by rw [h2], fun v' hv => ⟨h2, ?_⟩⟩
    rw [h6] at hv
    cases hv
    exact h3
  · refine ⟨h1, fun v hv => ?_⟩
    rcases h2 with ⟨r, h2⟩ | ⟨p, args, k, h2, _⟩ <;> rw [h2] at hv <;> cases hv

theorem outcomes_memoryless {w : World} {u : Stateful σ} (hu : Memoryless w u) {t t' : σ} {l : List Call}
    (h : Outcomes u t l t') : ∀ c ∈ l, c.res = w.user c.fn c.args := by
  induction h with
  | nil => intro c hc; cases hc
  | cons _ ih =>
    intro c hc
    rcases List.mem_cons.1 hc with rfl | hc
    · exact hu _ _ _
    · exact ih c hc

theorem feed_alone {w : World} {T T' : Task} {l : List Call} (h : Feed T l T') :
    (∀ c ∈ l, c.res = w.user c.fn c.args) → T.alone (forgetful w) () = T'.alone (forgetful w) () := by
  induction h with
  | nil => intro _; rfl
  | @cons p args k r cs T' _ ih =>
    intro hl
    rw [← ih fun c hc => hl c (List.mem_cons_of_mem _ hc)]
    have : r = w.user p args := hl ⟨p, args, r⟩ List.mem_cons_self
    rw [this]
    rfl

theorem callsOf_sub {i : Nat} {l : List Event} {c : Call} (h : c ∈ callsOf i l) : c ∈ allCalls l := by
  unfold callsOf at h
  unfold allCalls
  rw [List.mem_map] at h ⊢
  obtain ⟨e, h1, h2⟩ := h
  exact ⟨e, (List.mem_filter.1 h1).1, h2⟩

/-- Functions without memory: under every schedule, a thread that is done has what
`Xprs::eval` yields without any other thread. -/
theorem C52_independent (w : World) (u : Stateful σ) (hu : Memoryless w u) (es : Nat → Xpr) (ms : Nat → HMap F64)
    (t : σ) (schedule : List Nat) (i : Nat) (r : Except EvErr F64)
    (hd : ((Machine.start w es ms t).run u schedule).tasks i = .done r) : r = (es i).eval w (ms i) := by
  have h := sound_run schedule (sound_start w u es ms t)
  have h1 := h.fed i
  rw [hd] at h1
  have h2 := feed_alone (w := w) h1 fun c hc => outcomes_memoryless hu h.mem c (callsOf_sub hc)
  rw [C52_alone] at h2
  unfold Xpr.evalS at h2
  rw [evalS_forgetful] at h2
  exact (congrArg Prod.fst h2).symm

theorem turn_other (u : Stateful σ) (s : Machine σ) {i j : Nat} (h : j ≠ i) :
    (s.turn u i).tasks j = s.tasks j ∧ callsOf j (s.turn u i).log = callsOf j s.log := by
  unfold Machine.turn
  cases s.tasks i with
  | done r => exact ⟨rfl, rfl⟩
  | ask p args k =>
    dsimp only
    rw [if_neg h, callsOf_snoc, if_neg (fun q => h q.symm), List.append_nil]
    exact ⟨rfl, rfl⟩

/-- A thread that is not done has used all its turns. -/
theorem turns_used (u : Stateful σ) (i : Nat) : ∀ (is : List Nat) (s : Machine σ),
    (∀ r, (s.run u is).tasks i ≠ .done r) →
    (callsOf i (s.run u is).log).length = (callsOf i s.log).length + is.count i
  | [], s, _ => rfl
  | j :: is, s, h => by
    have ih := turns_used u i is (s.turn u j) h
    rw [Machine.run, ih]
    by_cases hj : j = i
    · subst hj
      rw [List.count_cons_self]
      cases ht : s.tasks j with
      | done r =>
        exfalso
        have h0 : s.turn u j = s := by unfold Machine.turn; rw [ht]
        have key : ∀ (is : List Nat) (s : Machine σ), s.tasks j = .done r → (s.run u is).tasks j = .done r := by
          intro is
          induction is with
          | nil => intro s hs; exact hs
          | cons k is ih =>
            intro s hs
            refine ih _ ?_
            by_cases hk : j = k
            · subst hk
              unfold Machine.turn
              rw [hs]
              exact hs
            · rw [(turn_other u s hk).1]; exact hs
        refine h r (key (j :: is) s ht)
      | ask p args k =>
        have : callsOf j (s.turn u j).log = callsOf j s.log ++ [⟨p, args, (u.call p args s.mem).1⟩] := by
          unfold Machine.turn
          rw [ht]
          dsimp only
          rw [callsOf_snoc, if_pos rfl]
        rw [this, List.length_append, List.length_singleton]
        omega
    · rw [(turn_other u s fun q => hj q.symm).2, List.count_cons_of_ne (by exact hj)]

/-- No thread waits for another: one that has had as many turns as its tree has calls is
done, whatever the others do. -/
theorem C52_progress (w : World) (u : Stateful σ) (es : Nat → Xpr) (ms : Nat → HMap F64) (t : σ)
    (schedule : List Nat) (i : Nat) (hi : (userCalls (es i).root).length ≤ schedule.count i) :
    ∃ r, ((Machine.start w es ms t).run u schedule).tasks i = .done r := by
  by_contra hn
  have hn : ∀ r, ((Machine.start w es ms t).run u schedule).tasks i ≠ .done r := fun r hr => hn ⟨r, hr⟩
  have h1 := turns_used u i schedule _ hn
  have h := sound_run schedule (sound_start w u es ms t)
  rcases feed_evalK w (ms i) (es i).root _ (h.fed i) with ⟨c, c', v, _, _, _, h4⟩ | ⟨_, h2⟩
  · exact hn _ (feed_done h4).2
  · rcases h2 with ⟨r, h2⟩ | ⟨p, args, k, _, h3⟩
    · exact hn _ h2
    · have := h3.length_le
      rw [List.length_append, List.length_map, h1] at this
      simp only [List.length_singleton] at this
      omega

/-- The claim that a thread's result does not depend on the others, whatever functions
the expressions call. -/
def C52_claim : Prop :=
  ∀ (σ : Type) (w : World) (u : Stateful σ) (es : Nat → Xpr) (ms : Nat → HMap F64) (t : σ)
    (schedule : List Nat) (i : Nat) (r : Except EvErr F64),
    ((Machine.start w es ms t).run u schedule).tasks i = .done r → r = ((es i).evalS w u (ms i) t).1

/-- `f(1)`, unsimplified. -/
def callF : Xpr := ⟨.call ⟨b!"f", .dyn 1, some 1⟩ [.num F64.f1], []⟩

/-- It is false for functions with a memory: two threads share a counter. -/
theorem C52_refuted : ¬ C52_claim := by
  intro h
  have := h Nat w0 counter (fun _ => callF) (fun _ => HMap.empty) 0 [1, 0] 0 (.ok (F64.ofNat 1)) rfl
  revert this
  decide +kernel

/-- Two threads evaluate `f(1)-f(1)` with the counter in turns: 0 - 2 and 1 - 3. -/
example : let e : Xpr := ⟨.bin .minus callF.root callF.root, []⟩
    let s := (Machine.start w0 (fun _ => e) (fun _ => HMap.empty) 0).run counter [0, 1, 0, 1]
    s.tasks 0 = .done (.ok (F64.sub (F64.ofNat 0) (F64.ofNat 2))) ∧
    s.tasks 1 = .done (.ok (F64.sub (F64.ofNat 1) (F64.ofNat 3))) ∧ s.mem = 4 := ⟨rfl, rfl, rfl⟩
/-- A function without memory, and a schedule that lets both threads finish. -/
example : let w : World := { w0 with user := fun _ args => args.head? }
    let u : Stateful Nat := ⟨fun _ args n => (args.head?, n + 1)⟩
    Memoryless w u ∧
    ((Machine.start w (fun _ => callF) (fun _ => HMap.empty) 0).run u [1, 0]).tasks 0 = .done (.ok F64.f1) :=
  ⟨fun _ _ _ => rfl, rfl⟩

end Props
end Xprs
