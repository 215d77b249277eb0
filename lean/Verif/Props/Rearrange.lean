import Verif.Spec.Rearrange
import Verif.Props.Lattice
import Verif.Props.Steady
import Verif.Print
/-
Property C113: the order in which an expression is written.
-/
namespace Xprs
namespace Props
open _root_.Xprs.Spec
set_option exponentiation.threshold 4096

section
variable {w : World} {m : HMap F64}

theorem runs_det {e : Elem} {u v : F64} (h : Runs w m e u) (k : Runs w m e v) : u = v :=
  Except.ok.inj ((runs_eval _ h).symm.trans (runs_eval _ k))

theorem runsL_append {as bs : List Elem} {vs us : List F64} (h : RunsL w m as vs) (k : RunsL w m bs us) :
    RunsL w m (as ++ bs) (vs ++ us) := by
  induction as generalizing vs with
  | nil => cases h; exact k
  | cons a as ih =>
    cases h with
    | cons h1 h2 => exact .cons h1 (ih h2)

theorem runsL_split {as bs : List Elem} {xs : List F64} (h : RunsL w m (as ++ bs) xs) :
    ∃ vs us, xs = vs ++ us ∧ RunsL w m as vs ∧ RunsL w m bs us := by
  induction as generalizing xs with
  | nil => exact ⟨[], xs, rfl, .nil, h⟩
  | cons a as ih =>
    cases h with
    | cons h1 h2 =>
      obtain ⟨vs, us, rfl, h3, h4⟩ := ih h2
      exact ⟨_ :: vs, us, rfl, .cons h1 h3, h4⟩

theorem runsL_mem {as : List Elem} {vs : List F64} (h : RunsL w m as vs) :
    (∀ a ∈ as, ∃ v ∈ vs, Runs w m a v) ∧ (∀ v ∈ vs, ∃ a ∈ as, Runs w m a v) := by
  induction as generalizing vs with
  | nil => cases h; exact ⟨nofun, nofun⟩
  | cons a as ih =>
    cases h with
    | cons h1 h2 =>
      obtain ⟨k1, k2⟩ := ih h2
      constructor
      · intro b hb
        rcases List.mem_cons.1 hb with rfl | hb
        · exact ⟨_, List.mem_cons_self, h1⟩
        · obtain ⟨v, hv, hr⟩ := k1 b hb
          exact ⟨v, List.mem_cons_of_mem _ hv, hr⟩
      · intro v hv
        rcases List.mem_cons.1 hv with rfl | hv
        · exact ⟨_, List.mem_cons_self, h1⟩
        · obtain ⟨b, hb, hr⟩ := k2 v hv
          exact ⟨b, List.mem_cons_of_mem _ hb, hr⟩

theorem runsL_of {bs : List Elem} (h : ∀ b ∈ bs, ∃ v, Runs w m b v) : ∃ us, RunsL w m bs us := by
  induction bs with
  | nil => exact ⟨[], .nil⟩
  | cons b bs ih =>
    obtain ⟨v, hv⟩ := h b List.mem_cons_self
    obtain ⟨us, hu⟩ := ih fun c hc => h c (List.mem_cons_of_mem _ hc)
    exact ⟨v :: us, .cons hv hu⟩

theorem sameL_refl (vs : List F64) : SameL vs vs := by
  induction vs with
  | nil => exact .nil
  | cons v vs ih => exact .cons (.refl v) ih

theorem sameL_mid (vs us : List F64) {a b : F64} (h : Same a b) : SameL (vs ++ a :: us) (vs ++ b :: us) := by
  induction vs with
  | nil => exact .cons h (sameL_refl us)
  | cons v vs ih => exact .cons (.refl v) ih

/-- A call of `min` or `max` can be made with whatever arguments. -/
theorem minmax_step {f : Func} (hf : IsMinMax f) (vs : List F64) : ∃ v, CallStep w f vs v := by
  rcases hf with rfl | rfl
  · exact min_step w vs
  · exact max_step w vs

theorem minmax_members {f : Func} (hf : IsMinMax f) {vs us : List F64} (h : ∀ x, x ∈ vs ↔ x ∈ us) {v u : F64}
    (hv : CallStep w f vs v) (hu : CallStep w f us u) : Same v u := by
  rcases hf with rfl | rfl
  · have e1 : vs.foldl F64.fmin (.inf false) = v := Except.ok.inj hv.1
    have e2 : us.foldl F64.fmin (.inf false) = u := Except.ok.inj hu.1
    rw [← e1, ← e2]
    exact minimum_unique h (min_fold vs) (min_fold us)
  · have e1 : vs.foldl F64.fmax (.inf true) = v := Except.ok.inj hv.1
    have e2 : us.foldl F64.fmax (.inf true) = u := Except.ok.inj hu.1
    rw [← e1, ← e2]
    exact maximum_unique h (max_fold vs) (max_fold us)

theorem minmax_nested {f : Func} (hf : IsMinMax f) {as bs cs : List F64} {b v u : F64} (hb : CallStep w f bs b)
    (hv : CallStep w f (as ++ b :: cs) v) (hu : CallStep w f (as ++ bs ++ cs) u) : Same v u := by
  rcases hf with rfl | rfl
  · have e0 : bs.foldl F64.fmin (.inf false) = b := Except.ok.inj hb.1
    have e1 : (as ++ b :: cs).foldl F64.fmin (.inf false) = v := Except.ok.inj hv.1
    have e2 : (as ++ bs ++ cs).foldl F64.fmin (.inf false) = u := Except.ok.inj hu.1
    have m0 := e0 ▸ min_fold bs
    have m1 := e1 ▸ min_fold (as ++ b :: cs)
    have m2 := e2 ▸ min_fold (as ++ bs ++ cs)
    refine same_above (min_ne m1) (min_ne m2) fun z hz => ?_
    rw [min_of m1 z hz, min_of m2 z hz]
    have hbz := min_of m0 z hz
    simp only [List.mem_append, List.mem_cons]
    constructor
    · rintro h x ((hx | hx) | hx) hn
      · exact h x (.inl hx) hn
      · exact hbz.1 (h b (.inr (.inl rfl)) (min_ne m0)) x hx hn
      · exact h x (.inr (.inr hx)) hn
    · rintro h x (hx | rfl | hx) hn
      · exact h x (.inl (.inl hx)) hn
      · exact hbz.2 fun x hx hn => h x (.inl (.inr hx)) hn
      · exact h x (.inr hx) hn
  · have e0 : bs.foldl F64.fmax (.inf true) = b := Except.ok.inj hb.1
    have e1 : (as ++ b :: cs).foldl F64.fmax (.inf true) = v := Except.ok.inj hv.1
    have e2 : (as ++ bs ++ cs).foldl F64.fmax (.inf true) = u := Except.ok.inj hu.1
    have m0 := e0 ▸ max_fold bs
    have m1 := e1 ▸ max_fold (as ++ b :: cs)
    have m2 := e2 ▸ max_fold (as ++ bs ++ cs)
    refine same_below (max_ne m1) (max_ne m2) fun z hz => ?_
    rw [max_of m1 z hz, max_of m2 z hz]
    have hbz := max_of m0 z hz
    simp only [List.mem_append, List.mem_cons]
    constructor
    · rintro h x ((hx | hx) | hx) hn
      · exact h x (.inl hx) hn
      · exact hbz.1 (h b (.inr (.inl rfl)) (max_ne m0)) x hx hn
      · exact h x (.inr (.inr hx)) hn
    · rintro h x (hx | rfl | hx) hn
      · exact h x (.inl (.inl hx)) hn
      · exact hbz.2 fun x hx hn => h x (.inl (.inr hx)) hn
      · exact h x (.inr hx) hn

/-- One direction of what is to be shown. -/
def Carries (w : World) (m : HMap F64) (e e' : Elem) : Prop := ∀ v, Runs w m e v → ∃ u, Runs w m e' u ∧ Same v u

theorem members_carries {f : Func} (hf : IsMinMax f) {as bs : List Elem} (h : ∀ a, a ∈ as ↔ a ∈ bs) :
    Carries w m (.call f as) (.call f bs) := by
  intro v hv
  cases hv with
  | @call _ _ vs _ ha hs =>
    obtain ⟨k1, k2⟩ := runsL_mem ha
    obtain ⟨us, hu⟩ := runsL_of (w := w) (m := m) (bs := bs) fun b hb => by
      obtain ⟨v, -, hv⟩ := k1 b ((h b).2 hb)
      exact ⟨v, hv⟩
    obtain ⟨l1, l2⟩ := runsL_mem hu
    obtain ⟨u, hu'⟩ := minmax_step (w := w) hf us
    refine ⟨u, .call hu hu', minmax_members hf (fun x => ⟨fun hx => ?_, fun hx => ?_⟩) hs hu'⟩
    · obtain ⟨a, ha, hr⟩ := k2 x hx
      obtain ⟨y, hy, hr'⟩ := l1 a ((h a).1 ha)
      rwa [runs_det hr hr']
    · obtain ⟨a, ha, hr⟩ := l2 x hx
      obtain ⟨y, hy, hr'⟩ := k1 a ((h a).2 ha)
      rwa [runs_det hr hr']

theorem bin_carries (hw : PowLaws w) {op : Op} {a b c d : Elem} (h : Carries w m a b) (k : Carries w m c d) :
    Carries w m (.bin op a c) (.bin op b d) := by
  intro v hv
  cases hv with
  | bin h1 h2 hs =>
    obtain ⟨x, hx, sx⟩ := h _ h1
    obtain ⟨y, hy, sy⟩ := k _ h2
    obtain ⟨u, hu, su⟩ := hs.congr hw sx sy
    exact ⟨u, .bin hx hy hu, su⟩

theorem arg_carries {f : Func} {as bs : List Elem} {a b : Elem} (h : Carries w m a b) :
    Carries w m (.call f (as ++ a :: bs)) (.call f (as ++ b :: bs)) := by
  intro v hv
  cases hv with
  | call ha hs =>
    obtain ⟨vs, us, rfl, h1, h2⟩ := runsL_split ha
    cases h2 with
    | cons h2 h3 =>
      obtain ⟨x, hx, sx⟩ := h _ h2
      obtain ⟨u, hu, su⟩ := hs.congr (sameL_mid _ _ sx)
      exact ⟨u, .call (runsL_append h1 (.cons hx h3)) hu, su⟩

theorem rearranged_carries (hw : PowLaws w) {e e' : Elem} (h : Rearranged e e') :
    Carries w m e e' ∧ Carries w m e' e := by
  induction h with
  | refl a => exact ⟨fun v h => ⟨v, h, .refl v⟩, fun v h => ⟨v, h, .refl v⟩⟩
  | symm _ ih => exact ⟨ih.2, ih.1⟩
  | trans _ _ ih1 ih2 =>
    constructor
    · intro v h
      obtain ⟨u, h1, h2⟩ := ih1.1 v h
      obtain ⟨t, h3, h4⟩ := ih2.1 u h1
      exact ⟨t, h3, h2.trans h4⟩
    · intro v h
      obtain ⟨u, h1, h2⟩ := ih2.2 v h
      obtain ⟨t, h3, h4⟩ := ih1.2 u h1
      exact ⟨t, h3, h2.trans h4⟩
  | @comm op a b ho =>
    have key : ∀ a b, Carries w m (.bin op a b) (.bin op b a) := by
      intro a b v hv
      cases hv with
      | bin h1 h2 hs =>
        refine ⟨v, .bin h2 h1 ?_, .refl v⟩
        rcases ho with rfl | rfl
        · cases hs with
          | plus h => rw [fadd_comm] at h ⊢; exact .plus h
        · cases hs with
          | times h => rw [fmul_comm] at h ⊢; exact .times h
    exact ⟨key a b, key b a⟩
  | members hf h => exact ⟨members_carries hf h, members_carries hf fun a => (h a).symm⟩
  | nested as bs cs hf =>
    constructor
    · intro v hv
      cases hv with
      | call ha hs =>
        obtain ⟨vs, us, rfl, h1, h2⟩ := runsL_split ha
        cases h2 with
        | cons h2 h3 =>
          cases h2 with
          | call hb hb' =>
            obtain ⟨u, hu⟩ := minmax_step (w := w) hf (vs ++ _ ++ _)
            exact ⟨u, .call (runsL_append (runsL_append h1 hb) h3) hu, minmax_nested hf hb' hs hu⟩
    · intro v hv
      cases hv with
      | call ha hs =>
        obtain ⟨_, us, rfl, h1, h2⟩ := runsL_split ha
        obtain ⟨vs, bs', rfl, h1, h3⟩ := runsL_split h1
        obtain ⟨b, hb⟩ := minmax_step (w := w) hf bs'
        obtain ⟨u, hu⟩ := minmax_step (w := w) hf (vs ++ b :: us)
        exact ⟨u, .call (runsL_append h1 (.cons (.call h3 hb) h2)) hu, (minmax_nested hf hb hu hs).symm⟩
  | un _ ih =>
    have key : ∀ {op a b}, Carries w m a b → Carries w m (.un op a) (.un op b) := by
      intro op a b h v hv
      cases hv with
      | un h1 hs =>
        obtain ⟨x, hx, sx⟩ := h _ h1
        obtain ⟨u, hu, su⟩ := hs.congr sx
        exact ⟨u, .un hx hu, su⟩
    exact ⟨key ih.1, key ih.2⟩
  | bin _ _ ih1 ih2 => exact ⟨bin_carries hw ih1.1 ih2.1, bin_carries hw ih1.2 ih2.2⟩
  | arg _ ih => exact ⟨arg_carries ih.1, arg_carries ih.2⟩

theorem rearranged_noPower {e e' : Elem} (h : Rearranged e e') : NoPower e ↔ NoPower e' := by
  induction h with
  | refl => rfl
  | symm _ ih => exact ih.symm
  | trans _ _ ih1 ih2 => exact ih1.trans ih2
  | comm a b ho => rw [noPower_bin, noPower_bin, and_comm (a := NoPower a)]
  | members hf h => rw [noPower_call, noPower_call]; exact forall_congr' fun a => by rw [h a]
  | nested as bs cs hf =>
    simp only [noPower_call, List.mem_append, List.mem_cons]
    constructor
    · rintro h a ((ha | ha) | ha)
      · exact h a (.inl ha)
      · exact noPower_call.1 (h _ (.inr (.inl rfl))) a ha
      · exact h a (.inr (.inr ha))
    · rintro h a (ha | rfl | ha)
      · exact h a (.inl (.inl ha))
      · exact noPower_call.2 fun a ha => h a (.inl (.inr ha))
      · exact h a (.inr ha)
  | un _ ih => rw [noPower_un, noPower_un, ih]
  | bin _ _ ih1 ih2 => rw [noPower_bin, noPower_bin, ih1, ih2]
  | @arg f as a b bs _ ih =>
    simp only [noPower_call, List.mem_append, List.mem_cons]
    constructor <;>
    · rintro h c (hc | rfl | hc)
      · exact h c (.inl hc)
      · first | exact ih.1 (h _ (.inr (.inl rfl))) | exact ih.2 (h _ (.inr (.inl rfl)))
      · exact h c (.inr (.inr hc))

theorem rearranged_runs {e e' : Elem} (hw : NoPower e ∨ PowLaws w) (h : Rearranged e e') {v : F64}
    (hr : Runs w m e v) : ∃ u, Runs w m e' u ∧ Same v u := by
  rcases hw with hp | hw
  · obtain ⟨u, h1, h2⟩ := (rearranged_carries (evenPow_laws w) h).1 v (runs_both e (noPower_both w e hp) hr)
    exact ⟨u, runs_both e' (noPower_both w e' ((rearranged_noPower h).1 hp)).symm h1, h2⟩
  · exact (rearranged_carries hw h).1 v hr

end

/-! ### C113 -/

/-- C113: two expressions that differ only in the order of terms, factors and arguments of `min` and
`max`, in arguments of these given twice, or in calls of them put into calls of the same function,
have the same value up to the sign of a zero, if no operation is a doubtful one (see `Runs`). -/
theorem C113_order (w : World) (m : HMap F64) (e e' : Elem) (v : F64) (hw : NoPower e ∨ PowLaws w)
    (h : Rearranged e e') (hr : Runs w m e v) : ∃ u, eval w m e' = .ok u ∧ Same v u := by
  obtain ⟨u, h1, h2⟩ := rearranged_runs hw h hr
  exact ⟨u, runs_eval _ h1, h2⟩

/-- `min(x*2,min(3,y),3)` and `min(3,y,2*x)`. -/
example : Rearranged
    (.call Builtin.min.toFunc [.bin .times vx (.num (F64.ofNat 2)),
      .call Builtin.min.toFunc [.num (F64.ofNat 3), .var b!"y"], .num (F64.ofNat 3)])
    (.call Builtin.min.toFunc [.num (F64.ofNat 3), .var b!"y", .bin .times (.num (F64.ofNat 2)) vx]) := by
  refine .trans (.nested [_] [_, _] [_] (.inl rfl)) (.trans (.members (.inl rfl) ?_)
    (.arg (as := [_, _]) (bs := []) (.comm _ _ (.inr rfl))))
  intro a
  simp only [List.cons_append, List.nil_append, List.mem_cons, List.not_mem_nil, or_false]
  tauto

/-- C113 for texts in whatever builds: two texts that are read, without compile-time optimisations, as
rearranged expressions. -/
theorem C113_builds (cfg cfg₁ cfg₂ : Cfg) (w : World) (o o₁ o₂ : Oracle) (ctx : Context) (s t : Bytes)
    (x y x' y' : Xpr) (m : HMap F64) (v : F64) (h1 : cfg.pejmdas = cfg₁.pejmdas) (h2 : cfg.pejmdas = cfg₂.pejmdas)
    (ho : cfg.opt = false) (hw : NoPower x.root ∨ PowLaws w)
    (hs : ∀ ts, Lex s ts → ParensApart ts) (ht : ∀ ts, Lex t ts → ParensApart ts)
    (hx : parse cfg w o ctx s = .ok x) (hy : parse cfg w o ctx t = .ok y)
    (hx' : parse cfg₁ w o₁ ctx s = .ok x') (hy' : parse cfg₂ w o₂ ctx t = .ok y')
    (h : Rearranged x.root y.root) (hr : Runs w m x.root v) :
    ∃ a b, x'.eval w m = .ok a ∧ y'.eval w m = .ok b ∧ Same a b := by
  obtain ⟨u, hu, hs'⟩ := rearranged_runs hw h hr
  obtain ⟨-, a, ha, sa⟩ := C16_value_partial cfg cfg₁ w o o₁ ctx s x x' m v h1 ho hw hs hx hx' hr
  have hw' : NoPower y.root ∨ PowLaws w := hw.imp_left (rearranged_noPower h).1
  obtain ⟨-, b, hb, sb⟩ := C16_value_partial cfg cfg₂ w o o₂ ctx t y y' m u h2 ho hw' ht hy hy' hu
  exact ⟨a, b, ha, hb, sa.symm.trans (hs'.trans sb)⟩

theorem eval_members {w : World} {m : HMap F64} {f : Func} (hf : IsMinMax f) {as bs : List Elem}
    (h : ∀ a, a ∈ as ↔ a ∈ bs) (hv : ∀ a ∈ as, ∃ v, eval w m a = .ok v) :
    ∃ x y, eval w m (.call f as) = .ok x ∧ eval w m (.call f bs) = .ok y ∧ Same x y := by
  obtain ⟨g, hg⟩ : ∃ g : Elem → F64, ∀ a ∈ as, eval w m a = .ok (g a) := by
    classical
    refine ⟨fun a => if h : a ∈ as then (hv a h).choose else F64.f0, fun a ha => ?_⟩
    simp only [dif_pos ha]
    exact (hv a ha).choose_spec
  have key : ∀ cs : List Elem, (∀ c ∈ cs, c ∈ as) → evalL w m cs = .ok (cs.map g) := by
    intro cs hc
    induction cs with
    | nil => rfl
    | cons c cs ih =>
      rw [evalL, hg c (hc c List.mem_cons_self), ih fun d hd => hc d (List.mem_cons_of_mem _ hd)]
      rfl
  obtain ⟨x, hx⟩ := minmax_step (w := w) hf (as.map g)
  obtain ⟨y, hy⟩ := minmax_step (w := w) hf (bs.map g)
  refine ⟨x, y, eval_call_ok.2 ⟨_, key as fun _ h => h, hx.1⟩, eval_call_ok.2 ⟨_, key bs fun b hb => (h b).2 hb, hy.1⟩,
    minmax_members hf (fun v => ?_) hx hy⟩
  simp only [List.mem_map, h]

theorem forall₂_right {α β : Type} {R : α → β → Prop} {as : List α} {bs : List β} (h : List.Forall₂ R as bs)
    {b : β} (hb : b ∈ bs) : ∃ a ∈ as, R a b := by
  induction h with
  | nil => cases hb
  | cons h _ ih =>
    rcases List.mem_cons.1 hb with rfl | hb
    · exact ⟨_, List.mem_cons_self, h⟩
    · obtain ⟨a, ha, h⟩ := ih hb
      exact ⟨a, List.mem_cons_of_mem _ ha, h⟩

theorem forall₂_left {α β : Type} {R : α → β → Prop} {as : List α} {bs : List β} (h : List.Forall₂ R as bs)
    {a : α} (ha : a ∈ as) : ∃ b ∈ bs, R a b := by
  induction h with
  | nil => cases ha
  | cons h _ ih =>
    rcases List.mem_cons.1 ha with rfl | ha
    · exact ⟨_, List.mem_cons_self, h⟩
    · obtain ⟨b, hb, h⟩ := ih ha
      exact ⟨b, List.mem_cons_of_mem _ hb, h⟩

/-- C113 for texts: `min` and `max` may get their arguments in whatever order and number, whatever they
are. -/
theorem C113_texts (cfg : Cfg) (w : World) (o : Oracle) (ctx : Context) (nm : Bytes) (ts us : List Bytes)
    (xs ys : List Xpr) (ho : cfg.opt = false) (hn : nm = b!"min" ∨ nm = b!"max")
    (hl : lookup ctx nm = Ident.fromStr nm) (hne : ts ≠ []) (hm : ∀ t, t ∈ ts ↔ t ∈ us)
    (hs : List.Forall₂ (fun t x => parse cfg w o ctx t = .ok x) ts xs)
    (hu : List.Forall₂ (fun t x => parse cfg w o ctx t = .ok x) us ys) :
    ∃ z z', parse cfg w o ctx (nm ++ inParens (commas ts)) = .ok z ∧
      parse cfg w o ctx (nm ++ inParens (commas us)) = .ok z' ∧
      ∀ m, (∀ x ∈ xs, ∃ v, x.eval w m = .ok v) → ∃ a b, z.eval w m = .ok a ∧ z'.eval w m = .ok b ∧ Same a b := by
  obtain ⟨f, hf, hk, hin⟩ : ∃ f, lookup ctx nm = .func f ∧ IsMinMax f ∧ IsName nm ∧ f.nbArgs = none := by
    rcases hn with rfl | rfl
    · exact ⟨_, hl, .inl rfl, ⟨⟨_, rfl, by decide⟩, by decide⟩, rfl⟩
    · exact ⟨_, hl, .inr rfl, ⟨⟨_, rfl, by decide⟩, by decide⟩, rfl⟩
  have hne' : us ≠ [] := by
    rintro rfl
    cases ts with
    | nil => exact hne rfl
    | cons t ts => exact absurd ((hm t).1 List.mem_cons_self) (by simp)
  have k1 := C62_call cfg w o ctx nm f ts xs hin.1 hf hne (by rw [hin.2]; nofun) hs
  have k2 := C62_call cfg w o ctx nm f us ys hin.1 hf hne' (by rw [hin.2]; nofun) hu
  rw [finOf_plain ho] at k1 k2
  refine ⟨_, _, k1, k2, fun m hx => ?_⟩
  refine eval_members hk (fun a => ?_) (fun a ha => ?_)
  · have key : ∀ {ts us : List Bytes} {xs ys : List Xpr}, (∀ t, t ∈ ts → t ∈ us) →
        List.Forall₂ (fun t x => parse cfg w o ctx t = .ok x) ts xs →
        List.Forall₂ (fun t x => parse cfg w o ctx t = .ok x) us ys →
        ∀ a, a ∈ xs.map (·.root) → a ∈ ys.map (·.root) := by
      intro ts us xs ys hm hs hu a ha
      obtain ⟨x, hx, rfl⟩ := List.mem_map.1 ha
      obtain ⟨t, ht, h1⟩ := forall₂_right hs hx
      obtain ⟨y, hy, h2⟩ := forall₂_left hu (hm t ht)
      rw [h1] at h2
      cases h2
      exact List.mem_map_of_mem hy
    exact ⟨key (fun t => (hm t).1) hs hu a, key (fun t => (hm t).2) hu hs a⟩
  · obtain ⟨x, hx', rfl⟩ := List.mem_map.1 ha
    exact hx x hx'

theorem sum_known (w : World) (vs : List F64)
    (hv : ∀ v ∈ vs, ∃ q, value v = some q ∧ (q = 0 ∨ 1 / 2 ^ 1000 ≤ |q|)) (hm : amount vs ≤ 2 ^ 1000)
    (hn : vs.length ≤ 2 ^ 50) : ∃ s : ℚ, value (sumF w vs) = some s ∧
      |s - (vs.map fun v => (value v).getD 0).sum| ≤ amount vs * (vs.length / 2 ^ 52) := by
  have hf : List.Forall₂ (fun p v => OffTo p.steps p.size p.val v)
      (vs.map fun v => (⟨((value v).getD 0 : ℚ), |((value v).getD 0 : ℚ)|, 0⟩ : Estimate)) vs := by
    clear hm hn
    induction vs with
    | nil => exact .nil
    | cons v vs ih =>
      refine .cons ?_ (ih fun u hu => hv u (List.mem_cons_of_mem _ hu))
      obtain ⟨q, hq, -⟩ := hv v List.mem_cons_self
      refine ⟨q, hq, ?_, ?_⟩
      · simp
      · simp [hq, growth]
  have hz : ((amount vs : ℚ) : ℝ) = ((vs.map fun v => (⟨((value v).getD 0 : ℚ), |((value v).getD 0 : ℚ)|, 0⟩ : Estimate)).map
      Estimate.size).sum := by
    unfold amount
    rw [List.map_map]
    push_cast
    rw [List.map_map]
    congr 1
    refine List.map_congr_left fun v _ => ?_
    simp
  have hz' : (((vs.map fun v => (value v).getD 0).sum : ℚ) : ℝ) =
      ((vs.map fun v => (⟨((value v).getD 0 : ℚ), |((value v).getD 0 : ℚ)|, 0⟩ : Estimate)).map Estimate.val).sum := by
    rw [List.map_map]
    push_cast
    rw [List.map_map]
    rfl
  have hmR : ((amount vs : ℚ) : ℝ) ≤ 2 ^ 1000 := by exact_mod_cast hm
  have hle : ∀ v ∈ vs, |(value v).getD 0| ≤ amount vs := fun v hv =>
    List.single_le_sum (by simp) _ (List.mem_map_of_mem hv)
  obtain ⟨s, h1, h2, h3⟩ := sum_steady w (j := 0) (ps := vs.map fun v => (⟨((value v).getD 0 : ℚ), |((value v).getD 0 : ℚ)|, 0⟩ : Estimate))
    (by
      intro p hp
      obtain ⟨v, hv', rfl⟩ := List.mem_map.1 hp
      refine ⟨le_rfl, ?_⟩
      obtain ⟨q, hq, h0⟩ := hv v hv'
      have := hle v hv'
      rw [hq] at this
      simp only [hq, Option.getD_some] at this ⊢
      rcases h0 with rfl | h0
      · left; simp
      · right
        rw [abs_abs]
        constructor
        · have := (Rat.cast_le (K := ℝ)).2 h0
          push_cast at this
          exact this
        · have := (Rat.cast_le (K := ℝ)).2 this
          push_cast at this
          exact this.trans hmR)
    (hz ▸ hmR) (by simpa using hn) hf
  refine ⟨s, h1, ?_⟩
  rw [← hz, ← hz', zero_add, List.length_map] at h3
  have h4 := h3.trans (mul_le_mul_of_nonneg_left (growth_le hn) (by
    have : 0 ≤ amount vs := List.sum_nonneg (by simp)
    exact_mod_cast this))
  generalize (vs.map fun v => (value v).getD 0).sum = S at h4 ⊢
  rw [← Rat.cast_le (K := ℝ)]
  push_cast
  exact h4

/-- C113: two sums of the same numbers in different orders differ by at most twice the sum of their
absolute values times `n / 2^52`, for `n` numbers that are zero or not smaller than `2^-1000`. -/
theorem C113_sum (w : World) (vs us : List F64) (hp : vs.Perm us)
    (hv : ∀ v ∈ vs, ∃ q, value v = some q ∧ (q = 0 ∨ 1 / 2 ^ 1000 ≤ |q|)) (hm : amount vs ≤ 2 ^ 1000)
    (hn : vs.length ≤ 2 ^ 50) : ∃ (x y : F64) (s t : ℚ), Gives w b!"sum" vs x ∧ Gives w b!"sum" us y ∧
      value x = some s ∧ value y = some t ∧ |s - t| ≤ amount vs * (2 * vs.length / 2 ^ 52) := by
  have ha : amount us = amount vs := (hp.map _).sum_eq.symm
  obtain ⟨s, h1, h2⟩ := sum_known w vs hv hm hn
  obtain ⟨t, h3, h4⟩ := sum_known w us (fun v h => hv v (hp.mem_iff.2 h)) (ha ▸ hm) (hp.length_eq ▸ hn)
  refine ⟨_, _, s, t, ⟨_, rfl, rfl⟩, ⟨_, rfl, rfl⟩, h1, h3, ?_⟩
  rw [← (hp.map _).sum_eq, ha, ← hp.length_eq, abs_sub_comm] at h4
  refine (abs_sub_le _ _ _).trans ((add_le_add h2 h4).trans (le_of_eq ?_))
  ring

/-- C113: whole numbers with absolute values of at most `2^53` together may be added in every order. -/
theorem C113_sum_whole (w : World) (vs us : List F64) (zs : List ℤ) (hp : vs.Perm us)
    (hz : vs.map value = zs.map fun z : ℤ => some (z : ℚ)) (hs : (zs.map Int.natAbs).sum ≤ 2 ^ 53) :
    ∃ x y, Gives w b!"sum" vs x ∧ Gives w b!"sum" us y ∧ Same x y ∧ value y = some ((zs.sum : ℤ) : ℚ) := by
  have e1 : value (sumF w vs) = some ((zs.sum : ℤ) : ℚ) := by
    have := sum_exact vs (F64.zero w.sumInit) 0 zs (by rw [value_zero]; simp) hz (by simpa using hs)
    simpa [sumF] using this
  obtain ⟨ys, hy, hp'⟩ : ∃ ys : List ℤ, us.map value = ys.map (fun z : ℤ => some (z : ℚ)) ∧ zs.Perm ys := by
    have hv : ∀ v ∈ vs, ∃ z : ℤ, value v = some (z : ℚ) := by
      intro v hv
      have : value v ∈ vs.map value := List.mem_map_of_mem hv
      rw [hz] at this
      obtain ⟨z, -, hz⟩ := List.mem_map.1 this
      exact ⟨z, hz.symm⟩
    have e : zs = vs.map fun v => ⌊(value v).getD 0⌋ := by
      have : zs = (zs.map fun z : ℤ => some (z : ℚ)).map fun o => ⌊o.getD 0⌋ := by
        rw [List.map_map]
        conv_lhs => rw [← List.map_id zs]
        exact List.map_congr_left fun z _ => by simp
      rw [← hz, List.map_map] at this
      exact this
    refine ⟨us.map fun v => ⌊(value v).getD 0⌋, ?_, e ▸ hp.map _⟩
    rw [List.map_map]
    refine List.map_congr_left fun u hu => ?_
    obtain ⟨z, h⟩ := hv u (hp.mem_iff.2 hu)
    simp [h]
  have e2 : value (sumF w us) = some ((zs.sum : ℤ) : ℚ) := by
    have := sum_exact us (F64.zero w.sumInit) 0 ys (by rw [value_zero]; simp) hy
      (by rw [← (hp'.map Int.natAbs).sum_eq]; simpa using hs)
    rw [hp'.sum_eq]
    simpa [sumF] using this
  exact ⟨_, _, ⟨_, rfl, rfl⟩, ⟨_, rfl, rfl⟩, same_of_value e1 e2, e2⟩

/-- The order of the arguments of `sum` matters otherwise. -/
theorem C113_sum_refuted : ¬ ∀ (w : World) (vs us : List F64) (x y : F64), vs.Perm us →
    Gives w b!"sum" vs x → Gives w b!"sum" us y → Same x y := by
  intro h
  have hp : [F64.ofNat (10 ^ 16), F64.f1, F64.neg (F64.ofNat (10 ^ 16))].Perm
      [F64.ofNat (10 ^ 16), F64.neg (F64.ofNat (10 ^ 16)), F64.f1] := .cons _ (.swap _ _ _)
  have := h w0 _ _ F64.f0 F64.f1 hp ⟨_, rfl, by decide +kernel⟩ ⟨_, rfl, by decide +kernel⟩
  rcases this with h | ⟨-, ⟨s, h⟩⟩
  · exact absurd h (by decide +kernel)
  · cases s <;> exact absurd h (by decide +kernel)

/-- `sum(3,-5,7)` and `sum(7,3,-5)`. -/
example : ∃ x y, Gives w0 b!"sum" [F64.ofNat 3, F64.neg (F64.ofNat 5), F64.ofNat 7] x ∧
    Gives w0 b!"sum" [F64.ofNat 7, F64.ofNat 3, F64.neg (F64.ofNat 5)] y ∧ Same x y ∧ value y = some ((5 : ℤ) : ℚ) := by
  refine C113_sum_whole w0 _ _ [3, -5, 7] ?_ ?_ (by decide)
  · exact (List.perm_append_comm (l₁ := [F64.ofNat 3, F64.neg (F64.ofNat 5)]) (l₂ := [F64.ofNat 7]))
  · decide +kernel

/-- `sum(0.1,0.2,0.3)` and `sum(0.3,0.2,0.1)` differ. -/
example : ∃ x y, Gives w0 b!"sum" [F64.ofDecimal 1 (-1), F64.ofDecimal 2 (-1), F64.ofDecimal 3 (-1)] x ∧
    Gives w0 b!"sum" [F64.ofDecimal 3 (-1), F64.ofDecimal 2 (-1), F64.ofDecimal 1 (-1)] y ∧
    fmtF64 x = b!"0.6000000000000001" ∧ fmtF64 y = b!"0.6" :=
  ⟨_, _, ⟨_, rfl, rfl⟩, ⟨_, rfl, rfl⟩, by decide +kernel, by decide +kernel⟩

/-- Where an operation is a doubtful one the order matters: `1/min(x,-x)` and `1/min(-x,x)` are the two
infinities if `x` is zero (where the platform, as the model does, keeps the first of two zeros). -/
example : eval w0 (mx F64.f0) (.bin .divide (.num F64.f1) (.call Builtin.min.toFunc [vx, .un .minus vx])) = .ok (.inf false) ∧
    eval w0 (mx F64.f0) (.bin .divide (.num F64.f1) (.call Builtin.min.toFunc [.un .minus vx, vx])) = .ok (.inf true) := by
  decide +kernel

end Props
end Xprs
