import Verif.Spec.Equal
import Verif.Lemmas.Safe
import Verif.Lemmas.Simplify
/-
`eqE` decides `Alike NumEq`, which is the least congruence `Cong` on trees without NaN.
-/
namespace Xprs
open Spec

mutual
theorem alike_symm {R : F64 → F64 → Prop} (hR : ∀ x y, R x y → R y x) :
    ∀ {a b : Elem}, Alike R a b → Alike R b a
  | _, _, .num h => .num (hR _ _ h)
  | _, _, .var => .var
  | _, _, .un h => .un (alike_symm hR h)
  | _, _, .bin h1 h2 => .bin (alike_symm hR h1) (alike_symm hR h2)
  | _, _, .comm ho h1 h2 => .comm ho (alike_symm hR h2) (alike_symm hR h1)
  | _, _, .call h => .call (alikeL_symm hR h)
theorem alikeL_symm {R : F64 → F64 → Prop} (hR : ∀ x y, R x y → R y x) :
    ∀ {as bs : List Elem}, AlikeL R as bs → AlikeL R bs as
  | _, _, .nil => .nil
  | _, _, .cons h hs => .cons (alike_symm hR h) (alikeL_symm hR hs)
end

mutual
theorem alike_trans {R : F64 → F64 → Prop} (hR : ∀ x y z, R x y → R y z → R x z) :
    ∀ {a b c : Elem}, Alike R a b → Alike R b c → Alike R a c
  | _, _, _, .num h, .num h' => .num (hR _ _ _ h h')
  | _, _, _, .var, h => h
  | _, _, _, .un h, .un h' => .un (alike_trans hR h h')
  | _, _, _, .bin h1 h2, .bin h1' h2' => .bin (alike_trans hR h1 h1') (alike_trans hR h2 h2')
  | _, _, _, .bin h1 h2, .comm ho h1' h2' =>
    .comm ho (alike_trans hR h1 h1') (alike_trans hR h2 h2')
  | _, _, _, .comm ho h1 h2, .bin h1' h2' =>
    .comm ho (alike_trans hR h1 h2') (alike_trans hR h2 h1')
  | _, _, _, .comm _ h1 h2, .comm _ h1' h2' =>
    .bin (alike_trans hR h1 h2') (alike_trans hR h2 h1')
  | _, _, _, .call h, .call h' => .call (alikeL_trans hR h h')
theorem alikeL_trans {R : F64 → F64 → Prop} (hR : ∀ x y z, R x y → R y z → R x z) :
    ∀ {as bs cs : List Elem}, AlikeL R as bs → AlikeL R bs cs → AlikeL R as cs
  | _, _, _, .nil, h => h
  | _, _, _, .cons h hs, .cons h' hs' => .cons (alike_trans hR h h') (alikeL_trans hR hs hs')
end

mutual
theorem alike_refl {R : F64 → F64 → Prop} : ∀ (a : Elem), (∀ x, Sub (.num x) a → R x x) → Alike R a a
  | .num x, h => .num (h x .refl)
  | .var _, _ => .var
  | .un _ e, h => .un (alike_refl e fun x hx => h x (.operand hx))
  | .bin _ l r, h => .bin (alike_refl l fun x hx => h x (.left hx)) (alike_refl r fun x hx => h x (.right hx))
  | .call _ as, h => .call (alikeL_refl as fun a ha x hx => h x (.arg ha hx))
theorem alikeL_refl {R : F64 → F64 → Prop} : ∀ (as : List Elem),
    (∀ a ∈ as, ∀ x, Sub (.num x) a → R x x) → AlikeL R as as
  | [], _ => .nil
  | a :: as, h => .cons (alike_refl a (h a (by simp))) (alikeL_refl as fun b hb => h b (by simp [hb]))
end

mutual
/-- The literals of alike trees correspond. -/
theorem alike_literal {R : F64 → F64 → Prop} {x : F64} : ∀ {a b : Elem}, Alike R a b →
    Sub (.num x) a → ∃ y, Sub (.num y) b ∧ R x y
  | _, _, .num h, hs => by cases hs; exact ⟨_, .refl, h⟩
  | _, _, .var, hs => by cases hs
  | _, _, .un h, hs => by
    cases hs with
    | operand hs => obtain ⟨y, h1, h2⟩ := alike_literal h hs; exact ⟨y, .operand h1, h2⟩
  | _, _, .bin h h', hs => by
    cases hs with
    | left hs => obtain ⟨y, h1, h2⟩ := alike_literal h hs; exact ⟨y, .left h1, h2⟩
    | right hs => obtain ⟨y, h1, h2⟩ := alike_literal h' hs; exact ⟨y, .right h1, h2⟩
  | _, _, .comm _ h h', hs => by
    cases hs with
    | left hs => obtain ⟨y, h1, h2⟩ := alike_literal h hs; exact ⟨y, .right h1, h2⟩
    | right hs => obtain ⟨y, h1, h2⟩ := alike_literal h' hs; exact ⟨y, .left h1, h2⟩
  | _, _, .call h, hs => by
    cases hs with
    | arg ha hs =>
      obtain ⟨b, y, hb, h1, h2⟩ := alikeL_literal h ha hs
      exact ⟨y, .arg hb h1, h2⟩
theorem alikeL_literal {R : F64 → F64 → Prop} {x : F64} {a : Elem} : ∀ {as bs : List Elem}, AlikeL R as bs →
    a ∈ as → Sub (.num x) a → ∃ b y, b ∈ bs ∧ Sub (.num y) b ∧ R x y
  | _, _, .nil, ha, _ => by cases ha
  | _, _, .cons h hs, ha, hx => by
    rcases List.mem_cons.1 ha with rfl | ha
    · obtain ⟨y, h1, h2⟩ := alike_literal h hx; exact ⟨_, y, by simp, h1, h2⟩
    · obtain ⟨b, y, h1, h2⟩ := alikeL_literal hs ha hx; exact ⟨b, y, by simp [h1], h2⟩
end

theorem numEq_symm {x y : F64} (h : NumEq x y) : NumEq y x :=
  ⟨by rintro rfl; exact h.1 (h.2.symm.nan.1 rfl), h.2.symm⟩

theorem numEq_trans {x y z : F64} (h : NumEq x y) (h' : NumEq y z) : NumEq x z :=
  ⟨h.1, h.2.trans h'.2⟩

theorem andM_iff {x y : PM Bool} : andM x y = .ok true ↔ x = .ok true ∧ y = .ok true := by
  constructor
  · exact andM_true
  · rintro ⟨rfl, rfl⟩; rfl

theorem orM_iff {x y : PM Bool} (hx : ∃ a, x = .ok a) :
    orM x y = .ok true ↔ x = .ok true ∨ y = .ok true := by
  obtain ⟨a, rfl⟩ := hx
  cases a <;> simp [orM]

theorem alike_bin {R : F64 → F64 → Prop} {op op' : Op} {l r l' r' : Elem} :
    Alike R (.bin op l r) (.bin op' l' r') ↔ op = op' ∧ ((Alike R l l' ∧ Alike R r r') ∨
      ((op = .plus ∨ op = .times) ∧ Alike R l r' ∧ Alike R r l')) := by
  constructor
  · intro h
    cases h with
    | bin h1 h2 => exact ⟨rfl, .inl ⟨h1, h2⟩⟩
    | comm ho h1 h2 => exact ⟨rfl, .inr ⟨ho, h1, h2⟩⟩
  · rintro ⟨rfl, ⟨h1, h2⟩ | ⟨ho, h1, h2⟩⟩
    · exact .bin h1 h2
    · exact .comm ho h1 h2

mutual
theorem eqE_alike {P : Func → Prop} : ∀ (a b : Elem), Proper P a →
    (eqE a b = .ok true ↔ Alike NumEq a b)
  | .num x, b, _ => by
    cases b with
    | num y =>
      simp only [eqE, Except.ok.injEq, beq_iff]
      exact ⟨fun h => .num h, fun h => by cases h; assumption⟩
    | _ => exact ⟨fun h => by simp [eqE] at h, fun h => by cases h⟩
  | .var x, b, _ => by
    cases b with
    | var y =>
      simp only [eqE, Except.ok.injEq, decide_eq_true_eq]
      exact ⟨fun h => h ▸ .var, fun h => by cases h; rfl⟩
    | _ => exact ⟨fun h => by simp [eqE] at h, fun h => by cases h⟩
  | .un op e, b, hp => by
    cases hp with
    | un _ he =>
      cases b with
      | un op' e' =>
        rw [eqE]
        split
        · rename_i ho
          subst ho
          rw [eqE_alike e e' he]
          exact ⟨.un, fun h => by cases h; assumption⟩
        · rename_i ho
          exact ⟨fun h => by simp at h, fun h => by cases h; exact absurd rfl ho⟩
      | _ => exact ⟨fun h => by simp [eqE] at h, fun h => by cases h⟩
  | .bin op l r, b, hp => by
    cases hp with
    | bin ho hl hr =>
      cases b with
      | bin op' l' r' =>
        rw [alike_bin, ← eqE_alike l l' hl, ← eqE_alike r r' hr, ← eqE_alike l r' hl,
          ← eqE_alike r l' hr]
        rw [eqE.eq_def (.bin op l r)]
        simp only
        split
        · rename_i he
          subst he
          have ht := andM_ok (eqE_total l l' hl) (eqE_total r r' hr)
          cases op with
          | factorial => exact absurd rfl ho
          | plus => simp only; rw [orM_iff ht, andM_iff, andM_iff]; simp
          | times => simp only; rw [orM_iff ht, andM_iff, andM_iff]; simp
          | _ => simp only; rw [andM_iff]; simp
        · rename_i he
          simp [he]
      | _ => exact ⟨fun h => by simp [eqE] at h, fun h => by cases h⟩
  | .call f args, b, hp => by
    cases hp with
    | call _ _ ha =>
      cases b with
      | call g bs =>
        rw [eqE]
        split
        · rename_i hf
          subst hf
          split
          · rename_i hlen
            rw [eqEs_alike args bs hlen ha]
            exact ⟨.call, fun h => by cases h; assumption⟩
          · rename_i hlen
            exact ⟨fun h => by simp at h, fun h => by cases h with | call h => exact absurd (alikeL_length h) hlen⟩
        · rename_i hf
          exact ⟨fun h => by simp at h, fun h => by cases h; exact absurd rfl hf⟩
      | _ => exact ⟨fun h => by simp [eqE] at h, fun h => by cases h⟩
theorem eqEs_alike {P : Func → Prop} : ∀ (as bs : List Elem), as.length = bs.length →
    (∀ a ∈ as, Proper P a) → (eqEs as bs = .ok true ↔ AlikeL NumEq as bs)
  | [], bs, hl, _ => by
    cases bs with
    | nil => exact ⟨fun _ => .nil, fun _ => by rw [eqEs]; simp⟩
    | cons => simp at hl
  | a :: as, bs, hl, h => by
    cases bs with
    | nil => simp at hl
    | cons b bs =>
      rw [eqEs, andM_iff, eqE_alike a b (h a (by simp)),
        eqEs_alike as bs (by simpa using hl) fun c hc => h c (by simp [hc])]
      exact ⟨fun h => .cons h.1 h.2, fun h => by cases h with | cons h h' => exact ⟨h, h'⟩⟩
theorem alikeL_length {R : F64 → F64 → Prop} : ∀ {as bs : List Elem}, AlikeL R as bs →
    as.length = bs.length
  | _, _, .nil => rfl
  | _, _, .cons _ hs => by simp [alikeL_length hs]
end

/-! ### The least congruence -/

theorem cong_args {f : Func} : ∀ {as bs : List Elem} (pre : List Elem),
    AlikeL NumEq as bs → (∀ a b, a ∈ as → Alike NumEq a b → Cong a b) →
    Cong (.call f (pre ++ as)) (.call f (pre ++ bs))
  | _, _, pre, .nil, _ => .refl _
  | _, _, pre, .cons (a := a) (b := b) (as := as) (bs := bs) h hs, hc => by
    refine .trans (.arg (hc a b (by simp) h)) ?_
    have := cong_args (f := f) (pre ++ [b]) hs fun a b ha => hc a b (by simp [ha])
    simpa using this

theorem alike_cong : ∀ (a b : Elem), Alike NumEq a b → Cong a b := by
  intro a
  induction a using Elem.ind with
  | num x => intro b h; cases h; exact .num (by assumption)
  | var x => intro b h; cases h; exact .refl _
  | un op e ih => intro b h; cases h with | un h => exact .un (ih _ h)
  | bin op l r ihl ihr =>
    intro b h
    cases h with
    | bin h1 h2 => exact .trans (.left (ihl _ h1)) (.right (ihr _ h2))
    | comm ho h1 h2 =>
      exact .trans (.left (ihl _ h1)) (.trans (.right (ihr _ h2)) (.swap ho))
  | call f as ih =>
    intro b h
    cases h with
    | call h => exact cong_args [] h fun a b ha => ih a ha b

theorem literals_alike {a b : Elem} (h : Alike NumEq a b) :
    Literals (· ≠ .nan) a := by
  intro x hx
  obtain ⟨y, _, h2⟩ := alike_literal h hx
  exact h2.1

theorem cong_alike {a b : Elem} (h : Cong a b) :
    (Literals (· ≠ .nan) a → Alike NumEq a b ∧ Literals (· ≠ .nan) b) ∧
    (Literals (· ≠ .nan) b → Alike NumEq a b ∧ Literals (· ≠ .nan) a) := by
  have rf : ∀ a : Elem, Literals (· ≠ .nan) a → Alike NumEq a a := fun a h =>
    alike_refl a fun x hx => ⟨h x hx, .refl _⟩
  induction h with
  | num h =>
    have := numEq_symm h
    exact ⟨fun _ => ⟨.num h, by intro x hx; cases hx; exact this.1⟩,
      fun _ => ⟨.num h, by intro x hx; cases hx; exact h.1⟩⟩
  | @swap op a b ho =>
    constructor
    · intro hl
      refine ⟨.comm ho (rf a fun x hx => hl x (.left hx)) (rf b fun x hx => hl x (.right hx)), ?_⟩
      intro x hx
      cases hx with
      | left hx => exact hl x (.right hx)
      | right hx => exact hl x (.left hx)
    · intro hl
      refine ⟨.comm ho (rf a fun x hx => hl x (.right hx)) (rf b fun x hx => hl x (.left hx)), ?_⟩
      intro x hx
      cases hx with
      | left hx => exact hl x (.right hx)
      | right hx => exact hl x (.left hx)
  | refl a => exact ⟨fun h => ⟨rf a h, h⟩, fun h => ⟨rf a h, h⟩⟩
  | symm _ ih =>
    exact ⟨fun h => ⟨alike_symm (fun _ _ => numEq_symm) (ih.2 h).1, (ih.2 h).2⟩,
      fun h => ⟨alike_symm (fun _ _ => numEq_symm) (ih.1 h).1, (ih.1 h).2⟩⟩
  | trans _ _ ih1 ih2 =>
    constructor
    · intro h
      have h1 := ih1.1 h
      have h2 := ih2.1 h1.2
      exact ⟨alike_trans (R := NumEq) (fun _ _ _ h h' => numEq_trans h h') h1.1 h2.1, h2.2⟩
    · intro h
      have h2 := ih2.2 h
      have h1 := ih1.2 h2.2
      exact ⟨alike_trans (R := NumEq) (fun _ _ _ h h' => numEq_trans h h') h1.1 h2.1, h1.2⟩
  | un _ ih =>
    constructor
    · intro h
      have := ih.1 fun x hx => h x (.operand hx)
      exact ⟨.un this.1, fun x hx => by cases hx with | operand hx => exact this.2 x hx⟩
    · intro h
      have := ih.2 fun x hx => h x (.operand hx)
      exact ⟨.un this.1, fun x hx => by cases hx with | operand hx => exact this.2 x hx⟩
  | left _ ih =>
    constructor
    · intro h
      have := ih.1 fun x hx => h x (.left hx)
      exact ⟨.bin this.1 (rf _ fun x hx => h x (.right hx)), fun x hx => by
        cases hx with
        | left hx => exact this.2 x hx
        | right hx => exact h x (.right hx)⟩
    · intro h
      have := ih.2 fun x hx => h x (.left hx)
      exact ⟨.bin this.1 (rf _ fun x hx => h x (.right hx)), fun x hx => by
        cases hx with
        | left hx => exact this.2 x hx
        | right hx => exact h x (.right hx)⟩
  | right _ ih =>
    constructor
    · intro h
      have := ih.1 fun x hx => h x (.right hx)
      exact ⟨.bin (rf _ fun x hx => h x (.left hx)) this.1, fun x hx => by
        cases hx with
        | right hx => exact this.2 x hx
        | left hx => exact h x (.left hx)⟩
    · intro h
      have := ih.2 fun x hx => h x (.right hx)
      exact ⟨.bin (rf _ fun x hx => h x (.left hx)) this.1, fun x hx => by
        cases hx with
        | right hx => exact this.2 x hx
        | left hx => exact h x (.left hx)⟩
  | @arg f pre post a b _ ih =>
    have app : ∀ {as bs cs ds : List Elem}, AlikeL NumEq as bs → AlikeL NumEq cs ds →
        AlikeL NumEq (as ++ cs) (bs ++ ds) := by
      intro as bs cs ds h h'
      induction as generalizing bs with
      | nil => cases h; exact h'
      | cons a as ih => cases h with | cons h hs => exact .cons h (ih hs)
    have rl : ∀ {c : Elem}, Literals (· ≠ .nan) (.call f (pre ++ c :: post)) → Alike NumEq a b →
        Alike NumEq (.call f (pre ++ a :: post)) (.call f (pre ++ b :: post)) := by
      intro c h hab
      refine .call (app (alikeL_refl pre ?_) (.cons hab (alikeL_refl post ?_)))
      · exact fun d hd x hx => ⟨h x (.arg (by simp [hd]) hx), .refl _⟩
      · exact fun d hd x hx => ⟨h x (.arg (by simp [hd]) hx), .refl _⟩
    have sub : ∀ {c d : Elem}, Literals (· ≠ .nan) (.call f (pre ++ c :: post)) →
        Literals (· ≠ .nan) d → Literals (· ≠ .nan) (.call f (pre ++ d :: post)) := by
      intro c d h hd x hx
      cases hx with
      | arg ha hx =>
        rcases List.mem_append.1 ha with ha | ha
        · exact h x (.arg (by simp [ha]) hx)
        · rcases List.mem_cons.1 ha with rfl | ha
          · exact hd x hx
          · exact h x (.arg (by simp [ha]) hx)
    constructor
    · intro h
      have := ih.1 fun x hx => h x (.arg (by simp) hx)
      exact ⟨rl h this.1, sub h this.2⟩
    · intro h
      have := ih.2 fun x hx => h x (.arg (by simp) hx)
      exact ⟨rl h this.1, sub h this.2⟩

/-! ### Evaluation -/

theorem evalL_cons {w : World} {m : HMap F64} {a : Elem} {as : List Elem} {vs : List F64} :
    evalL w m (a :: as) = .ok vs ↔ ∃ v us, eval w m a = .ok v ∧ evalL w m as = .ok us ∧ vs = v :: us := by
  rw [evalL]
  cases eval w m a with
  | error r => simp
  | ok v => cases evalL w m as with
    | error r => simp
    | ok us => simp [eq_comm]

theorem eval_bin_ok {w : World} {m : HMap F64} {op : Op} {l r : Elem} {v : F64} :
    eval w m (.bin op l r) = .ok v ↔ ∃ a b, eval w m l = .ok a ∧ eval w m r = .ok b ∧
      binF w op a b = .ok v := by
  rw [eval]
  cases eval w m l with
  | error r => simp
  | ok a => cases eval w m r with
    | error r => simp
    | ok b => cases hb : binF w op a b <;> simp [liftP, hb]

theorem binF_comm (w : World) {op : Op} (ho : op = .plus ∨ op = .times) (a b : F64) :
    binF w op a b = binF w op b a := by
  rcases ho with rfl | rfl
  · simp [binF, fadd_comm a b]
  · simp [binF, fmul_comm a b]

mutual
/-- Trees with identical literals evaluate alike, under every map. -/
theorem alike_eval {w : World} {m : HMap F64} : ∀ {a b : Elem} {v : F64}, Alike Eq a b →
    eval w m a = .ok v → eval w m b = .ok v
  | _, _, _, .num rfl, h => h
  | _, _, _, .var, h => h
  | _, _, v, .un (op := op) (a := a) (b := b) h, he => by
    rw [eval] at he ⊢
    cases ha : eval w m a with
    | error r => rw [ha] at he; cases he
    | ok u => rw [alike_eval h ha]; rw [ha] at he; exact he
  | _, _, v, .bin h1 h2, he => by
    obtain ⟨x, y, e1, e2, e3⟩ := eval_bin_ok.1 he
    exact eval_bin_ok.2 ⟨x, y, alike_eval h1 e1, alike_eval h2 e2, e3⟩
  | _, _, v, .comm ho h1 h2, he => by
    obtain ⟨x, y, e1, e2, e3⟩ := eval_bin_ok.1 he
    exact eval_bin_ok.2 ⟨y, x, alike_eval h2 e2, alike_eval h1 e1, by rw [binF_comm w ho]; exact e3⟩
  | _, _, v, .call (as := as) h, he => by
    rw [eval] at he ⊢
    cases ha : evalL w m as with
    | error r => rw [ha] at he; cases he
    | ok u => rw [alikeL_eval h ha]; rw [ha] at he; exact he
theorem alikeL_eval {w : World} {m : HMap F64} : ∀ {as bs : List Elem} {vs : List F64}, AlikeL Eq as bs →
    evalL w m as = .ok vs → evalL w m bs = .ok vs
  | _, _, _, .nil, h => h
  | _, _, _, .cons h hs, he => by
    obtain ⟨v, us, e1, e2, e3⟩ := evalL_cons.1 he
    exact evalL_cons.2 ⟨v, us, alike_eval h e1, alikeL_eval hs e2, e3⟩
end

mutual
theorem alike_mono {R S : F64 → F64 → Prop} : ∀ {a b : Elem}, Alike R a b →
    (∀ x y, Sub (.num x) a → R x y → S x y) → Alike S a b
  | _, _, .num h, hm => .num (hm _ _ .refl h)
  | _, _, .var, _ => .var
  | _, _, .un h, hm => .un (alike_mono h fun x y hx => hm x y (.operand hx))
  | _, _, .bin h1 h2, hm => .bin (alike_mono h1 fun x y hx => hm x y (.left hx))
      (alike_mono h2 fun x y hx => hm x y (.right hx))
  | _, _, .comm ho h1 h2, hm => .comm ho (alike_mono h1 fun x y hx => hm x y (.left hx))
      (alike_mono h2 fun x y hx => hm x y (.right hx))
  | _, _, .call h, hm => .call (alikeL_mono h fun a x y ha hx => hm x y (.arg ha hx))
theorem alikeL_mono {R S : F64 → F64 → Prop} : ∀ {as bs : List Elem}, AlikeL R as bs →
    (∀ a x y, a ∈ as → Sub (.num x) a → R x y → S x y) → AlikeL S as bs
  | _, _, .nil, _ => .nil
  | _, _, .cons h hs, hm => .cons (alike_mono h fun x y hx => hm _ x y (by simp) hx)
      (alikeL_mono hs fun a x y ha hx => hm a x y (by simp [ha]) hx)
end

mutual
theorem alike_occurs {R : F64 → F64 → Prop} {n : Bytes} : ∀ {a b : Elem}, Alike R a b →
    Occurs n a → Occurs n b
  | _, _, .num _, h => by cases h
  | _, _, .var, h => h
  | _, _, .un h', h => by cases h with | operand h => exact .operand (alike_occurs h' h)
  | _, _, .bin h1 h2, h => by
    cases h with
    | left h => exact .left (alike_occurs h1 h)
    | right h => exact .right (alike_occurs h2 h)
  | _, _, .comm _ h1 h2, h => by
    cases h with
    | left h => exact .right (alike_occurs h1 h)
    | right h => exact .left (alike_occurs h2 h)
  | _, _, .call h', h => by
    cases h with
    | arg ha h => obtain ⟨b, hb, ho⟩ := alikeL_occurs h' ha h; exact .arg hb ho
theorem alikeL_occurs {R : F64 → F64 → Prop} {n : Bytes} {a : Elem} : ∀ {as bs : List Elem}, AlikeL R as bs →
    a ∈ as → Occurs n a → ∃ b ∈ bs, Occurs n b
  | _, _, .nil, ha, _ => by cases ha
  | _, _, .cons h hs, ha, ho => by
    rcases List.mem_cons.1 ha with rfl | ha
    · exact ⟨_, by simp, alike_occurs h ho⟩
    · obtain ⟨b, hb, h⟩ := alikeL_occurs hs ha ho; exact ⟨b, by simp [hb], h⟩
end

end Xprs
