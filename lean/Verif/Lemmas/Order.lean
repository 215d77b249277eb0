import Verif.Order
import Verif.Spec.Order
import Verif.Lemmas.Equal
import Verif.Lemmas.Minmax
/-
`cmpE` is the order `Before`, and satisfies the laws of a partial order.
-/
namespace Xprs
open Spec

/-! ### Building blocks -/

theorem natCmp_eq {a b : Nat} : natCmp a b = .eq ↔ a = b := by
  unfold natCmp
  split
  · simp; omega
  · split <;> simp_all

theorem natCmp_lt {a b : Nat} : natCmp a b = .lt ↔ a < b := by
  unfold natCmp
  split
  · simp_all
  · split <;> simp_all

theorem natCmp_swap (a b : Nat) : natCmp b a = (natCmp a b).swap := by
  unfold natCmp
  by_cases h1 : a < b
  · rw [if_neg (by omega), if_neg (by omega), if_pos h1]; rfl
  · by_cases h2 : a = b
    · subst h2; rw [if_neg (by omega), if_pos rfl]; rfl
    · rw [if_pos (by omega), if_neg h1, if_neg h2]; rfl

theorem lexi_eq {a b : Option Ordering} : lexi a b = some .eq ↔ a = some .eq ∧ b = some .eq := by
  unfold lexi
  split
  · simp
  · rename_i h; constructor
    · intro h'; exact absurd h' (by simpa using h)
    · exact fun h' => absurd h'.1 (by simpa using h)

theorem lexi_lt {a b : Option Ordering} :
    lexi a b = some .lt ↔ a = some .lt ∨ (a = some .eq ∧ b = some .lt) := by
  unfold lexi
  split
  · simp
  · rename_i h; constructor
    · exact fun h' => .inl h'
    · rintro (h' | h')
      · exact h'
      · exact absurd h'.1 (by simpa using h)

theorem lexi_swap {a b a' b' : Option Ordering} (ha : a' = a.map Ordering.swap)
    (hb : b' = b.map Ordering.swap) : lexi a' b' = (lexi a b).map Ordering.swap := by
  subst ha hb
  rcases a with _ | _ | _ | _ <;> rfl

theorem strCmp_eq : ∀ {a b : Bytes}, strCmp a b = .eq ↔ a = b
  | [], [] => by simp [strCmp]
  | [], _ :: _ => by simp [strCmp]
  | _ :: _, [] => by simp [strCmp]
  | x :: a, y :: b => by
    rw [strCmp]
    have ih := @strCmp_eq a b
    cases hc : natCmp x.toNat y.toNat with
    | eq =>
      have := UInt8.toNat_inj.1 (natCmp_eq.1 hc)
      simp [ih, this]
    | lt =>
      have : x ≠ y := by rintro rfl; rw [natCmp_eq.2 rfl] at hc; cases hc
      simp [this]
    | gt =>
      have : x ≠ y := by rintro rfl; rw [natCmp_eq.2 rfl] at hc; cases hc
      simp [this]

theorem strCmp_lt : ∀ {a b : Bytes}, strCmp a b = .lt ↔ Dict a b
  | [], [] => by simp [strCmp]; intro h; cases h
  | [], _ :: _ => by simp [strCmp]; exact .nil
  | _ :: _, [] => by simp [strCmp]; intro h; cases h
  | x :: a, y :: b => by
    rw [strCmp]
    have ih := @strCmp_lt a b
    cases hc : natCmp x.toNat y.toNat with
    | eq =>
      have := UInt8.toNat_inj.1 (natCmp_eq.1 hc)
      subst this
      simp only [ih]
      refine ⟨.tail, fun h => ?_⟩
      cases h with
      | head h => exact absurd h (UInt8.lt_irrefl _)
      | tail h => exact h
    | lt =>
      have := UInt8.lt_iff_toNat_lt.2 (natCmp_lt.1 hc)
      simp only [true_iff]
      exact .head this
    | gt =>
      simp only [reduceCtorEq, false_iff]
      intro h
      cases h with
      | head h => rw [natCmp_lt.2 (UInt8.lt_iff_toNat_lt.1 h)] at hc; cases hc
      | tail h => rw [natCmp_eq.2 rfl] at hc; cases hc

theorem strCmp_swap : ∀ (a b : Bytes), strCmp b a = (strCmp a b).swap
  | [], [] => rfl
  | [], _ :: _ => rfl
  | _ :: _, [] => rfl
  | x :: a, y :: b => by
    rw [strCmp, strCmp, natCmp_swap x.toNat y.toNat, strCmp_swap a b]
    cases natCmp x.toNat y.toNat <;> rfl

theorem strCmp_trans : ∀ {a b c : Bytes}, Dict a b → Dict b c → Dict a c := by
  intro a b c h
  induction h generalizing c with
  | nil => intro h; cases h <;> exact .nil
  | head h =>
    intro h'
    cases h' with
    | head h' => exact .head (UInt8.lt_trans h h')
    | tail h' => exact .head h
  | tail h ih =>
    intro h'
    cases h' with
    | head h' => exact .head h'
    | tail h' => exact .tail (ih h')

theorem fcmp_eq {x y : F64} : F64.cmp x y = some .eq ↔ NumEq x y := by
  unfold F64.cmp NumEq
  cases hx : F64.key x with
  | none => simp [key_none.1 hx]
  | some i =>
    have hxn : x ≠ .nan := by rintro rfl; cases hx
    cases hy : F64.key y with
    | none =>
      have : y = .nan := key_none.1 hy
      subst this
      simp only [reduceCtorEq, false_iff, not_and]
      intro _ hs
      have := (key_same hxn).2 hs
      rw [hx, hy] at this; cases this
    | some j =>
      simp only [Option.some.injEq]
      rw [← key_same hxn, hx, hy]
      constructor
      · intro h
        refine ⟨hxn, ?_⟩
        split at h
        · cases h
        · split at h
          · simp_all
          · cases h
      · rintro ⟨_, h⟩
        simp only [Option.some.injEq] at h
        subst h; simp

theorem fcmp_lt {x y : F64} : F64.cmp x y = some .lt ↔ LtF x y := by
  unfold F64.cmp LtF
  rw [leF_iff, leF_iff]
  cases hx : F64.key x with
  | none => simp
  | some i =>
    cases hy : F64.key y with
    | none => simp
    | some j =>
      simp only [Option.some.injEq, exists_and_left, exists_eq_left', not_le]
      by_cases h : i < j
      · simp [h]; omega
      · simp only [h, if_false, and_false, iff_false]
        split <;> simp

theorem fcmp_swap (x y : F64) : F64.cmp y x = (F64.cmp x y).map Ordering.swap := by
  unfold F64.cmp
  cases F64.key x with
  | none => cases F64.key y <;> rfl
  | some i =>
    cases F64.key y with
    | none => rfl
    | some j =>
      simp only [Option.map_some, Option.some.injEq]
      by_cases h1 : i < j
      · rw [if_neg (by omega), if_neg (by omega), if_pos h1]; rfl
      · by_cases h2 : i = j
        · subst h2; rw [if_neg (by omega), if_pos rfl]; rfl
        · rw [if_pos (by omega), if_neg h1, if_neg h2]; rfl

theorem fcmp_congr {x y : F64} (h : F64.cmp x y = some .eq) (z : F64) : F64.cmp x z = F64.cmp y z := by
  have hk : F64.key x = F64.key y := by
    have := fcmp_eq.1 h
    exact (key_same this.1).2 this.2
  unfold F64.cmp; rw [hk]

theorem fcmp_trans {x y z : F64} (h : F64.cmp x y = some .lt) (k : F64.cmp y z = some .lt) :
    F64.cmp x z = some .lt := by
  rw [fcmp_lt] at *
  refine ⟨leF_trans h.1 k.1, fun h' => h.2 (leF_trans k.1 h')⟩

theorem fcmp_total {x y : F64} (hx : x ≠ .nan) (hy : y ≠ .nan) : F64.cmp x y ≠ none := by
  unfold F64.cmp
  cases hk : F64.key x with
  | none => exact absurd (key_none.1 hk) hx
  | some i =>
    cases hk' : F64.key y with
    | none => exact absurd (key_none.1 hk') hy
    | some j => simp

/-- Transitivity of a lexicographic comparison. -/
theorem lexi_trans {p1 p2 p3 q1 q2 q3 : Option Ordering}
    (hl : p1 = some .lt → p2 = some .lt → p3 = some .lt) (he : p1 = some .eq → p3 = p2)
    (he' : p2 = some .eq → p3 = p1) (hq : q1 = some .lt → q2 = some .lt → q3 = some .lt)
    (h : lexi p1 q1 = some .lt) (h' : lexi p2 q2 = some .lt) : lexi p3 q3 = some .lt := by
  rw [lexi_lt] at *
  rcases h with h | ⟨h, k⟩
  · rcases h' with h' | ⟨h', k'⟩
    · exact .inl (hl h h')
    · exact .inl (by rw [he' h', h])
  · rcases h' with h' | ⟨h', k'⟩
    · exact .inl (by rw [he h, h'])
    · exact .inr ⟨by rw [he h, h'], hq k k'⟩

theorem natCmp_trans {a b c : Nat} (h : some (natCmp a b) = some Ordering.lt)
    (h' : some (natCmp b c) = some Ordering.lt) : some (natCmp a c) = some Ordering.lt := by
  simp only [Option.some.injEq, natCmp_lt] at *; omega

theorem natCmp_congr {a b : Nat} (h : some (natCmp a b) = some Ordering.eq) (c : Nat) :
    some (natCmp a c) = some (natCmp b c) := by
  simp only [Option.some.injEq, natCmp_eq] at h; rw [h]

theorem natCmp_congr' {b c : Nat} (h : some (natCmp b c) = some Ordering.eq) (a : Nat) :
    some (natCmp a c) = some (natCmp a b) := by
  simp only [Option.some.injEq, natCmp_eq] at h; rw [h]

/-! ### Operators and kinds -/

theorem op_index_inj {a b : Op} (h : a.index = b.index) : a = b := by
  cases a <;> cases b <;> first | rfl | cases h

theorem ahead_nil {α : Type} {a b : α} : ¬ Ahead [] a b := by
  rintro ⟨p, q, r, h⟩; cases p <;> cases h

theorem ahead_cons {α : Type} {c a b : α} {l : List α} :
    Ahead (c :: l) a b ↔ (a = c ∧ b ∈ l) ∨ Ahead l a b := by
  constructor
  · rintro ⟨p, q, r, h⟩
    cases p with
    | nil =>
      simp only [List.nil_append, List.cons_append, List.cons.injEq] at h
      left; exact ⟨h.1.symm, by rw [h.2]; simp⟩
    | cons d p =>
      simp only [List.cons_append, List.cons.injEq] at h
      right; exact ⟨p, q, r, by simpa using h.2⟩
  · rintro (⟨rfl, h⟩ | ⟨p, q, r, h⟩)
    · obtain ⟨q, r, rfl⟩ := List.append_of_mem h
      exact ⟨[], q, r, by simp⟩
    · exact ⟨c :: p, q, r, by simp [h]⟩

theorem op_lt {a b : Op} : a.index < b.index ↔ Ahead operators a b := by
  cases a <;> cases b <;> simp [operators, ahead_cons, ahead_nil, Op.index]

theorem kind_lt {a b : Elem} : a.index < b.index ↔ Ahead kinds (kindOf a) (kindOf b) := by
  cases a <;> cases b <;> simp [kinds, kindOf, ahead_cons, ahead_nil, Elem.index]

/-! ### Trees -/

theorem cmpE_kind {a b : Elem} (h : a.index ≠ b.index) :
    cmpE a b = some (natCmp a.index b.index) := by
  cases a <;> cases b <;> first | exact absurd rfl h | simp only [cmpE]

mutual
theorem cmpE_swap : ∀ a b : Elem, cmpE b a = (cmpE a b).map Ordering.swap
  | .num x, .num y => by rw [cmpE, cmpE]; exact fcmp_swap x y
  | .bin o l r, .bin o' l' r' => by
    rw [cmpE, cmpE]
    exact lexi_swap (by simp [natCmp_swap o.index o'.index])
      (lexi_swap (cmpE_swap l l') (cmpE_swap r r'))
  | .un o e, .un o' e' => by
    rw [cmpE, cmpE]
    exact lexi_swap (by simp [natCmp_swap o.index o'.index]) (cmpE_swap e e')
  | .call f as, .call g bs => by
    rw [cmpE, cmpE]
    exact lexi_swap (by simp [strCmp_swap f.name g.name]) (cmpEs_swap as bs)
  | .var m, .var n => by rw [cmpE, cmpE, strCmp_swap m n]; rfl
  | .num _, .bin .. | .num _, .un .. | .num _, .call .. | .num _, .var _
  | .bin .., .num _ | .bin .., .un .. | .bin .., .call .. | .bin .., .var _
  | .un .., .num _ | .un .., .bin .. | .un .., .call .. | .un .., .var _
  | .call .., .num _ | .call .., .bin .. | .call .., .un .. | .call .., .var _
  | .var _, .num _ | .var _, .bin .. | .var _, .un .. | .var _, .call .. => by
    rw [cmpE_kind (by simp [Elem.index]), cmpE_kind (by simp [Elem.index]), natCmp_swap]; rfl
theorem cmpEs_swap : ∀ as bs : List Elem, cmpEs bs as = (cmpEs as bs).map Ordering.swap
  | [], [] => by rw [cmpEs]; rfl
  | [], _ :: _ => by rw [cmpEs, cmpEs]; rfl
  | _ :: _, [] => by rw [cmpEs, cmpEs]; rfl
  | a :: as, b :: bs => by rw [cmpEs, cmpEs]; exact lexi_swap (cmpE_swap a b) (cmpEs_swap as bs)
end

mutual
theorem cmpE_eq : ∀ {a b : Elem}, cmpE a b = some .eq ↔ Level a b
  | .num x, .num y => by
    rw [cmpE, fcmp_eq]
    exact ⟨.num, fun h => by cases h; assumption⟩
  | .bin o l r, .bin o' l' r' => by
    rw [cmpE, lexi_eq, lexi_eq, cmpE_eq (a := l), cmpE_eq (a := r), Option.some.injEq, natCmp_eq]
    constructor
    · rintro ⟨h, h1, h2⟩; cases op_index_inj h; exact .bin h1 h2
    · intro h; cases h with | bin h1 h2 => exact ⟨rfl, h1, h2⟩
  | .un o e, .un o' e' => by
    rw [cmpE, lexi_eq, cmpE_eq (a := e), Option.some.injEq, natCmp_eq]
    constructor
    · rintro ⟨h, h1⟩; cases op_index_inj h; exact .un h1
    · intro h; cases h with | un h1 => exact ⟨rfl, h1⟩
  | .call f as, .call g bs => by
    rw [cmpE, lexi_eq, cmpEs_eq (as := as), Option.some.injEq, strCmp_eq]
    constructor
    · rintro ⟨h, h1⟩; exact .call h h1
    · intro h; cases h with | call h h1 => exact ⟨h, h1⟩
  | .var m, .var n => by
    rw [cmpE, Option.some.injEq, strCmp_eq]
    constructor
    · rintro rfl; exact .var
    · intro h; cases h; rfl
  | .num _, .bin .. | .num _, .un .. | .num _, .call .. | .num _, .var _
  | .bin .., .num _ | .bin .., .un .. | .bin .., .call .. | .bin .., .var _
  | .un .., .num _ | .un .., .bin .. | .un .., .call .. | .un .., .var _
  | .call .., .num _ | .call .., .bin .. | .call .., .un .. | .call .., .var _
  | .var _, .num _ | .var _, .bin .. | .var _, .un .. | .var _, .call .. => by
    rw [cmpE_kind (by simp [Elem.index]), Option.some.injEq, natCmp_eq]
    constructor
    · intro h; simp [Elem.index] at h
    · intro h; cases h
theorem cmpEs_eq : ∀ {as bs : List Elem}, cmpEs as bs = some .eq ↔ LevelL as bs
  | [], [] => by rw [cmpEs]; simp; exact .nil
  | [], _ :: _ => by rw [cmpEs]; simp; intro h; cases h
  | _ :: _, [] => by rw [cmpEs]; simp; intro h; cases h
  | a :: as, b :: bs => by
    rw [cmpEs, lexi_eq, cmpE_eq (a := a), cmpEs_eq (as := as)]
    exact ⟨fun h => .cons h.1 h.2, fun h => by cases h with | cons h1 h2 => exact ⟨h1, h2⟩⟩
end

mutual
theorem cmpE_lt : ∀ {a b : Elem}, cmpE a b = some .lt ↔ Before a b
  | .num x, .num y => by
    rw [cmpE, fcmp_lt]
    refine ⟨.num, fun h => ?_⟩
    cases h with
    | kind h => exact absurd (kind_lt.2 h) (by simp [Elem.index])
    | num h => exact h
  | .bin o l r, .bin o' l' r' => by
    rw [cmpE, lexi_lt, lexi_lt, cmpE_eq, cmpE_lt (a := l), cmpE_lt (a := r), Option.some.injEq,
      Option.some.injEq, natCmp_eq, natCmp_lt, op_lt]
    constructor
    · rintro (h | ⟨h, h1 | ⟨h1, h2⟩⟩)
      · exact .binOp h
      · cases op_index_inj h; exact .left h1
      · cases op_index_inj h; exact .right h1 h2
    · intro h
      cases h with
      | kind h => exact absurd (kind_lt.2 h) (by simp [Elem.index])
      | binOp h => exact .inl h
      | left h => exact .inr ⟨rfl, .inl h⟩
      | right h h' => exact .inr ⟨rfl, .inr ⟨h, h'⟩⟩
  | .un o e, .un o' e' => by
    rw [cmpE, lexi_lt, cmpE_lt (a := e), Option.some.injEq, Option.some.injEq, natCmp_eq, natCmp_lt,
      op_lt]
    constructor
    · rintro (h | ⟨h, h1⟩)
      · exact .unOp h
      · cases op_index_inj h; exact .un h1
    · intro h
      cases h with
      | kind h => exact absurd (kind_lt.2 h) (by simp [Elem.index])
      | unOp h => exact .inl h
      | un h => exact .inr ⟨rfl, h⟩
  | .call f as, .call g bs => by
    rw [cmpE, lexi_lt, cmpEs_lt (as := as), Option.some.injEq, Option.some.injEq, strCmp_eq, strCmp_lt]
    constructor
    · rintro (h | ⟨h, h1⟩)
      · exact .name h
      · exact .args h h1
    · intro h
      cases h with
      | kind h => exact absurd (kind_lt.2 h) (by simp [Elem.index])
      | name h => exact .inl h
      | args h h' => exact .inr ⟨h, h'⟩
  | .var m, .var n => by
    rw [cmpE, Option.some.injEq, strCmp_lt]
    refine ⟨.var, fun h => ?_⟩
    cases h with
    | kind h => exact absurd (kind_lt.2 h) (by simp [Elem.index])
    | var h => exact h
  | .num _, .bin .. | .num _, .un .. | .num _, .call .. | .num _, .var _
  | .bin .., .num _ | .bin .., .un .. | .bin .., .call .. | .bin .., .var _
  | .un .., .num _ | .un .., .bin .. | .un .., .call .. | .un .., .var _
  | .call .., .num _ | .call .., .bin .. | .call .., .un .. | .call .., .var _
  | .var _, .num _ | .var _, .bin .. | .var _, .un .. | .var _, .call .. => by
    rw [cmpE_kind (by simp [Elem.index]), Option.some.injEq, natCmp_lt, kind_lt]
    refine ⟨.kind, fun h => ?_⟩
    cases h with
    | kind h => exact h
theorem cmpEs_lt : ∀ {as bs : List Elem}, cmpEs as bs = some .lt ↔ BeforeL as bs
  | [], [] => by rw [cmpEs]; simp; intro h; cases h
  | [], _ :: _ => by rw [cmpEs]; simp; exact .nil
  | _ :: _, [] => by rw [cmpEs]; simp; intro h; cases h
  | a :: as, b :: bs => by
    rw [cmpEs, lexi_lt, cmpE_eq, cmpE_lt (a := a), cmpEs_lt (as := as)]
    constructor
    · rintro (h | ⟨h, h'⟩)
      · exact .head h
      · exact .tail h h'
    · intro h
      cases h with
      | head h => exact .inl h
      | tail h h' => exact .inr ⟨h, h'⟩
end

mutual
theorem cmpE_congr : ∀ {a b : Elem}, cmpE a b = some .eq → ∀ c, cmpE a c = cmpE b c
  | .num x, b, h, c => by
    cases cmpE_eq.1 h with
    | num hn =>
      cases c with
      | num z => rw [cmpE, cmpE]; exact fcmp_congr (fcmp_eq.2 hn) z
      | _ => rw [cmpE_kind (by simp [Elem.index]), cmpE_kind (by simp [Elem.index])]; rfl
  | .bin o l r, b, h, c => by
    cases cmpE_eq.1 h with
    | bin h1 h2 =>
      cases c with
      | bin o' l' r' =>
        rw [cmpE, cmpE, cmpE_congr (cmpE_eq.2 h1), cmpE_congr (cmpE_eq.2 h2)]
      | _ => rw [cmpE_kind (by simp [Elem.index]), cmpE_kind (by simp [Elem.index])]; rfl
  | .un o e, b, h, c => by
    cases cmpE_eq.1 h with
    | un h1 =>
      cases c with
      | un o' e' => rw [cmpE, cmpE, cmpE_congr (cmpE_eq.2 h1)]
      | _ => rw [cmpE_kind (by simp [Elem.index]), cmpE_kind (by simp [Elem.index])]; rfl
  | .call f as, b, h, c => by
    cases cmpE_eq.1 h with
    | call hf h1 =>
      cases c with
      | call g cs => rw [cmpE, cmpE, hf, cmpEs_congr (cmpEs_eq.2 h1)]
      | _ => rw [cmpE_kind (by simp [Elem.index]), cmpE_kind (by simp [Elem.index])]; rfl
  | .var m, b, h, c => by
    cases cmpE_eq.1 h with
    | var => rfl
theorem cmpEs_congr : ∀ {as bs : List Elem}, cmpEs as bs = some .eq → ∀ cs, cmpEs as cs = cmpEs bs cs
  | [], bs, h, cs => by cases cmpEs_eq.1 h; rfl
  | a :: as, bs, h, cs => by
    cases cmpEs_eq.1 h with
    | cons h1 h2 =>
      cases cs with
      | nil => rw [cmpEs, cmpEs]
      | cons c cs => rw [cmpEs, cmpEs, cmpE_congr (cmpE_eq.2 h1), cmpEs_congr (cmpEs_eq.2 h2)]
end

theorem cmpE_congr' {b c : Elem} (h : cmpE b c = some .eq) (a : Elem) : cmpE a c = cmpE a b := by
  have h' : cmpE c b = some .eq := by rw [cmpE_swap b c, h]; rfl
  rw [cmpE_swap c a, cmpE_congr h' a, ← cmpE_swap]

theorem cmpE_index {a b : Elem} (h : cmpE a b = some .lt) : a.index ≤ b.index := by
  by_cases hk : a.index = b.index
  · omega
  · rw [cmpE_kind hk, Option.some.injEq, natCmp_lt] at h; omega

mutual
theorem cmpE_trans : ∀ {a b c : Elem}, cmpE a b = some .lt → cmpE b c = some .lt →
    cmpE a c = some .lt
  | a, b, c, h, h' => by
    have i1 := cmpE_index h
    have i2 := cmpE_index h'
    by_cases hk : a.index < c.index
    · rw [cmpE_kind (by omega), Option.some.injEq, natCmp_lt]; exact hk
    · have e1 : a.index = b.index := by omega
      have e2 : b.index = c.index := by omega
      cases a with
      | num x =>
        cases b <;> try (simp [Elem.index] at e1; done)
        cases c <;> try (simp [Elem.index] at e2; done)
        rw [cmpE] at *; exact fcmp_trans h h'
      | var x =>
        cases b <;> try (simp [Elem.index] at e1; done)
        cases c <;> try (simp [Elem.index] at e2; done)
        rw [cmpE, Option.some.injEq, strCmp_lt] at *; exact strCmp_trans h h'
      | un o e =>
        cases b <;> try (simp [Elem.index] at e1; done)
        cases c <;> try (simp [Elem.index] at e2; done)
        rw [cmpE] at *
        exact lexi_trans natCmp_trans (fun h => natCmp_congr h _) (fun h => natCmp_congr' h _)
          cmpE_trans h h'
      | bin o l r =>
        cases b <;> try (simp [Elem.index] at e1; done)
        cases c <;> try (simp [Elem.index] at e2; done)
        rw [cmpE] at *
        exact lexi_trans natCmp_trans (fun h => natCmp_congr h _) (fun h => natCmp_congr' h _)
          (lexi_trans cmpE_trans (fun h => cmpE_congr h _) (fun h => cmpE_congr' h _) cmpE_trans) h h'
      | call f as =>
        cases b <;> try (simp [Elem.index] at e1; done)
        cases c <;> try (simp [Elem.index] at e2; done)
        rw [cmpE] at *
        refine lexi_trans ?_ ?_ ?_ cmpEs_trans h h'
        · simp only [Option.some.injEq, strCmp_lt]; exact strCmp_trans
        · simp only [Option.some.injEq, strCmp_eq]; intro h; rw [h]
        · simp only [Option.some.injEq, strCmp_eq]; intro h; rw [h]
theorem cmpEs_trans : ∀ {as bs cs : List Elem}, cmpEs as bs = some .lt → cmpEs bs cs = some .lt →
    cmpEs as cs = some .lt
  | [], [], _, h, h' => by simp [cmpEs] at h
  | [], _ :: _, [], h, h' => by simp [cmpEs] at h'
  | [], _ :: _, _ :: _, h, h' => by rw [cmpEs]
  | _ :: _, [], _, h, h' => by simp [cmpEs] at h
  | _ :: _, _ :: _, [], h, h' => by simp [cmpEs] at h'
  | a :: as, b :: bs, c :: cs, h, h' => by
    rw [cmpEs] at *
    exact lexi_trans cmpE_trans (fun h => cmpE_congr h _) (fun h => cmpE_congr' h _) cmpEs_trans h h'
end

mutual
theorem cmpE_total : ∀ {a b : Elem}, Literals (· ≠ .nan) a → Literals (· ≠ .nan) b →
    cmpE a b ≠ none
  | a, b, ha, hb => by
    by_cases hk : a.index = b.index
    · cases a with
      | num x =>
        cases b <;> try (simp [Elem.index] at hk; done)
        rw [cmpE]; exact fcmp_total (ha _ .refl) (hb _ .refl)
      | var x =>
        cases b <;> try (simp [Elem.index] at hk; done)
        rw [cmpE]; simp
      | un o e =>
        cases b <;> try (simp [Elem.index] at hk; done)
        rename_i o' e'
        rw [cmpE]
        have := cmpE_total (a := e) (b := e') (fun x h => ha x (.operand h)) (fun x h => hb x (.operand h))
        unfold lexi; split <;> simp_all
      | bin o l r =>
        cases b <;> try (simp [Elem.index] at hk; done)
        rename_i o' l' r'
        rw [cmpE]
        have h1 := cmpE_total (a := l) (b := l') (fun x h => ha x (.left h)) (fun x h => hb x (.left h))
        have h2 := cmpE_total (a := r) (b := r') (fun x h => ha x (.right h)) (fun x h => hb x (.right h))
        unfold lexi; split
        · split <;> simp_all
        · simp_all
      | call f as =>
        cases b <;> try (simp [Elem.index] at hk; done)
        rename_i g bs
        rw [cmpE]
        have := cmpEs_total (as := as) (bs := bs) (fun a hm x h => ha x (.arg hm h))
          (fun a hm x h => hb x (.arg hm h))
        unfold lexi; split <;> simp_all
    · rw [cmpE_kind hk]; simp
theorem cmpEs_total : ∀ {as bs : List Elem}, (∀ a ∈ as, Literals (· ≠ .nan) a) →
    (∀ b ∈ bs, Literals (· ≠ .nan) b) → cmpEs as bs ≠ none
  | [], [], _, _ => by simp [cmpEs]
  | [], _ :: _, _, _ => by simp [cmpEs]
  | _ :: _, [], _, _ => by simp [cmpEs]
  | a :: as, b :: bs, ha, hb => by
    rw [cmpEs]
    have h1 := cmpE_total (ha a (by simp)) (hb b (by simp))
    have h2 := cmpEs_total (as := as) (bs := bs) (fun c hc => ha c (by simp [hc])) (fun c hc => hb c (by simp [hc]))
    unfold lexi; split <;> simp_all
end

end Xprs
