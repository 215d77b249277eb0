import Verif.Lemmas.Render
import Verif.Lemmas.Float
/-
Every tree that can be written down has a text: decimal literals for all finite
non-negative numbers, and the fully parenthesised text of a tree.
-/
namespace Xprs
open Spec

theorem decVal_append (a b : Bytes) : decVal (a ++ b) = decVal a * 10 ^ b.length + decVal b := by
  induction a with
  | nil => simp [decVal]
  | cons c a ih =>
    simp only [List.cons_append, decVal, ih, List.length_append, Nat.pow_add]
    rw [Nat.add_mul, Nat.mul_assoc, Nat.add_assoc]

/-- The byte of a decimal digit. -/
theorem digit_byte : ∀ k, k < 10 → ∃ c : UInt8, digit c ∧ c.toNat - 48 = k ∧ c ≠ c!"_" := by
  intro k hk
  refine ⟨UInt8.ofNat (48 + k), ?_⟩
  have : ∀ k : Fin 10, digit (UInt8.ofNat (48 + k)) ∧ (UInt8.ofNat (48 + k)).toNat - 48 = k ∧
    (UInt8.ofNat (48 + k)) ≠ c!"_" := by decide
  exact this ⟨k, hk⟩

theorem exists_digits : ∀ M : Nat, ∃ ds : Bytes, ds ≠ [] ∧ (∀ c ∈ ds, digit c) ∧ decVal ds = M := by
  intro M
  induction M using Nat.strongRecOn with
  | ind M ih =>
    obtain ⟨c, h1, h2, _⟩ := digit_byte (M % 10) (Nat.mod_lt _ (by decide))
    by_cases hM : M < 10
    · refine ⟨[c], by simp, by simpa using h1, ?_⟩
      simp only [decVal, List.length_nil, h2]
      omega
    · obtain ⟨ds, d1, d2, d3⟩ := ih (M / 10) (by omega)
      refine ⟨ds ++ [c], by simp, ?_, ?_⟩
      · intro x hx
        rcases List.mem_append.1 hx with hx | hx
        · exact d2 x hx
        · rw [List.mem_singleton.1 hx]; exact h1
      · rw [decVal_append, d3]
        simp only [decVal, List.length_cons, List.length_nil, h2]
        omega

theorem digit_no_underscore : ∀ {c : UInt8}, digit c → c ≠ c!"_" := by
  intro c; exact (forall_byte (P := fun c => digit c → c ≠ c!"_") (by decide +kernel)) c

theorem digits_filter {ds : Bytes} (h : ∀ c ∈ ds, digit c) :
    ds.filter (fun c => decide (c ≠ c!"_")) = ds := by
  rw [List.filter_eq_self]
  intro c hc
  exact decide_eq_true (digit_no_underscore (h c hc))

set_option exponentiation.threshold 2000 in
/-- Every finite non-negative number has a literal. -/
theorem exists_literal {n : Nat} (h : Rep n) : ∃ txt, Literal txt [] (.fin false n h) := by
  obtain ⟨ds, d1, d2, d3⟩ := exists_digits (n * 5 ^ 1074)
  refine ⟨ds ++ c!"e" :: (b!"-" ++ b!"1074"), ds, ds, [], ?_, fun c hc => .inl (d2 c hc),
    ⟨d2, by simp, by simpa using d1, .inr ⟨rfl, digits_filter d2⟩⟩, .inr ?_⟩
  · cases ds with
    | nil => exact absurd rfl d1
    | cons c ds => exact ⟨c, rfl, .inl (d2 c (by simp))⟩
  · refine ⟨c!"e", b!"-", b!"1074", .inl rfl, by decide, by decide, rfl, (by intro c hc; cases hc),
      .inr ⟨rfl, ?_⟩⟩
    have h1 : decVal b!"1074" = 1074 := by decide
    rw [List.append_nil, d3, h1]
    unfold F64.ofDecimal
    rw [if_neg (by decide)]
    have h2 : (-(-((1074 : Nat) : Int) - (([] : Bytes).length : Int))).toNat = 1074 := by decide
    rw [h2]
    have h3 : n * 5 ^ 1074 * unit64 = n * 10 ^ 1074 := by
      rw [unit64_eq, Nat.mul_assoc, ← Nat.mul_pow]
    rw [h3]
    refine (F64.ofMag_of_eq false ?_ h).symm
    exact roundMag_mul n _ (Nat.pow_pos (by decide)) h.2

theorem inf_literal : Literal b!"1e309" [] (.inf false) := by
  refine ⟨b!"1", b!"1", [], ⟨c!"1", rfl, .inl (by decide)⟩, by decide, ⟨by decide, by decide, by decide,
    .inr ⟨rfl, by decide⟩⟩, .inr ⟨c!"e", [], b!"309", .inl rfl, by decide, by decide, rfl,
      (by intro c hc; cases hc), .inl ⟨.inl rfl, by decide +kernel⟩⟩⟩

theorem tree_name_const {ctx : Context} {nm : Bytes} {x : F64} (h : lookup ctx nm = .const x) :
    (Cst.name [] nm).tree ctx = .num x := by rw [Cst.tree, h]

theorem tree_name_var {ctx : Context} {nm : Bytes} (h : ∀ x, lookup ctx nm ≠ .const x) :
    (Cst.name [] nm).tree ctx = .var nm := by
  rw [Cst.tree]
  cases hl : lookup ctx nm with
  | const x => exact absurd hl (h x)
  | _ => rfl

/-- Every tree that can be written down has a legal text. -/
theorem exists_written (cfg : Cfg) {ctx : Context} {e : Elem} (h : Sayable ctx e) :
    ∃ x : Cst, x.good cfg ctx ∧ x.tree ctx = e := by
  have hsp : spaces [] := by intro c hc; cases hc
  induction h with
  | @lit n h =>
    obtain ⟨txt, ht⟩ := exists_literal h
    exact ⟨.num [] txt (.fin false n h), ⟨hsp, ht⟩, rfl⟩
  | inf => exact ⟨.num [] _ _, ⟨hsp, inf_literal⟩, rfl⟩
  | @const nm x h1 h2 => exact ⟨.name [] nm, ⟨hsp, h1, by simp [h2]⟩, tree_name_const h2⟩
  | @var nm h1 h2 h3 => exact ⟨.name [] nm, ⟨hsp, h1, h2⟩, tree_name_var h3⟩
  | @bin op l r hop _ _ ihl ihr =>
    obtain ⟨a, a1, a2⟩ := ihl
    obtain ⟨b, b1, b2⟩ := ihr
    refine ⟨.bin (.paren [] a []) [] op (.paren [] b []),
      ⟨hop, hsp, ⟨hsp, hsp, a1⟩, ⟨hsp, hsp, b1⟩, ?_, ?_⟩, ?_⟩
    · show level op ≤ 7; cases op <;> decide
    · show level op < 7; cases op <;> decide
    · simp only [Cst.tree, a2, b2]
  | @un op e hop _ ih =>
    obtain ⟨a, a1, a2⟩ := ih
    rcases hop with rfl | rfl | rfl
    · refine ⟨.sign [] false (.paren [] a []), ⟨hsp, ⟨hsp, hsp, a1⟩, ?_⟩, ?_⟩
      · show signLevel < 7; decide
      · simp [Cst.tree, a2]
    · refine ⟨.sign [] true (.paren [] a []), ⟨hsp, ⟨hsp, hsp, a1⟩, ?_⟩, ?_⟩
      · show signLevel < 7; decide
      · simp [Cst.tree, a2]
    · exact ⟨.fact (.paren [] a []) [], ⟨trivial, hsp, ⟨hsp, hsp, a1⟩⟩, by simp [Cst.tree, a2]⟩
  | @call nm f args hn hl hpos har _ ih =>
    have : ∀ as : List Elem, as ≠ [] → (∀ a ∈ as, ∃ x : Cst, x.good cfg ctx ∧ x.tree ctx = a) →
        ∃ xs : CArgs, xs.good cfg ctx ∧ xs.trees ctx = as ∧ xs.count = as.length := by
      intro as
      induction as with
      | nil => intro h; exact absurd rfl h
      | cons a as ih =>
        intro _ hall
        obtain ⟨x, x1, x2⟩ := hall a (by simp)
        cases as with
        | nil => exact ⟨.last x [], ⟨hsp, x1⟩, by simp [CArgs.trees, x2], rfl⟩
        | cons b bs =>
          obtain ⟨xs, s1, s2, s3⟩ := ih (by simp) fun c hc => hall c (by simp [hc])
          exact ⟨.more x [] xs, ⟨hsp, x1, s1⟩, by simp [CArgs.trees, x2, s2], by
            simp [CArgs.count, s3]⟩
    obtain ⟨xs, s1, s2, s3⟩ := this args (List.ne_nil_of_length_pos hpos) ih
    refine ⟨.call [] nm [] xs, ⟨hsp, hn, hsp, ⟨f, hl, by rw [s3]; exact har⟩, s1⟩, ?_⟩
    rw [Cst.tree, hl, s2]

end Xprs
