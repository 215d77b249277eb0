import Verif.Spec.Given
import Verif.Props.Single
import Verif.Props.Parsing
import Verif.Props.Tokens
/-
Property C132: values of other types given to a context.
-/
namespace Xprs
namespace Props
open _root_.Xprs.Spec
set_option exponentiation.threshold 4096

/-- A magnitude of at most 53 bits needs no rounding. -/
theorem ofMag_units (s : Bool) (M k : ℕ) (hM : M < 2 ^ 53) (hk : k ≤ 2000) :
    ∃ h, F64.ofMag s (M * 2 ^ k) 1 = .fin s (M * 2 ^ k) h ∧
      value (F64.ofMag s (M * 2 ^ k) 1) = some ((if s then -1 else 1 : ℚ) * ((M : ℚ) * 2 ^ ((k : ℤ) - 1074))) := by
  have hr : Rep (M * 2 ^ k) := by
    refine ⟨?_, (grid_iff _).1 ⟨M, k, hM, rfl⟩⟩
    rw [maxMag_eq]
    calc M * 2 ^ k < 2 ^ 53 * 2 ^ k := Nat.mul_lt_mul_of_pos_right hM (Nat.two_pow_pos _)
      _ = 2 ^ (53 + k) := by rw [Nat.pow_add]
      _ ≤ 2 ^ 2098 := Nat.pow_le_pow_right (by decide) (by omega)
  refine ⟨hr, F64.ofMag_rep s hr, ?_⟩
  rw [F64.ofMag_rep s hr, value_fin, unit64_cast]
  have e : (2 : ℚ) ^ ((k : ℤ) - 1074) = 2 ^ k / 2 ^ 1074 := by
    rw [zpow_sub₀ (by norm_num), zpow_natCast]; rfl
  rw [e]
  cases s with
  | true =>
    simp only [F64.sv, if_true]
    push_cast
    congr 1
    ring
  | false =>
    simp only [F64.sv, Bool.false_eq_true, if_false]
    push_cast
    congr 1
    ring

theorem ofInt_value {z : ℤ} (h : |z| < 2 ^ 53) : value (F64.ofInt z) = some (z : ℚ) ∧
    signBit (F64.ofInt z) = decide (z < 0) := by
  have hz : z.natAbs < 2 ^ 53 := by
    rw [Int.abs_eq_natAbs] at h
    exact_mod_cast h
  obtain ⟨h1, h2, h3⟩ := ofMag_units (decide (z < 0)) z.natAbs 1074 hz (by norm_num)
  unfold F64.ofInt
  rw [unit64_eq]
  constructor
  · rw [h3]
    congr 1
    have e : (2 : ℚ) ^ (((1074 : ℕ) : ℤ) - 1074) = 1 := by norm_num
    rw [e, _root_.mul_one]
    have h4 : ((z.natAbs : ℕ) : ℚ) = ((|z| : ℤ) : ℚ) := by rw [Int.abs_eq_natAbs]; rfl
    rw [h4]
    by_cases hn : z < 0
    · simp [hn, abs_of_neg hn]
    · simp [hn, _root_.abs_of_nonneg (not_lt.1 hn)]
  · rw [h2]; rfl

theorem f32_value (b : ℕ) (hb : b < 2 ^ 32) (q : ℚ) (h : single b = some q) :
    value (F64.ofF32 b) = some q ∧ signBit (F64.ofF32 b) = b.testBit 31 := by
  have hs : b.testBit 31 = decide (2 ^ 31 ≤ b) := by
    rw [Nat.testBit_eq_decide_div_mod_eq]
    congr 1
    apply propext
    constructor <;> intro h <;> omega
  have hm : b % 2 ^ 23 < 2 ^ 23 := Nat.mod_lt _ (by norm_num)
  have he : b / 2 ^ 23 % 2 ^ 8 < 256 := Nat.mod_lt _ (by norm_num)
  unfold single at h
  unfold F64.ofF32
  rw [hs] at h ⊢
  simp only [show (2 : ℕ) ^ 8 = 256 from rfl] at he ⊢
  generalize b / 2 ^ 23 % 256 = e at h he ⊢
  generalize b % 2 ^ 23 = m at h hm ⊢
  generalize decide (2 ^ 31 ≤ b) = s at h ⊢
  by_cases h1 : e = 255
  · simp [h1] at h
  by_cases h0 : e = 0
  · obtain ⟨_, k2, k3⟩ := ofMag_units s m 925 (by omega) (by norm_num)
    simp only [h0, if_true] at h ⊢
    rw [if_neg (by norm_num)] at h ⊢
    constructor
    · rw [k3, ← h]
      congr 1
      cases s <;> norm_num <;> ring
    · rw [k2]; rfl
  · obtain ⟨_, k2, k3⟩ := ofMag_units s (2 ^ 23 + m) (e - 1 + 925) (by omega) (by omega)
    rw [if_neg h1, if_neg h0] at h ⊢
    rw [Nat.mul_assoc, ← Nat.pow_add]
    constructor
    · rw [k3, ← h]
      congr 1
      have e1 : (2 : ℚ) ^ ((e : ℤ) - 127) = 2 ^ (((e - 1 + 925 : ℕ) : ℤ) - 1074) * 2 ^ (23 : ℤ) := by
        have hz : ((e - 1 + 925 : ℕ) : ℤ) - 1074 + 23 = e - 127 := by omega
        rw [← zpow_add₀ (by norm_num), hz]
      have e2 : (2 : ℚ) ^ (23 : ℤ) = 2 ^ 23 := by norm_num
      rw [e2] at e1
      rw [e1]
      push_cast
      cases s <;> field_simp <;> norm_num
    · rw [k2]; rfl

/-- C132: a value given to a context is kept exactly: no conversion loses anything. -/
theorem C132_exact (g : Given) (q : ℚ) (h : Stands g q) : value g.into = some q := by
  have b8 (n : Int8) : |n.toInt| < 2 ^ 53 := by
    have h1 := n.le_toInt; have h2 := n.toInt_lt
    rw [abs_lt]; constructor <;> omega
  have b16 (n : Int16) : |n.toInt| < 2 ^ 53 := by
    have h1 := n.le_toInt; have h2 := n.toInt_lt
    rw [abs_lt]; constructor <;> omega
  have b32 (n : Int32) : |n.toInt| < 2 ^ 53 := by
    have h1 := n.le_toInt; have h2 := n.toInt_lt
    rw [abs_lt]; constructor <;> omega
  have nat (k : ℕ) (hk : k < 2 ^ 32) : value (F64.ofInt (k : ℤ)) = some (k : ℚ) := by
    have := (ofInt_value (z := (k : ℤ)) (by rw [abs_lt]; omega)).1
    simpa using this
  cases g with
  | f64 x => exact h
  | f32 b => exact (f32_value _ b.toNat_lt q h).1
  | bool b =>
    rcases h with ⟨rfl, rfl⟩ | ⟨rfl, rfl⟩
    · simpa [Given.into] using nat 1 (by norm_num)
    · simpa [Given.into] using nat 0 (by norm_num)
  | i8 n => cases h; exact (ofInt_value (b8 n)).1
  | i16 n => cases h; exact (ofInt_value (b16 n)).1
  | i32 n => cases h; exact (ofInt_value (b32 n)).1
  | u8 n => cases h; exact nat _ (by have := n.toNat_lt; omega)
  | u16 n => cases h; exact nat _ (by have := n.toNat_lt; omega)
  | u32 n => cases h; exact nat _ n.toNat_lt

/-- Every value but infinities and NaN stands for a number. -/
theorem C132_special (g : Given) :
    (∃ q, Stands g q) ∨ (∃ x, g = .f64 x ∧ value x = none) ∨
      ∃ b, g = .f32 b ∧ single b.toNat = none ∧
        (b.toNat % 2 ^ 23 = 0 → g.into = .inf (b.toNat.testBit 31)) ∧ (b.toNat % 2 ^ 23 ≠ 0 → g.into = .nan) := by
  cases g with
  | f64 x =>
    cases h : value x with
    | none => exact .inr (.inl ⟨x, rfl, h⟩)
    | some q => exact .inl ⟨q, h⟩
  | f32 b =>
    cases h : single b.toNat with
    | some q => exact .inl ⟨q, h⟩
    | none =>
      refine .inr (.inr ⟨b, rfl, h, ?_⟩)
      have hb := b.toNat_lt
      have hs : b.toNat.testBit 31 = decide (2 ^ 31 ≤ b.toNat) := by
        rw [Nat.testBit_eq_decide_div_mod_eq]
        congr 1
        apply propext
        constructor <;> intro h <;> omega
      have he : b.toNat / 2 ^ 23 % 256 = 255 := by
        unfold single at h
        simp only at h
        by_contra hc
        rw [if_neg hc] at h
        split at h <;> cases h
      simp only [Given.into, F64.ofF32, show (2 : ℕ) ^ 8 = 256 from rfl, he, if_true, hs]
      constructor
      · intro h; rw [if_pos h]
      · intro h; rw [if_neg h]
  | bool b => cases b <;> exact .inl ⟨_, by simp [Stands]; rfl⟩
  | i8 n => exact .inl ⟨_, rfl⟩
  | i16 n => exact .inl ⟨_, rfl⟩
  | i32 n => exact .inl ⟨_, rfl⟩
  | u8 n => exact .inl ⟨_, rfl⟩
  | u16 n => exact .inl ⟨_, rfl⟩
  | u32 n => exact .inl ⟨_, rfl⟩

/-- C132: the sign of a zero is that of the value given; only floats have a negative one. -/
theorem C132_zero (g : Given) (h : Stands g 0) :
    signBit g.into = true ↔ (∃ x, g = .f64 x ∧ signBit x = true) ∨ ∃ b, g = .f32 b ∧ b.toNat.testBit 31 = true := by
  have key (z : ℤ) (hz : (0 : ℚ) = z) : signBit (F64.ofInt z) = false := by
    have : z = 0 := by exact_mod_cast hz.symm
    subst this
    exact (ofInt_value (by norm_num)).2
  cases g with
  | f64 x => simp [Given.into]
  | f32 b => simp [Given.into, (f32_value _ b.toNat_lt 0 h).2]
  | bool b =>
    rcases h with ⟨rfl, h⟩ | ⟨rfl, -⟩
    · norm_num at h
    · simp [Given.into, key 0 (by norm_num)]
  | i8 n => simp [Given.into, key _ h]
  | i16 n => simp [Given.into, key _ h]
  | i32 n => simp [Given.into, key _ h]
  | u8 n => simp [Given.into, key (n.toNat : ℤ) (by rw [Int.cast_natCast]; exact h)]
  | u16 n => simp [Given.into, key (n.toNat : ℤ) (by rw [Int.cast_natCast]; exact h)]
  | u32 n => simp [Given.into, key (n.toNat : ℤ) (by rw [Int.cast_natCast]; exact h)]

/-- C132: values of different types compare as the numbers they stand for. -/
theorem C132_order (g k : Given) (p q : ℚ) (hg : Stands g p) (hk : Stands k q) :
    (LeF g.into k.into ↔ p ≤ q) ∧ (Same g.into k.into ↔ p = q) := by
  have h1 := C132_exact g p hg
  have h2 := C132_exact k q hk
  refine ⟨⟨fun h => leF_values h h1 h2, le_values h1 h2⟩, fun h => ?_, fun h => ?_⟩
  · have := value_same h1 h
    rw [h2] at this
    exact (Option.some.inj this).symm
  · subst h
    exact same_of_value h1 h2

theorem name_parse (cfg : Cfg) (w : World) (o : Oracle) (ctx : Context) (nm : Bytes) (v : F64) (hn : Name nm [])
    (hv : ctx.get nm = some (.var v)) : parse cfg w o ctx nm = .ok ⟨.num v, []⟩ := by
  have hl : lookup ctx nm = .const v := by unfold lookup; rw [hv]; rfl
  refine parse_of_impl ?_ (by simp)
  have := parseImpl_text cfg w ctx (.name [] nm) [] ⟨by simp [spaces], hn, by simp [hl]⟩ (by simp [spaces])
  simp only [Cst.text, List.nil_append, List.append_nil] at this
  rw [this]
  have hf : finOf cfg w (.num v) = .ok (.num v) := by
    unfold finOf; split
    · rw [simplify]
    · rfl
  simp only [Cst.meaning, Cst.den, hl, hf]
  rfl

/-- C132: in every build a text that is the name of a value given to the context is that number, whatever had the
name before. -/
theorem C132_name (cfg : Cfg) (w : World) (o : Oracle) (ctx : Context) (nm : Bytes) (g : Given) (q : ℚ)
    (hn : Name nm []) (hg : Stands g q) :
    ∃ x, parse cfg w o (ctx.setGiven nm g) nm = .ok x ∧ x.vars = [] ∧
      ∃ v, value v = some q ∧ ∀ m, x.eval w m = .ok v ∧ x.evalUnchecked w m = .ok v := by
  refine ⟨_, name_parse cfg w o _ nm g.into hn ?_, rfl, g.into, C132_exact g q hg, fun m => ⟨?_, ?_⟩⟩
  · simp [Context.setGiven, Context.setVar, Context.get, HMap.insert, HMap.get]
  · unfold Xpr.eval; rw [eval]
  · unfold Xpr.evalUnchecked; rw [evalU]

/-- C132: a literal that stands for the same number is the same constant. -/
theorem C132_literal (cfg : Cfg) (w : World) (o : Oracle) (ctx : Context) (ws txt tw : Bytes) (M : Nat) (E : Int)
    (g : Given) (hw : spaces ws) (ht : spaces tw) (h : Decimal txt tw M E) (hg : Stands g (M * 10 ^ E)) :
    ∃ v, parse cfg w o ctx (ws ++ txt ++ tw) = .ok ⟨.num v, []⟩ ∧ Same v g.into := by
  obtain ⟨v, h1, -, h3⟩ := C18_value cfg w o ctx ws txt tw M E hw ht h
  have e := h3 _ (ofDecimal_nearest M E)
  subst e
  refine ⟨_, h1, ?_⟩
  have hx := C132_exact g _ hg
  have hr := rounds_decimal M E
  have e : (decNum M E : ℚ) / decDen E = M * 10 ^ E := by
    unfold decNum decDen
    rcases le_total 0 E with hE | hE
    · obtain ⟨n, rfl⟩ := Int.eq_ofNat_of_zero_le hE
      simp
    · obtain ⟨n, hn⟩ := Int.eq_ofNat_of_zero_le (show 0 ≤ -E by omega)
      have : E = -(n : ℤ) := by omega
      subst this
      simp [zpow_neg, div_eq_mul_inv]
  rw [e] at hr
  exact same_of_value (value_of_rounds hr ⟨_, hx⟩) hx

/-- The values of some bits: the largest `f32`, the least one, one half, and the least `i32`; zeros with signs. -/
example : single 0x7f7fffff = some ((2 - 1 / 2 ^ 23) * 2 ^ 127) ∧ single 1 = some (1 / 2 ^ 149) ∧
    (Given.f32 0x3f000000).into = F64.ofDecimal 5 (-1) ∧
    (Given.i32 (-2147483648)).into = F64.neg (F64.ofNat 2147483648) ∧
    (Given.f32 0x80000000).into = F64.zero true ∧ (Given.i8 0).into = F64.zero false ∧
    (Given.f32 0xff800000).into = .inf true ∧ (Given.f32 0x7fc00000).into = .nan := by
  refine ⟨?_, ?_, by decide +kernel, by decide +kernel, by decide +kernel, by decide +kernel, by decide +kernel,
    by decide +kernel⟩ <;> norm_num [single, Nat.testBit_eq_decide_div_mod_eq]

/-- What does not hold: `0.1_f32` is not the constant `0.1` (its literal has more digits). -/
example : (Given.f32 0x3dcccccd).into ≠ F64.ofDecimal 1 (-1) ∧
    (Given.f32 0x3dcccccd).into = F64.ofDecimal 100000001490116119384765625 (-27) := by
  constructor <;> decide +kernel

/-- A context with an `u8`, a `bool` and an `f32`. -/
example : parse cfgOpt w0 Oracle.id (((Context.default.setGiven b!"n" (.u8 200)).setGiven b!"b" (.bool true)).setGiven
      b!"h" (.f32 0x3f000000)) b!"n + b + h" = .ok ⟨.num (F64.ofDecimal 2015 (-1)), []⟩ := by
  decide +kernel

end Props
end Xprs
