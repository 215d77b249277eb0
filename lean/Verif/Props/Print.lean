import Verif.Lemmas.Shortest
import Verif.Props.Display
import Verif.Props.Session
/-
Property C72: how numbers are printed.
-/
namespace Xprs
namespace Props
open Spec
set_option exponentiation.threshold 4096

theorem ofDecimal_of_reads {n : Nat} {h : Rep n} {M : Nat} {E : Int}
    (hr : ReadsTo M E (.fin false n h)) : F64.ofDecimal M E = .fin false n h :=
  nearestF64_unique (ofDecimal_nearest M E) hr

theorem shortest_zero : shortest 0 = (0, 0) := by
  unfold shortest
  rw [if_pos rfl]

theorem ofDecimal_zero : ∀ (h : Rep 0), F64.ofDecimal 0 0 = .fin false 0 h := by
  decide +kernel

theorem shortest_pos {n : Nat} (h : Rep n) (hn : 0 < n) : (shortest n).1 ≠ 0 := by
  intro h0
  have h1 := (readsTo_iff h _ _).1 (shortest_correct h hn).reads
  rw [h0] at h1
  have h2 := h1.closest 0 ⟨0, 0, by decide, rfl⟩
  have h3 := Nat.mul_pos hn (scaleB_pos (shortest n).2)
  unfold Spec.dist at h2
  omega

theorem nearest_scale {N D n : Nat} (k : Nat) (hk : 0 < k) : Nearest (N * k) (D * k) n ↔ Nearest N D n := by
  have hd : ∀ m, Spec.dist (m * (D * k)) (N * k) = Spec.dist (m * D) N * k := by
    intro m
    unfold Spec.dist
    rw [← Nat.mul_assoc, ← Nat.sub_mul, ← Nat.sub_mul, ← Nat.add_mul]
  constructor <;> intro hN <;> refine ⟨hN.grid, fun m hm => ?_, fun m hm hne he => hN.even m hm hne ?_⟩
  · have := hN.closest m hm
    rw [hd, hd] at this
    exact Nat.le_of_mul_le_mul_right this hk
  · rw [hd, hd, he]
  · rw [hd, hd]
    exact Nat.mul_le_mul_right _ (hN.closest m hm)
  · rw [hd, hd] at he
    exact Nat.eq_of_mul_eq_mul_right hk he

/-- No needless zero at the end of the digits. -/
theorem shortest_last {n : Nat} (h : Rep n) (hn : 0 < n) : (shortest n).1 % 10 ≠ 0 := by
  intro h0
  have hs := shortest_correct h hn
  refine hs.places ((shortest n).1 / 10) ((shortest n).2 + 1) (by omega) ?_
  have hr := hs.reads
  have e : (shortest n).1 = (shortest n).1 / 10 * 10 := by omega
  generalize (shortest n).2 = E at *
  generalize (shortest n).1 / 10 = M at *
  rw [e] at hr
  rw [readsTo_iff] at hr ⊢
  rcases lt_or_ge E 0 with hE | hE
  · refine (nearest_scale 10 (by decide)).1 ?_
    have e1 : scaleA (E + 1) = scaleA E := by
      unfold scaleA
      rw [show (E + 1).toNat = 0 by omega, show E.toNat = 0 by omega]
    have e2 : scaleB (E + 1) * 10 = scaleB E := by
      unfold scaleB
      rw [show (-E).toNat = (-(E + 1)).toNat + 1 by omega, Nat.pow_succ]
    rw [e1, e2, Nat.mul_assoc, Nat.mul_comm (scaleA E), ← Nat.mul_assoc]
    exact hr
  · have e1 : scaleA (E + 1) = 10 * scaleA E := by
      unfold scaleA
      rw [show (E + 1).toNat = E.toNat + 1 by omega, Nat.pow_succ]
      ring
    have e2 : scaleB (E + 1) = scaleB E := by
      unfold scaleB
      rw [show (-E).toNat = 0 by omega, show (-(E + 1)).toNat = 0 by omega]
    rw [e1, e2, ← Nat.mul_assoc]
    exact hr

/-! ### C72 -/

/-- C72, the digits: a positive number is printed as a decimal number in plain notation,
without an exponent; of all decimal numbers that read back as the number it has the fewest
places and, with as many places, is the closest; it has at most 17 significant digits, the
last of which is not zero. -/
theorem C72_shortest (n : Nat) (h : Rep n) (hn : 0 < n) :
    ∃ M E, Shortest (.fin false n h) M E ∧ Written (fmtF64 (.fin false n h)) M E ∧
      M < 10 ^ 17 ∧ M % 10 ≠ 0 :=
  ⟨(shortest n).1, (shortest n).2, shortest_correct h hn,
    decText_written _ _ (.inl (shortest_pos h hn)), shortest_digits h hn, shortest_last h hn⟩

theorem written_shortest (n : Nat) (h : Rep n) : Written (fmtF64 (.fin false n h)) (shortest n).1 (shortest n).2 := by
  refine decText_written _ _ ?_
  rcases Nat.eq_zero_or_pos n with rfl | hn
  · rw [shortest_zero]; exact .inr rfl
  · exact .inl (shortest_pos h hn)

theorem value_shortest (n : Nat) (h : Rep n) :
    F64.ofDecimal (shortest n).1 (shortest n).2 = .fin false n h := by
  rcases Nat.eq_zero_or_pos n with rfl | hn
  · rw [shortest_zero]; exact ofDecimal_zero h
  · exact ofDecimal_of_reads (shortest_correct h hn).reads

theorem not_expStart_nil : ¬ expStart ([] : Bytes) := by
  rintro ⟨e, sg, d, t, -, -, -, h⟩
  simp at h

theorem expText_literal (M : Nat) (E : Int) : Literal (expText M E) [] (F64.ofDecimal M E) := by
  obtain ⟨d, ds, e⟩ := List.exists_cons_of_ne_nil (decimal_ne_nil M)
  have hd : ∀ c ∈ d :: ds, digit c := e ▸ decimal_digit M
  have hv : decVal (d :: ds) = M := e ▸ decimal_val M
  unfold expText
  rw [e]
  simp only [List.take_succ_cons, List.take_zero, List.length_cons, List.drop_succ_cons, List.drop_zero]
  refine ⟨[d] ++ (if ds.length + 1 = 1 then [] else c!"." :: ds), [d], ds, ⟨d, rfl, .inl (hd d (by simp))⟩,
    ?_, ⟨?_, fun c hc => hd c (by simp [hc]), by simp, ?_⟩, .inr ⟨c!"e",
      if E + ((ds.length + 1 : Nat) : Int) < 1 then b!"-" else [],
      decimal (E + ((ds.length + 1 : Nat) : Int) - 1).natAbs, .inl rfl, decimal_ne_nil _, decimal_digit _, ?_, nofun, ?_⟩⟩
  · intro c hc
    rcases List.mem_append.1 hc with hc | hc
    · rw [List.mem_singleton.1 hc]; exact .inl (hd d (by simp))
    · split at hc
      · cases hc
      · rcases List.mem_cons.1 hc with rfl | hc
        · exact .inr (.inl rfl)
        · exact .inl (hd c (by simp [hc]))
  · intro c hc
    rw [List.mem_singleton.1 hc]; exact hd d (by simp)
  · have hf1 := digits_filter (ds := [d]) (fun c hc => hd c (by rw [List.mem_singleton.1 hc]; simp))
    have hf2 := digits_filter (ds := ds) (fun c hc => hd c (by simp [hc]))
    split
    · rename_i h0
      have : ds = [] := List.length_eq_zero_iff.1 (by omega)
      subst this
      exact .inr ⟨rfl, by rw [List.append_nil]; exact hf1⟩
    · refine .inl ?_
      rw [List.filter_append, hf1, List.filter_cons_of_pos (by decide), hf2]
      simp
  · simp
  · rw [decimal_val, List.singleton_append, hv]
    split
    · rename_i h0
      refine .inr ⟨rfl, ?_⟩
      congr 1
      omega
    · rename_i h0
      refine .inl ⟨.inl rfl, ?_⟩
      congr 1
      omega

theorem zeros_literal {t : Bytes} {M : Nat} {E : Int} (h : Written t M E) (hE : 0 ≤ E) :
    Literal (t ++ b!".0") [] (F64.ofDecimal M E) := by
  obtain ⟨ip, fp, h1, -, h3, -, ⟨-, -, rfl, h5⟩ | ⟨hlt, -⟩⟩ := h
  · refine ⟨t ++ b!".0", t, b!"0", ?_, ?_, ⟨h1, by decide, by simp [h3], .inl ?_⟩,
      .inl ⟨rfl, nofun, not_expStart_nil, ?_⟩⟩
    · cases t with
      | nil => exact absurd rfl h3
      | cons c t => exact ⟨c, rfl, .inl (h1 c (by simp))⟩
    · intro c hc
      rcases List.mem_append.1 hc with hc | hc
      · exact .inl (h1 c hc)
      · have : ∀ c ∈ b!".0", mantChar c := by decide
        exact this c hc
    · rw [List.filter_append, digits_filter h1]
      simp [List.filter]
    · have hn := ofDecimal_nearest M E
      refine nearestF64_unique hn ?_
      have e : decVal (t ++ b!"0") = M * 10 ^ E.toNat * 10 := by
        rw [decVal_append, h5]
        rfl
      rw [e]
      obtain ⟨m, a, b⟩ := ofDecimal_nearest (M * 10 ^ E.toNat * 10) (-((b!"0" : Bytes).length : Int))
      refine ⟨m, ?_, b⟩
      have e1 : decNum (M * 10 ^ E.toNat * 10) (-((b!"0" : Bytes).length : Int)) * 2 ^ 1074 =
          decNum M E * 2 ^ 1074 * 10 := by
        unfold decNum
        simp only [List.length_cons, List.length_nil]
        rw [show (-((0 + 1 : Nat) : Int)).toNat = 0 by decide]
        ring
      have e2 : decDen (-((b!"0" : Bytes).length : Int)) = decDen E * 10 := by
        unfold decDen
        rw [show (-E).toNat = 0 by omega]
        rfl
      rw [e1, e2] at a
      exact (nearest_scale 10 (by decide)).1 a
  · omega

/-- C72: the standard library keeps its promise, the assumption of C39. -/
theorem C72_prints : Prints fmtF64 where
  pos n h := by
    rcases Nat.eq_zero_or_pos n with rfl | hn
    · have := written_literal (decText_written 0 0 (.inr rfl))
      rw [ofDecimal_zero h] at this
      show Literal (decText (shortest 0).1 (shortest 0).2) [] _
      rw [shortest_zero]
      exact this
    · have := written_literal (decText_written (shortest n).1 (shortest n).2 (.inl (shortest_pos h hn)))
      rw [ofDecimal_of_reads (shortest_correct h hn).reads] at this
      exact this
  neg _ _ := rfl
  inf := rfl
  negInf := rfl
  nan := rfl

/-- The two zeros. -/
theorem C72_zero (h : Rep 0) : fmtF64 (.fin false 0 h) = b!"0" ∧ fmtF64 (.fin true 0 h) = b!"-0" := by
  have : decText (shortest 0).1 (shortest 0).2 = b!"0" := by
    rw [shortest_zero]
    unfold decText
    rw [if_pos (by decide)]
    unfold decimal
    rfl
  exact ⟨this, congrArg (c!"-" :: ·) this⟩

/-- What `Debug` prints: the same digits. -/
theorem debug_prints : Prints debugF64 where
  pos n h := by
    have hp := C72_prints.pos n h
    have hs := written_shortest n h
    have hv : F64.ofDecimal (shortest n).1 (shortest n).2 = .fin false n h := value_shortest n h
    show Literal (if usesExp (.fin false n h) then _ else _) [] _
    rw [← hv]
    split
    · exact expText_literal _ _
    · split
      · exact zeros_literal hs ‹_›
      · rw [List.append_nil]
        exact written_literal hs
  neg _ _ := rfl
  inf := rfl
  negInf := rfl
  nan := rfl

theorem literal_decimal {t rest : Bytes} {v : F64} (h : Literal t rest v) :
    ∃ M E, Decimal t rest M E ∧ NearestF64 (decNum M E * 2 ^ 1074) (decDen E) v := by
  obtain ⟨mant, ip, fp, h1, h2, h3, h4⟩ := h
  rcases h4 with ⟨e, h5, h6, rfl⟩ | ⟨e, sg, ds, a1, a2, a3, a4, a5, ⟨a6, rfl⟩ | ⟨a6, rfl⟩⟩
  · exact ⟨_, _, ⟨mant, ip, fp, h1, h2, h3, rfl, .inl ⟨e, h5, h6, rfl⟩⟩, ofDecimal_nearest _ _⟩
  · exact ⟨_, _, ⟨mant, ip, fp, h1, h2, h3, rfl,
      .inr ⟨e, sg, ds, a1, a2, a3, a4, a5, .inl ⟨a6, rfl⟩⟩⟩, ofDecimal_nearest _ _⟩
  · exact ⟨_, _, ⟨mant, ip, fp, h1, h2, h3, rfl,
      .inr ⟨e, sg, ds, a1, a2, a3, a4, a5, .inr ⟨a6, rfl⟩⟩⟩, ofDecimal_nearest _ _⟩

/-- The characters of printed numbers. -/
def Numerical (l : Bytes) : Prop := ∀ c ∈ l, digit c ∨ c ∈ b!".e-"

theorem numerical_append {a b : Bytes} (ha : Numerical a) (hb : Numerical b) : Numerical (a ++ b) := by
  intro c hc
  rcases List.mem_append.1 hc with hc | hc
  · exact ha c hc
  · exact hb c hc
theorem numerical_cons {c : UInt8} {l : Bytes} (hc : c ∈ b!".e-") (hl : Numerical l) : Numerical (c :: l) := by
  intro d hd
  rcases List.mem_cons.1 hd with rfl | hd
  · exact .inr hc
  · exact hl d hd
theorem numerical_digits {l : Bytes} (h : ∀ c ∈ l, digit c) : Numerical l := fun c hc => .inl (h c hc)
theorem numerical_nil : Numerical [] := nofun

theorem written_numerical {t : Bytes} {M : Nat} {E : Int} (h : Written t M E) : Numerical t := by
  obtain ⟨ip, fp, h1, h2, -, -, ⟨-, -, rfl, -⟩ | ⟨-, -, rfl, -⟩⟩ := h
  · exact numerical_digits h1
  · exact numerical_append (numerical_digits h1) (numerical_cons (by decide) (numerical_digits h2))

theorem fmt_numerical (n : Nat) (h : Rep n) : Numerical (fmtF64 (.fin false n h)) :=
  written_numerical (written_shortest n h)

theorem debug_numerical (n : Nat) (h : Rep n) : Numerical (debugF64 (.fin false n h)) := by
  show Numerical (if usesExp (.fin false n h) then _ else _)
  split
  · unfold expText
    refine numerical_append (numerical_append ?_ (numerical_cons (by decide) ?_)) (numerical_digits (decimal_digit _))
    · refine numerical_append (numerical_digits fun c hc => decimal_digit _ c (List.mem_of_mem_take hc)) ?_
      split
      · exact numerical_nil
      · exact numerical_cons (by decide) (numerical_digits fun c hc => decimal_digit _ c (List.mem_of_mem_drop hc))
    · split
      · exact numerical_cons (by decide) numerical_nil
      · exact numerical_nil
  · refine numerical_append (written_numerical (written_shortest n h)) ?_
    split
    · exact numerical_cons (by decide) (numerical_digits (by decide))
    · exact numerical_nil

theorem numeral_of_prints {fmt : F64 → Bytes} (hf : Prints fmt)
    (hc : ∀ n h, Numerical (fmt (.fin false n h))) (v : F64) : Numeral (fmt v) v := by
  have key : ∀ n h, Unsigned (fmt (.fin false n h)) (.fin false n h) := by
    intro n h
    refine .inr (.inr ⟨fun hm => ?_, literal_decimal (hf.pos n h)⟩)
    rcases hc n h _ hm with hm | hm <;> revert hm <;> decide
  cases v with
  | nan => exact ⟨b!"NaN", .nan, .inr (.inl ⟨by decide, rfl⟩), .inl ⟨.inl hf.nan, rfl⟩⟩
  | inf s =>
    cases s with
    | false => exact ⟨b!"inf", .inf false, .inl ⟨.inl (by decide), rfl⟩, .inl ⟨.inl hf.inf, rfl⟩⟩
    | true => exact ⟨b!"inf", .inf false, .inl ⟨.inl (by decide), rfl⟩, .inr ⟨hf.negInf, rfl⟩⟩
  | fin s n h =>
    cases s with
    | false => exact ⟨_, _, key n h, .inl ⟨.inl rfl, rfl⟩⟩
    | true => exact ⟨_, _, key n h, .inr ⟨hf.neg n h, rfl⟩⟩

/-- C72, reading back: the text of any number, infinities, NaN and negative zero included,
is a numeral for it, printed either way. -/
theorem C72_numeral (v : F64) : Numeral (fmtF64 v) v ∧ Numeral (debugF64 v) v :=
  ⟨numeral_of_prints C72_prints fmt_numerical v, numeral_of_prints debug_prints debug_numerical v⟩

/-- C72: different numbers are printed differently. -/
theorem C72_injective (a b : F64) (h : fmtF64 a = fmtF64 b ∨ debugF64 a = debugF64 b) : a = b := by
  rcases h with h | h
  · exact C61_answer_one (fmtF64 a) a b (C72_numeral a).1 (h ▸ (C72_numeral b).1)
  · exact C61_answer_one (debugF64 a) a b (C72_numeral a).2 (h ▸ (C72_numeral b).2)

theorem parse_of_prints {fmt : F64 → Bytes} (hf : Prints fmt) (cfg : Cfg) (w : World) (o : Oracle)
    (ctx : Context) (s : Bool) (n : Nat) (h : Rep n) :
    ∃ e, parse cfg w o ctx (fmt (.fin s n h)) = .ok e ∧ e.vars = [] ∧
      ∀ m, e.eval w m = .ok (.fin s n h) := by
  have key : ∀ e, parseImpl cfg w ctx (fmt (.fin s n h)) = .ok ⟨e, []⟩ →
      (∀ m, (⟨e, []⟩ : Xpr).eval w m = .ok (.fin s n h)) →
      ∃ e, parse cfg w o ctx (fmt (.fin s n h)) = .ok e ∧ e.vars = [] ∧
      ∀ m, e.eval w m = .ok (.fin s n h) := fun e h1 h2 =>
    ⟨⟨e, []⟩, parse_of_impl h1 (by simp), rfl, h2⟩
  by_cases hc : s = false ∨ cfg.opt = true
  · refine key (.num (.fin s n h)) ?_ fun m => ?_
    · refine parseImpl_show (ctx := ctx) (fmt := fmt) hf ?_ fun _ => by rw [simplify]
      cases s with
      | false => exact .lit
      | true => exact .minus (hc.resolve_left (by simp))
    · rfl
  · simp only [not_or, Bool.not_eq_true, Bool.not_eq_false] at hc
    obtain ⟨rfl, ho⟩ := hc
    refine key (.un .minus (.num (.fin false n h))) ?_ fun m => ?_
    · have h1 := showCst_text (ctx := ctx) (neg := true) hf (.num (.fin true n h)) [] (.minus rfl)
      have h2 := parseImpl_plain (cfg := cfg) w ho (showCst_good (ctx := ctx) (neg := true) cfg hf
        (.num (.fin true n h)) [] spaces_nil (.minus rfl)) spaces_nil
      rw [h1, List.nil_append, List.append_nil] at h2
      exact h2
    · rfl

/-- C72, expressions: the text of a finite number, printed either way, is in every build,
context and world an expression without variables whose value is the number. -/
theorem C72_parse (cfg : Cfg) (w : World) (o : Oracle) (ctx : Context) (s : Bool) (n : Nat) (h : Rep n)
    (t : Bytes) (ht : t = fmtF64 (.fin s n h) ∨ t = debugF64 (.fin s n h)) :
    ∃ e, parse cfg w o ctx t = .ok e ∧ e.vars = [] ∧ ∀ m, e.eval w m = .ok (.fin s n h) := by
  rcases ht with rfl | rfl
  · exact parse_of_prints C72_prints cfg w o ctx s n h
  · exact parse_of_prints debug_prints cfg w o ctx s n h

/-- In the REPL: a value, typed as a line the way it is printed, is evaluated to itself. -/
theorem C72_line (cfg : Cfg) (w : World) (o : Oracle) (s : Bool) (n : Nat) (h : Rep n) (answers : Nat → F64) :
    replLine cfg w o (debugF64 (.fin s n h)) answers = .evaluated (.fin s n h) := by
  obtain ⟨e, h1, _, h2⟩ := C72_parse cfg w o Context.default s n h _ (.inr rfl)
  unfold replLine
  rw [h1]
  simp only [h2]

/-! ### Answers in the REPL -/

def inner (c : UInt8) : Prop := 0x20 < c ∧ c < 0x80

theorem no_white {ws : List Bytes} (hw : ∀ p ∈ ws, ∃ a ∈ p.head?, ¬ inner a) {c : UInt8} (hc : inner c)
    (l : Bytes) : ws.find? (fun p => p.isPrefixOf (c :: l)) = none := by
  rw [List.find?_eq_none]
  intro p hp h
  obtain ⟨a, ha, hi⟩ := hw p hp
  cases p with
  | nil => cases ha
  | cons b p =>
    cases ha
    simp only [List.isPrefixOf, Bool.and_eq_true, beq_iff_eq] at h
    exact hi (h.1 ▸ hc)

theorem trimFront_inner {ws : List Bytes} (hw : ∀ p ∈ ws, ∃ a ∈ p.head?, ¬ inner a) :
    ∀ (k : Nat) (l : Bytes), (∀ c ∈ l.head?, inner c) → l ≠ [] → trimFront ws k l = l
  | 0, _, _, _ => rfl
  | k + 1, [], _, h => absurd rfl h
  | k + 1, c :: l, h, _ => by
    rw [trimFront, no_white hw (h c (by simp))]

theorem white_front : ∀ p ∈ whiteSpace, ∃ a ∈ p.head?, ¬ inner a := by
  unfold inner
  decide
theorem white_back : ∀ p ∈ whiteSpace.map List.reverse, ∃ a ∈ p.head?, ¬ inner a := by
  unfold inner
  decide

/-- A line feed at the end is removed, and nothing else. -/
theorem strTrim_line {l : Bytes} (h : ∀ c ∈ l, inner c) (hne : l ≠ []) : strTrim (l ++ b!"\n") = l := by
  obtain ⟨c, t, rfl⟩ := List.exists_cons_of_ne_nil hne
  unfold strTrim
  rw [trimFront_inner white_front _ _ (by simpa using h c (by simp)) (by simp)]
  simp only [List.reverse_append]
  have : (c :: t ++ b!"\n").length = (t.length + 1) + 1 := by simp
  rw [this, trimFront]
  have hf : (whiteSpace.map List.reverse).find? (fun p => p.isPrefixOf
      (List.reverse b!"\n" ++ (c :: t).reverse)) = some [0x0A] := by
    generalize (c :: t).reverse = r
    simp [whiteSpace, List.find?, List.isPrefixOf]
  rw [hf]
  show (trimFront _ _ (c :: t).reverse).reverse = _
  rw [trimFront_inner white_back _ _ ?_ (by simp), List.reverse_reverse]
  intro a ha
  exact h a (List.mem_reverse.1 (List.mem_of_mem_head? ha))

theorem numerical_inner {l : Bytes} (h : Numerical l) : ∀ c ∈ l, inner c := by
  intro c hc
  have : ∀ c ∈ [48, 49, 50, 51, 52, 53, 54, 55, 56, 57, c!".", c!"e", c!"-"], inner c := by
    unfold inner
    decide
  refine this c ?_
  rcases h c hc with hc | hc
  · have : c ∈ [48, 49, 50, 51, 52, 53, 54, 55, 56, 57] := hc
    simp only [List.mem_cons] at this ⊢
    tauto
  · have : c ∈ [c!".", c!"e", c!"-"] := hc
    simp only [List.mem_cons] at this ⊢
    tauto

theorem inner_of_prints {fmt : F64 → Bytes} (hf : Prints fmt)
    (hc : ∀ n h, Numerical (fmt (.fin false n h))) (v : F64) : fmt v ≠ [] ∧ ∀ c ∈ fmt v, inner c := by
  cases v with
  | nan => rw [hf.nan]; unfold inner; decide
  | inf s =>
    cases s
    · rw [hf.inf]; unfold inner; decide
    · rw [hf.negInf]; unfold inner; decide
  | fin s n h =>
    cases s with
    | false =>
      refine ⟨fun h0 => ?_, numerical_inner (hc n h)⟩
      obtain ⟨mant, -, -, ⟨c, hm, -⟩, -, -, ⟨e, -⟩ | ⟨_, _, _, -, -, -, e, -⟩⟩ := hf.pos n h
      · rw [h0] at e
        rw [← e] at hm
        cases hm
      · rw [h0] at e
        simp at e
    | true =>
      rw [hf.neg]
      exact ⟨by simp, numerical_inner (numerical_cons (by decide) (hc n h))⟩

/-- C72, answers: the text of any number, printed either way and typed with a line feed when
the REPL asks for a variable, gives the variable that number. -/
theorem C72_answer (v : F64) : answerOf (some (fmtF64 v ++ b!"\n")) = some v ∧
    answerOf (some (debugF64 v ++ b!"\n")) = some v := by
  have h1 := inner_of_prints C72_prints fmt_numerical v
  have h2 := inner_of_prints debug_prints debug_numerical v
  constructor
  · show f64FromStr (strTrim (fmtF64 v ++ b!"\n")) = some v
    rw [strTrim_line h1.2 h1.1]
    exact (C61_answer _ _).2 (C72_numeral v).1
  · show f64FromStr (strTrim (debugF64 v ++ b!"\n")) = some v
    rw [strTrim_line h2.2 h2.1]
    exact (C61_answer _ _).2 (C72_numeral v).2

/-- C39 for the numbers as they are printed. -/
theorem C72_display (cfg : Cfg) (w : World) (o : Oracle) (ctx : Context) (input : Bytes) (e : Xpr)
    (hctx : OwnNames ctx) (h : parse cfg w o ctx input = .ok e) (hp : Printable cfg.opt e.root)
    (ho : cfg.opt = true → cfg.nightly = false ∧ ¬ NegLit e.root) :
    parse cfg w o ctx (e.show fmtF64) = .ok e :=
  C39_partial fmtF64 cfg w o ctx input e C72_prints hctx h hp ho

/-! ### Examples -/

/-- `0.1 + 0.2` -/
example : fmtF64 (F64.add (F64.ofDecimal 1 (-1)) (F64.ofDecimal 2 (-1))) = b!"0.30000000000000004" := by
  decide +kernel
/-- `Display` never uses an exponent, `Debug` does. -/
example : fmtF64 (F64.ofDecimal 1 23) = b!"100000000000000000000000" := by decide +kernel
example : debugF64 (F64.ofDecimal 1 23) = b!"1e23" := by decide +kernel
example : debugF64 (F64.ofDecimal 15 (-6)) = b!"1.5e-5" := by decide +kernel
example : debugF64 (F64.ofNat 42) = b!"42.0" := by decide +kernel
example : debugF64 (F64.ofDecimal 1 (-4)) = b!"0.0001" := by decide +kernel
example : debugF64 (F64.zero true) = b!"-0.0" := by decide +kernel
example : fmtF64 (F64.neg (F64.ofDecimal 125 (-2))) = b!"-1.25" := by decide +kernel
example : parse0 cfgPlain b!"x/(0.1 + 0.20)" = .ok ⟨.bin .divide (.var b!"x")
    (.bin .plus (.num (F64.ofDecimal 1 (-1))) (.num (F64.ofDecimal 2 (-1)))), [b!"x"]⟩ ∧
    Xpr.show fmtF64 ⟨.bin .divide (.var b!"x")
    (.bin .plus (.num (F64.ofDecimal 1 (-1))) (.num (F64.ofDecimal 2 (-1)))), [b!"x"]⟩ =
      b!"(x / (0.1 + 0.2))" := by
  decide +kernel
/-- As an expression, `inf` is a variable: only finite numbers can be typed again. -/
example : parse0 cfgPlain (fmtF64 (.inf false)) = .ok ⟨.var b!"inf", [b!"inf"]⟩ := by decide +kernel

end Props
end Xprs
