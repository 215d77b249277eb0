import Verif.Lemmas.Implicit
import Verif.Props.Parsing
/-
Properties C09, C10, C11, C14, C17, C50 and C51: which texts `parse` accepts and which
trees it returns for them.
-/
namespace Xprs
namespace Props
open Spec

/-! ### C50, C51 -/

/-- C50: an accepted input consists of characters of the documented alphabet. -/
theorem C50_alphabet (cfg : Cfg) (w : World) (o : Oracle) (ctx : Context) (input : Bytes) (x : Xpr)
    (h : parse cfg w o ctx input = .ok x) : ∀ c ∈ input, alphabet c := by
  obtain ⟨t, tw, rfl, h2, h3, _⟩ := parseImpl_ok (parse_ok h)
  intro c hc
  rcases List.mem_append.1 hc with hc | hc
  · exact alphabet_text.1 t tw h3 c hc
  · exact alphabet_space (h2 c hc)

/-- C50, non-ASCII text. -/
theorem C50_ascii (cfg : Cfg) (w : World) (o : Oracle) (ctx : Context) (input : Bytes) (x : Xpr)
    (h : parse cfg w o ctx input = .ok x) : ∀ c ∈ input, c < 128 := fun c hc =>
  (forall_byte (P := fun c => alphabet c → c < 128) (by decide +kernel)) c
    (C50_alphabet cfg w o ctx input x h c hc)

example : (match parse0 cfgOpt b!"f_1' + 2.5e3*(x - sin(1)!)^y % z" with
    | .ok _ => true | _ => false) = true := by decide +kernel
example : ¬ alphabet c!"#" ∧ ¬ alphabet c!"=" ∧ ¬ alphabet 195 := by decide
example : parse0 cfgOpt b!"x # y" = .err ⟨.unexpectedToken c!"#", 2, 0⟩ := by decide +kernel

/-- C51: the parentheses of an accepted input are balanced. -/
theorem C51_balanced (cfg : Cfg) (w : World) (o : Oracle) (ctx : Context) (input : Bytes) (x : Xpr)
    (h : parse cfg w o ctx input = .ok x) : Balanced input := by
  obtain ⟨t, tw, rfl, h2, h3, _⟩ := parseImpl_ok (parse_ok h)
  exact balanced_append (balanced_text.1 t tw h3) (balanced_spaces h2)

example : (match parse0 cfgOpt b!"((x)" with | .err _ => true | _ => false) = true := by decide +kernel
example : parse0 cfgOpt b!"(x))(" = .err ⟨.unexpectedToken c!")", 3, 0⟩ := by decide +kernel
example : ¬ Balanced b!"(x))(" := by
  intro h
  have := h.2 b!"(x))" ⟨b!"(", rfl⟩
  revert this; decide
example : (match parse0 cfgPlain b!"((x)(y))" with | .ok _ => true | _ => false) = true := by
  decide +kernel

/-! ### C17 -/

/-- The full claim of C17 (false, see `C17_refuted`). -/
def C17_claim : Prop := ∀ (cfg : Cfg) (w : World) (o : Oracle) (ctx : Context) (input : Bytes)
    (x : Xpr), parse cfg w o ctx input = .ok x → Doc ctx input

/-- Scan for an upper-case letter whose preceding token is `!`; `b`: that token is `!`. -/
def noBangUpper : Bool → Bytes → Prop
  | _, [] => True
  | b, c :: l => (b = true → ¬ upper c) ∧ noBangUpper (if space c then b else decide (c = c!"!")) l

/-- The state of that scan behind a text. -/
def bangEnd : Bool → Bytes → Bool
  | b, [] => b
  | b, c :: l => bangEnd (if space c then b else decide (c = c!"!")) l

theorem noBangUpper_append : ∀ (a b : Bytes) (s : Bool),
    noBangUpper s (a ++ b) ↔ noBangUpper s a ∧ noBangUpper (bangEnd s a) b
  | [], b, s => by simp [noBangUpper, bangEnd]
  | c :: a, b, s => by
    simp only [List.cons_append, noBangUpper, bangEnd, noBangUpper_append a b, and_assoc]

theorem noBangUpper_true : ∀ (a : Bytes), noBangUpper false a → (∀ c, firstTok a = some c → ¬ upper c) →
    noBangUpper true a
  | [], _, _ => trivial
  | c :: a, h, hf => by
    by_cases hc : space c
    · refine ⟨fun _ => (forall_byte (P := fun c => space c → ¬ upper c) (by decide +kernel)) c hc, ?_⟩
      have h2 := h.2
      rw [if_pos hc] at h2 ⊢
      refine noBangUpper_true a h2 fun d hd => hf d ?_
      rw [firstTok, if_pos hc]; exact hd
    · refine ⟨fun _ => hf c (firstTok_cons hc), ?_⟩
      have h2 := h.2
      rw [if_neg hc] at h2 ⊢
      exact h2

theorem noBangUpper_any {a : Bytes} {s : Bool} (h : noBangUpper false a)
    (hf : ∀ c, firstTok a = some c → ¬ upper c) : noBangUpper s a := by
  cases s
  · exact h
  · exact noBangUpper_true a h hf

theorem noBangUpper_plain : ∀ {a : Bytes}, (∀ c ∈ a, c ≠ c!"!") → noBangUpper false a
  | [], _ => trivial
  | c :: a, h => by
    refine ⟨(by simp), ?_⟩
    rw [show (if space c then false else decide (c = c!"!")) = false by
      split
      · rfl
      · exact decide_eq_false (h c (by simp))]
    exact noBangUpper_plain fun d hd => h d (by simp [hd])

theorem noBangUpper_sym {o : UInt8} {t : Bytes} {s : Bool} (h1 : ¬ space o) (h2 : o ≠ c!"!")
    (h3 : ¬ upper o) (h : noBangUpper false t) : noBangUpper s (o :: t) := by
  refine ⟨fun _ => h3, ?_⟩
  rw [if_neg h1, decide_eq_false h2]; exact h

theorem noBangUpper_tail {a : Bytes} {s : Bool} {o : UInt8} (ha : noBangUpper s a) (h3 : ¬ upper o) :
    noBangUpper s (a ++ [o]) := by
  rw [noBangUpper_append]; exact ⟨ha, fun _ => h3, trivial⟩

theorem noBangUpper_spaces {a : Bytes} {s : Bool} (h : spaces a) : noBangUpper s a := by
  refine noBangUpper_any (noBangUpper_plain fun c hc => ?_) fun c hc => ?_
  · exact (forall_byte (P := fun c => space c → c ≠ c!"!") (by decide +kernel)) c (h c hc)
  · rw [show firstTok a = none by
      have := firstTok_spaces (t := []) h
      rw [List.append_nil] at this; rw [this]; rfl] at hc
    cases hc

theorem bangEnd_spaces : ∀ {a : Bytes} {s : Bool}, spaces a → bangEnd s a = s
  | [], _, _ => rfl
  | c :: a, s, h => by
    rw [bangEnd, if_pos (h c (by simp))]
    exact bangEnd_spaces fun d hd => h d (by simp [hd])

/-- In the documented grammar no upper-case letter follows a `!`. -/
theorem doc_noBangUpper {ctx : Context} {t : Bytes} (h : Doc ctx t) : noBangUpper false t := by
  have hn : ∀ c, nameChar c → c ≠ c!"!" := forall_byte (by decide +kernel)
  refine Doc.rec (ctx := ctx) (motive_1 := fun t _ => noBangUpper false t)
    (motive_2 := fun t _ _ => noBangUpper false t)
    ?_ ?_ ?_ ?_ ?_ ?_ ?_ ?_ ?_ ?_ ?_ ?_ ?_ h
  · rintro t ⟨v, mant, ip, fp, _, hm, _, h⟩
    have hmb : ∀ c ∈ mant, c ≠ c!"!" := fun c hc =>
      (forall_byte (P := fun c => mantChar c → c ≠ c!"!") (by decide +kernel)) c (hm c hc)
    rcases h with ⟨rfl, _⟩ | ⟨e, sg, ds, he, _, hd, rfl, _, h⟩
    · exact noBangUpper_plain hmb
    · refine noBangUpper_plain fun c hc => ?_
      have hsg : ∀ c ∈ sg, c ≠ c!"!" := by
        rcases h with ⟨rfl | rfl, _⟩ | ⟨rfl, _⟩ <;> decide
      rcases List.mem_append.1 hc with hc | hc
      · exact hmb c hc
      · rcases List.mem_cons.1 hc with rfl | hc
        · rcases he with rfl | rfl <;> decide
        · rcases List.mem_append.1 hc with hc | hc
          · exact hsg c hc
          · exact (forall_byte (P := fun c => digit c → c ≠ c!"!") (by decide +kernel)) c (hd c hc)
  · intro t ht _
    exact noBangUpper_plain fun c hc => hn c (ht.2 c hc)
  · intro t ws as f k ht _ hws _ _ ih
    have e : t ++ ws ++ c!"(" :: as ++ [c!")"] = t ++ (ws ++ (c!"(" :: (as ++ [c!")"]))) := by simp
    rw [e, noBangUpper_append, noBangUpper_append]
    exact ⟨noBangUpper_plain fun c hc => hn c (ht.2 c hc), noBangUpper_spaces hws,
      noBangUpper_sym (by decide) (by decide) (by decide) (noBangUpper_tail ih (by decide))⟩
  · intro t _ ih
    exact noBangUpper_sym (by decide) (by decide) (by decide) (noBangUpper_tail ih (by decide))
  · intro t _ ih; exact noBangUpper_sym (by decide) (by decide) (by decide) ih
  · intro t _ ih; exact noBangUpper_sym (by decide) (by decide) (by decide) ih
  · intro t _ ih; exact noBangUpper_tail ih (by decide)
  · intro t u o' _ ho _ iht ihu
    rw [noBangUpper_append]
    have := (forall_byte (P := fun o => o ∈ b!"+-*/^%" → ¬ space o ∧ o ≠ c!"!" ∧ ¬ upper o)
      (by decide +kernel)) o' ho
    exact ⟨iht, noBangUpper_sym this.1 this.2.1 this.2.2 ihu⟩
  · intro t u c _ _ hc hl iht ihu
    rw [noBangUpper_append]
    refine ⟨iht, noBangUpper_any ihu fun d hd => ?_⟩
    rw [hc] at hd; cases hd
    exact (forall_byte (P := fun c => (lower c ∨ c = c!"(" ∨ digit c) → ¬ upper c)
      (by decide +kernel)) c hl
  · intro ws t hw _ ih
    rw [noBangUpper_append, bangEnd_spaces hw]; exact ⟨noBangUpper_spaces hw, ih⟩
  · intro ws t hw _ ih
    rw [noBangUpper_append]; exact ⟨ih, noBangUpper_spaces hw⟩
  · intro t _ ih; exact ih
  · intro t u k _ _ iht ihu
    rw [noBangUpper_append]
    exact ⟨iht, noBangUpper_sym (by decide) (by decide) (by decide) ihu⟩

/-- `3!!X` is accepted (as a binary use of `!`) but is not an expression of the
documented grammar: `!` is a postfix operator and names with a capital initial do not
take part in implicit multiplication. -/
theorem C17_refuted : ¬ C17_claim := by
  intro h
  have : parse0 cfgPlain b!"3!!X" =
      .ok ⟨.bin .factorial (.un .factorial (.num (F64.ofNat 3))) (.var b!"X"), [b!"X"]⟩ := by
    decide +kernel
  have := doc_noBangUpper (h _ _ _ _ _ _ this)
  simp only [noBangUpper] at this
  revert this; decide

/-- C17 for inputs without `!!`: they are expressions of the documented grammar.
Missing: inputs with `!!`, which `C17_refuted` shows cannot be included. -/
theorem C17_partial (cfg : Cfg) (w : World) (o : Oracle) (ctx : Context) (input : Bytes)
    (x : Xpr) (hn : ¬ DoubleBang input) (h : parse cfg w o ctx input = .ok x) : Doc ctx input := by
  obtain ⟨t, tw, rfl, h2, h3, _⟩ := parseImpl_ok (parse_ok h)
  exact .after h2 (doc_text.1 t tw h3 fun hb => hn (hb.left _))

/-- C17, exactly: without declared variables, an input is accepted with result `x` just
if it is, up to whitespace at its end, the text of a legal concrete syntax tree whose
meaning is `x`. -/
theorem C17_exact (cfg : Cfg) (w : World) (o : Oracle) (ctx : Context) (input : Bytes) (x : Xpr)
    (hx : ctx.getExpected = none) :
    parse cfg w o ctx input = .ok x ↔
    ∃ (c : Cst) (tw : Bytes), input = c.text ++ tw ∧ spaces tw ∧ c.wf cfg (finOf cfg w) ctx tw ∧
      c.meaning (finOf cfg w) ctx = .ok x.root ∧ x.vars = findVars x.root [] := by
  refine ⟨fun h => parseImpl_ok (parse_ok h), ?_⟩
  rintro ⟨c, tw, rfl, h2, h3, h4, h5⟩
  refine parse_of_impl ?_ (by simp [hx])
  rw [parseImpl_text cfg w ctx c tw h3 h2, h4]
  cases x; simp only at h5 ⊢; rw [h5]

example : Doc Context.default b!"2x + sin (y)!" := by
  refine Doc.bin (t := b!"2x ") (o := c!"+") (u := b!" sin (y)!") ?_ (by decide) ?_
  · refine Doc.after (ws := b!" ") (t := b!"2x") (by decide) ?_
    refine Doc.juxt (t := b!"2") (u := b!"x") (c := c!"x") ?_ ?_ (by decide) (by decide)
    · refine .num ⟨F64.ofDecimal 2 0, b!"2", b!"2", [], ⟨c!"2", rfl, by decide⟩, by decide,
        ⟨by decide, by decide, by decide, .inr ⟨rfl, by decide⟩⟩, .inl ⟨rfl, ?_, ?_, by rfl⟩⟩
      · intro c hc; cases hc
      · rintro ⟨e, sg, d, t, _, _, _, h⟩; cases h
    · exact .name ⟨⟨c!"x", rfl, by decide⟩, by decide⟩ (by intro f h; cases h)
  · refine Doc.before (ws := b!" ") (t := b!"sin (y)!") (by decide) ?_
    refine Doc.fact (t := b!"sin (y)") ?_
    refine Doc.call (t := b!"sin") (ws := b!" ") (as := b!"y") (k := 1)
      (f := ⟨b!"sin", .builtin .sin, some 1⟩) ⟨⟨c!"s", rfl, by decide⟩, by decide⟩ (by rfl) (by decide)
      (.last ?_) (by intro n h; cases h; rfl)
    exact .name ⟨⟨c!"y", rfl, by decide⟩, by decide⟩ (by intro f h; cases h)

/-! ### C09 -/

/-- The text is accepted and read as the tree `e`: the expression returned is `e` in a
build without compile-time optimisation and otherwise `e` with sub-trees simplified. -/
def ReadAs (cfg : Cfg) (w : World) (ctx : Context) (text : Bytes) (e : Elem) : Prop :=
  ∃ x : Xpr, (∀ o, parse cfg w o ctx text = .ok x) ∧ Rewrites cfg w e x.root ∧
    (cfg.opt = false → x.root = e)

/-- The variables of `e` are among the declared ones (if any are declared). -/
def Declared (ctx : Context) (e : Elem) : Prop :=
  ∀ vs, ctx.getExpected = some vs → ∀ n, Occurs n e → n ∈ vs

theorem findVars_mem {n : Bytes} {e : Elem} (h : n ∈ findVars e []) : Occurs n e := by
  simpa using (mem_findVars n e []).1 h

theorem rewrites_occurs {cfg : Cfg} {w : World} {n : Bytes} {e e' : Elem} (h : Rewrites cfg w e e') :
    Occurs n e' → Occurs n e := by
  refine Rewrites.rec (cfg := cfg) (w := w) (motive_1 := fun e e' _ => Occurs n e' → Occurs n e)
    (motive_2 := fun es es' _ => (∃ a ∈ es', Occurs n a) → ∃ a ∈ es, Occurs n a)
    ?_ ?_ ?_ ?_ ?_ ?_ ?_ ?_ h
  · intro e h; exact h
  · intro a b c _ _ i1 i2 h; exact i1 (i2 h)
  · intro e e' h1 h2; exact simplify_occurs e h1 h2
  · intro op l l' r r' _ _ i1 i2 h
    rw [occurs_bin] at h ⊢
    exact h.imp i1 i2
  · intro op e e' _ i h
    rw [occurs_un] at h ⊢; exact i h
  · intro f as bs _ i h
    cases h with
    | arg ha ho =>
      obtain ⟨a, h1, h2⟩ := i ⟨_, ha, ho⟩
      exact .arg h1 h2
  · rintro ⟨a, ha, _⟩; cases ha
  · rintro a b as bs _ _ i1 i2 ⟨c, hc, ho⟩
    rcases List.mem_cons.1 hc with rfl | hc
    · exact ⟨a, by simp, i1 ho⟩
    · obtain ⟨d, h1, h2⟩ := i2 ⟨c, hc, ho⟩
      exact ⟨d, by simp [h1], h2⟩

/-- C09: the text of every tree, written out with parentheses where the precedences
require them (and possibly more) and with any whitespace, is read as that tree. -/
theorem C09_written (cfg : Cfg) (w : World) (ctx : Context) (c : Cst) (tw : Bytes)
    (hc : cfg.opt = true → CtxTotal w ctx) (hg : c.good cfg ctx) (ht : spaces tw)
    (hd : Declared ctx (c.tree ctx)) : ReadAs cfg w ctx (c.text ++ tw) (c.tree ctx) := by
  cases ho : cfg.opt with
  | false =>
    refine ⟨_, fun o => parse_of_impl (parseImpl_plain w ho hg ht) fun vs hvs n hn => ?_, .refl, fun _ => rfl⟩
    exact hd vs hvs n (findVars_mem hn)
  | true =>
    obtain ⟨e, h1, h2, h3⟩ := parseImpl_rewrites (hc ho) hg ht
    refine ⟨_, fun o => parse_of_impl h1 fun vs hvs n hn => ?_, h2, h3⟩
    exact hd vs hvs n (rewrites_occurs h2 (findVars_mem hn))

/-- C09, every tree: each tree that can be written down at all is read from some text. -/
theorem C09_every_tree (cfg : Cfg) (w : World) (ctx : Context) (e : Elem)
    (hc : cfg.opt = true → CtxTotal w ctx) (hs : Sayable ctx e) (hd : Declared ctx e) :
    ∃ c : Cst, c.good cfg ctx ∧ c.tree ctx = e ∧ ReadAs cfg w ctx c.text e := by
  obtain ⟨c, h1, rfl⟩ := exists_written cfg hs
  refine ⟨c, h1, rfl, ?_⟩
  have := C09_written cfg w ctx c [] hc h1 (by intro c hc; cases hc) hd
  rwa [List.append_nil] at this

/-- The hypotheses are met by `-a^(b - 2c)! * (d)`, with various whitespace. -/
def sample : Cst :=
  .bin (.sign b!" " true (.bin (.name [] b!"a") b!" " .power (.fact (.paren []
      (.bin (.name b!"\t" b!"b") [] .minus (.juxt (.num b!" " b!"2" (F64.ofDecimal 2 0))
        (.name [] b!"c"))) b!" ") [])))
    b!" " .times (.paren b!" " (.name [] b!"d") [])
example : sample.text = b!" -a ^(\tb- 2c )! * (d)" := by decide
theorem sample_good : sample.good cfgPlain Context.default := by
  have hn : ∀ c : UInt8, letter c → IsName [c] := fun c hc =>
    ⟨⟨c, rfl, hc⟩, by intro d hd; rw [List.mem_singleton.1 hd]; exact .inl hc⟩
  have hv : ∀ (ws : Bytes) (c : UInt8), spaces ws → letter c →
      (match lookup Context.default [c] with | .var _ => true | _ => false) = true →
      (Cst.name ws [c]).good cfgPlain Context.default := by
    intro ws c h1 h2 h3
    refine ⟨h1, hn c h2, fun f hf => ?_⟩
    rw [hf] at h3; cases h3
  have h2 : Literal b!"2" [] (F64.ofDecimal 2 0) := by
    refine ⟨b!"2", b!"2", [], ⟨c!"2", rfl, by decide⟩, by decide,
        ⟨by decide, by decide, by decide, .inr ⟨rfl, by decide⟩⟩, .inl ⟨rfl, ?_, ?_, by rfl⟩⟩
    · intro c hc; cases hc
    · rintro ⟨e, sg, d, t, _, _, _, h⟩; cases h
  refine ⟨by decide, by decide, ⟨by decide, ⟨by decide, by decide, hv _ _ (by decide) (by decide) (by decide),
    ⟨trivial, by decide, by decide, by decide, by decide, by decide, hv _ _ (by decide) (by decide) (by decide),
      ⟨⟨by decide, h2⟩, hv _ _ (by decide) (by decide) (by decide), by decide, by decide,
        ⟨c!"c", by decide, by decide⟩, ?_, ?_⟩, by decide, by decide⟩, by decide, by decide⟩, by decide⟩,
    ⟨by decide, by decide, hv _ _ (by decide) (by decide) (by decide)⟩, by decide, by decide⟩
  · intro h; cases h
  · rintro _ c t h hc
    cases h
    exact absurd hc (by decide)
example : parse0 cfgPlain (sample.text ++ b!"\n") = .ok ⟨.bin .times (.un .minus (.bin .power (.var b!"a")
    (.un .factorial (.bin .minus (.var b!"b") (.bin .times (.num (F64.ofNat 2)) (.var b!"c"))))))
    (.var b!"d"), [b!"a", b!"b", b!"c", b!"d"]⟩ := by decide +kernel

/-! ### C10 -/

/-- A chain `a0 op1 a1 op2 a2 …` as text: each link has the whitespace before the
operator, the operator and the operand. -/
def chainText (a0 : Cst) (links : List (Bytes × Op × Cst)) : Bytes :=
  a0.text ++ links.flatMap fun l => l.1 ++ opChar l.2.1 :: l.2.2.text

/-- `((a0 op1 a1) op2 a2) …` -/
def leftTree (ctx : Context) (a0 : Elem) (links : List (Bytes × Op × Cst)) : Elem :=
  links.foldl (fun e l => .bin l.2.1 e (l.2.2.tree ctx)) a0

/-- C10: a chain of operators of one level is read with all operators associating to
the left.  The operands may be anything that binds tighter. -/
theorem C10_left (cfg : Cfg) (w : World) (ctx : Context) (a0 : Cst)
    (links : List (Bytes × Op × Cst)) (L : Nat) (tw : Bytes)
    (hc : cfg.opt = true → CtxTotal w ctx)
    (h0 : a0.good cfg ctx ∧ L ≤ a0.edge cfg)
    (hl : ∀ l ∈ links, l.2.1 ≠ .factorial ∧ level l.2.1 = L ∧ spaces l.1 ∧ l.2.2.good cfg ctx ∧
      L < l.2.2.top cfg ∧ L ≤ l.2.2.edge cfg)
    (ht : spaces tw) (hd : Declared ctx (leftTree ctx (a0.tree ctx) links)) :
    ReadAs cfg w ctx (chainText a0 links ++ tw) (leftTree ctx (a0.tree ctx) links) := by
  have key : ∀ (links : List (Bytes × Op × Cst)) (a0 : Cst), a0.good cfg ctx ∧ L ≤ a0.edge cfg →
      (∀ l ∈ links, l.2.1 ≠ .factorial ∧ level l.2.1 = L ∧ spaces l.1 ∧ l.2.2.good cfg ctx ∧
        L < l.2.2.top cfg ∧ L ≤ l.2.2.edge cfg) →
      ∃ c : Cst, c.good cfg ctx ∧ c.text = chainText a0 links ∧
        c.tree ctx = leftTree ctx (a0.tree ctx) links := by
    intro links
    induction links with
    | nil => intro a0 h0 _; exact ⟨a0, h0.1, by simp [chainText], rfl⟩
    | cons l links ih =>
      intro a0 h0 hl
      obtain ⟨g1, g2, g3, g4, g5, g6⟩ := hl l (by simp)
      have hb : (Cst.bin a0 l.1 l.2.1 l.2.2).good cfg ctx ∧ L ≤ (Cst.bin a0 l.1 l.2.1 l.2.2).edge cfg :=
        ⟨⟨g1, g3, h0.1, g4, by rw [g2]; exact h0.2, by rw [g2]; exact g5⟩, by
          rw [Cst.edge, g2]; omega⟩
      obtain ⟨c, c1, c2, c3⟩ := ih (.bin a0 l.1 l.2.1 l.2.2) hb fun m hm => hl m (by simp [hm])
      refine ⟨c, c1, ?_, ?_⟩
      · rw [c2]; simp [chainText, Cst.text]
      · rw [c3]; simp [leftTree, Cst.tree]
  obtain ⟨c, c1, c2, c3⟩ := key links a0 h0 hl
  rw [← c2, ← c3]
  exact C09_written cfg w ctx c tw hc c1 ht (by rw [c3]; exact hd)

example : parse0 cfgPlain b!"a - b + c - d" = .ok ⟨.bin .minus (.bin .plus (.bin .minus (.var b!"a")
    (.var b!"b")) (.var b!"c")) (.var b!"d"), [b!"a", b!"b", b!"c", b!"d"]⟩ := by decide +kernel
example : parse0 cfgPlain b!"a^b^c" = .ok ⟨.bin .power (.bin .power (.var b!"a")
    (.var b!"b")) (.var b!"c"), [b!"a", b!"b", b!"c"]⟩ := by decide +kernel

/-! ### C11 -/

theorem primary_top {cfg : Cfg} {x : Cst} (h : x.primary) : x.top cfg = 7 ∧ x.edge cfg = 7 := by
  cases x <;> first | exact ⟨rfl, rfl⟩ | exact absurd h (by simp [Cst.primary])

/-- C11: the six shapes of the documentation, for all operands that are literals,
names, calls or in parentheses.  `ws` and `ws'` are whitespace in front of the sign and
in front of the operator. -/
theorem C11_unary (cfg : Cfg) (w : World) (ctx : Context) (a b : Cst) (ws ws' : Bytes)
    (hc : cfg.opt = true → CtxTotal w ctx)
    (ha : a.primary ∧ a.good cfg ctx) (hb : b.primary ∧ b.good cfg ctx)
    (hws : spaces ws) (hws' : spaces ws')
    (hd : Declared ctx (.bin .plus (a.tree ctx) (b.tree ctx))) :
    -- -a^b
    ReadAs cfg w ctx (ws ++ c!"-" :: (a.text ++ ws' ++ c!"^" :: b.text))
      (.un .minus (.bin .power (a.tree ctx) (b.tree ctx))) ∧
    -- -a*b
    ReadAs cfg w ctx (ws ++ c!"-" :: a.text ++ ws' ++ c!"*" :: b.text)
      (.bin .times (.un .minus (a.tree ctx)) (b.tree ctx)) ∧
    -- a^-b
    ReadAs cfg w ctx (a.text ++ ws' ++ c!"^" :: (ws ++ c!"-" :: b.text))
      (.bin .power (a.tree ctx) (.un .minus (b.tree ctx))) ∧
    -- -a!
    ReadAs cfg w ctx (ws ++ c!"-" :: (a.text ++ ws' ++ b!"!"))
      (.un .minus (.un .factorial (a.tree ctx))) ∧
    -- a^b!
    ReadAs cfg w ctx (a.text ++ ws ++ c!"^" :: (b.text ++ ws' ++ b!"!"))
      (.bin .power (a.tree ctx) (.un .factorial (b.tree ctx))) ∧
    -- a*b!
    ReadAs cfg w ctx (a.text ++ ws ++ c!"*" :: (b.text ++ ws' ++ b!"!"))
      (.bin .times (a.tree ctx) (.un .factorial (b.tree ctx))) := by
  obtain ⟨a1, a2⟩ := primary_top (cfg := cfg) ha.1
  obtain ⟨b1, b2⟩ := primary_top (cfg := cfg) hb.1
  have go : ∀ (c : Cst), c.good cfg ctx → (∀ n, Occurs n (c.tree ctx) →
      Occurs n (.bin .plus (a.tree ctx) (b.tree ctx))) → ReadAs cfg w ctx c.text (c.tree ctx) := by
    intro c hg ho
    have := C09_written cfg w ctx c [] hc hg (by intro c hc; cases hc)
      fun vs hvs n hn => hd vs hvs n (ho n hn)
    rwa [List.append_nil] at this
  refine ⟨?_, ?_, ?_, ?_, ?_, ?_⟩
  · have := go (.sign ws true (.bin a ws' .power b))
      ⟨hws, ⟨by decide, hws', ha.2, hb.2, by rw [a2]; decide, by rw [b1]; decide⟩, by
        show signLevel < level .power; decide⟩ (by simp [Cst.tree])
    simpa [Cst.text, Cst.tree, opChar] using this
  · have := go (.bin (.sign ws true a) ws' .times b)
      ⟨by decide, hws', ⟨hws, ha.2, by rw [a1]; decide⟩, hb.2, by
        rw [Cst.edge, a2]; decide, by rw [b1]; decide⟩ (by simp [Cst.tree])
    simpa [Cst.text, Cst.tree, opChar] using this
  · have := go (.bin a ws' .power (.sign ws true b))
      ⟨by decide, hws', ha.2, ⟨hws, hb.2, by rw [b1]; decide⟩, by rw [a2]; decide, by
        show level .power < 7; decide⟩ (by simp [Cst.tree])
    simpa [Cst.text, Cst.tree, opChar] using this
  · have := go (.sign ws true (.fact a ws')) ⟨hws, ⟨ha.1, hws', ha.2⟩, by show signLevel < 7; decide⟩
      (by simp [Cst.tree]; exact fun _ => .inl)
    simpa [Cst.text, Cst.tree, opChar] using this
  · have := go (.bin a ws .power (.fact b ws')) ⟨by decide, hws, ha.2, ⟨hb.1, hws', hb.2⟩,
      by rw [a2]; decide, by show level .power < 7; decide⟩ (by simp [Cst.tree])
    simpa [Cst.text, Cst.tree, opChar] using this
  · have := go (.bin a ws .times (.fact b ws')) ⟨by decide, hws, ha.2, ⟨hb.1, hws', hb.2⟩,
      by rw [a2]; decide, by show level .times < 7; decide⟩ (by simp [Cst.tree])
    simpa [Cst.text, Cst.tree, opChar] using this

example : parse0 cfgPlain b!"-x^(y)" =
    .ok ⟨.un .minus (.bin .power (.var b!"x") (.var b!"y")), [b!"x", b!"y"]⟩ := by decide +kernel

/-! ### C14 -/

/-- C14, PEMDAS: writing some of the implicit multiplications of a text as `*` gives a
text with the same result, wherever in the text they are. -/
theorem C14_explicit (cfg : Cfg) (w : World) (o : Oracle) (ctx : Context) (x y : Cst) (tw : Bytes)
    (hp : cfg.pejmdas = false) (hg : x.good cfg ctx) (he : Expl x y) (ht : spaces tw) :
    y.good cfg ctx ∧ y.tree ctx = x.tree ctx ∧
    (∀ r, parse cfg w o ctx (y.text ++ tw) = .ok r ↔ parse cfg w o ctx (x.text ++ tw) = .ok r) := by
  have hg' := ((expl_good hp).1 x y he hg).1
  have hd := expl_den (fin := finOf cfg w) (ctx := ctx).1 x y he
  refine ⟨hg', hd.2, ?_⟩
  have hpi : parseImpl cfg w ctx (y.text ++ tw) = parseImpl cfg w ctx (x.text ++ tw) := by
    rw [parseImpl_written w hg' ht, parseImpl_written w hg ht, Cst.meaning, Cst.meaning, hd.1]
  intro r
  unfold parse
  rw [hpi]
  cases parseImpl cfg w ctx (x.text ++ tw) with
  | ok x =>
    simp only
    split
    · split <;> simp
    · exact Iff.rfl
  | _ => exact Iff.rfl

/-- An implicit multiplication of operands that are literals, names, calls or in
parentheses: the second begins with a lower-case letter or `(` and does not run into
the first. -/
def Adjacent (cfg : Cfg) (ctx : Context) (a b : Cst) : Prop :=
  a.primary ∧ a.good cfg ctx ∧ b.primary ∧ b.good cfg ctx ∧
  (∃ c, firstTok b.text = some c ∧ (lower c ∨ c = c!"(")) ∧
  (a.endsName = true → notHead nameChar b.text) ∧ (a.endsNum = true → notExp b.text)

/-- C14, PEJMDAS: implicit multiplication binds tighter than `* / %` and looser than
`^`: `a/bc` is `a/(b*c)`, `bc/a` is `(b*c)/a`, `bc^a` is `b*(c^a)`, and under PEMDAS
`a/bc` is `(a/b)*c`. -/
theorem C14_levels (cfg : Cfg) (w : World) (ctx : Context) (a b c : Cst) (op : Op) (ws : Bytes)
    (hc : cfg.opt = true → CtxTotal w ctx) (hop : op = .times ∨ op = .divide ∨ op = .modulo)
    (ha : a.primary ∧ a.good cfg ctx) (hbc : Adjacent cfg ctx b c) (hws : spaces ws)
    (hd : Declared ctx (.bin .plus (a.tree ctx) (.bin .plus (b.tree ctx) (c.tree ctx)))) :
    (cfg.pejmdas = true →
      ReadAs cfg w ctx (a.text ++ ws ++ opChar op :: (b.text ++ c.text))
        (.bin op (a.tree ctx) (.bin .times (b.tree ctx) (c.tree ctx)))) ∧
    (cfg.pejmdas = false →
      ReadAs cfg w ctx (a.text ++ ws ++ opChar op :: (b.text ++ c.text))
        (.bin .times (.bin op (a.tree ctx) (b.tree ctx)) (c.tree ctx))) ∧
    ReadAs cfg w ctx (b.text ++ c.text ++ ws ++ opChar op :: a.text)
      (.bin op (.bin .times (b.tree ctx) (c.tree ctx)) (a.tree ctx)) ∧
    ReadAs cfg w ctx (b.text ++ (c.text ++ ws ++ c!"^" :: a.text))
      (.bin .times (b.tree ctx) (.bin .power (c.tree ctx) (a.tree ctx))) := by
  obtain ⟨b0, bg, c0, cg, ⟨d, hd1, hd2⟩, hn, hx⟩ := hbc
  obtain ⟨a1, a2⟩ := primary_top (cfg := cfg) ha.1
  obtain ⟨b1, b2⟩ := primary_top (cfg := cfg) b0
  obtain ⟨c1, c2⟩ := primary_top (cfg := cfg) c0
  have hi : implLevel cfg < 7 := by unfold implLevel; split <;> decide
  have hi2 : level op ≤ implLevel cfg := by
    rcases hop with rfl | rfl | rfl <;> unfold implLevel <;> split <;> decide
  have hi3 : implLevel cfg < level .power := by unfold implLevel; split <;> decide
  have hl : level op < 7 := by rcases hop with rfl | rfl | rfl <;> decide
  have hne : op ≠ .factorial := by rcases hop with rfl | rfl | rfl <;> decide
  have go : ∀ (x : Cst), x.good cfg ctx → (∀ n, Occurs n (x.tree ctx) →
      Occurs n (.bin .plus (a.tree ctx) (.bin .plus (b.tree ctx) (c.tree ctx)))) →
      ReadAs cfg w ctx x.text (x.tree ctx) := by
    intro x hg ho
    have := C09_written cfg w ctx x [] hc hg (by intro c hc; cases hc)
      fun vs hvs n hn => hd vs hvs n (ho n hn)
    rwa [List.append_nil] at this
  have hj : (Cst.juxt b c).good cfg ctx :=
    ⟨bg, cg, by rw [b2]; omega, by rw [c1]; exact hi, ⟨d, hd1, hd2⟩, hn, hx⟩
  refine ⟨fun hp => ?_, fun hp => ?_, ?_, ?_⟩
  · have := go (.bin a ws op (.juxt b c)) ⟨hne, hws, ha.2, hj, by rw [a2]; omega, by
      show level op < implLevel cfg
      rcases hop with rfl | rfl | rfl <;> simp [implLevel, hp, level]⟩ (by simp [Cst.tree])
    simpa [Cst.text, Cst.tree] using this
  · have := go (.juxt (.bin a ws op b) c) ⟨⟨hne, hws, ha.2, bg, by rw [a2]; omega, by rw [b1]; exact hl⟩,
      cg, by
        rw [Cst.edge, b2]
        rcases hop with rfl | rfl | rfl <;> simp [implLevel, hp, level], by rw [c1]; exact hi,
      ⟨d, hd1, hd2⟩, hn, hx⟩ (by simp [Cst.tree, or_assoc])
    simpa [Cst.text, Cst.tree] using this
  · have := go (.bin (.juxt b c) ws op a) ⟨hne, hws, hj, ha.2, by rw [Cst.edge, c2]; omega, by
      rw [a1]; exact hl⟩ (by simp [Cst.tree]; intro n h; rcases h with (h | h) | h <;> simp [h])
    simpa [Cst.text, Cst.tree] using this
  · have hcp : (Cst.bin c ws .power a).good cfg ctx :=
      ⟨by decide, hws, cg, ha.2, by rw [c2]; decide, by rw [a1]; decide⟩
    have := go (.juxt b (.bin c ws .power a)) ⟨bg, hcp, by rw [b2]; omega, hi3,
      ⟨d, by rw [Cst.text, List.append_assoc]; exact firstTok_append hd1, hd2⟩,
      fun h => ?_, fun h => ?_⟩ (by simp [Cst.tree]; intro n h; rcases h with h | h | h <;> simp [h])
    · simpa [Cst.text, Cst.tree, opChar] using this
    · rw [Cst.text]
      intro e he
      cases ht : c.text with
      | nil => rw [ht] at hd1; cases hd1
      | cons u t =>
        have := hn h
        rw [ht] at this he
        exact this e he
    · rw [Cst.text]
      intro e t he hee
      match ht : c.text with
      | [] => rw [ht] at hd1; cases hd1
      | [u] =>
        rw [ht] at he
        cases he
        obtain ⟨_, _, h1, _⟩ := hx h e [] ht hee
        cases h1
      | u :: v :: t' =>
        rw [ht] at he
        cases he
        obtain ⟨_, _, h1, h2⟩ := hx h e (v :: t') ht hee
        cases h1
        exact ⟨v, _, rfl, h2⟩

def cfgPej : Cfg := { cfgPlain with pejmdas := true }
example : parse0 cfgPej b!"x / 2y" =
    .ok ⟨.bin .divide (.var b!"x") (.bin .times (.num (F64.ofNat 2)) (.var b!"y")), [b!"x", b!"y"]⟩ := by
  decide +kernel
example : parse0 cfgPlain b!"x / 2y" =
    .ok ⟨.bin .times (.bin .divide (.var b!"x") (.num (F64.ofNat 2))) (.var b!"y"), [b!"x", b!"y"]⟩ := by
  decide +kernel
example : ∃ y, Expl sample y ∧ y.text = b!" -a ^(\tb- 2 *c )! * (d)" :=
  ⟨_, .bin (.sign (.bin .refl (.fact (.paren (.bin .refl (.juxtStar (ws := b!" ") (by decide) .refl .refl))))))
    .refl, by decide⟩

end Props
end Xprs
