import Verif.Lemmas.Joined
import Verif.Props.ErrorDebug
import Verif.Props.Transcript
/-
Property C118: `{:#?}` says what `{:?}` says, over several lines.
-/
namespace Xprs
namespace Props
open Spec

/-! ### Single entries -/

theorem flatName {n : Bytes} (h1 : n ≠ []) (h2 : ∀ c ∈ n, plainChar c) : FlatName n := ⟨h1, h2⟩

theorem flat_of_line {t : Bytes} (h : OneLine t) {l : Bytes} {k : UInt8} (ht : t = l ++ [k]) (hk : k ≠ c!"," ∧ ¬ opens k) :
    Flatten t := by
  refine ⟨fun hm => absurd (h _ hm) (by decide), fun x hx => ?_⟩
  rw [ht, List.getLast?_append] at hx
  cases hx
  exact hk

theorem flats_str {plain : Char → Bool} (hp : ∀ c, plain c = true → 32 ≤ c.toNat) (s : Bytes) :
    Flats (strDebug plain s) (strDebug plain s) :=
  flats_plain (flat_of_line (line_str hp s) (l := b!"\"" ++ (strChars s).flatMap (escChar plain '"')) rfl ⟨by decide, by decide⟩)
    ⟨c!"\"", _, rfl, by unfold blankChar; decide, by decide⟩

theorem flats_char {plain : Char → Bool} (hp : ∀ c, plain c = true → 32 ≤ c.toNat) (c : UInt8) :
    Flats (charDebug plain c) (charDebug plain c) :=
  flats_plain (flat_of_line (line_char hp c) (l := b!"'" ++ escChar plain '\'' (Char.ofUInt8 c)) rfl ⟨by decide, by decide⟩)
    ⟨c!"'", _, rfl, by unfold blankChar; decide, by decide⟩

theorem flats_decimal (n : Nat) : Flats (decimal n) (decimal n) :=
  flats_name ⟨(decimal_plain n).1, fun c hc => plain_digit ((decimal_plain n).2 c hc)⟩

theorem flats_num (x : F64) : Flats (debugF64 x) (debugF64 x) := flats_name ⟨plain_debug.ne x, plain_debug.plain x⟩

theorem flats_word {n : Bytes} (h1 : n ≠ []) (h2 : ∀ c ∈ n, plainChar c) : Flats n n := flats_name ⟨h1, h2⟩

theorem flats_one {n t p : Bytes} (hn : FlatName n) (h : Flats t p) : Flats (n ++ b!"(" ++ t ++ b!")") (prettyFields n [p]) := by
  have := flats_fields hn [(t, p)] (by simp) (by simpa using h)
  simpa [joinWith] using this

theorem flats_two {n t p t' p' : Bytes} (hn : FlatName n) (h : Flats t p) (h' : Flats t' p') :
    Flats (n ++ b!"(" ++ t ++ b!", " ++ t' ++ b!")") (prettyFields n [p, p']) := by
  have := flats_fields hn [(t, p), (t', p')] (by simp) (by simp [h, h'])
  simpa [joinWith] using this

theorem tuple_fields (n t : Bytes) : prettyTuple n t = prettyFields n [t] := by
  simp [prettyTuple, prettyFields]

theorem flats_field (n : Bytes) (t p : Bytes) (hn : FlatName n) (hq : n.head? ≠ some c!"\"") (h : Flats t p) :
    FlatName (n, t, p).1 ∧ (n, t, p).1.head? ≠ some c!"\"" ∧ Flats (n, t, p).2.1 (n, t, p).2.2 := ⟨hn, hq, h⟩

theorem flats_strs {plain : Char → Bool} (hp : ∀ c, plain c = true → 32 ≤ c.toNat) {o c : UInt8} (ho : opens o) (hc : closes c)
    (l : List Bytes) :
    Flats (o :: (joinWith b!", " (l.map (strDebug plain)) ++ [c])) (prettyList o c (l.map (strDebug plain))) := by
  have := flats_list ho hc (l.map fun s => (strDebug plain s, strDebug plain s)) (by
    intro e he
    obtain ⟨s, -, rfl⟩ := List.mem_map.1 he
    exact flats_str hp s) (by
    intro e he _
    obtain ⟨s, -, rfl⟩ := List.mem_map.1 he
    rfl)
  simpa [List.map_map, Function.comp_def] using this

/-! ### Errors -/

theorem flats_kind {plain : Char → Bool} (hp : ∀ c, plain c = true → 32 ≤ c.toNat) (k : ErrKind) :
    Flats (k.debug plain) (k.pretty plain) := by
  cases k with
  | unexpectedEnd => exact flats_word (n := b!"UnexpectedEndOfExpression") (by decide) (by decide)
  | missingArgument => exact flats_word (n := b!"MissingArgument") (by decide) (by decide)
  | unexpectedToken c => exact flats_one (n := b!"UnexpectedToken") ⟨by decide, by decide⟩ (flats_char hp c)
  | malformedNumber s => exact flats_one (n := b!"MalformedNumber") ⟨by decide, by decide⟩ (flats_str hp s)
  | illegalCharacter c => exact flats_one (n := b!"IllegalCharacter") ⟨by decide, by decide⟩ (flats_char hp c)
  | expectedToken c => exact flats_one (n := b!"ExpectedToken") ⟨by decide, by decide⟩ (flats_char hp c)
  | variableNotDeclared v l =>
    have := flats_two (n := b!"VariableNotDeclared") ⟨by decide, by decide⟩ (flats_str hp v)
      (flats_strs hp (o := c!"[") (c := c!"]") (by decide) (by decide) l)
    simpa [ErrKind.debug, ErrKind.pretty, List.append_assoc] using this
  | tooFew a b =>
    have := flats_two (n := b!"TooFewArguments") ⟨by decide, by decide⟩ (flats_decimal a) (flats_decimal b)
    simpa [ErrKind.debug, ErrKind.pretty, List.append_assoc] using this
  | tooMany a b =>
    have := flats_two (n := b!"TooManyArguments") ⟨by decide, by decide⟩ (flats_decimal a) (flats_decimal b)
    simpa [ErrKind.debug, ErrKind.pretty, List.append_assoc] using this

theorem flats_perr {plain : Char → Bool} (hp : ∀ c, plain c = true → 32 ≤ c.toNat) (source : Bytes) (e : PErr) :
    Flats (e.debug plain source) (e.pretty plain source) := by
  have h1 := flats_struct (n := b!"SourceSpan") ⟨by decide, by decide⟩
    [(b!"offset", b!"SourceOffset(" ++ decimal e.off ++ b!")", prettyFields b!"SourceOffset" [decimal e.off]),
      (b!"length", decimal e.len, decimal e.len)] (by simp) (by
      intro x hx
      simp only [List.mem_cons, List.not_mem_nil, or_false] at hx
      rcases hx with rfl | rfl
      · exact flats_field _ _ _ ⟨by decide, by decide⟩ (by decide)
          (flats_one (n := b!"SourceOffset") ⟨by decide, by decide⟩ (flats_decimal _))
      · exact flats_field _ _ _ ⟨by decide, by decide⟩ (by decide) (flats_decimal _))
  have h2 := flats_struct (n := b!"ParseError") ⟨by decide, by decide⟩
    [(b!"kind", e.kind.debug plain, e.kind.pretty plain), (b!"span", _, _),
      (b!"src", strDebug plain source, strDebug plain source)] (by simp) (by
      intro x hx
      simp only [List.mem_cons, List.not_mem_nil, or_false] at hx
      rcases hx with rfl | rfl | rfl
      · exact flats_field _ _ _ ⟨by decide, by decide⟩ (by decide) (flats_kind hp _)
      · exact flats_field _ _ _ ⟨by decide, by decide⟩ (by decide) h1
      · exact flats_field _ _ _ ⟨by decide, by decide⟩ (by decide) (flats_str hp _))
  simpa [PErr.debug, PErr.pretty, joinWith, List.append_assoc] using h2

theorem flats_bind {plain : Char → Bool} (hp : ∀ c, plain c = true → 32 ≤ c.toNat) (b : BindErr) :
    Flats (b.debug plain) (b.pretty plain) := by
  cases b with
  | one s => exact flats_one (n := b!"OneVariable") ⟨by decide, by decide⟩ (flats_str hp s)
  | multiple s => exact flats_one (n := b!"MultipleVariables") ⟨by decide, by decide⟩ (flats_str hp s)

theorem flats_end {t p : Bytes} (h : Flats t p) : flat .line [] p = t := by
  have := h.flat 0 [] []
  rw [shift_zero, List.append_nil] at this
  rw [this]
  exact List.append_nil t

/-- C118: what `{:#?}` writes for errors is, on one line, what `{:?}` writes, whatever characters
the text and the names hold. -/
theorem C118_errors (plain : Char → Bool) (hp : ∀ c, plain c = true → 32 ≤ c.toNat) (source v : Bytes) (e : PErr)
    (b : BindErr) : flat .line [] (e.pretty plain source) = e.debug plain source ∧
      flat .line [] (evalErrorPretty plain v) = evalErrorDebug plain v ∧ flat .line [] (b.pretty plain) = b.debug plain :=
  ⟨flats_end (flats_perr hp source e),
    flats_end (flats_one (n := b!"EvalError") ⟨by decide, by decide⟩ (flats_str hp v)), flats_end (flats_bind hp b)⟩

/-- C118: what `{:#?}` writes for an error of parsing says which text was parsed and which error it is. -/
theorem C118_error (plain : Char → Bool) (hp : ∀ c, plain c = true → 32 ≤ c.toNat) (cfg cfg' : Cfg) (w w' : World)
    (o o' : Oracle) (ctx ctx' : Context) (cs cs' : List Char) (e e' : PErr) (ht : TextNames ctx) (ht' : TextNames ctx')
    (h : parse cfg w o ctx (utf8 cs) = .err e) (h' : parse cfg' w' o' ctx' (utf8 cs') = .err e') :
    e.pretty plain (utf8 cs) = e'.pretty plain (utf8 cs') ↔ cs = cs' ∧ e = e' := by
  constructor
  · intro he
    refine (C114_error plain cfg cfg' w w' o o' ctx ctx' cs cs' e e' ht ht' h h').1 ?_
    rw [← (C118_errors plain hp (utf8 cs) [] e (.one [])).1, ← (C118_errors plain hp (utf8 cs') [] e' (.one [])).1, he]
  · rintro ⟨rfl, rfl⟩; rfl

/-- C118: the same for errors of binding. -/
theorem C118_bind (plain : Char → Bool) (hp : ∀ c, plain c = true → 32 ≤ c.toNat) (cfg cfg' : Cfg) (w w' : World)
    (o o' : Oracle) (ctx ctx' : Context) (input input' : Bytes) (x y : Xpr) (hx : Reach cfg w ctx input x)
    (hy : Reach cfg' w' ctx' input' y) (names names' : List Bytes) (b b' : BindErr)
    (h : BindCall cfg w o x names (.err b)) (h' : BindCall cfg' w' o' y names' (.err b')) :
    b.pretty plain = b'.pretty plain ↔ b = b' := by
  constructor
  · intro he
    refine (C114_bind plain cfg cfg' w w' o o' ctx ctx' input input' x y hx hy names names' b b' h h').1 ?_
    rw [← (C118_errors plain hp [] [] ⟨.missingArgument, 0, 0⟩ b).2.2, ← (C118_errors plain hp [] [] ⟨.missingArgument, 0, 0⟩ b').2.2, he]
  · rintro rfl; rfl

/-! ### Contexts and parsers -/

theorem flats_opt (o : Option Nat) : Flats (optDebug o) (prettyOpt o) := by
  cases o with
  | none => exact flats_word (by decide) (by decide)
  | some n =>
    rw [prettyOpt, tuple_fields]
    exact flats_one (n := b!"Some") ⟨by decide, by decide⟩ (flats_decimal n)

theorem flats_fn (p : FnPtr) : Flats (fnDebug p) (fnDebug p) := by
  cases p with
  | builtin _ => exact flats_word (n := b!"Static") (by decide) (by decide)
  | static _ => exact flats_word (n := b!"Static") (by decide) (by decide)
  | dyn _ => exact flats_word (n := b!"Dyn") (by decide) (by decide)

theorem flats_func {name name' : Bytes} (h : Flats name name') (f : Func) :
    Flats (b!"Function { name: " ++ name ++ b!", func: " ++ fnDebug f.func ++ b!", nb_args: " ++ optDebug f.nbArgs ++ b!" }")
      (prettyStruct b!"Function" [(b!"name", name'), (b!"func", fnDebug f.func), (b!"nb_args", prettyOpt f.nbArgs)]) := by
  have := flats_struct (n := b!"Function") ⟨by decide, by decide⟩
    [(b!"name", name, name'), (b!"func", fnDebug f.func, fnDebug f.func),
      (b!"nb_args", optDebug f.nbArgs, prettyOpt f.nbArgs)] (by simp) (by
      intro x hx
      simp only [List.mem_cons, List.not_mem_nil, or_false] at hx
      rcases hx with rfl | rfl | rfl
      · exact flats_field _ _ _ ⟨by decide, by decide⟩ (by decide) h
      · exact flats_field _ _ _ ⟨by decide, by decide⟩ (by decide) (flats_fn _)
      · exact flats_field _ _ _ ⟨by decide, by decide⟩ (by decide) (flats_opt _))
  simpa [joinWith, List.append_assoc] using this

theorem flats_symbol {plain : Char → Bool} (hp : ∀ c, plain c = true → 32 ≤ c.toNat) (s : Symbol) :
    Flats (s.debug plain) (s.pretty plain) := by
  cases s with
  | var x => exact flats_one (n := b!"Variable") ⟨by decide, by decide⟩ (flats_num x)
  | func f => exact flats_one (n := b!"Function") ⟨by decide, by decide⟩ (flats_func (flats_str hp _) f)

theorem flats_entries {plain : Char → Bool} (hp : ∀ c, plain c = true → 32 ≤ c.toNat) (l : List (Bytes × Symbol)) :
    Flats (entriesDebug plain l) (prettyMap (l.map fun p => (strDebug plain p.1, p.2.pretty plain))) := by
  have := flats_list (o := c!"{") (c := c!"}") (by decide) (by decide)
    (l.map fun p => (strDebug plain p.1 ++ b!": " ++ p.2.debug plain, strDebug plain p.1 ++ b!": " ++ p.2.pretty plain)) (by
    intro e he
    obtain ⟨p, -, rfl⟩ := List.mem_map.1 he
    have hs := flats_str hp p.1
    refine ⟨⟨c!"\"", _, rfl, by unfold blankChar; decide, by decide⟩, fun d st r => ?_⟩
    rw [shift_append, shift_append, shift_plain d (t := b!": ") (by decide)]
    simp only [List.append_assoc]
    rw [hs.flat, flat_copy (t := b!": ") _ _ ⟨by decide, by decide⟩, (flats_symbol hp p.2).flat]) (by
    intro e he _
    obtain ⟨p, -, rfl⟩ := List.mem_map.1 he
    rfl)
  simpa [entriesDebug, prettyMap, List.map_map, Function.comp_def] using this

theorem flats_expected {plain : Char → Bool} (hp : ∀ c, plain c = true → 32 ≤ c.toNat) (vs : Option (List Bytes)) :
    Flats (expectedDebug plain vs) (expectedPretty plain vs) := by
  cases vs with
  | none => exact flats_word (n := b!"None") (by decide) (by decide)
  | some l =>
    have := flats_one (n := b!"Some") ⟨by decide, by decide⟩
      (flats_strs hp (o := c!"{") (c := c!"}") (by decide) (by decide) l)
    simpa [expectedDebug, expectedPretty, List.append_assoc] using this

theorem flats_parser {plain : Char → Bool} (hp : ∀ c, plain c = true → 32 ≤ c.toNat) (l : List (Bytes × Symbol))
    (vs : Option (List Bytes)) : Flats (parserDebug plain l vs) (parserPretty plain l vs) := by
  have h1 := flats_struct (n := b!"Context") ⟨by decide, by decide⟩ [(b!"symbols", _, _), (b!"expected_vars", _, _)] (by simp) (by
      intro x hx
      simp only [List.mem_cons, List.not_mem_nil, or_false] at hx
      rcases hx with rfl | rfl
      · exact flats_field _ _ _ ⟨by decide, by decide⟩ (by decide) (flats_entries hp l)
      · exact flats_field _ _ _ ⟨by decide, by decide⟩ (by decide) (flats_expected hp vs))
  have h2 := flats_struct (n := b!"Parser") ⟨by decide, by decide⟩ [(b!"ctx", _, _)] (by simp) (by
      intro x hx
      simp only [List.mem_cons, List.not_mem_nil, or_false] at hx
      rcases hx with rfl
      exact flats_field _ _ _ ⟨by decide, by decide⟩ (by decide) h1)
  simpa [parserDebug, parserPretty, contextPretty, joinWith, List.append_assoc] using h2

/-- C118: what `{:#?}` writes for a parser is, on one line, what `{:?}` writes. -/
theorem C118_parser (plain : Char → Bool) (hp : ∀ c, plain c = true → 32 ≤ c.toNat) (l : List (Bytes × Symbol))
    (vs : Option (List Bytes)) : flat .line [] (parserPretty plain l vs) = parserDebug plain l vs :=
  flats_end (flats_parser hp l vs)

/-- C118: parsers that `{:#?}` prints alike are alike (and make of each text the same, see C114). -/
theorem C118_alike (plain : Char → Bool) (hp : ∀ c, plain c = true → 32 ≤ c.toNat) (o o' : Oracle) (c c' : Context)
    (l l' : List (Bytes × Symbol)) (hl : Lists c l) (hl' : Lists c' l') (ht : TextNames c) (ht' : TextNames c')
    (h : parserPretty plain l (c.getExpected.map o.ord) = parserPretty plain l' (c'.getExpected.map o'.ord)) :
    AlikeCtx c c' := by
  refine C114_parser plain o o' c c' l l' hl hl' ht ht' ?_
  rw [← C118_parser plain hp, ← C118_parser plain hp, h]

/-! ### Expressions -/

theorem flats_quoted {n : Bytes} (h : IsName n) : Flats (quoted n) (quoted n) :=
  flats_word (by simp [quoted]) (plain_quoted h)

theorem flats_op (op : Op) : Flats (opDebug op) (opDebug op) := by
  cases op <;> exact flats_word (by decide) (by decide)

theorem flats_debug {F : Func → Prop} (hF : ∀ f, F f → IsName f.name) (e : Elem) : Legible F e → Flats (debugE e) (prettyE e) := by
  induction e using Elem.ind with
  | num v =>
    intro _
    rw [prettyE, tuple_fields]
    exact flats_one (n := b!"Number") ⟨by decide, by decide⟩ (flats_num v)
  | var n =>
    intro he
    rw [prettyE, tuple_fields]
    exact flats_one (n := b!"Variable") ⟨by decide, by decide⟩ (flats_quoted he.name)
  | un op a ih =>
    intro he
    have := flats_one (n := b!"UnOp") ⟨by decide, by decide⟩ (flats_struct (n := b!"UnOp") ⟨by decide, by decide⟩
      [(b!"op", opDebug op, opDebug op), (b!"operand", debugE a, prettyE a)] (by simp) (by
        intro x hx
        simp only [List.mem_cons, List.not_mem_nil, or_false] at hx
        rcases hx with rfl | rfl
        · exact flats_field _ _ _ ⟨by decide, by decide⟩ (by decide) (flats_op _)
        · exact flats_field _ _ _ ⟨by decide, by decide⟩ (by decide) (ih he.un)))
    rw [prettyE, tuple_fields]
    simpa [debugE, joinWith, List.append_assoc] using this
  | bin op x y ihl ihr =>
    intro he
    have := flats_one (n := b!"BinOp") ⟨by decide, by decide⟩ (flats_struct (n := b!"BinOp") ⟨by decide, by decide⟩
      [(b!"op", opDebug op, opDebug op), (b!"lhs", debugE x, prettyE x), (b!"rhs", debugE y, prettyE y)] (by simp) (by
        intro x hx
        simp only [List.mem_cons, List.not_mem_nil, or_false] at hx
        rcases hx with rfl | rfl | rfl
        · exact flats_field _ _ _ ⟨by decide, by decide⟩ (by decide) (flats_op _)
        · exact flats_field _ _ _ ⟨by decide, by decide⟩ (by decide) (ihl he.left)
        · exact flats_field _ _ _ ⟨by decide, by decide⟩ (by decide) (ihr he.right)))
    rw [prettyE, tuple_fields]
    simpa [debugE, joinWith, List.append_assoc] using this
  | call f as ih =>
    intro he
    have hl := flats_list (o := c!"[") (c := c!"]") (by decide) (by decide) (as.map fun a => (debugE a, prettyE a)) (by
      intro x hx
      obtain ⟨a, ha, rfl⟩ := List.mem_map.1 hx
      exact ih a ha (he.arg ha)) (fun _ _ h => absurd h (by decide))
    have e1 : (as.map fun a => (debugE a, prettyE a)).map (·.1) = debugL as := by
      rw [debugL_map, List.map_map]; rfl
    have e2 : (as.map fun a => (debugE a, prettyE a)).map (·.2) = prettyL as := by
      rw [prettyL_map, List.map_map]; rfl
    rw [e1, e2] at hl
    have := flats_one (n := b!"Function") ⟨by decide, by decide⟩ (flats_struct (n := b!"FunctionCall") ⟨by decide, by decide⟩
      [(b!"desc", funcDebug f, prettyFunc f), (b!"args", _, _)] (by simp) (by
        intro x hx
        simp only [List.mem_cons, List.not_mem_nil, or_false] at hx
        rcases hx with rfl | rfl
        · exact flats_field _ _ _ ⟨by decide, by decide⟩ (by decide) (flats_func (flats_quoted (hF f he.fn.1)) f)
        · exact flats_field _ _ _ ⟨by decide, by decide⟩ (by decide) hl))
    rw [prettyE, tuple_fields]
    simpa [debugE, joinWith, List.append_assoc] using this

/-- C118: of every expression made in a context, what `{:#?}` writes is, on one line, what `{:?}` writes. -/
theorem C118_expression (cfg : Cfg) (w : World) (o : Oracle) (ctx : Context) (a : Bytes) (x : Xpr)
    (hctx : OwnNames ctx) (hx : Reach cfg w ctx a x) : flat .line [] (x.pretty o) = x.debug o := by
  have hv : ∀ n ∈ o.ord x.vars, IsName n := fun n hn => (reach_legible hx).2 n ((o.perm _).mem_iff.1 hn)
  have hl := flats_list (o := c!"{") (c := c!"}") (by decide) (by decide)
    ((o.ord x.vars).map fun n => (quoted n, quoted n)) (by
      intro e he
      obtain ⟨n, hn, rfl⟩ := List.mem_map.1 he
      exact flats_quoted (hv n hn)) (by
      intro e he _
      obtain ⟨n, -, rfl⟩ := List.mem_map.1 he
      rfl)
  have := flats_struct (n := b!"Xprs") ⟨by decide, by decide⟩ [(b!"root", debugE x.root, prettyE x.root), (b!"vars", _, _)] (by simp) (by
      intro y hy
      simp only [List.mem_cons, List.not_mem_nil, or_false] at hy
      rcases hy with rfl | rfl
      · exact flats_field _ _ _ ⟨by decide, by decide⟩ (by decide) (flats_debug (callable_name hctx).1 x.root (reach_legible hx).1)
      · exact flats_field _ _ _ ⟨by decide, by decide⟩ (by decide) hl)
  have h2 : Flats (x.debug o) (x.pretty o) := by
    simpa [Xpr.debug, Xpr.pretty, joinWith, List.append_assoc, List.map_map, Function.comp_def] using this
  exact flats_end h2

/-! ### Cases -/

/-- A text with a quotation mark, a line end, a bracket and a comma in front of it. -/
def ascii (c : Char) : Bool := decide (32 ≤ c.toNat ∧ c.toNat < 127)

example : parse0 cfgOpt b!"1+(,\n\"" = .err ⟨.illegalCharacter c!",", 3, 0⟩ ∧
    PErr.pretty ascii b!"1+(,\n\"" ⟨.illegalCharacter c!",", 3, 0⟩ =
      b!"ParseError {\n    kind: IllegalCharacter(\n        ',',\n    ),\n    span: SourceSpan {\n        offset: SourceOffset(\n            3,\n        ),\n        length: 0,\n    },\n    src: \"1+(,\\n\\\"\",\n}" := by
  decide +kernel

example : parserPretty ascii (listShown 7) (some [b!"x"]) =
    b!"Parser {\n    ctx: Context {\n        symbols: {\n            \"k\": Variable(\n                2.0,\n            ),\n            \"f\": Function(\n                Function {\n                    name: \"f\",\n                    func: Dyn,\n                    nb_args: Some(\n                        1,\n                    ),\n                },\n            ),\n        },\n        expected_vars: Some(\n            {\n                \"x\",\n            },\n        ),\n    },\n}" ∧
    flat .line [] (parserPretty ascii (listShown 7) (some [b!"x"])) =
      b!"Parser { ctx: Context { symbols: {\"k\": Variable(2.0), \"f\": Function(Function { name: \"f\", func: Dyn, nb_args: Some(1) })}, expected_vars: Some({\"x\"}) } }" := by
  decide +kernel

end Props
end Xprs
