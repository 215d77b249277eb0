# Formal model of vic1707/xprs in Lean 4 — design

## 1. What is modelled and how

Everything lives in `/verif/lean/Verif/`.  Each definition of the model cites
the file and lines in `/repo` it transcribes.

### The model

| module | models |
|---|---|
| `F64.lean` | IEEE-754 binary64 as data (`nan`, `inf s`, `fin s n` = ±n·2⁻¹⁰⁷⁴ with `n` representable); `+ - * / %`, `neg`, square root, comparisons, `fract`, `floor`…, round-to-nearest-even, decimal conversion |
| `Syntax.lean` | `Operator`, `Function`/`FnPointer`, `Element`, `BinOp`, `UnOp`, `FunctionCall`, their `PartialEq` |
| `Factorial.lean` | `utils/factorial.rs` incl. the 171-entry table |
| `Builtins.lean` | `utils/built_in_functions.rs`, `token/identifier.rs` |
| `Context.lean` | `context.rs` |
| `Simplify.lean` | `element/simplify.rs` (stable and NIGHTLY arms) |
| `Parser.lean` | `parser.rs`, `token/operator.rs`, `utils/precedence.rs` |
| `Cursor.lean` | `parser.rs` with the whole text, a 64-bit cursor, slices that can be out of range and unchecked conversions |
| `Eval.lean` | `xprs.rs` (`eval*`, `simplify_for*`, `bind*`), `BindError::from_diff` with its `u8` counter |
| `Display.lean` | the `Display` impls of expressions |
| `Print.lean` | `Display` and `Debug` of `f64` (std): the shortest digits that read back, found by search |
| `Report.lean` | the texts of all errors (`Display`, `help`, `labels`) |
| `Heap.lean` | which boxes are freed during simplification and by the `ptr::read`/`ptr::write` pairs of the in-place methods |
| `Program.lean` | `Clone`; programs that hold many expressions in memory |
| `Repl.lean` | `bin/repl.rs`: one line, and the whole loop on the lines of the standard input with `str::trim` and `str::parse::<f64>` |
| `Debug.lean`, `Pretty.lean` | the derived `Debug` impls of expressions: `{:?}`, and `{:#?}` through std's `PadAdapter` |
| `ErrorDebug.lean`, `PrettyError.lean` | the derived `Debug` (`{:?}` and `{:#?}`) and `Ord` of errors, `Debug` of symbols, contexts and parsers; strings with std's escapes, the Unicode tables (which characters are printed as they are) being a parameter |
| `Transcript.lean` | `bin/repl.rs`: what the loop writes to the standard output (reports of errors as a parameter) |
| `Order.lean` | the `PartialOrd` of elements, derived and hand-written |
| `Macro.lean` | the macro `xprs_fn!` |
| `Depth.lean` | the recursive functions (parser, `simplify`, `simplify_for`, `==`, `find_variables`, `eval`, `Display`, drop) on a stack of limited depth |
| `CtxEq.lean` | the derived `==` of symbols, contexts and parsers |
| `Effects.lean` | evaluation, simplification and parsing with user functions that have a memory |
| `Cost.lean` | comparison, simplification, evaluation and parsing with a count of their steps |
| `Threads.lean` | evaluations in several threads, cut at the calls of user functions |

### Specifications, lemmas, properties

`Spec/*.lean` are small specifications written without the functions of the model:
the grammar (`Grammar`, `Doc`, `Text`), trees (`Tree`), histories (`History`), errors
(`Errors`), rounding and arithmetic (`Round`, `Value`, `Ieee`, `Root`), the manual's
table of built-in names (`Names`), evaluation without doubtful steps (`Safe`),
comparison of builds (`Builds`), equality (`Equal`), printed texts (`Show`),
binding (`Binding`), ownership (`Once`), words a text mentions (`Mention`), dialogues
(`Session`), orders (`Order`), texts put together (`Compose`), calls of user functions
(`Effects`), texts that begin alike (`Prefix`), exact arithmetic (`Exact`), rounding errors
(`Error`), error texts (`Report`), NaN (`Nan`), printed numbers (`Print`), renaming
(`Rename`), hash order (`Hash`), compiler channels (`Nightly`), directions of
growth (`Monotone`), trees that differ in their numbers (`Twin`), nesting (`Nesting`),
parts of a text (`Parts`), rows without precedences (`Flat`), blanks around a text (`Trim`),
indented texts (`Pretty`), which error belongs to which text (`Faults`), units of measurement (`Scale`), odd and even expressions (`Parity`), reading a tree from left to right (`Reading`), interval arithmetic (`Range`), programs without memory (`Program`), references (`Shared`), libraries of functions (`Library`), comparisons by arithmetic (`Apart`, `Residue`), lattices (`Lattice`), wrapping (`Wrap`), cancellation (`Steady`), rearranging (`Rearrange`), whole numbers (`Whole`), decimal places (`Decimals`), dividing and multiplying back (`Back`), whole quotients and rests (`Quotient`, `Rest`), thresholds and brackets (`Threshold`, `Bracket`), geometry and interpolation (`Hypot`, `Lerp`), causes of infinity (`Cause`), signs (`Sign`), features of the crate (`Feature`), the terminal (`Screen`), formulas rounded once (`Single`), counting (`Choose`), values of other types (`Given`), whole parts of roots (`WholeRoot`), quadratic equations (`Quadratic`).  `Lemmas/*.lean` are auxiliary.
`Props/*.lean` contain the theorems listed in `MANIFEST.json`, each with examples
that meet its hypotheses.

A property that is false of the code is stated as a proposition `Cxx_claim` and refuted by
`Cxx_refuted` with a concrete input; the part that does hold is `Cxx_partial`, with a
remark on what is missing.

### Modelling decisions

* **Panics are data.**  `unreachable!()`, `unwrap` on `None`, arithmetic
  underflow with overflow checks and a panicking user function are values
  `Panic.…`; every modelled function that can panic returns them.
* **Build configuration is a parameter** `Cfg`: `opt`
  (`compile-time-optimizations`), `pejmdas`, `nightly`, `overflowChecks`, `usize`.
  Theorems quantify over it unless they say otherwise.
* **Floats** are modelled concretely (not Lean's opaque `Float`), so that IEEE
  corner cases are visible to the kernel.  There is a single NaN (payload and
  sign of NaN not modelled).  The exactly specified functions (`abs`, `floor`, `ceil`,
  `trunc`, `round`, `fract`, `recip`, `sqrt`, `min`, `max`, sums) are concrete.  That
  the operations of the standard library are these is assumed (for `sqrt`, std
  documents the correctly rounded result); that they are the operations of IEEE 754 is
  proved (C18, C47, C54, C55).
  Literals: `str::parse::<f64>` is taken to return the nearest number, as documented.  (std
  stops reading an exponent once it exceeds 65535, which makes a difference only for literals
  with more than 65000 digits before the exponent.)
* **Platform functions** (`sin`, …, `powf`, `tgamma`) are uninterpreted: the `World`
  gives one total function per element of the enumerations `Std1`, `Std2`, so a built-in
  that calls the wrong one is visible.  `World.sumInit` is the neutral element
  `Iterator::sum` starts from (it changed from `0.0` to `-0.0` between Rust versions).
  Where simplification rewrites powers (`x^1`, `x^0`), theorems about values assume what
  C99 demands of `pow` (`Spec.PowLaws`), but only of trees with a `^` (C88 shows that no
  others arise from a text without one).
* **Function pointers** are identities (`FnPtr`: a built-in, the address of a static
  function, the address of an `Arc`), their behaviour is given by `World.user`, where
  `none` stands for a panic.  So user functions are deterministic in most of the model.
  `Effects.lean` drops this: there the functions share a memory that every call may
  change; C63 proves that for functions without memory the two models agree, so that
  everything proved about the first holds of the second.
* **Steps** (`Cost.lean`): a step is a call of `eq`, `simplify`, `simplify_for`,
  `eval_element` or `find_variables` on one element, an arm of a `match` that is tried, an
  argument passed, a byte of the input looked at or copied (every error copies the source).
  Not counted: user functions, single operations of the standard library (arithmetic,
  hash tables, comparing two names), allocation and dropping.
* **Threads** (`Threads.lean`): a step is a call of a user function together with all
  that a thread computes until its next call, since nothing else in `eval` is shared.
* **Text** is `List UInt8` (the code works on bytes); inputs range over all byte
  lists, a superset of valid UTF-8.  C64 is about encodings of lists of `Char`; Lean's
  `String.utf8EncodeChar` is taken for UTF-8 and `Char.ofUInt8` for `char::from(u8)`.
* **The parser state** is the pair (cursor, remaining bytes) in `Parser.lean`; that this
  does what the code does, with the whole text and a cursor, is proved (C103).
* **Recursion**: `element` takes fuel that bounds the recursion *depth*; C01
  proves the fuel used by `parse` is never exhausted, for any input.  Bytes of
  stack are not modelled; how many calls are made inside one another is (`Depth.lean`, C83).
* **Hash iteration order** is an arbitrary permutation (`Oracle`).
* `usize` has 16, 32 or 64 bits (`Cfg.usize`).  `Parser.lean` uses it only where the code
  subtracts (`cursor - 1`), `Cursor.lean` everywhere.  The unchecked conversion of
  `factorial` is undefined from `2 ^ 16` on, which is stricter than the larger targets.  The `u8` counter in
  `BindError::from_diff` is modelled with wrap/panic.
* **Ownership** (`Heap.lean`): every box has an address; a computation returns a value
  or panics and in both cases says which boxes it has freed.  `HeapParser.lean` does the same for
  the parser, `Program.lean` adds `Clone` and programs that hold many expressions.  What safe code
  drops when it returns early or unwinds is written out by hand.  The order of frees and
  the `Vec` of arguments are not modelled.  A call of a dynamic function holds one reference to its
  `Arc`; cloning a `Function` makes one, dropping it releases one.
* **`Display` of numbers** is a parameter of the theorems about printed expressions;
  the round trip assumes only what std documents for finite numbers (a decimal text
  that reads back as the same number).  `Print.lean` defines the digits std prints by what
  they are, not by the algorithms std uses (Grisu with a fallback to Dragon); with it the
  assumption is a theorem (C72).

**The project's tests.**  `Conformance.lean` runs the project's test suite and the examples of
its documentation on the model, in all builds they apply to (without the values of `sin` and
`cos`, which the model leaves open).  They all pass.  This is evidence that the model is the
program, not part of any proof.

Not modelled: how `miette` lays out a diagnostic, what the REPL writes to the
standard error, lifetimes and `Send`/`Sync` (checked by rustc).  `Build.lean` models the features, `build.rs`
and the conditional compilation: how a `Cfg` comes about (not how `rustc_version` finds the version, nor cargo beyond
the union of features).

## 2. Plan per property

| id | plan |
|---|---|
| C01 | fuel-sufficiency theorem by induction on depth; every step of every loop consumes input |
| C02 | refute (`3!!2`, empty input); partial: no two `!` separated only by whitespace, non-empty input ⇒ no panic |
| C03 | refute at the empty input; partial: all non-empty inputs |
| C04 | invariant of the result tree + slices, by induction on the parser |
| C05 | `vars` = free variables of root, Nodup |
| C06 | invariant: each variable in the tree is undefined in ctx and built-ins |
| C07 | direct, over all oracles |
| C08 | invariant `ArityOK` of trees preserved by parse and simplify; call sites use exactly the args |
| C09 | print–parse theorem for a concrete-syntax tree type with whitespace and a precedence well-formedness predicate |
| C10–C14 | corollaries of C09 stated on their own |
| C15 | refute (`1+2 3`); partial: at the beginning of an element it is rejected; exact rule by induction over the rows of C86 |
| C16 | refute (`2+(1+2)4`, `2.5%1`); partial via C09 for both builds + C30 |
| C17 | converse of C09: every accepted input is a rendering (with the C15 quirk spelled out) |
| C18 | lexer spec + decimal rounding spec |
| C19 | refinement to a finite map by induction over the op list |
| C20–C22 | induction on trees |
| C23 | invariant `WF` (no binary `!`, unary ops only + - !) for parse without `!!` |
| C24 | refute at 256 missing; partial: fewer than 256 |
| C25–C28 | from C20–C24 |
| C29/C30 | refute each unsound rule with a witness; partial: value preserved for "tame" evaluations |
| C31 | induction |
| C32 | superset invariant over histories; exactness refuted |
| C33 | induction on list |
| C34 | from C29 |
| C35, C36, C37 | refute with `0-3`; partial for trees without negated literals |
| C38 | refute (NaN, `!!`, signed zero); partial |
| C39 | refute (`(-3)^x`, `x!`, `inf`); partial from C09 |
| C40, C42 | case analysis on F64 |
| C41 | kernel computation over the whole 171-entry table: recurrence, relative error; refute nearest at n = 28; overflow by induction |
| C43 | composition of bind and eval |
| C44, C47 | induction / case analysis on F64 |
| C45 | ownership ledger model; refute with `3!!x`; partial: no panic ⇒ dropped once |
| C46 | invariant of errors |
| C48 | corollary of C05 and C20 |
| C49–C51 | induction |
| C52 | interleaving machine; invariant: each thread has been fed the answers of its own calls. Send/Sync are facts of rustc's type system and not expressible |
| C53–C54 | invariants of errors; IEEE relations for the operators |
| C55, C56 | table of the manual against the parser's lookup; real bounds for π and e |
| C57 | strict decrease of nodes + variables |
| C58 | nodes and depth of the tree paid for by bytes of the text |
| C59 | order laws by mutual induction; refute agreement with `==` |
| C60 | lookup is the only use of the context: two contexts that agree on the words of the text parse alike |
| C61 | rounds composed along the input; refute termination at the end of the input |
| C62 | the converse grammar theorem (C17) applied to parts, C09 to the whole; refute callability of functions without arguments |
| C63 | simulation between memories; budget: calls made + calls left + calls not yet read never grows |
| C64 | invariant: the cursor only moves over ASCII bytes, and errors point to what was passed; exact characterisation of the named character; refute (`é`, `sin(sin(1é))`) |
| C65 | the copies with a count give the same values; |a||b| by induction for `==`; potential A·(bytes left) for the parser, the simplification of every `element` paid by the first byte of its atom |
| C66 | simulation of two runs on texts that agree up to a distance behind the cursor (1 byte, 3 near an exponent marker); construction of the completion by induction over the failing run; refute (`1E$`, `sin(x,x,$`).  In optimizing builds loosening the arities commutes with folding, so the same construction applies; the completed text may panic there.  Missing from the `_partial`s: fixed arities and prescribed variables (they are checked late) |
| C67 | induction over the exact evaluation; correct rounding (C54) of a representable result is that result; integer trees take no doubtful step, so C16 and C29 carry the value to the other builds and past simplify_for (for the text: numbers apart as in C16) |
| C68 | refute (`1+x 3` is 7 or 9, `x 2` is rejected with a constant, `y%x`); partial: in builds without optimizations, if no number follows the name or `)` directly, the tree is the same with the value filled in, by transfer of legal concrete syntax between contexts; other builds via C16 |
| C69 | refute (the list of suggestions is ambiguous for names with backquotes); everything else by injectivity of the texts: decimal numbers, quoted names, joined names without the separator; no panic from the help by the argument counts (C53); what is quoted from C53 and C64 |
| C70 | one correct rounding (C54) of a number in the normal range has a relative error of at most 2^-53; products and quotients of such factors multiply, sums of numbers of one sign are weighted means; Bernoulli bounds the power; such trees take no doubtful step, so C16 and C29 carry the value over |
| C71 | the cause: induction over the tree with the IEEE relations of C54 and the cases of C40, as an equivalence; the second part: refute (max), partial by induction over the occurrence of the variable |
| C72 | the search goes from the greatest possible exponent down and always ends, because every number is a multiple of 10⁻¹⁰⁷⁴; a decimal number closer than 2⁻⁵⁴ of the number reads back, hence 17 digits; one that reads back is one of the two neighbours, hence the search finds the closest |
| C73 | false as stated (`2x` is a product, `2X` an error): for renamings that keep small letters small behind operands, induction on the written form as for whitespace (C13), with simplification commuting with injective renamings (a map injective on the variables of the text extends to an injection of all names); the exception is exact (C73_capital) |
| C74 | two orders give permutations of the same list of missing names; all ten variants of `bind` are one function of that list |
| C75 | trees without subtraction and negation stay so under simplification, and the NIGHTLY arms match none of them; simulation of the two parsers on texts without `-`; gives C35, C36, C39 in NIGHTLY builds for such texts |
| C76 | correctly rounded operations are monotone (nearest points of the grid do not cross), `min`/`max`/`sum` folds and the factorial table are; induction over the tree with the sign of the parts; the order is the one of the extended line, NaN outside |
| C77 | a legal text without a binary `!` never has two `!` in a row once the spaces are taken out: no part begins with `!`, and `x!` needs an `x` not ending in one; conversely `bin_bang`; trees without a binary `!` are proper, with one they have no value |
| C78 | the loop of `from_diff` computed for any number of missing variables (C24), evaluation of any reachable tree (C77) |
| C79 | `Spec/Rules.lean` writes each comment of `simplify.rs` as one constructor, without reference to the model; every arm is one step, induction over the tree; for parsing over the concrete syntax (`den_ind`) |
| C80 | an operation that the arms leave alone meets no rule (`simpBin_keep`), what the arms build is looked at case by case; the exceptions are the disjuncts of `Leftover` |
| C81 | `wrap_apply` of C62 for every reachable call, by the arity invariant of C08; for functions of 0 arguments an induction over the concrete syntax of `Converse` (`toks_arity`) |
| C82 | one simulation of the parser for any congruence of trees (`Lemmas/Related`), used with trees whose numbers are equal as `f64`; for nonzero constants `parseImpl_agree` of C60 |
| C83 | a budget for the bound on the depth: six calls for every open parenthesis and sign in front, less the precedence (`Lemmas/Nesting`, `Enough`); successful calls close what they open (`Closes`); flat texts by C17; trees that are simplified are smaller than twice the text by the sizes of the cost model of C65 (`Lemmas/Depth`) |
| C84 | reading the new tokens along the derivation of the old text (`Lemmas/Inline`, `inline_cst`); parenthesised pieces may stand anywhere (`paren_part`); the substitution lemma (C43) for values |
| C85 | a pair of parentheses lies within one half of a text when the other half is balanced (`group_left`), so it can be followed down the derivation (`group_parts`); a part stays legal when what follows is cut off at `)` or `,` (`wf_open`, the converse of `wf_close`) |
| C86 | `Spec/Flat.lean` is a grammar on tokens without levels; a derivation gives a row (`flat_of_cst`), and a row is climbed into a derivation for whichever level implicit products have (`climb`, `row_tree`), so `flat_iff` holds for both orders; without `*`, `/`, `%` (`wf_order`) or without implicit products (`fence_written`) no comparison of levels depends on the order; `Cst.fence` adds the parentheses |
| C87 | `Spec/Terms.lean` computes the exact value, the sum of the absolute terms and the roundings along the tree; one rounding is off by at most 2⁻⁵³ of the sum of the terms, also below the normal numbers (`Lemmas/Terms`, `round_abs`, `Off.round`); trees of this kind take no doubtful step, so C16 and C29 carry the bound over |
| C88 | `OnBoth w w' e`: the powers and calls of a tree have the same results in two worlds; kept by simplification and substitution (`Lemmas/OnBoth`); what `parse` builds calls only what the text mentions (`Lemmas/Platform`, along the parser as in C60); a tree without powers (`NoPower`) is one that is alike in the world and in one with another `powf` (`Lemmas/NoPower`) |
| C89 | `Debug.lean` adds the derived `Debug`; words of a printed text end at separators (`Lemmas/Shown`, `word_eq`), so that the text of a tree can be cut off whatever follows (`show_eq`, `debug_eq`, by induction on one tree); refute at the variable `inf` |
| C90 | each law is an equation of the float model, by cases on the operands and because rounding depends on the quotient only (`Lemmas/Laws`, `roundMag_ratio`); congruence by induction on the derivation; texts by C62; the broken laws are refuted at decimal numbers |
| C91 | as C70 with real factors (`Lemmas/Accuracy`); what is assumed of a called function is one predicate (`Spec.Accurate`), proved for the functions the model defines: closeness is an interval (`close_iff`), so `min` and `max` keep it, a float nearest to a real number is one rounding away (`nearestReal_close`), `exp` turns relative into absolute errors; bounds for π and e from Mathlib |
| C92 | an indented text is a text moved to the right (`shift`), so brackets in brackets are texts at greater depth; the layout reads the compact text once from left to right (`Lays`); trees can be cut off whatever follows, at every depth (`pretty_eq`); lines are cut at the line feeds that no printed name or number contains |
| C93 | rules for errors as one inductive relation over places (expression, operand, arguments); from rules to errors by induction on the rule, with the forward theorem for what stands in front; from errors to rules by following the parser with the converse theorem; the cursor after an unexpected character is at the character, which is what `argument` relies on |
| C94 | constructed from the rules of C93; where the error points by induction on the rules |
| C95 | nearest floats scale with powers of two above the subnormal range; every operation separately, from its real-number specification; induction on the dimension of the tree; other builds through C16 |
| C96 | every operation commutes with a change of sign, up to the signs of zeros; induction on the rules; other builds through C16 |
| C97 | induction over written expressions: their tokens are covered by the tree they denote; simplification returns variables in sublist order; C20 for the error |
| C98 | induction over the derivation of the bounds: rounding is monotone, products and quotients are extreme at corners; C16 for other builds |
| C99 | `Program.lean`: commands on a store of expressions in memory; each command conserves boxes (C45 for simplification) and shows what the model without memory shows; induction over executions |
| C100 | `HeapParser.lean`: the parser with boxes; function by function it is the parser without addresses and conserves boxes (C45's lemma for the simplifier); C99 uses it |
| C101 | the same ledger counts references to `Arc`; calls in the trees held are the references not yet released; refute with `f(x) + 3!!x`; partial: no panic |
| C102 | `Library` is the sequence of definitions; replacing the newest function by its text keeps the value (substitution lemma of C43) and leaves calls of older ones only; induction over the sequence |
| C103 | `Cursor.lean` is the parser with the whole text and a `usize` cursor; simulation by `Parser.lean`, function by function, with the invariant that the cursor is at most the length; a build with overflow checks differs only by panics on overflow; refute at the empty text |
| C104 | values are multiples of `2⁻¹⁰⁷⁴`, so a difference is at least the smallest number; two numbers of the grid differ by one part in `2⁵³` of the larger, so a quotient keeps its side of 1; rounding is monotone; texts by C62 |
| C105 | in units of `2⁻¹⁰⁷⁴`: the nearest grid point of a multiple of `2^j` is one; errors of sums and differences of close numbers are on the grid (Sterbenz, Dekker, Knuth); other builds through C16 |
| C106 | the error of the square is halved by the root, which leaves it nearer than half a unit; powers of two are exact; other builds through C16 |
| C107 | refute with `mean(0.1, 0.1, 0.1)`; partial: exact sums (so whole numbers), one and two numbers; any list of up to 2^50 numbers by at most `M (n + 1) / 2^52` outside (`C107_near_partial`, from the bound on sums in `Lemmas/Terms`) |
| C108 | the least of a list is known by what lies below it; laws follow from the order; `Goes` of C76 for expressions; C62 for the text, C16 for other builds |
| C109 | C78 for both functions, C29 for the value, C31 for the variables; a map that has the fixed values already is not changed by inserting them |
| C110 | the remainder is exact, the sum is between 0 and twice the modulus (monotone rounding) and its error at most half a step of the grid at the modulus; texts through the composition of C62, other builds through C16 |
| C111 | absolute errors against real numbers (`OffBy`), closed under the operations and one rounding; calls through a condition on the function (`Robust`), shown for each built-in function the statement names; Lipschitz bounds from Mathlib for sin and cos |
| C112 | the product and the quotient by C47/`RoundsTo`, the whole number by a specification of each function (`Picks`); the result is the literal since both are nearest to the same fraction, and prints with at most `k` places since the printed text has the fewest (C72) |
| C113 | a congruence on trees (`Rearranged`); each step carries `Runs` in both directions up to the sign of zeros, `min` and `max` through their bounds (C44, C108); sums by C44 (whole numbers) and C111 |
| C114 | `ErrorDebug.lean` adds `Debug` of strings (escapes) and of errors, contexts and parsers, and the derived orders; escapes are cut off from the front (`escChar_inj`, `strDebug_inj`), orders are read off keys (`order_key`); parsers that print alike run alike by C113's relation on parser states |
| C115 | `Spec/Whole.lean` extends C67's `Counts` by quotients made whole, `abs`, `min`, `max`, `sum`; a quotient of whole numbers is either whole or at least `1/|b|` from the next whole number, the rounding error is smaller (`quotient_near`, `int_close`, `picks_quotient`); limits by computed counterexamples |
| C116 | `Spec/Ledger.lean`: `Books m k e N B n`, the exact amount `N`, the sum of absolute amounts `B` and the number of roundings `n`, read off the tree; errors add up as in C111 (`books_runs` on `OffTo`), the sum is then less than half a unit off (`round_to`), and C112's `Rounded` names the literal; `C116_near` the same for any tree of C111 |
| C117 | `Spec/Back.lean`: `Digits52`, `TwoBits`; on integers (`nearest_back` in `Lemmas/Back.lean`): the error of the rounded quotient times `n = 2^i + 2^j` is a multiple of the smaller power, so by parity at most half a unit of the numerator, and 52 digits make the numerator the even one at a tie; `C117_exactly` names a numerator for every other divisor up to 100 and computes it in the model |
| C118 | `PrettyError.lean`: `{:#?}` of errors, contexts and parsers through the builders of `Pretty.lean`; `Spec/Joined.lean`: `flat` undoes the layout knowing only line ends, commas and brackets; `Flats t p` (`p` at any depth is `t` on one line) for each builder, strings without line ends by C114's `line_str`; what `{:?}` determines is then determined |
| C119 | `nearest_times` in `Lemmas/Solve.lean`, on integers: for `Q` above `2^53` units and `P`, `S` of the grid, the grid point nearest to `Q·P/S` is `Q` only if `P = S` (numbers of the grid in one binade are further apart, relatively, than half a unit of the last place of `Q`; at powers of two the lower neighbour is nearer on both sides); all three equations are `k·p/s`; `Less`, `OnPar` as in C104; the examples show that the hypotheses are needed and that sums have no such rule |
| C120 | `Spec/Quotient.lean`: `Splits` (the bounds), `shareTree`; `Picks` as in C112; every threshold of the four functions is a whole or half number `t` with `t·j` in the format, so C119 keeps the quotient on its side; zero separately; `picks_twice` over the rationals |
| C121 | `Spec/Threshold.lean`: `Passes` (the steps, done exactly, from `s` to `k`), `Coarser` (a power of two below the summand whose double is above the sum), `Sides`; for sums: other numbers are at least a spacing away from `s`, and within that spacing above and below `k` there is a number of the format (`coarser_next`); for products and quotients C119; intermediate values may overflow to an infinity; one induction for `eval` and for `Runs` (`Steps`); the last example shows what happens without `Coarser` |
| C122 | `Spec/Bracket.lean`: `Bracket` (the numbers of which `f` makes `N`, by `Picks` of C112), `Within`; `bracket_all` gives the brackets of the four functions for every `N`; C121 at both ends |
| C123 | `Spec/Rest.lean`: `fullTree`, `joinTree`, `RestValue` (the trees and their exact values; `restTree` from C115); C120 for the quotient, `rest_inF64`: what differs from a number of the format by a whole number and is not larger is in the format; the examples show the two ways in which it fails outside |
| C124 | `Spec/Hypot.lean`: `hypotTree`, `Leg` (the tree; the bounds on a side); `hypot_core`: lower bound by monotony of sum and root, upper bound by the square of the computed `abs(a)+abs(b)`, with the case that the smaller side is lost apart (`nearZ_absorb`); exact triangles from C106's `sqrt_square`; an example shows a side whose square is lost to zero |
| C125 | `Spec/Lerp.lean`: `lerpTree`, `Amid` (the tree; between two numbers in either order); `lerp_core`: if the rounded product passed the exact difference it would be the rounded difference, which the largest number below one does not leave as it is (`below_one`, the relative error); small differences are exact (`small_diff`); an example shows the overshoot at one |
| C126 | `Spec/Cause.lean`: `TooLarge` (the limit of overflow), `NoNumber`, `Countable`, `Breaks` (where it happens first), `Spills` (sums), `ZeroBlind` (functions that do not tell zeros apart); `rounds_number`: rounding gives a number exactly below the limit, from the grid of `Spec/Round.lean` with the tie at the limit; then induction over the tree; `level_runs` connects with C16 |
| C127 | `Spec/Sign.lean`: `Factored` (the form with its exact value), `Truthful` (no wrong sign), `Vanishes` (where a product is lost); the invariant is the sign bit, also of a zero that came from underflow; through `Muls` and `Divs` of `Spec/Ieee.lean`; `rounds_zero`: only what is at most half of the smallest number rounds to zero, and differences of two floats are never that small |
| C128 | `Build.lean` (`Cargo.toml`, `build.rs`, `cfg` attributes) gives a `Cfg` or the errors; `Spec/Feature.lean`: `Asks`, `Wants` (by name or by the defaults); case analysis; `C128_refuted`: features are not additive, `C128_together` says exactly when they can be joined; `C128_more` through C16 |
| C129 | `ReplIO.lean`: the REPL as a sequence of `print`, `flush` and `read` calls, an output that hands on text at any time but at the latest at a line feed or flush, and may fail in any call (`Serves`, `Cuts`); `Spec/Screen.lean`: `said`, `taken`; every read follows a flush (`Guarded`), every turn ends with a line feed or a read (`clean`) |
| C130 | `Spec/Single.lean`: `Sure` (no rounding), `Single` (one rounding at the end) with exact values; rounding is monotone (`roundsTo_mono`); for whole parts: a rounded whole number is whole (`rounds_whole`), and `floor` is monotone |
| C131 | `Spec/Choose.lean`: the two formulas, counts from Mathlib (`Nat.choose`, `Nat.descFactorial`); the table is off by at most 2⁻⁵⁰ (C41), three entries and two roundings make 29 units of 2⁻⁵³ (`Near`); up to 22 every intermediate result divides 22!, and all divisors of 22! are numbers of `f64` |
| C132 | `Into.lean` (the types std converts into `f64`), `Spec/Given.lean`: `single` (the number the bits of an `f32` stand for, by IEEE 754, written with rational powers of two), `Stands`; all of them have at most 53 bits, so that the rounding of the cast does nothing (`ofMag_units`) |
| C133 | `Spec/WholeRoot.lean`: `RootIs` (by the real square root of Mathlib), `rootLimit`; between `n` and the next threshold there is a square of a number `q` of the format (`k ± 2⁻²⁷`, `k + ½ − 2⁻²⁸`); the computed root is monotone, and that of the rounded `q·q` is `q` (C106), so it stays on its side (`root_side`) |
| C134 | `Spec/Quadratic.lean`: `solveTree`, `Coefficients`, `Solutions`, `Solves` (the trees; bounds; which solution belongs to which tree, over the rationals); within the bounds everything under the root is a whole number below 2⁵² and exact; a rational solution makes it a square (`Rat.isSquare_intCast_iff`), whose root is exact by C133; only the division rounds |

## 3. Trusted base

Lean's kernel; axioms `propext`, `Classical.choice`, `Quot.sound` at most (as reported by
`#print axioms`); no `native_decide`, no axioms of our own.  From Mathlib: big sums of
lists, rational floor, `Nat.factorial`, the real square root, bounds for π and e, and the
tactics `linarith`, `ring`, `field_simp`.  Faithfulness of the model to the code, by
reading.  See section 1 for what is simplified.

## 4. Testing the theorems

`seeded/LOG.jsonl` lists deliberate faults put into a scratch copy of the model, the
theorems that no longer prove for each, and what was tightened when none failed.
