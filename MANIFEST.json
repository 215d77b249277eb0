{
 "claims": [
  {
   "property": "C01",
   "status": "proved",
   "theorems": [
    "Xprs.Props.C01_terminates",
    "Xprs.Props.C01_depth"
   ],
   "note": "Depth counts nested element() activations of the modelled descent; stack bytes per frame are not modelled."
  },
  {
   "property": "C02",
   "status": "partial",
   "theorems": [
    "Xprs.Props.C02_refuted_empty",
    "Xprs.Props.C02_refuted_bang",
    "Xprs.Props.C02_panics_partial",
    "Xprs.Props.C02_partial"
   ],
   "note": "Refuted as stated: empty input underflows with overflow checks, 3!!2 reaches unreachable!(). The partial theorems show these are the only two ways parse can panic."
  },
  {
   "property": "C03",
   "status": "partial",
   "theorems": [
    "Xprs.Props.C03_refuted",
    "Xprs.Props.C03_partial"
   ],
   "note": "Refuted for the empty input in builds without overflow checks; proved for every non-empty input."
  },
  {
   "property": "C04",
   "status": "proved",
   "theorems": [
    "Xprs.Props.C04_names",
    "Xprs.Props.C04_name_slice",
    "Xprs.Props.C04_number_slice"
   ],
   "note": ""
  },
  {
   "property": "C05",
   "status": "proved",
   "theorems": [
    "Xprs.Props.C05_vars"
   ],
   "note": ""
  },
  {
   "property": "C06",
   "status": "proved",
   "theorems": [
    "Xprs.Props.C06_not_var",
    "Xprs.Props.C06_functions",
    "Xprs.Props.C06_priority"
   ],
   "note": ""
  },
  {
   "property": "C07",
   "status": "proved",
   "theorems": [
    "Xprs.Props.C07_expected",
    "Xprs.Props.C07_unset"
   ],
   "note": ""
  },
  {
   "property": "C08",
   "status": "proved",
   "theorems": [
    "Xprs.Props.C08_arity",
    "Xprs.Props.C08_no_user_panic"
   ],
   "note": ""
  },
  {
   "property": "C09",
   "status": "proved",
   "theorems": [
    "Xprs.Props.C09_written",
    "Xprs.Props.C09_every_tree",
    "Xprs.Props.C09_image"
   ],
   "note": "For every legal written-out tree (any redundant parentheses, any whitespace), in both precedence settings and all builds. Without compile-time-optimizations the tree itself is returned; with it, the tree with sub-trees simplified, provided the functions of the context do not panic. C09_every_tree: every tree over literals, constants, variables, operators and calls that can be written at all has such a text. C09_image: conversely the trees returned without optimizations are of that kind (inputs without !!)."
  },
  {
   "property": "C10",
   "status": "proved",
   "theorems": [
    "Xprs.Props.C10_left"
   ],
   "note": "Chains of any length of one precedence class, operands anything that binds tighter."
  },
  {
   "property": "C100",
   "status": "proved",
   "theorems": [
    "Xprs.Props.C100_same",
    "Xprs.Props.C100_accepted",
    "Xprs.Props.C100_rejected",
    "Xprs.Props.C100_plain"
   ],
   "note": "Which elements and functions each early return drops is written out in HeapParser.lean; the Vec of arguments is not modelled separately."
  },
  {
   "property": "C101",
   "status": "partial",
   "theorems": [
    "Xprs.Props.C101_partial",
    "Xprs.Props.C101_alive",
    "Xprs.Props.C101_released",
    "Xprs.Props.C101_tame",
    "Xprs.Props.C101_panic",
    "Xprs.Props.C101_run",
    "Xprs.Props.C101_refuted"
   ],
   "note": "False as stated: C101_run parses `f(x) + 3!!x` with a dynamic f and simplifies it for x by value; the panic in the middle of the ptr::read/ptr::write section makes the reference be released twice, so the context is left with a deallocated function. C101_partial: it holds as long as no simplification panics; C101_tame: always, if no text has `!!` and functions do not panic; C101_panic: how far the count falls short after a panic. Weak references and overflow of the count are not modelled."
  },
  {
   "property": "C102",
   "status": "partial",
   "theorems": [
    "Xprs.Props.C102_partial",
    "Xprs.Props.C102_refuted",
    "Xprs.Props.library_total",
    "Xprs.Props.library_three"
   ],
   "note": "Proved for libraries and expressions whose texts have no two adjacent '!' and a first context of total functions, for every sequence of definitions. C102_refuted: with adjacent '!' evaluation panics."
  },
  {
   "property": "C103",
   "status": "partial",
   "theorems": [
    "Xprs.Props.C103_same",
    "Xprs.Props.C103_cursor",
    "Xprs.Props.C103_refuted",
    "Xprs.Props.C103_partial"
   ],
   "note": "The claim is false for the empty text (cursor - 1 underflows): C103_claim, C103_refuted. C103_partial proves it for every other text. C103_same proves that the parser with a cursor of 16, 32 or 64 bits, checked slices and unchecked conversions (Cursor.lean) equals the parser on the remaining bytes (Parser.lean), so all other properties are about it as well."
  },
  {
   "property": "C104",
   "status": "proved",
   "theorems": [
    "Xprs.Props.C104_difference",
    "Xprs.Props.C104_quotient",
    "Xprs.Props.C104_text",
    "Xprs.Props.C104_builds"
   ],
   "note": "Trees and plain builds: every value. Other builds: parts without doubtful steps (Runs), texts without !!, total functions."
  },
  {
   "property": "C105",
   "status": "proved",
   "theorems": [
    "Xprs.Props.C105_close",
    "Xprs.Props.C105_fast",
    "Xprs.Props.C105_residue",
    "Xprs.Props.C105_simplified",
    "Xprs.Props.C105_fixed",
    "Xprs.Props.C105_text"
   ],
   "note": "Sterbenz, FastTwoSum and TwoSum for arbitrary subexpressions; for other builds the subexpressions have no doubtful step (Runs) and use no ^, or PowLaws holds of the platform."
  },
  {
   "property": "C106",
   "status": "proved",
   "theorems": [
    "Xprs.Props.C106_root",
    "Xprs.Props.C106_builds",
    "Xprs.Props.C106_fixed"
   ],
   "note": "The bounds are needed: examples with 1e-200 and 1e200."
  },
  {
   "property": "C107",
   "status": "partial",
   "theorems": [
    "Xprs.Props.C107_refuted",
    "Xprs.Props.C107_exact_partial",
    "Xprs.Props.C107_whole_partial",
    "Xprs.Props.C107_two_partial",
    "Xprs.Props.C107_near_partial"
   ],
   "note": "Refuted by mean(0.1, 0.1, 0.1) > 0.1. It holds where sum is exact, for whole numbers whose magnitudes add up to at most 2^53, and for one or two numbers whose sum does not overflow. Any list of up to 2^50 numbers, none of which is tiny and whose sum stays below 2^1000, has a mean at most M (n + 1) / 2^52 outside, M the largest magnitude (C107_near_partial)."
  },
  {
   "property": "C108",
   "status": "proved",
   "theorems": [
    "Xprs.Props.C108_nested",
    "Xprs.Props.C108_mirror",
    "Xprs.Props.C108_absorb",
    "Xprs.Props.C108_distribute",
    "Xprs.Props.C108_parts",
    "Xprs.Props.C108_abs",
    "Xprs.Props.C108_through",
    "Xprs.Props.C108_clamp",
    "Xprs.Props.C108_text",
    "Xprs.Props.C108_builds"
   ],
   "note": "The functions are found by name (Spec.Gives). Rising expressions are those of C76 (Goes), with no part NaN. C108_text: builds without compile-time-optimizations; C108_builds: any build that accepts the text, where the parts have no doubtful step."
  },
  {
   "property": "C109",
   "status": "proved",
   "theorems": [
    "Xprs.Props.C109_binds",
    "Xprs.Props.C109_works",
    "Xprs.Props.C109_value"
   ],
   "note": "Functions of the context are assumed to return (CtxTotal). The steps that are excluded are those of C29 (relation Runs); an example shows that they have to be."
  },
  {
   "property": "C11",
   "status": "proved",
   "theorems": [
    "Xprs.Props.C11_unary"
   ],
   "note": "All six shapes for all literal, name, call and parenthesised operands."
  },
  {
   "property": "C110",
   "status": "proved",
   "theorems": [
    "Xprs.Props.C110_wraps",
    "Xprs.Props.C110_exact",
    "Xprs.Props.C110_whole",
    "Xprs.Props.C110_texts",
    "Xprs.Props.C110_simplified",
    "Xprs.Props.C110_fixed",
    "Xprs.Props.C110_builds"
   ],
   "note": "For other builds and simplification the modulus is not 1 and the operands take no doubtful step (Runs) and use no ^, or PowLaws holds, as the statement says; examples show what happens with the modulus 1 and that the rounding error is real."
  },
  {
   "property": "C111",
   "status": "proved",
   "theorems": [
    "Xprs.Props.C111_error",
    "Xprs.Props.C111_sign",
    "Xprs.Props.C111_simplified",
    "Xprs.Props.C111_fixed",
    "Xprs.Props.C111_text",
    "Xprs.Props.C111_abs",
    "Xprs.Props.C111_min",
    "Xprs.Props.C111_max",
    "Xprs.Props.C111_sum",
    "Xprs.Props.C111_mean",
    "Xprs.Props.C111_sqrt",
    "Xprs.Props.C111_platform",
    "Xprs.Props.C111_waves"
   ],
   "note": "k up to 2^50. Powers, % and ! are left out. Divisors as in C91 (no cancellation; C87_divisor shows why). C111_text: as in C16, numbers must stand apart from parentheses. That sin and cos of the platform are right up to c roundings, and do not tell the signs of zeros apart otherwise, is a hypothesis of C111_waves. Any rounding in inputs can be put into OffTo."
  },
  {
   "property": "C112",
   "status": "proved",
   "theorems": [
    "Xprs.Props.C112_places",
    "Xprs.Props.C112_kept",
    "Xprs.Props.C112_kept_refuted",
    "Xprs.Props.C112_simplified",
    "Xprs.Props.C112_fixed",
    "Xprs.Props.C112_texts",
    "Xprs.Props.C112_builds"
   ],
   "note": "The rounded product r differs from x*10^k by at most |x*10^k|/2^52 + 2^-1073, so that N may be one off where x*10^k is that close to a point where f jumps (an example is given: 1.15 to one place). C112_texts: builds without optimisations; C112_builds: all, as in C16, if numbers stand apart from parentheses."
  },
  {
   "property": "C113",
   "status": "proved",
   "theorems": [
    "Xprs.Props.C113_order",
    "Xprs.Props.C113_builds",
    "Xprs.Props.C113_texts",
    "Xprs.Props.C113_sum",
    "Xprs.Props.C113_sum_whole",
    "Xprs.Props.C113_sum_refuted"
   ],
   "note": "C113_texts needs no condition on the operations: it is about one call of min or max. C113_builds as in C16: numbers must stand apart from parentheses. n up to 2^50."
  },
  {
   "property": "C114",
   "status": "proved",
   "theorems": [
    "Xprs.Props.C114_error",
    "Xprs.Props.C114_eval",
    "Xprs.Props.C114_bind",
    "Xprs.Props.C114_line",
    "Xprs.Props.C114_order",
    "Xprs.Props.C114_parser",
    "Xprs.Props.C114_alike"
   ],
   "note": "Which characters std prints as they are is a parameter (any set; for C114_line any set without control characters). miette's SourceSpan is assumed to have a derived Debug. C114_alike is about builds without optimisations: with them calls of functions are folded, so that the results can show what a function computes."
  },
  {
   "property": "C115",
   "status": "proved",
   "theorems": [
    "Xprs.Props.C115_whole",
    "Xprs.Props.C115_fixed",
    "Xprs.Props.C115_text",
    "Xprs.Props.C115_divides",
    "Xprs.Props.C115_rest",
    "Xprs.Props.C115_limit",
    "Xprs.Props.C115_bound",
    "Xprs.Props.C115_operands"
   ],
   "note": "C115_whole: both evaluators, and after simplification in every build; C115_fixed: simplify_for; C115_text: from the text, with numbers apart from parentheses as in C16. C115_divides and C115_rest: divisibility and remainders. C115_limit, C115_bound, C115_operands: the bounds and the wholeness of operands are needed."
  },
  {
   "property": "C116",
   "status": "proved",
   "theorems": [
    "Xprs.Props.C116_amounts",
    "Xprs.Props.C116_fixed",
    "Xprs.Props.C116_text",
    "Xprs.Props.C116_compare",
    "Xprs.Props.C116_error",
    "Xprs.Props.C116_near",
    "Xprs.Props.C116_needed"
   ],
   "note": "C116_amounts: both evaluators, and after simplification in every build, with the number of places printed; C116_fixed: simplify_for; C116_text: from the text, with numbers apart from parentheses as in C16. C116_compare: equality and order. C116_error: the error without rounding. C116_near: rates, quotients and functions. C116_needed: 0.1+0.2 is not 0.3, and floor gives 0.7 for 0.1+0.7."
  },
  {
   "property": "C117",
   "status": "proved",
   "theorems": [
    "Xprs.Props.C117_back",
    "Xprs.Props.C117_simplified",
    "Xprs.Props.C117_text",
    "Xprs.Props.C117_whole",
    "Xprs.Props.C117_exactly",
    "Xprs.Props.C117_digits"
   ],
   "note": "C117_back: trees (a/b)*b and a/3+a/3+a/3 of a number of 52 digits; C117_simplified: after simplification in every build; C117_text: from the text, with numbers apart from parentheses as in C16; C117_whole: all whole numbers up to 2^52; C117_exactly: for divisors 1..100 no others restore every whole number; C117_digits: 53 digits are too many."
  },
  {
   "property": "C118",
   "status": "proved",
   "theorems": [
    "Xprs.Props.C118_errors",
    "Xprs.Props.C118_error",
    "Xprs.Props.C118_bind",
    "Xprs.Props.C118_parser",
    "Xprs.Props.C118_alike",
    "Xprs.Props.C118_expression"
   ],
   "note": "C118_errors, C118_parser, C118_expression: flat of {:#?} is {:?}; C118_error, C118_bind, C118_alike: what it determines. For expressions, functions of the context carry names of their own as in C92."
  },
  {
   "property": "C119",
   "status": "proved",
   "theorems": [
    "Xprs.Props.C119_quotient",
    "Xprs.Props.C119_product",
    "Xprs.Props.C119_solution",
    "Xprs.Props.C119_text",
    "Xprs.Props.C119_builds"
   ],
   "note": "C119_quotient, C119_product: trees in both evaluators; C119_solution: the three equations; C119_text: builds without compile-time optimizations; C119_builds: every build, for parts without doubtful steps (Runs) and texts without !!."
  },
  {
   "property": "C12",
   "status": "partial",
   "theorems": [
    "Xprs.Props.C12_partial",
    "Xprs.Props.C12_exact",
    "Xprs.Props.C12_refuted"
   ],
   "note": "Holds for every accepted text without `!!`; the claim as stated is false (`3!!(0-0-3+3-5)` is accepted, in parentheses it panics under compile-time optimisation). C12_exact gives the result for every accepted text."
  },
  {
   "property": "C120",
   "status": "proved",
   "theorems": [
    "Xprs.Props.C120_whole",
    "Xprs.Props.C120_simplified",
    "Xprs.Props.C120_text",
    "Xprs.Props.C120_builds",
    "Xprs.Props.C120_twice"
   ],
   "note": "C120_whole: trees in both evaluators; C120_simplified: after simplification; C120_text, C120_builds: texts; C120_twice: dividing twice."
  },
  {
   "property": "C121",
   "status": "proved",
   "theorems": [
    "Xprs.Props.C121_threshold",
    "Xprs.Props.C121_solution",
    "Xprs.Props.C121_simplified",
    "Xprs.Props.C121_builds"
   ],
   "note": "any number of steps, any value that is not NaN; examples: (x-32)*5/9 is 100 only at 212, x*9/5+32 against 212 in an optimizing build, and the failure without Coarser"
  },
  {
   "property": "C122",
   "status": "proved",
   "theorems": [
    "Xprs.Props.C122_bracket",
    "Xprs.Props.C122_simplified",
    "Xprs.Props.C122_builds"
   ],
   "note": "bracket_all states the brackets of floor, ceil, round and trunc; example: floor((x-1900)/100)"
  },
  {
   "property": "C123",
   "status": "proved",
   "theorems": [
    "Xprs.Props.C123_rest",
    "Xprs.Props.C123_smaller",
    "Xprs.Props.C123_modulo",
    "Xprs.Props.C123_simplified",
    "Xprs.Props.C123_builds"
   ],
   "note": "C115 has the case of whole x; example: 60*trunc(x/60)+x%60 gives every x up to 2^52 back"
  },
  {
   "property": "C124",
   "status": "proved",
   "theorems": [
    "Xprs.Props.C124_sides",
    "Xprs.Props.C124_exact",
    "Xprs.Props.C124_simplified",
    "Xprs.Props.C124_builds"
   ],
   "note": "Sides that are zero or of magnitude from 2^-511 to 2^510; in optimizing builds sides with no doubtful step, as in C16."
  },
  {
   "property": "C125",
   "status": "proved",
   "theorems": [
    "Xprs.Props.C125_between",
    "Xprs.Props.C125_ends",
    "Xprs.Props.C125_steady",
    "Xprs.Props.C125_simplified",
    "Xprs.Props.C125_builds"
   ],
   "note": "Ends at a distance of at most 2^1023, 0 <= t < 1; in optimizing builds parts with no doubtful step, as in C16. At t = 1 exact if the difference is, else it may overshoot (example)."
  },
  {
   "property": "C126",
   "status": "proved",
   "theorems": [
    "Xprs.Props.C126_cause",
    "Xprs.Props.C126_exact",
    "Xprs.Props.C126_functions",
    "Xprs.Props.C126_level",
    "Xprs.Props.C126_builds"
   ],
   "note": "C126_builds: texts without ^, nothing taken modulo one, functions whose numeric results do not depend on signs of zeros (C126_level: those that do not depend on the platform); numbers not directly after a closing parenthesis as in C16."
  },
  {
   "property": "C127",
   "status": "proved",
   "theorems": [
    "Xprs.Props.C127_sign",
    "Xprs.Props.C127_zero",
    "Xprs.Props.C127_builds"
   ],
   "note": "NaN results are possible where an intermediate result overflows or underflows (0 * inf); Truthful then says nothing. Division by a part whose exact value is zero is excluded by the form."
  },
  {
   "property": "C128",
   "status": "proved",
   "theorems": [
    "Xprs.Props.C128_exact",
    "Xprs.Props.C128_all",
    "Xprs.Props.C128_together",
    "Xprs.Props.C128_refuted",
    "Xprs.Props.C128_more",
    "Xprs.Props.C128_unstable"
   ],
   "note": "C128_refuted shows that the plain claim (dependents that build alone build together) is false; C128_together is the exact condition. Cargo is modelled as the union of features, the compiler as the three checks the crate makes conditional."
  },
  {
   "property": "C129",
   "status": "proved",
   "theorems": [
    "Xprs.Props.C129_faithful",
    "Xprs.Props.C129_waiting",
    "Xprs.Props.C129_complete",
    "Xprs.Props.C129_cut",
    "Xprs.Props.C129_lines"
   ],
   "note": "The line buffer of std is modelled by what it guarantees: nothing is lost or reordered, complete lines and flushed text are handed on. What a panic or the runtime writes to the standard error is not modelled. serves_exists shows that every session has a run."
  },
  {
   "property": "C13",
   "status": "proved",
   "theorems": [
    "Xprs.Props.C13_layout",
    "Xprs.Props.C13_tokens"
   ],
   "note": "Texts with the same token sequence (maximal literals, maximal names, single symbols) have the same accepted result; every accepted text has exactly one token sequence."
  },
  {
   "property": "C130",
   "status": "proved",
   "theorems": [
    "Xprs.Props.C130_order",
    "Xprs.Props.C130_whole",
    "Xprs.Props.C130_triangle",
    "Xprs.Props.C130_pair",
    "Xprs.Props.C130_parts",
    "Xprs.Props.C130_builds"
   ],
   "note": "Division by a part whose exact value is zero is excluded by the form."
  },
  {
   "property": "C131",
   "status": "proved",
   "theorems": [
    "Xprs.Props.C131_exact",
    "Xprs.Props.C131_near",
    "Xprs.Props.C131_round",
    "Xprs.Props.C131_beyond",
    "Xprs.Props.C131_above",
    "Xprs.Props.C131_simplified",
    "Xprs.Props.C131_fixed",
    "Xprs.Props.C131_builds"
   ],
   "note": "For all trees n and k. As in C16, optimizing builds need numbers that stand apart from parentheses. The bound 2^47 is not sharp; that some bound below 2^53 is needed is shown by 24 out of 56."
  },
  {
   "property": "C132",
   "status": "proved",
   "theorems": [
    "Xprs.Props.C132_exact",
    "Xprs.Props.C132_special",
    "Xprs.Props.C132_zero",
    "Xprs.Props.C132_order",
    "Xprs.Props.C132_name",
    "Xprs.Props.C132_literal"
   ],
   "note": "The conversions are those of std (From<T> for f64), modelled by hand: a cast that rounds to nearest. Types of the user with their own Into<f64> and the unstable f16 are outside. C132_name is about the text that is the name; C68 says that a constant means the same as a variable of its value in any text."
  },
  {
   "property": "C133",
   "status": "proved",
   "theorems": [
    "Xprs.Props.C133_root",
    "Xprs.Props.C133_square",
    "Xprs.Props.C133_square_kept",
    "Xprs.Props.C133_simplified",
    "Xprs.Props.C133_fixed",
    "Xprs.Props.C133_builds"
   ],
   "note": "C133_root and C133_square for the tree; C133_square_kept and the others for simplification, simplify_for and texts (operands without doubtful steps as in C16; powers as in C16). The limits are needed, see the examples."
  },
  {
   "property": "C134",
   "status": "proved",
   "theorems": [
    "Xprs.Props.C134_solve",
    "Xprs.Props.C134_exact",
    "Xprs.Props.C134_none",
    "Xprs.Props.C134_simplified",
    "Xprs.Props.C134_fixed",
    "Xprs.Props.C134_builds"
   ],
   "note": "C134_solve, C134_exact and C134_none for the trees, whatever gives the coefficients; the others for simplification, simplify_for and texts (operands without doubtful steps and powers as in C16). That simplification keeps NaN where there is no real solution is not claimed."
  },
  {
   "property": "C14",
   "status": "proved",
   "theorems": [
    "Xprs.Props.C14_explicit",
    "Xprs.Props.C14_levels"
   ],
   "note": "C14_explicit: under PEMDAS replacing any set of implicit multiplications of a written-out tree by * (anywhere) gives a legal text of the same tree with the same result. C14_levels: the relative levels under PEJMDAS and PEMDAS."
  },
  {
   "property": "C15",
   "status": "partial",
   "theorems": [
    "Xprs.Props.C15_partial",
    "Xprs.Props.C15_start",
    "Xprs.Props.C15_refuted",
    "Xprs.Props.C15_exact",
    "Xprs.Props.C15_builds"
   ],
   "note": "The claim is false: `1+2 3` is accepted as (1+2)*3. Proved for literals at the start of the text, after `(` and after `,`. C15_exact: these are the only places where it holds; behind any other number literal a literal that begins with a digit can be added to an accepted text (plain builds; C15_builds: any build if no number follows a closing parenthesis and there is no `!!`)."
  },
  {
   "property": "C16",
   "status": "partial",
   "theorems": [
    "Xprs.Props.C16_accept_partial",
    "Xprs.Props.C16_expected_partial",
    "Xprs.Props.C16_value_partial",
    "Xprs.Props.C16_accept_refuted",
    "Xprs.Props.C16_expected_refuted",
    "Xprs.Props.C16_value_refuted",
    "Xprs.Props.C86_fewer"
   ],
   "note": "Refuted as stated: (3+4)5 is accepted only without optimizations, x-x with no declared variable only with them, and 2+(1+2)4 evaluates to 14 or 20. Proved for inputs in which no number directly follows a closing parenthesis: any two builds accept the same inputs (C86_builds), and results of builds with the same pejmdas flag evaluate alike (up to the sign of zero) when the plain tree runs without a doubtful step. C86_fewer: whatever an optimizing build accepts, the others accept (no declared variables)."
  },
  {
   "property": "C17",
   "status": "partial",
   "theorems": [
    "Xprs.Props.C17_refuted",
    "Xprs.Props.C17_partial",
    "Xprs.Props.C17_exact"
   ],
   "note": "The claim is false: 3!!X is accepted (binary use of !), see C17_refuted. C17_partial proves it for every accepted input without !!. C17_exact characterises the accepted language and the results exactly, !! included."
  },
  {
   "property": "C18",
   "status": "proved",
   "theorems": [
    "Xprs.Props.C18_value",
    "Xprs.Props.C18_tokens",
    "Xprs.Props.C18_malformed",
    "Xprs.Props.C18_malformed_only",
    "Xprs.Props.C18_exponent",
    "Xprs.Props.C18_identifier"
   ],
   "note": "The value is the unique nearest point of the binary64 grid, ties to even (Spec/Round.lean); that str::parse::<f64> rounds correctly is an assumption on std, which the model states as ofDecimal."
  },
  {
   "property": "C19",
   "status": "proved",
   "theorems": [
    "Xprs.Props.C19_last_write",
    "Xprs.Props.C19_default",
    "Xprs.Props.C19_table"
   ],
   "note": ""
  },
  {
   "property": "C20",
   "status": "partial",
   "theorems": [
    "Xprs.Props.C20_refuted",
    "Xprs.Props.C20_partial",
    "Xprs.Props.C20_missing"
   ],
   "note": "Refuted only by inputs with two adjacent '!' (3!!x), where evaluation panics; proved for all others."
  },
  {
   "property": "C21",
   "status": "proved",
   "theorems": [
    "Xprs.Props.C21_unchecked"
   ],
   "note": ""
  },
  {
   "property": "C22",
   "status": "proved",
   "theorems": [
    "Xprs.Props.C22_depends",
    "Xprs.Props.C22_extra"
   ],
   "note": ""
  },
  {
   "property": "C23",
   "status": "partial",
   "theorems": [
    "Xprs.Props.C23_refuted",
    "Xprs.Props.C23_partial",
    "Xprs.Props.C23_only_unreachable"
   ],
   "note": "Same exception as C20."
  },
  {
   "property": "C24",
   "status": "partial",
   "theorems": [
    "Xprs.Props.C24_refuted",
    "Xprs.Props.C24_partial",
    "Xprs.Props.C24_overflow"
   ],
   "note": "from_diff counts missing variables in a u8: with 256 missing, bind succeeds (release) or panics (debug). Proved below 256 and characterised above."
  },
  {
   "property": "C25",
   "status": "partial",
   "theorems": [
    "Xprs.Props.C25_refuted",
    "Xprs.Props.C25_partial"
   ],
   "note": "Exceptions: adjacent '!' and the 256-missing case of C24."
  },
  {
   "property": "C26",
   "status": "partial",
   "theorems": [
    "Xprs.Props.C26_refuted",
    "Xprs.Props.C26_partial"
   ],
   "note": "257 missing variables are reported as OneVariable; proved below 256."
  },
  {
   "property": "C27",
   "status": "partial",
   "theorems": [
    "Xprs.Props.C27_refuted",
    "Xprs.Props.C27_agree",
    "Xprs.Props.C27_partial"
   ],
   "note": "After a binding that wrongly succeeded (C24) bind_n_runtime reports an error where the others panic; the outcome of binding and all returned numbers agree without exception."
  },
  {
   "property": "C28",
   "status": "partial",
   "theorems": [
    "Xprs.Props.C28_refuted",
    "Xprs.Props.C28_partial"
   ],
   "note": "Exception: adjacent '!'."
  },
  {
   "property": "C29",
   "status": "partial",
   "theorems": [
    "Xprs.Props.C29_partial",
    "Xprs.Props.C29_multiple_partial",
    "Xprs.Props.C29_refuted"
   ],
   "note": "The unrestricted claim is refuted: y % x bound at x = 0 folds differently. Proved up to the sign of zero for every tree whose evaluation takes no doubtful step (relation Runs)."
  },
  {
   "property": "C30",
   "status": "partial",
   "theorems": [
    "Xprs.Props.C30_partial",
    "Xprs.Props.C30_rules",
    "Xprs.Props.C30_sound_rules",
    "Xprs.Props.C30_refuted"
   ],
   "note": "The unrestricted claim is refuted. C30_rules gives the exact condition under which each unsound rule keeps the value; C30_partial covers whole trees that run without a doubtful step."
  },
  {
   "property": "C31",
   "status": "proved",
   "theorems": [
    "Xprs.Props.C31_eliminates",
    "Xprs.Props.C31_multiple"
   ],
   "note": ""
  },
  {
   "property": "C32",
   "status": "partial",
   "theorems": [
    "Xprs.Props.C32_refuted",
    "Xprs.Props.C32_partial",
    "Xprs.Props.C32_step"
   ],
   "note": "x*y simplified for x=0 is 0 but keeps y in vars; vars is always a duplicate-free superset of the tree's variables and a subset of the parsed expression's."
  },
  {
   "property": "C33",
   "status": "proved",
   "theorems": [
    "Xprs.Props.C33_multiple",
    "Xprs.Props.C33_append"
   ],
   "note": "By-value and in-place variants are one function in the model (ownership is not modelled here)."
  },
  {
   "property": "C34",
   "status": "partial",
   "theorems": [
    "Xprs.Props.C34_partial",
    "Xprs.Props.C34_refuted"
   ],
   "note": "Refuted by x / y at 0, 0 where the order of binding matters; proved up to the sign of zero for trees that run without a doubtful step."
  },
  {
   "property": "C35",
   "status": "partial",
   "theorems": [
    "Xprs.Props.C35_partial",
    "Xprs.Props.C35_fixed_partial",
    "Xprs.Props.C35_refuted_plain",
    "Xprs.Props.C35_refuted_opt",
    "Xprs.Props.C35_settled_partial",
    "Xprs.Props.C35_text_partial"
   ],
   "note": "False as stated: without compile-time-optimizations 1+2 is folded by any simplify_for, and with it 0-3 is stored as a negation that a later simplify_for folds. Proved for every reachable expression on which simplification has nothing left to do, and that premise is established for parsed (opt) and simplified expressions without a negated literal in non-nightly builds. All builds, also NIGHTLY ones, where there is no minus sign."
  },
  {
   "property": "C36",
   "status": "partial",
   "theorems": [
    "Xprs.Props.C36_partial",
    "Xprs.Props.C36_refuted",
    "Xprs.Props.C36_refuted_nightly",
    "Xprs.Props.C36_minusless_partial"
   ],
   "note": "False as stated (0-3 becomes -(3), which becomes -3; x - -(-x) on nightly). Proved for every tree in non-nightly builds whenever the result contains no negated literal. All builds, also NIGHTLY ones, where there is no minus sign."
  },
  {
   "property": "C37",
   "status": "partial",
   "theorems": [
    "Xprs.Props.C37_partial",
    "Xprs.Props.C37_text_partial",
    "Xprs.Props.C37_refuted"
   ],
   "note": "False as stated (0-3 is stored as a negation of 3). Proved: in non-nightly builds a parsed expression without variables is a number or contains a negated literal; in every build it is a number when the text contains no minus sign."
  },
  {
   "property": "C38",
   "status": "partial",
   "theorems": [
    "Xprs.Props.C38_decides",
    "Xprs.Props.C38_equivalence",
    "Xprs.Props.C38_least",
    "Xprs.Props.C38_swap",
    "Xprs.Props.C38_eval_partial",
    "Xprs.Props.C38_eval_zero_partial",
    "Xprs.Props.C38_parsed_partial",
    "Xprs.Props.C38_panic_refuted",
    "Xprs.Props.C38_refl_refuted",
    "Xprs.Props.C38_eval_refuted"
   ],
   "note": "Refuted as stated: == panics on 3!!x, a NaN constant is not equal to itself, 1/0 equals 1/z with z = -0. On proper trees == is decided to be the least congruence with commutativity of + and *; equal trees evaluate alike when no literal is zero, or up to the sign of zero when no step is doubtful."
  },
  {
   "property": "C39",
   "status": "partial",
   "theorems": [
    "Xprs.Props.C39_partial",
    "Xprs.Props.C39_plain_partial",
    "Xprs.Props.C39_refuted",
    "Xprs.Props.C39_factorial",
    "Xprs.Props.C39_inf_refuted",
    "Xprs.Props.C39_base_refuted",
    "Xprs.Props.C39_sign_refuted",
    "Xprs.Props.C39_name_refuted",
    "Xprs.Props.C39_settled_partial",
    "Xprs.Props.C39_text_partial",
    "Xprs.Props.C39_own_names"
   ],
   "note": "False in general: factorials are printed in front of their operand and never read back (C39_factorial, every build and context); overflowing literals print as inf; with optimizations a negative base of a power and a negated literal are read differently; a context that redefines recip captures invert. C39_partial: the round trip for every other parsed expression (optimizing builds: without NIGHTLY). Printing of f64 is assumed to give a literal that reads back (Prints). Also all builds for texts without '-'."
  },
  {
   "property": "C40",
   "status": "proved",
   "theorems": [
    "Xprs.Props.C40_factorial",
    "Xprs.Props.C40_cases"
   ],
   "note": ""
  },
  {
   "property": "C41",
   "status": "partial",
   "theorems": [
    "Xprs.Props.C41_refuted",
    "Xprs.Props.C41_nearest",
    "Xprs.Props.C41_table_partial",
    "Xprs.Props.C41_recurrence",
    "Xprs.Props.C41_overflow",
    "Xprs.Props.C41_overflow_result"
   ],
   "note": "The nearest-value claim is false for 118 of the 171 entries (first n = 28); what holds is a relative error below 2^-50, the exact list of nearest entries, the f64 recurrence, and the overflow part."
  },
  {
   "property": "C42",
   "status": "proved",
   "theorems": [
    "Xprs.Props.C42_factorial_safe"
   ],
   "note": ""
  },
  {
   "property": "C43",
   "status": "partial",
   "theorems": [
    "Xprs.Props.C43_refuted",
    "Xprs.Props.C43_partial"
   ],
   "note": "Exceptions: adjacent '!' and the 256-missing case of C24."
  },
  {
   "property": "C44",
   "status": "proved",
   "theorems": [
    "Xprs.Props.C44_min",
    "Xprs.Props.C44_max",
    "Xprs.Props.C44_order",
    "Xprs.Props.C44_sum",
    "Xprs.Props.C44_sum_exact",
    "Xprs.Props.C44_mean"
   ],
   "note": "Functions are found by name (Ident.fromStr). Minimum/Maximum/SumsTo/Divs are separate specifications over rational values. sum is stated up to the sign of zero because std changed the start value. mean: fewer than 2^53 arguments."
  },
  {
   "property": "C45",
   "status": "partial",
   "theorems": [
    "Xprs.Props.C45_partial",
    "Xprs.Props.C45_parsed",
    "Xprs.Props.C45_panic",
    "Xprs.Props.C45_arc",
    "Xprs.Props.C45_by_value",
    "Xprs.Props.C45_same",
    "Xprs.Props.C45_same_multiple",
    "Xprs.Props.C45_refuted"
   ],
   "note": "False as stated: C45_refuted parses `3!!x` and simplifies it for x. C45_panic shows it fails at every panic, each box of the old tree being freed twice once the expression is dropped (C45_arc: and each reference to a dynamic function released twice); C45_by_value shows the by-value methods do it in safe code. C45_partial: without a panic every box is freed exactly once; C45_parsed: this always holds for inputs without `!!` in a context of non-panicking functions. C45_same/C45_same_multiple tie the ownership model to the value model. Boxes are identified with tree nodes; Vec buffers, Cow names and the HashSet are not tracked."
  },
  {
   "property": "C46",
   "status": "proved",
   "theorems": [
    "Xprs.Props.C46_help",
    "Xprs.Props.C46_text",
    "Xprs.Props.C46_advice"
   ],
   "note": "C46_advice: for texts that are not empty (C53)."
  },
  {
   "property": "C47",
   "status": "proved",
   "theorems": [
    "Xprs.Props.C47_floor",
    "Xprs.Props.C47_ceil",
    "Xprs.Props.C47_trunc",
    "Xprs.Props.C47_round",
    "Xprs.Props.C47_fract",
    "Xprs.Props.C47_abs",
    "Xprs.Props.C47_parts"
   ],
   "note": "Against the floor and ceiling of Mathlib on rationals, every finite argument; infinities and NaN too."
  },
  {
   "property": "C48",
   "status": "proved",
   "theorems": [
    "Xprs.Props.C48_repl",
    "Xprs.Props.C48_no_panic"
   ],
   "note": "One line with numeric answers. Whole sessions with the exit line and answers that are not numbers are C61, what is printed is C92."
  },
  {
   "property": "C49",
   "status": "proved",
   "theorems": [
    "Xprs.Props.C49_size",
    "Xprs.Props.C49_history"
   ],
   "note": ""
  },
  {
   "property": "C50",
   "status": "proved",
   "theorems": [
    "Xprs.Props.C50_alphabet",
    "Xprs.Props.C50_ascii"
   ],
   "note": "Every byte of an accepted input is in the documented alphabet."
  },
  {
   "property": "C51",
   "status": "proved",
   "theorems": [
    "Xprs.Props.C51_balanced"
   ],
   "note": "Balanced: equal counts and no prefix closes more than it opened."
  },
  {
   "property": "C52",
   "status": "partial",
   "theorems": [
    "Xprs.Props.C52_alone",
    "Xprs.Props.C52_interleaved",
    "Xprs.Props.C52_independent",
    "Xprs.Props.C52_progress",
    "Xprs.Props.C52_refuted"
   ],
   "note": "Concurrent evaluations are modelled as an interleaving machine whose steps are the calls of user functions (the only points where eval touches anything shared). Proved for every schedule: a thread makes the calls of its own tree in order and its value is that of the answers it received; with functions without memory every result is that of eval; no thread waits for another. Refuted for user functions with shared memory, as is to be expected. Not expressible: that the types are Send + Sync, which is decided by rustc; calls are atomic in the model."
  },
  {
   "property": "C53",
   "status": "proved",
   "theorems": [
    "Xprs.Props.C53_report"
   ],
   "note": ""
  },
  {
   "property": "C54",
   "status": "proved",
   "theorems": [
    "Xprs.Props.C54_operators",
    "Xprs.Props.C54_negation",
    "Xprs.Props.C54_determined",
    "Xprs.Props.C54_recip"
   ],
   "note": "Against relational IEEE 754 specifications (Spec/Ieee.lean) that determine the result. Trusted: that Rust's f64 operators are IEEE 754 as the float model is; what is proved is that the model is, and that the evaluators apply the right operation."
  },
  {
   "property": "C55",
   "status": "proved",
   "theorems": [
    "Xprs.Props.C55_manual",
    "Xprs.Props.C55_call",
    "Xprs.Props.C55_only"
   ],
   "note": "The manual is the table Spec.manual. Functions of the platform's libm are opaque, told apart by Std1/Std2. C55_call is stated for builds without compile-time optimization (what optimization changes is C30/C38). The README calls ln a logarithm to base 2; it is the natural one."
  },
  {
   "property": "C56",
   "status": "proved",
   "theorems": [
    "Xprs.Props.C56_constants",
    "Xprs.Props.C56_text",
    "Xprs.Props.C56_capitals"
   ],
   "note": "Real.pi and Real.exp 1 of Mathlib; NearestTo compares with every point of the 53-bit grid."
  },
  {
   "property": "C57",
   "status": "proved",
   "theorems": [
    "Xprs.Props.C57_pass",
    "Xprs.Props.C57_progress",
    "Xprs.Props.C57_bound",
    "Xprs.Props.C57_stable",
    "Xprs.Props.C57_settles"
   ],
   "note": "C57_settles needs functions that do not panic and a text without `!!` (otherwise a call may panic instead of returning); the other theorems hold for every returned expression."
  },
  {
   "property": "C58",
   "status": "proved",
   "theorems": [
    "Xprs.Props.C58_extent",
    "Xprs.Props.C58_deep"
   ],
   "note": "Depth is the height of the tree; that a recursive walk nests as deep as the tree is high is read off the code, actual stack usage is not modelled."
  },
  {
   "property": "C59",
   "status": "partial",
   "theorems": [
    "Xprs.Props.C59_lexicographic",
    "Xprs.Props.C59_laws",
    "Xprs.Props.C59_total",
    "Xprs.Props.C59_equal_partial",
    "Xprs.Props.C59_equal_refuted",
    "Xprs.Props.C59_equal_refuted_names",
    "Xprs.Props.C59_mixed_refuted"
   ],
   "note": "The agreement with == is false: x+y == y+x but x+y < y+x, and functions of the same name compare as Equal without being equal; so < and == cannot be combined either. Everything else is proved for all trees; C59_equal_partial gives the trees on which Equal and == agree."
  },
  {
   "property": "C60",
   "status": "proved",
   "theorems": [
    "Xprs.Props.C60_irrelevant",
    "Xprs.Props.C60_unused",
    "Xprs.Props.C60_unusable"
   ],
   "note": "Mentions is defined on the text alone: a whole name, not behind a letter or an apostrophe."
  },
  {
   "property": "C61",
   "status": "partial",
   "theorems": [
    "Xprs.Props.C61_script",
    "Xprs.Props.C61_dialogue",
    "Xprs.Props.C61_eof",
    "Xprs.Props.C61_eof_refuted",
    "Xprs.Props.C61_answer",
    "Xprs.Props.C61_answer_one",
    "Xprs.Props.C61_trim",
    "Xprs.Props.C61_exit",
    "Xprs.Props.C61_answers"
   ],
   "note": "All but the last clause is proved, in both directions. The last clause is false: at the end of its input the REPL reports the error of the empty text for ever (without overflow checks) or panics (with them)."
  },
  {
   "property": "C62",
   "status": "partial",
   "theorems": [
    "Xprs.Props.C62_infix",
    "Xprs.Props.C62_prefix",
    "Xprs.Props.C62_postfix",
    "Xprs.Props.C62_call",
    "Xprs.Props.C62_operators",
    "Xprs.Props.C62_unary",
    "Xprs.Props.C62_wrapped",
    "Xprs.Props.C62_nullary",
    "Xprs.Props.C62_callable_refuted",
    "Xprs.Props.C62_builds_operators_partial",
    "Xprs.Props.C62_builds_unary_partial",
    "Xprs.Props.C62_builds_call_partial"
   ],
   "note": "The trees of the composed texts are given exactly for every build; the values exactly for builds without compile-time-optimizations. C62_builds_*_partial, for every build and texts without !!: accepted, no further variables, and the value up to the sign of zero if no step is doubtful. The last sentence is false: a function of no arguments can be registered but no text calls it."
  },
  {
   "property": "C63",
   "status": "partial",
   "theorems": [
    "Xprs.Props.C63_pure",
    "Xprs.Props.C63_observed",
    "Xprs.Props.C63_eval",
    "Xprs.Props.C63_unchecked",
    "Xprs.Props.C63_silent",
    "Xprs.Props.C63_budget",
    "Xprs.Props.C63_simplify_for",
    "Xprs.Props.C63_life",
    "Xprs.Props.C63_silent_refuted",
    "Xprs.Props.C63_every_refuted",
    "Xprs.Props.C63_exact",
    "Xprs.Props.C63_order",
    "Xprs.Props.C63_plain_parse"
   ],
   "note": "False for builds with compile-time-optimizations: functions with constant arguments are called while parsing (even if the text is then rejected) and frozen, and f(x)-f(x) calls nothing; both refuted. Proved in every build: evaluation makes exactly the calls of the tree in order, the memory is threaded through them, eval_unchecked makes the same calls, parsing and simplify_for make no more calls than written/removed, the bound for the whole life of an expression. Proved for plain builds: parsing calls nothing, and the parsed tree has exactly one call for each token that names a user function, in the order written with arguments first."
  },
  {
   "property": "C64",
   "status": "partial",
   "theorems": [
    "Xprs.Props.C64_accepted",
    "Xprs.Props.C64_offset",
    "Xprs.Props.C64_span",
    "Xprs.Props.C64_missing",
    "Xprs.Props.C64_char",
    "Xprs.Props.C64_refuted",
    "Xprs.Props.C64_char_refuted"
   ],
   "note": "The claim is false in two ways: the span of MissingArgument always covers two bytes and can end inside a character (sin(sin(1é))), and the character named is the first byte read as Latin-1 (é is reported as Ã). Proved for all texts: offsets are boundaries and count characters, all other spans end at boundaries, the span of MissingArgument ends at one iff the next character is ASCII, the named character is right iff it is ASCII or Ã."
  },
  {
   "property": "C65",
   "status": "proved",
   "theorems": [
    "Xprs.Props.C65_same",
    "Xprs.Props.C65_eq",
    "Xprs.Props.C65_simplify",
    "Xprs.Props.C65_simplify_for",
    "Xprs.Props.C65_eval",
    "Xprs.Props.C65_parse_plain",
    "Xprs.Props.C65_parse",
    "Xprs.Props.C65_simplify_for_quadratic",
    "Xprs.Props.C65_parse_quadratic"
   ],
   "note": "Steps as defined in Cost.lean; work inside user functions and single library operations is not counted. The parser bounds include the number of declared variables when the context lists them."
  },
  {
   "property": "C66",
   "status": "partial",
   "theorems": [
    "Xprs.Props.C66_refuted",
    "Xprs.Props.C66_lookahead_partial",
    "Xprs.Props.C66_here_partial",
    "Xprs.Props.C66_three",
    "Xprs.Props.C66_viable_partial",
    "Xprs.Props.C66_oneArity",
    "Xprs.Props.C66_loosened",
    "Xprs.Props.C66_same_partial",
    "Xprs.Props.C66_late"
   ],
   "note": "The claim as stated is false and refuted: an exponent marker is judged by up to three bytes behind it, and numbers of arguments only at the closing parenthesis. Proved in every build: an error depends only on the text up to three bytes behind it (one byte if no e/E is near), three are needed, and what stands before an error can be completed by at most one operand and closing parentheses to a text without error, in a context with loosened arities (in optimizing builds the folding of the completed text may panic), or in the same context to an accepted text if no function of fixed arity is mentioned and no variables are prescribed (in optimizing builds: no !! and no panicking functions)."
  },
  {
   "property": "C67",
   "status": "proved",
   "theorems": [
    "Xprs.Props.C67_exact",
    "Xprs.Props.C67_integers",
    "Xprs.Props.C67_fixed",
    "Xprs.Props.C67_text",
    "Xprs.Props.C67_limit"
   ],
   "note": "C67_text speaks of texts in which no number directly follows a closing parenthesis (see C16)."
  },
  {
   "property": "C68",
   "status": "partial",
   "theorems": [
    "Xprs.Props.C68_partial",
    "Xprs.Props.C68_accept_partial",
    "Xprs.Props.C68_builds_accept_partial",
    "Xprs.Props.C68_builds_partial",
    "Xprs.Props.C68_refuted",
    "Xprs.Props.C68_other_refuted",
    "Xprs.Props.C68_many_partial"
   ],
   "note": "Refuted as stated: 1+x 3 is 7 at x = 2 but 9 if x is the constant 2; x 2 and (x)2 are rejected if x is a constant; in an optimizing build y%x at y = 2.5, x = 1 is 0.5 or 0. Proved for builds without optimizations and texts in which no number directly follows the name or a closing parenthesis: the tree is the same with the value filled in, the name is no variable any more, acceptance is the same and so is the value for all other variables. For any build, under the same condition: same acceptance, and the same value up to the sign of zero when the plain tree takes no doubtful step. C68_many_partial: a whole table of constants at once."
  },
  {
   "property": "C69",
   "status": "partial",
   "theorems": [
    "Xprs.Props.C69_refuted",
    "Xprs.Props.C69_shown",
    "Xprs.Props.C69_kind_partial",
    "Xprs.Props.C69_partial",
    "Xprs.Props.C69_quotes",
    "Xprs.Props.C69_quotes_ascii",
    "Xprs.Props.C69_bind",
    "Xprs.Props.C69_eval"
   ],
   "note": "Refuted: the suggestions for an undeclared variable are the same for the expected names `a` and `b` as for the single expected name \"a`, `b\". Proved without conditions: every diagnostic can be shown (no panic), and it determines the text, the place and the kind of the error except for the list of suggestions (C69_kind_partial). C69_partial: it determines the error if the expected names are not empty and contain no backquote; other names are missing. C69_quotes: what a message quotes stands in the source (characters of ASCII; outside, C69_quotes_ascii). The texts of BindError and EvalError are proved in full."
  },
  {
   "property": "C70",
   "status": "proved",
   "theorems": [
    "Xprs.Props.C70_error",
    "Xprs.Props.C70_simplified",
    "Xprs.Props.C70_fixed",
    "Xprs.Props.C70_text",
    "Xprs.Props.C70_decimal",
    "Xprs.Props.C70_cancel",
    "Xprs.Props.C70_small"
   ],
   "note": "C70_error: both evaluators; C70_simplified, C70_fixed, C70_text: after simplify, after simplify_for, and for texts in every build (numbers apart as in C16). C70_decimal: numbers in a text are one rounding away from the decimal. C70_cancel and C70_small: cancellation and very small results have to be excluded."
  },
  {
   "property": "C71",
   "status": "partial",
   "theorems": [
    "Xprs.Props.C71_cause",
    "Xprs.Props.C71_refuted",
    "Xprs.Props.C71_partial",
    "Xprs.Props.C71_functions",
    "Xprs.Props.C71_minmax",
    "Xprs.Props.C71_builds",
    "Xprs.Props.C71_platform",
    "Xprs.Props.C71_path",
    "Xprs.Props.C71_powers_partial",
    "Xprs.Props.C71_exceptions"
   ],
   "note": "The first sentence is proved as an equivalence for all trees (C71_cause). The second is refuted by max(x,1). C71_partial: it holds, after any history, for variables that occur in the tree if there is no ^ and all functions called pass NaN on (C71_functions: abs, floor, ceil, round, trunc, fract, recip, factorial, sqrt, sum, mean do; C71_minmax: min and max never return NaN). C71_platform and C71_path, on platforms that treat NaN as C99 demands: all built-in functions but min, max and hypot pass NaN on, and it reaches the result along every way that avoids min, max, an infinite leg of hypot, exponent 0, base 1 and user functions that ignore it; C71_powers_partial is the case of powers with numbers other than 0, C71_exceptions shows the exceptions are real. C71_builds: simplification can lose NaN and make it."
  },
  {
   "property": "C72",
   "status": "proved",
   "theorems": [
    "Xprs.Props.C72_shortest",
    "Xprs.Props.C72_prints",
    "Xprs.Props.C72_zero",
    "Xprs.Props.C72_numeral",
    "Xprs.Props.C72_injective",
    "Xprs.Props.C72_parse",
    "Xprs.Props.C72_line",
    "Xprs.Props.C72_answer",
    "Xprs.Props.C72_display",
    "Xprs.Props.C72_debug",
    "Xprs.Props.C72_debug_sign"
   ],
   "note": "Verif/Print.lean models Display and Debug of f64 by what std promises to compute (the shortest digits), not by the Grisu and Dragon algorithms. C72_display is C39 without its assumption about printed numbers. As an expression inf is a variable, so C72_parse and C72_line are for finite numbers."
  },
  {
   "property": "C73",
   "status": "partial",
   "theorems": [
    "Xprs.Props.C73_refuted",
    "Xprs.Props.C73_partial",
    "Xprs.Props.C73_capital",
    "Xprs.Props.C73_iff",
    "Xprs.Props.C73_eval",
    "Xprs.Props.C73_simplify"
   ],
   "note": "False as stated: implicit multiplication is recognised only before small letters, so 2x is accepted and 2X is not (C73_refuted). Proved for all renamings that keep the case of the first letter of names behind an operand: same tree and variables under the new names (C73_partial), acceptance in both directions (C73_iff), evaluation (C73_eval), simplify_for (C73_simplify). C73_capital: where a name behind a number, a name or ) begins with a capital, no text is accepted."
  },
  {
   "property": "C74",
   "status": "proved",
   "theorems": [
    "Xprs.Props.C74_parse",
    "Xprs.Props.C74_one",
    "Xprs.Props.C74_bind",
    "Xprs.Props.C74_repl"
   ],
   "note": "For any two iteration orders. That the order does show in errors (another undeclared variable is named, names are listed in another order) and in the order of the REPL's questions is shown by examples."
  },
  {
   "property": "C75",
   "status": "proved",
   "theorems": [
    "Xprs.Props.C75_parse",
    "Xprs.Props.C75_simplify",
    "Xprs.Props.C75_tree",
    "Xprs.Props.C75_minus_needed"
   ],
   "note": "All texts without '-', all outcomes, all histories of simplifications; the NIGHTLY arms of simplify.rs are modelled, the unstable box patterns they need are taken at face value."
  },
  {
   "property": "C76",
   "status": "proved",
   "theorems": [
    "Xprs.Props.C76_tree",
    "Xprs.Props.C76_result",
    "Xprs.Props.C76_simplify",
    "Xprs.Props.C76_fixed",
    "Xprs.Props.C76_text",
    "Xprs.Props.C76_nan_needed"
   ],
   "note": "All trees of the described form, in every world; the operations are those of the modelled binary64. Powers, % and the functions of the platform are outside: the model does not know whether libm is monotone. That NaN must be excluded is shown by max(0*x, -1)."
  },
  {
   "property": "C77",
   "status": "proved",
   "theorems": [
    "Xprs.Props.C77_tree",
    "Xprs.Props.C77_some_value",
    "Xprs.Props.C77_text",
    "Xprs.Props.C77_plain",
    "Xprs.Props.C77_plain_needed"
   ],
   "note": "Exact for plain builds; in optimizing builds the condition is on the tree, because simplification can remove the node (0*(3!!x), C77_plain_needed). Functions of the context are assumed to return."
  },
  {
   "property": "C78",
   "status": "proved",
   "theorems": [
    "Xprs.Props.C78_outcome",
    "Xprs.Props.C78_function",
    "Xprs.Props.C78_parsed"
   ],
   "note": "The exact version of C24-C27, with nothing excluded; functions of the context are assumed to return. The wrong number of values for bind_n_runtime is C28."
  },
  {
   "property": "C79",
   "status": "proved",
   "theorems": [
    "Xprs.Props.C79_simplify_for",
    "Xprs.Props.C79_parse",
    "Xprs.Props.C79_apart_needed"
   ],
   "note": "The rules are in Spec/Rules.lean, one constructor per comment. C79_apart_needed shows that the condition on numbers is needed: 2+(1+2)4 is read differently by the two builds (C16)."
  },
  {
   "property": "C80",
   "status": "partial",
   "theorems": [
    "Xprs.Props.C80_refuted",
    "Xprs.Props.C80_negated_refuted",
    "Xprs.Props.C80_nightly_refuted",
    "Xprs.Props.C80_simplify_for_partial",
    "Xprs.Props.C80_partial",
    "Xprs.Props.C80_stable_partial",
    "Xprs.Props.C80_text_partial",
    "Xprs.Props.C80_pow_zero"
   ],
   "note": "False as stated: x^0 is kept because the arm for it matches / (simplify.rs:185-188; C80_refuted, C80_pow_zero), 0-3 becomes -(3) (C80_negated_refuted), and NIGHTLY rules leave x + -x (C80_nightly_refuted). Proved: these are the only exceptions, C80_partial in every build, C80_stable_partial for stable compilers, C80_text_partial for texts without a minus sign (only a^0 is left)."
  },
  {
   "property": "C81",
   "status": "proved",
   "theorems": [
    "Xprs.Props.C81_call",
    "Xprs.Props.C81_total",
    "Xprs.Props.C81_zero",
    "Xprs.Props.C81_usable",
    "Xprs.Props.C81_usable_builds"
   ],
   "note": "C81_call: every reachable call; C81_total: contexts made of such functions satisfy the totality hypothesis of C02, C08, C20, ...; C81_zero: every build; C81_usable: callable iff not declared with 0 arguments, builds without compile-time-optimizations; C81_usable_builds: every build, where the context leaves some name as a variable (without one, optimizing builds run all calls while parsing)."
  },
  {
   "property": "C82",
   "status": "partial",
   "theorems": [
    "Xprs.Props.C82_refuted",
    "Xprs.Props.C82_acceptance_refuted",
    "Xprs.Props.C82_equivalence",
    "Xprs.Props.C82_plain_partial",
    "Xprs.Props.C82_equal_partial",
    "Xprs.Props.C82_nonzero_partial"
   ],
   "note": "False as stated: 0.0 == -0.0, so with z = 0 or -0 equal parsers give 1/z different values, and in optimizing builds do not even accept the same texts. C82_plain_partial: without the optimizations the outcomes match for every text (same shape, equal numbers, same variables, or the same error or panic). C82_nonzero_partial: in every build the outcomes are identical if no constant that the text mentions is zero. C82_equivalence: == is symmetric and transitive, and reflexive iff no constant is NaN."
  },
  {
   "property": "C83",
   "status": "partial",
   "theorems": [
    "Xprs.Props.C83_refuted",
    "Xprs.Props.C83_parse_refuted",
    "Xprs.Props.C83_eval_refuted",
    "Xprs.Props.C83_parse_partial",
    "Xprs.Props.C83_needed_partial",
    "Xprs.Props.C83_total_partial",
    "Xprs.Props.C83_height_partial",
    "Xprs.Props.C83_eval_partial",
    "Xprs.Props.C83_walk_partial",
    "Xprs.Props.C83_simplify_partial",
    "Xprs.Props.C83_flat_partial"
   ],
   "note": "False of parsing and of evaluation, in every build and world: x+x+...+x is parsed to a tree as high as there are summands (C83_flat_partial), and collecting its variables, evaluating, simplifying, printing and dropping it recurse exactly to the height of the tree (C83_walk_partial, C83_simplify_partial, C83_eval_partial; substitution at most one call deeper). True of the functions of the parser without the simplification: C83_parse_partial bounds their depth by 6*(open parentheses + signs in front + 1) for all texts, accepted or not, and C83_needed_partial shows that open parentheses do cost a call each. All that parse does stays within that plus twice the length of the text (C83_total_partial) and needs at least the height of the tree (C83_height_partial). Depth counts calls of the recursive functions inside one another, not bytes of stack; the drop glue and derived == are modelled as walking from operand to operand."
  },
  {
   "property": "C84",
   "status": "partial",
   "theorems": [
    "Xprs.Props.C84_refuted",
    "Xprs.Props.C84_value_refuted",
    "Xprs.Props.C84_partial",
    "Xprs.Props.C84_builds_accept_partial",
    "Xprs.Props.C84_builds_partial"
   ],
   "note": "False as stated: `x 2` is a product but `(2) 2` an error, and 2+x 2 is 6 at x = 2 but 2+(2) 2 is 8. Proved for builds without optimizations unless a number is put in and a number follows the name or a closing parenthesis directly: accepted, the tree is the substituted tree, the variables, the value. For any build: acceptance and values up to the sign of zero, if no number follows a closing parenthesis directly and no step is doubtful."
  },
  {
   "property": "C85",
   "status": "proved",
   "theorems": [
    "Xprs.Props.C85_parts",
    "Xprs.Props.C85_reject",
    "Xprs.Props.C85_plain",
    "Xprs.Props.C85_value",
    "Xprs.Props.C85_declared"
   ],
   "note": "C85_parts: every build; C85_reject is the contrapositive for texts without comma; C85_plain and C85_value: builds without optimizations (tree, declarations, variables, value). C85_declared: in optimizing builds declarations do matter, 0*(x) is accepted where x is not declared."
  },
  {
   "property": "C86",
   "status": "proved",
   "theorems": [
    "Xprs.Props.C86_rows",
    "Xprs.Props.C86_order",
    "Xprs.Props.C86_fewer",
    "Xprs.Props.C86_builds",
    "Xprs.Props.C86_same",
    "Xprs.Props.C86_written",
    "Xprs.Props.C86_fence"
   ],
   "note": "C86_rows: builds without optimizations accept exactly the token rows of Spec/Flat.lean (with declared variables); C86_order follows for either order. C86_builds: any two builds, optimizing or not, for texts without !! and without numbers right behind a closing parenthesis; C86_fewer: for all other texts optimizing builds accept at most what the others accept. C86_same and C86_written: any build, same expression. C86_fence: builds without optimizations."
  },
  {
   "property": "C87",
   "status": "proved",
   "theorems": [
    "Xprs.Props.C87_error",
    "Xprs.Props.C87_sign",
    "Xprs.Props.C87_simplified",
    "Xprs.Props.C87_fixed",
    "Xprs.Props.C87_text",
    "Xprs.Props.C87_relative",
    "Xprs.Props.C87_divisor"
   ],
   "note": "Terms are moderate if zero or between 2^-1000 and 2^1000; k up to 2^50. Underflow of results that nearly cancel is included. C87_text: texts in which no number follows a closing parenthesis directly. C87_relative: C70 is a special case. C87_divisor: divisors with cancellation have to be excluded."
  },
  {
   "property": "C88",
   "status": "proved",
   "theorems": [
    "Xprs.Props.C88_parse",
    "Xprs.Props.C88_expression",
    "Xprs.Props.C88_portable",
    "Xprs.Props.C88_complete",
    "Xprs.Props.C88_powers",
    "Xprs.Props.C88_names"
   ],
   "note": "The platform is the World of the model: libm, powf, user functions and the sign of the zero that Iterator::sum starts from. IEEE operations (including sqrt and %) are the same everywhere; the payload and sign of NaN are not modelled."
  },
  {
   "property": "C89",
   "status": "partial",
   "theorems": [
    "Xprs.Props.C89_refuted",
    "Xprs.Props.C89_display_partial",
    "Xprs.Props.C89_debug",
    "Xprs.Props.C89_values",
    "Xprs.Props.C39_own_names",
    "Xprs.Props.C89_contexts"
   ],
   "note": "Proved for Debug (C89_debug, with the sets of variables). For Display the claim is false: the variable inf and the number 1e999 are both printed inf (C89_refuted); it holds if no variable is called inf or NaN (C89_display_partial). That functions are stored under their own names (as set_fn does; and recip is not redefined) is needed: C89_refuted, second part. Numbers are printed as in C72. C89_contexts: expressions of two contexts."
  },
  {
   "property": "C90",
   "status": "proved",
   "theorems": [
    "Xprs.Props.C90_laws",
    "Xprs.Props.C90_texts",
    "Xprs.Props.C90_zero",
    "Xprs.Props.C90_zero_sign",
    "Xprs.Props.C90_broken",
    "Xprs.Props.C90_builds_partial"
   ],
   "note": "The laws are an inductive relation on trees closed under use anywhere (Spec/Laws); C90_laws is for eval and eval_unchecked, C90_texts for texts with every operand in parentheses in builds without compile-time-optimizations. C90_builds_partial goes beyond the property: other builds, up to the sign of zero, for texts in which no number follows a closing parenthesis and values computed without a doubtful step (as in C16). The single NaN of the float model means that the sign and payload of NaN are left open."
  },
  {
   "property": "C91",
   "status": "proved",
   "theorems": [
    "Xprs.Props.C91_error",
    "Xprs.Props.C91_simplified",
    "Xprs.Props.C91_fixed",
    "Xprs.Props.C91_text",
    "Xprs.Props.C91_abs",
    "Xprs.Props.C91_recip",
    "Xprs.Props.C91_sqrt",
    "Xprs.Props.C91_sum",
    "Xprs.Props.C91_mean",
    "Xprs.Props.C91_min",
    "Xprs.Props.C91_max",
    "Xprs.Props.C91_constants",
    "Xprs.Props.C91_platform",
    "Xprs.Props.C91_exp",
    "Xprs.Props.C91_jump"
   ],
   "note": "Powers are left out: powf is the platform's. For texts in optimizing builds numbers must stand apart from parentheses, as in C16."
  },
  {
   "property": "C92",
   "status": "proved",
   "theorems": [
    "Xprs.Props.C92_layout",
    "Xprs.Props.C92_pretty",
    "Xprs.Props.C92_turn",
    "Xprs.Props.C92_run",
    "Xprs.Props.C92_stops"
   ],
   "note": "The texts of error reports (miette) are a parameter; that they can be told apart is the hypothesis Spec.Telling. C92_stops: the last turn of a run that fails."
  },
  {
   "property": "C93",
   "status": "proved",
   "theorems": [
    "Xprs.Props.C93_errors",
    "Xprs.Props.C93_one",
    "Xprs.Props.C93_either"
   ],
   "note": "The rules (Spec/Faults.lean) are an inductive relation over the grammar of C09; both directions are proved. The empty input is C02's panic. Undeclared variables are looked for in accepted texts only."
  },
  {
   "property": "C94",
   "status": "partial",
   "theorems": [
    "Xprs.Props.C94_refuted",
    "Xprs.Props.C94_refuted_inner",
    "Xprs.Props.C94_refuted_comma",
    "Xprs.Props.C94_empty_partial",
    "Xprs.Props.C94_first_partial",
    "Xprs.Props.C94_points_partial"
   ],
   "note": "Refuted in both directions: sin(sin(x & 2)) is reported as a missing argument, max(,1) as an illegal character. Proved: an empty argument before ')' is always reported as missing and one before ',' always as an illegal ','; every MissingArgument spans two bytes, the second being neither whitespace nor a comma."
  },
  {
   "property": "C95",
   "status": "proved",
   "theorems": [
    "Xprs.Props.C95_scale",
    "Xprs.Props.C95_builds",
    "Xprs.Props.C95_sizable"
   ],
   "note": "C95_scale for the tree that is evaluated (plain builds); C95_builds for all builds under the hypotheses of C16_value_partial; C95_sizable replaces the condition on overflow and underflow by a bound on the results"
  },
  {
   "property": "C96",
   "status": "proved",
   "theorems": [
    "Xprs.Props.C96_parity",
    "Xprs.Props.C96_builds",
    "Xprs.Props.C96_functions",
    "Xprs.Props.C96_platform",
    "Xprs.Props.C96_minmax"
   ],
   "note": "Doubtful steps are those of C16 and C30 (relation Runs); an example shows that division by zero has to be excluded"
  },
  {
   "property": "C97",
   "status": "proved",
   "theorems": [
    "Xprs.Props.C97_reading",
    "Xprs.Props.C97_missing",
    "Xprs.Props.C97_order"
   ],
   "note": "Builds without simplification for the reading and the error; every build and history for the order of the variables."
  },
  {
   "property": "C98",
   "status": "proved",
   "theorems": [
    "Xprs.Props.C98_range",
    "Xprs.Props.C98_functions",
    "Xprs.Props.C98_builds"
   ],
   "note": "C98_range for the tree; C98_functions shows that the rules for built-in functions hold on every platform; C98_builds carries the bounds to every build (not modulo one, numbers not directly after a closing parenthesis as in C16). Known is the interface for platform facts about other functions and ^."
  },
  {
   "property": "C99",
   "status": "proved",
   "theorems": [
    "Xprs.Props.C99_values",
    "Xprs.Props.C99_memory",
    "Xprs.Props.C99_end",
    "Xprs.Props.C99_safe",
    "Xprs.Props.C99_panic",
    "Xprs.Props.C99_progress"
   ],
   "note": "The ledger covers boxes and references to the Arc of dynamic functions; the Vec of arguments is not modelled separately."
  }
 ]
}
