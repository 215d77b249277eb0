{"id": "C01", "title": "parse always terminates with linear recursion depth", "statement": "Parser::parse returns (an Xprs, a ParseError or a panic) for every input; it never loops, and the nesting depth of its recursive descent is at most the input length plus one.", "quantifier": "every byte string, every context, every feature combination", "why_tests_cant": "Termination and depth are claims about infinitely many inputs; a test only shows that the sampled inputs returned.", "anchors": ["src/parser.rs: ParserImpl::element, atom, parse_arguments, skip_while"]}
{"id": "C02", "title": "parse never panics", "statement": "Parser::parse never panics: on every input it returns Ok or Err, provided the user's own functions do not panic when called with the number of arguments they declare.", "quantifier": "every byte string, every context, every feature combination, overflow checks on or off", "why_tests_cant": "Panic freedom is universal over inputs; the unreachable!() arms are only safe if no input reaches them.", "anchors": ["src/parser.rs: ParserImpl::element, get_operator_infos, ParseError::new_unexpected_end_of_expression", "src/element/simplify.rs: BinOp::simplify", "src/element/binop.rs: PartialEq for BinOp"]}
{"id": "C03", "title": "parse error spans stay inside the source", "statement": "Whenever parse returns a ParseError its span [offset, offset+len] lies inside the source text it carries, so the diagnostic renderer can always show it.", "quantifier": "every byte string rejected by parse", "why_tests_cant": "Requires an invariant linking the cursor to the input at every error site, for every rejected input.", "anchors": ["src/parser.rs: ParseError::new_*"]}
{"id": "C04", "title": "unchecked UTF-8 slices are ASCII substrings of the input", "statement": "Every variable name in a parsed expression, and every slice the parser converts with from_utf8_unchecked, is a non-empty contiguous ASCII substring of the input of the form [A-Za-z][A-Za-z0-9_']* (names) or digits, dots, underscores and an exponent (numbers); so the unchecked conversion is always valid.", "quantifier": "every byte string including ones with multi-byte UTF-8 sequences", "why_tests_cant": "Unsafe code: soundness must hold for all inputs, in particular multi-byte ones next to identifiers.", "anchors": ["src/parser.rs: take_while, parse_identifier, parse_number"]}
{"id": "C05", "title": "vars of a parsed expression are exactly the variables evaluation needs", "statement": "After a successful parse, Xprs::vars contains no duplicates and is exactly the set of variables occurring in the tree.", "quantifier": "every accepted input, every context", "why_tests_cant": "Must hold for every tree shape the parser can build, including ones changed by compile time optimisation.", "anchors": ["src/parser.rs: ParserImpl::parse", "src/element/mod.rs: Element::find_variables"]}
{"id": "C06", "title": "context and built-in names are never variables", "statement": "No name defined in the Context, and no built-in constant or function name, ever appears in vars of a parsed expression; a Context definition always takes priority over the built-in of the same name.", "quantifier": "every accepted input, every context, every identifier", "why_tests_cant": "Ranges over all identifiers and all contexts.", "anchors": ["src/parser.rs: parse_identifier", "src/token/identifier.rs: Identifier::from_str"]}
{"id": "C07", "title": "expected variables are enforced", "statement": "With expected variables set, parse succeeds only if every variable of the expression is in the set; otherwise the error names a variable that does occur in the expression and is not in the set, and lists exactly the expected variables. Without expected variables the check never fails.", "quantifier": "every input, every context, every hash iteration order", "why_tests_cant": "HashSet iteration order is random per process; the claim must hold for all orders and inputs.", "anchors": ["src/parser.rs: Parser::parse", "src/context.rs: get_expected_vars"]}
{"id": "C08", "title": "functions are only ever called with their declared number of arguments", "statement": "In every expression obtained from parse followed by any simplifications, each function call has at least one argument and exactly nb_args arguments when nb_args is Some, so a wrapped function that indexes args[0..n] never panics during parse, eval or simplify.", "quantifier": "every accepted input, every context, every sequence of simplifications, every evaluation", "why_tests_cant": "The macro-generated wrappers index unchecked; safety depends on an invariant over all trees.", "anchors": ["src/parser.rs: parse_identifier, parse_arguments", "src/token/function.rs: xprs_fn!", "src/element/function_call.rs: call"]}
{"id": "C09", "title": "parse inverts rendering (precedence, associativity, calls, spacing)", "statement": "For every expression tree written out with parentheses omitted only where the documented precedence table allows (^ over unary sign over * / % over + -, all binary operators left associative, postfix ! tightest, implicit multiplication at the configured level) and any whitespace between tokens, parse accepts the text and returns that tree (without compile-time-optimizations) or that tree with sub-trees simplified (with it, provided no function of the context panics).", "quantifier": "every expression tree of any size, every legal choice of whitespace and of redundant parentheses, both pemdas and pejmdas", "why_tests_cant": "Infinitely many trees and layouts; precedence bugs typically show only in specific nestings.", "anchors": ["src/parser.rs: element, atom, get_operator_infos", "src/utils/precedence.rs"]}
{"id": "C10", "title": "binary operators of equal precedence associate to the left", "statement": "An unparenthesised chain a0 op1 a1 op2 a2 ... of operators of one precedence class (including ^) parses as ((a0 op1 a1) op2 a2) ..., for any length.", "quantifier": "every chain length, every operand", "why_tests_cant": "Unbounded chain length.", "anchors": ["src/parser.rs: element", "src/utils/precedence.rs: get_for_op"]}
{"id": "C11", "title": "unary signs and factorial bind as documented", "statement": "-a^b is -(a^b), -a*b is (-a)*b, a^-b is a^(-b), -a! is -(a!), a^b! is a^(b!), a*b! is a*(b!), for all operands.", "quantifier": "every operand (any literal, variable, call or parenthesised expression)", "why_tests_cant": "Ranges over all operands.", "anchors": ["src/parser.rs: element, atom", "README.md: Operations note"]}
{"id": "C12", "title": "redundant parentheses do not change the result", "statement": "If s parses then (s) parses, to an expression with the same tree up to one more simplification pass.", "quantifier": "every accepted input", "why_tests_cant": "Universal over accepted inputs.", "anchors": ["src/parser.rs: atom"]}
{"id": "C13", "title": "whitespace between tokens is irrelevant", "statement": "Two texts that spell the same sequence of tokens with different ASCII whitespace between them parse to the same expression (leading, trailing and inner whitespace).", "quantifier": "every expression tree, every two whitespace layouts", "why_tests_cant": "Infinitely many layouts.", "anchors": ["src/parser.rs: next_trim, skip_while"]}
{"id": "C14", "title": "implicit multiplication equals explicit multiplication under pemdas", "statement": "Under pemdas, writing ab for a*b (b starting with a lower-case letter or an opening parenthesis) gives the same tree in every surrounding expression; under pejmdas implicit multiplication binds tighter than explicit * / % but looser than ^.", "quantifier": "every expression tree, every position", "why_tests_cant": "Universal over contexts of use.", "anchors": ["src/parser.rs: get_operator_infos", "src/utils/precedence.rs: IMPLICIT_MULTIPLICATION_INFO"]}
{"id": "C15", "title": "two adjacent number literals are rejected", "statement": "A number literal directly followed by another number literal (only whitespace between) is a parse error, never an implicit multiplication.", "quantifier": "every input containing adjacent number literals", "why_tests_cant": "Depends on parser state at the point of adjacency, which varies with the surrounding expression.", "anchors": ["src/parser.rs: get_operator_infos", "src/tests/parser/implicit_multiplication.rs"]}
{"id": "C16", "title": "the compile-time-optimizations feature does not change acceptance or meaning", "statement": "For every input, the parser built with compile-time-optimizations accepts exactly when the one built without does, and the two results evaluate to the same value for the same variables.", "quantifier": "every input, every assignment of variables", "why_tests_cant": "Relates two builds on all inputs.", "anchors": ["src/parser.rs: element (cfg feature), get_operator_infos", "src/element/simplify.rs"]}
{"id": "C17", "title": "only the documented grammar is accepted", "statement": "If parse accepts an input, the input is a rendering of an expression tree by the documented grammar: parentheses are balanced, every operator has its operands, every call is closed, no byte outside the documented alphabet occurs.", "quantifier": "every accepted input", "why_tests_cant": "Universal over accepted inputs.", "anchors": ["src/parser.rs"]}
{"id": "C18", "title": "number literals denote the correctly rounded decimal value", "statement": "A literal with underscores removed denotes the f64 nearest (ties to even) to its decimal value; it is rejected as malformed iff its mantissa has no digit or more than one point; e/E starts an exponent only if followed by a digit or by a sign and a digit, otherwise it is the start of an identifier.", "quantifier": "every literal of any length and exponent", "why_tests_cant": "Infinitely many literals.", "anchors": ["src/parser.rs: parse_number", "src/tests/issues/issue_15.rs"]}
{"id": "C19", "title": "Context behaves as a map with last-write-wins", "statement": "After any sequence of set_var/with_var/set_fn/with_fn/with_symbols, get(name) returns the last value written under that name, functions are keyed by their own name, and expected variables are the last ones set and are independent of symbols.", "quantifier": "every sequence of operations, every name", "why_tests_cant": "Unbounded operation histories.", "anchors": ["src/context.rs"]}
{"id": "C20", "title": "eval succeeds iff every needed variable is supplied", "statement": "For an expression from parse (and any simplifications), eval returns Ok iff the map defines every variable occurring in the tree; otherwise it returns EvalError naming a variable that occurs in the tree and is absent from the map (the leftmost such).", "quantifier": "every parsed expression, every variable map", "why_tests_cant": "Universal over trees and maps.", "anchors": ["src/xprs.rs: XprsImpl::eval_element"]}
{"id": "C21", "title": "eval and eval_unchecked agree", "statement": "If eval returns Ok(v) then eval_unchecked returns v; eval_unchecked panics exactly when eval returns an error or panics.", "quantifier": "every tree, every variable map", "why_tests_cant": "Two separately written recursive functions must agree on all trees.", "anchors": ["src/xprs.rs: eval_element, eval_element_unchecked"]}
{"id": "C22", "title": "evaluation depends only on the variables of the expression", "statement": "Two maps that agree on the variables occurring in the tree give the same result; extra entries are ignored.", "quantifier": "every tree, every pair of maps", "why_tests_cant": "Universal over maps.", "anchors": ["src/xprs.rs: eval_element"]}
{"id": "C23", "title": "evaluating a parsed expression never panics", "statement": "eval on an expression from parse (and any simplifications) never panics; eval_unchecked panics only for a missing variable.", "quantifier": "every accepted input, every map, every simplification history", "why_tests_cant": "unreachable!() arms in eval are safe only if no accepted input builds such a tree.", "anchors": ["src/xprs.rs: eval_element, eval_element_unchecked"]}
{"id": "C24", "title": "bind succeeds iff every variable of the expression is named", "statement": "bind..bind9, bind_n and bind_n_runtime return Ok iff every element of vars is among the names given.", "quantifier": "every expression, every list of names, any number of missing variables, every hash iteration order", "why_tests_cant": "Depends on a counter whose width matters only for very many missing variables.", "anchors": ["src/xprs.rs: bind*, BindError::from_diff"]}
{"id": "C25", "title": "a bound function never panics and equals eval", "statement": "If bind* returns Ok(f) then f(values) never panics and equals eval with names mapped to values (for a repeated name, the last value).", "quantifier": "every parsed expression, every list of names and values", "why_tests_cant": "Universal over expressions and values.", "anchors": ["src/xprs.rs: bind*"]}
{"id": "C26", "title": "BindError reports exactly the missing variables", "statement": "When bind* fails, the error is OneVariable iff exactly one variable is missing and otherwise MultipleVariables, and its text is the missing names, each once, joined by comma and space.", "quantifier": "every expression, every list of names, every hash iteration order", "why_tests_cant": "Random iteration order, unbounded number of names.", "anchors": ["src/xprs.rs: BindError::from_diff"]}
{"id": "C27", "title": "all bind variants agree", "statement": "bind, bind2..bind9, bind_n and bind_n_runtime with the same names and as many values succeed or fail together and produce functions with the same results.", "quantifier": "every expression, names and values", "why_tests_cant": "Eleven copies of the same logic must agree for all inputs.", "anchors": ["src/xprs.rs: bind..bind9, bind_n, bind_n_runtime"]}
{"id": "C28", "title": "bind_n_runtime tolerates wrong slice lengths", "statement": "The function from bind_n_runtime never panics for a slice of any length: surplus values are ignored, and if too few values are given it returns Ok when the covered names suffice and otherwise an EvalError naming an uncovered variable.", "quantifier": "every slice length", "why_tests_cant": "Unbounded lengths.", "anchors": ["src/xprs.rs: bind_n_runtime"]}
{"id": "C29", "title": "simplify_for preserves the value", "statement": "For every expression e, variable x, value v and map m, evaluating e.simplify_for((x,v)) under m gives the same f64 as evaluating e under m with x set to v.", "quantifier": "every parsed expression, every variable, every f64 value including infinities, NaN and signed zeros", "why_tests_cant": "Algebraic rewriting over f64 has corner cases (NaN, infinities, signed zero, non-integers) that sampling misses.", "anchors": ["src/element/simplify.rs", "src/xprs.rs: simplify_for_in_place"]}
{"id": "C30", "title": "parse-time simplification preserves the value", "statement": "The tree produced by simplification evaluates to the same f64 as the tree before simplification for every assignment.", "quantifier": "every tree, every assignment", "why_tests_cant": "As C29.", "anchors": ["src/element/simplify.rs: BinOp::simplify, UnOp::simplify, FunctionCall::simplify"]}
{"id": "C31", "title": "simplify_for eliminates its variable and introduces none", "statement": "After simplify_for((x,v)) the tree does not contain x and contains no variable the original tree did not contain.", "quantifier": "every tree, every variable and value", "why_tests_cant": "Universal over trees.", "anchors": ["src/element/simplify.rs: simplify_for"]}
{"id": "C32", "title": "vars stays consistent with the tree along any history", "statement": "After parse and any sequence of simplify_for / simplify_for_multiple calls, vars is exactly the set of variables in the tree.", "quantifier": "every accepted input, every sequence of simplifications", "why_tests_cant": "Unbounded histories.", "anchors": ["src/xprs.rs: simplify_for_in_place, simplify_for_multiple_in_place"]}
{"id": "C33", "title": "simplify_for_multiple equals simplifying one variable after another", "statement": "simplify_for_multiple(list) gives the same expression and vars as calling simplify_for for each entry in order, and the in-place variants give the same as the by-value variants.", "quantifier": "every expression, every list", "why_tests_cant": "Unbounded lists.", "anchors": ["src/xprs.rs: simplify_for_multiple_in_place"]}
{"id": "C34", "title": "the order of simplify_for for different variables does not matter", "statement": "Simplifying for x then y or y then x (x different from y) gives expressions that evaluate equally.", "quantifier": "every expression, every pair of variables and values", "why_tests_cant": "Universal over trees and values.", "anchors": ["src/element/simplify.rs"]}
{"id": "C35", "title": "simplify_for an absent variable changes nothing", "statement": "If x is not in vars, simplify_for((x,v)) leaves the expression unchanged.", "quantifier": "every parsed expression, every absent variable", "why_tests_cant": "Universal; the repo only tests one expression.", "anchors": ["src/xprs.rs: simplify_for_in_place", "src/tests/xprs/simplify.rs"]}
{"id": "C36", "title": "simplification is idempotent", "statement": "Simplifying a simplified tree again returns it unchanged.", "quantifier": "every tree", "why_tests_cant": "Universal over trees.", "anchors": ["src/element/simplify.rs"]}
{"id": "C37", "title": "closed expressions fold to a number", "statement": "With compile-time-optimizations, an accepted expression with no variables is stored as a single number.", "quantifier": "every accepted input without variables", "why_tests_cant": "Universal over inputs.", "anchors": ["src/parser.rs: element", "src/element/simplify.rs", "README.md: compile-time-optimizations"]}
{"id": "C38", "title": "expression equality is an equivalence that respects evaluation", "statement": "== on expressions never panics, is reflexive, symmetric and transitive, identifies a+b with b+a and a*b with b*a, and equal expressions evaluate to equal values under every map.", "quantifier": "every tree from the parser, every map", "why_tests_cant": "Universal over trees.", "anchors": ["src/element/binop.rs: PartialEq for BinOp", "src/token/function.rs: PartialEq for FnPointer"]}
{"id": "C39", "title": "Display output parses back to the same expression", "statement": "For every parsed expression, parsing its Display text with the same context yields an equal expression.", "quantifier": "every parsed expression", "why_tests_cant": "Universal over trees and numbers.", "anchors": ["src/element/mod.rs: Display", "src/element/binop.rs, unop.rs, function_call.rs: Display"]}
{"id": "C40", "title": "factorial is defined exactly on the non-negative integers", "statement": "x! is NaN for every negative, fractional or NaN x, infinity for every integer above 170 and for infinity, and the table value of n! for integers n in 0..=170 (also for -0.0).", "quantifier": "every f64", "why_tests_cant": "2^64 inputs.", "anchors": ["src/utils/factorial.rs: factorial"]}
{"id": "C41", "title": "factorial table values are n! rounded to nearest", "statement": "For every n in 0..=170, n! evaluates to the f64 nearest to the true factorial; and from 171 on the true factorial exceeds the f64 range.", "quantifier": "every n (unbounded for the overflow part)", "why_tests_cant": "171 decimal literals nobody re-checks; the overflow part is unbounded.", "anchors": ["src/utils/factorial.rs: FACTORIALS"]}
{"id": "C42", "title": "factorial never performs undefined behaviour", "statement": "The unchecked float to integer conversion in factorial is only reached with an integral value in 0..=170, and the table access is in bounds.", "quantifier": "every f64", "why_tests_cant": "Unsafe code must be safe for all inputs.", "anchors": ["src/utils/factorial.rs: factorial (to_int_unchecked)"]}
{"id": "C43", "title": "higher-order functions mean substitution", "statement": "If a function is defined in a Context by binding a parsed expression to its variables, then evaluating a call of it equals evaluating the original expression with its variables set to the argument values.", "quantifier": "every inner expression, every argument list, every map", "why_tests_cant": "Universal over two expressions.", "anchors": ["README.md: Higher order functions", "src/xprs.rs: bind*", "src/token/function.rs: xprs_fn!"]}
{"id": "C44", "title": "min, max, sum and mean are correct for any number of arguments", "statement": "min returns an argument not greater than any non-NaN argument (infinity if all are NaN), max dually, independent of argument order up to the sign of zero; sum adds left to right; mean is sum divided by the count.", "quantifier": "every non-empty argument list", "why_tests_cant": "Unbounded argument lists with NaN.", "anchors": ["src/utils/built_in_functions.rs: MIN, MAX, SUM, MEAN"]}
{"id": "C45", "title": "in-place simplification is memory safe at every panic point", "statement": "Whatever point simplification panics at, every tree node is dropped exactly once afterwards.", "quantifier": "every expression, every panic point", "why_tests_cant": "Crash points inside unsafe ptr::read/ptr::write sections.", "anchors": ["src/xprs.rs: simplify_for_in_place, simplify_for_multiple_in_place"]}
{"id": "C46", "title": "diagnostic help never underflows and states the right counts", "statement": "For every ParseError returned by parse, computing the help text does not underflow; TooFew/TooMany arguments errors carry the declared and actual counts and suggest a positive number of arguments to add or remove. For a text that is not empty the help fits the place that is pointed at: that something may be missing is said of the last byte only, to remove something where there is a character that the message calls unexpected or illegal, to add a parenthesis where there is none, and multiple points are suspected where something begins like a number.", "quantifier": "every rejected input", "why_tests_cant": "Needs an invariant over all error-producing paths.", "anchors": ["src/parser.rs: Diagnostic::help"]}
{"id": "C47", "title": "rounding built-ins agree with the real functions", "statement": "floor, ceil, trunc, round, fract and abs return, for every finite argument, the exact mathematical result (floor(x) is the greatest integer <= x, trunc(x)+fract(x) = x, ...).", "quantifier": "every finite f64", "why_tests_cant": "2^64 inputs.", "anchors": ["src/utils/built_in_functions.rs: FLOOR, CEIL, TRUNC, ROUND, FRACT, ABS"]}
{"id": "C48", "title": "the REPL never hits its unreachable branch", "statement": "After the REPL has asked for all variables in vars, evaluating the expression cannot return an error.", "quantifier": "every accepted input, every entered value", "why_tests_cant": "Universal over inputs.", "anchors": ["src/bin/repl.rs: main, ask_for_variables"]}
{"id": "C49", "title": "simplification never enlarges the tree", "statement": "The simplified tree has at most as many nodes as the original and no new function calls.", "quantifier": "every tree", "why_tests_cant": "Universal over trees.", "anchors": ["src/element/simplify.rs"]}
{"id": "C50", "title": "bytes outside the alphabet are always rejected", "statement": "An input containing a byte that is not an ASCII letter, digit, one of . _ ' ( ) , + - * / ^ % ! or ASCII whitespace is never accepted; in particular any non-ASCII text is rejected.", "quantifier": "every byte string", "why_tests_cant": "Universal over inputs.", "anchors": ["src/parser.rs: atom, get_operator_infos"]}
{"id": "C51", "title": "parentheses of an accepted input are balanced", "statement": "If parse accepts an input, its parentheses are balanced and no prefix closes more than it opened.", "quantifier": "every accepted input", "why_tests_cant": "Universal over inputs.", "anchors": ["src/parser.rs: atom, parse_identifier"]}
{"id": "C52", "title": "parsed values can be shared between threads", "statement": "Xprs, Parser, Context and errors are Send + Sync, and concurrent eval calls on one Xprs do not interfere.", "quantifier": "every schedule", "why_tests_cant": "Data race freedom ranges over schedules.", "anchors": ["src/tests/thread_safety.rs"]}
{"id": "C53", "title": "parse errors describe what is really in the source", "statement": "On a non-empty input, every ParseError returned by parse tells the truth about the source: an UnexpectedToken or IllegalCharacter error names the byte found at its offset, an ExpectedToken error points at a byte that is not the expected one, a MalformedNumber error carries exactly the text of its span and that text is not a number, TooFew/TooMany errors point at a call of a known function and carry its declared and actual argument counts, and UnexpectedEndOfExpression is only reported at the end of the source.", "quantifier": "every rejected non-empty input, every context", "why_tests_cant": "Universal over inputs; each of the error sites reads the position after different amounts of consumed input.", "anchors": ["src/parser.rs: atom, parse_number, parse_identifier, get_operator_infos", "src/parser.rs: ParseError, ErrorKind"]}
{"id": "C54", "title": "operators and recip follow IEEE 754", "statement": "In eval and eval_unchecked, x+y, x-y, x*y and x/y return the binary64 number nearest to the exact result (ties to even, overflow to infinity, the IEEE rules for zeros, infinities and NaN), x%y returns the exact remainder of truncated division with the sign of x, -x is exact and flips the sign, and recip(x)/invert(x) is 1/x correctly rounded.", "quantifier": "every pair of operand values, every pair of subexpressions", "why_tests_cant": "2^128 operand pairs.", "anchors": ["src/xprs.rs: eval_element, eval_element_unchecked", "src/utils/built_in_functions.rs: RECIP"]}
{"id": "C55", "title": "every built-in name is the documented function", "statement": "Unless the context defines the name itself, a call of one of the 34 documented function names evaluates to that function of the values of its arguments, in the order they are written: the platform function of that name (log is log10, logn(x, b) is x.log(b), gamma is tgamma), the correctly rounded square root, and the exact or IEEE functions for the others; no other name is a function.", "quantifier": "every documented name, every way to write the arguments, every context, every assignment", "why_tests_cant": "Ranges over all argument expressions and values; a table of names is easily wrong in a row no test covers.", "anchors": ["src/token/identifier.rs: From<&str> for Identifier", "src/utils/built_in_functions.rs", "README.md: Built-in functions"]}
{"id": "C56", "title": "the constants pi and e are correctly rounded", "statement": "Unless the context defines the name, the expression pi evaluates to the f64 nearest to the real number pi and e to the one nearest to Euler's number, under every assignment and in every build; the names PI and E of the documentation are ordinary variables.", "quantifier": "every context, build and assignment; every f64 as competitor", "why_tests_cant": "Nearest means compared with all f64 values and an irrational number.", "anchors": ["src/token/identifier.rs: From<&str> for Identifier", "README.md: Built-in constants"]}
{"id": "C57", "title": "repeated simplification settles", "statement": "A simplify_for call either returns the expression it was given, or one with fewer nodes or fewer listed variables and no more of the other. So in any sequence of simplify_for calls fewer calls change something than the expression has nodes and variables; repeating one call (if no function called panics and the text has no `!!`, so that the calls return) arrives within that many steps at an expression that simplify_for of a name outside vars never changes again, in every build, nightly included.", "quantifier": "all parsed expressions and histories, all names and values, call sequences of any length, every build", "why_tests_cant": "A ping-pong between two rewrite rules would need a particular tree; the bound is over all sequences of calls.", "anchors": ["src/element/simplify.rs: Simplify for BinOp, UnOp, FunctionCall", "src/xprs.rs: Xprs::simplify_for"]}
{"id": "C58", "title": "expressions stay linear in the size of their text", "statement": "An expression parsed from an input of n bytes, and everything simplify_for makes of it, has at most 2n-1 nodes and is at most n nodes deep (so evaluation, printing, comparing and dropping it recurse at most n deep); for every length some text reaches that depth.", "quantifier": "all inputs, contexts, histories and builds", "why_tests_cant": "It bounds memory and recursion depth for inputs of every length.", "anchors": ["src/parser.rs: Parser::parse", "src/element/simplify.rs", "src/element/mod.rs: Element"]}
{"id": "C59", "title": "the ordering of expressions is a lawful partial order", "statement": "partial_cmp on the trees of expressions (the public field root) fulfils the contract of PartialOrd: it says Equal exactly for trees that are ==, a < b iff b > a, < is transitive and irreflexive and may be combined with ==; it orders trees by kind of node, operator, number and name, then by the first differing operand, and only NaN makes trees incomparable.", "quantifier": "all trees, in particular those of all parsed and simplified expressions", "why_tests_cant": "Order laws quantify over all pairs and triples of trees.", "anchors": ["src/element/mod.rs: Element (derive PartialOrd)", "src/element/binop.rs: BinOp (derive PartialOrd, impl PartialEq)", "src/token/function.rs: PartialOrd for Function"]}
{"id": "C60", "title": "definitions a text does not mention have no effect", "statement": "The result of parse (expression, error or panic) depends only on the context's definitions of the names standing in the input as whole words and on the expected variables: adding or changing any other variable or function changes nothing, and a definition under a text that is not a letter followed by letters, digits, _ and ' has no effect on any input.", "quantifier": "all inputs, pairs of contexts, builds", "why_tests_cant": "Ranges over all unmentioned definitions and all inputs.", "anchors": ["src/parser.rs: parse_identifier", "src/context.rs: get"]}
{"id": "C61", "title": "the REPL is a faithful dialogue that ends with its input", "statement": "The REPL reads the lines of its input in order, an expression line followed by one answer per variable; each reply is the value of that line under its answers, or its parse error, and depends on nothing else. It ends normally at a line exit (surrounding white space ignored), otherwise only at a line that cannot be read, an answer that is not a number, or a library panic; and it ends when its input ends. White space around a line or an answer is ignored: the characters with the Unicode property White_Space at its two ends, and nothing else.", "quantifier": "all finite sequences of lines, builds, hash orders", "why_tests_cant": "Ranges over all dialogues; the last clause is about infinite runs.", "anchors": ["src/bin/repl.rs: main, ask_for_variables"]}
{"id": "C62", "title": "texts compose", "statement": "If s, t and t1..tn are accepted, so are (s)+(t) (likewise - * / % ^), -(s), +(s), (s)! and f(t1,...,tn) for every function f of the context that takes n arguments; the whole has the variables of its parts and evaluates to the operator or function applied to their values, arguments in the order written; functions registered with xprs_fn! never index out of range. Every registered function can be called.", "quantifier": "all accepted texts, operators, contexts, functions of 0 to 9 arguments or of a slice, assignments", "why_tests_cant": "Ranges over all pairs and lists of accepted texts and all user functions.", "anchors": ["src/parser.rs: element, atom, parse_identifier, parse_arguments", "src/token/function.rs: xprs_fn!"]}
{"id": "C63", "title": "user functions are called when and as often as written", "statement": "User functions may have side effects. Parsing calls none of them. Each evaluation calls every function written in the text once per place, arguments before the call and left before right, each call seeing the effects of those before; a failing evaluation stops in that order; eval_unchecked makes the same calls as eval. simplify_for makes no more calls than it removes. Over the life of an expression a function written k times is called at most k times per evaluation and k times more. Functions without memory behave as the pure model says.", "quantifier": "all user functions with any shared memory, texts, contexts, assignments, sequences of operations", "why_tests_cant": "Ranges over all stateful user functions and all sequences of operations; the order and number of calls is a trace property.", "anchors": ["src/parser.rs: element", "src/xprs.rs: eval_element, eval_element_unchecked, simplify_for", "src/element/simplify.rs: FunctionCall::simplify", "src/token/function.rs: FnPointer"]}
{"id": "C64", "title": "errors in texts that are not ASCII", "statement": "Parse errors are right for every text, not only for ASCII: the span of an error begins and ends between two characters, the character an error names is the character at its offset, no error points behind the first character outside ASCII, and no text with such a character is accepted.", "quantifier": "all non-empty texts (sequences of Unicode characters), contexts, builds", "why_tests_cant": "Ranges over all Unicode texts; a boundary inside a character only shows for particular neighbours of the error position.", "anchors": ["src/parser.rs: ParseError::new_unexpected_token, new_illegal_character, new_missing_argument", "src/parser.rs: skip_while, next_trim, atom, parse_number, parse_identifier"]}
{"id": "C65", "title": "the work is polynomial", "statement": "Counting calls on elements, arms tried and bytes read or copied: comparing two expressions with n and m nodes takes at most n*m steps although sums and products are compared in both orders; simplifying n nodes takes at most n^2+9n, simplifying for a variable at most n^3+9n^2+n, evaluating less than 2n; parsing n bytes takes at most 26n+22 in a plain build and a cubic number in an optimizing one, whether the text is accepted, rejected or makes the parser panic. The cost of optimizing is real: some texts of length k+1 take at least k^2 steps there, and simplify_for on the resulting tree more than k^2.", "quantifier": "all expressions, texts, contexts, builds, user functions", "why_tests_cant": "A bound on the number of steps for all inputs; a benchmark covers single sizes and shapes.", "anchors": ["src/element/binop.rs: PartialEq for BinOp", "src/element/simplify.rs", "src/xprs.rs: eval_element", "src/parser.rs: element, ParseError"]}
{"id": "C66", "title": "errors are found as early as possible", "statement": "The parser reads a text from left to right and stops at the first byte that cannot be right: what stands in front of an error can be completed to an accepted text (by at most one operand and closing parentheses), and every text that begins with the same bytes up to and including the offending one is rejected with the same error.", "quantifier": "all texts, contexts, builds and continuations of the text", "why_tests_cant": "Quantifies over all texts that share a beginning and over all ways of completing one; a counterexample needs a particular byte behind the error.", "anchors": ["src/parser.rs: parse_number (exponent lookahead)", "src/parser.rs: element, atom, parse_arguments, parse_identifier (arity check at the closing parenthesis)", "src/parser.rs: parse_impl (trailing token)"]}
{"id": "C67", "title": "arithmetic that needs no rounding is exact", "statement": "If no intermediate result of an expression needs rounding, evaluation returns the exact value. In particular integer arithmetic with + - * %, signs, factorials and divisions without remainder is exact as long as no intermediate result is beyond 2^53, in every build, before and after simplify_for; 2^53 is the right bound.", "quantifier": "all expressions, variable values, builds, user functions; for texts across builds, those in which no number directly follows a closing parenthesis (see C16)", "why_tests_cant": "Quantifies over all integer expressions of any size and all values; simplification may take a different path for each.", "anchors": ["src/xprs.rs: eval_element, simplify_for", "src/element/simplify.rs", "src/utils/factorial.rs"]}
{"id": "C68", "title": "a constant means the same as a variable of that value", "statement": "Defining a name as a constant in the context and evaluating gives the same result as leaving it a variable and supplying the value to eval: the same texts are accepted, and the values agree.", "quantifier": "all texts, contexts, names, values, builds, values of the other variables", "why_tests_cant": "Quantifies over all texts and contexts; the difference only shows where a number follows the name (1+x 3) or an optimizing build folds differently.", "anchors": ["src/context.rs: set_var, with_var", "src/parser.rs: parse_identifier, element", "src/xprs.rs: eval"]}
{"id": "C69", "title": "the text of an error says everything about it", "statement": "The diagnostic of every parse error (message, help, offset, length and source) can be shown without a panic and determines the error completely: two errors with the same diagnostic are equal. A message quotes what stands in the source at its offset. The text of a BindError determines which variables are missing, that of an EvalError names a variable of the expression that has no value.", "quantifier": "all texts, contexts, builds, user functions, orders of the hash map, reachable expressions", "why_tests_cant": "Quantifies over pairs of arbitrary texts and contexts; two errors that are told apart in no message are not found by looking at single messages.", "anchors": ["src/parser.rs: ParseError, ErrorKind, Diagnostic, Display", "src/xprs.rs: EvalError, BindError"]}
{"id": "C70", "title": "without cancellation rounding errors stay small", "statement": "If only numbers of the same sign are added, only numbers of different signs are subtracted, and all results are zero or between 2^-1000 and 2^1000 in magnitude, an expression with signs, + - * / evaluates to its value over the rational numbers up to a relative error of k/2^52, where k counts the roundings that can add up (literals and inputs that have been rounded included); in every build, before and after simplify_for.", "quantifier": "all expressions, variable values, builds, user functions; for texts across builds, those in which no number directly follows a closing parenthesis (see C16)", "why_tests_cant": "A bound on the error over all expressions of any size and all values; simplification may take a different path for each.", "anchors": ["src/xprs.rs: eval_element, simplify_for", "src/element/simplify.rs"]}
{"id": "C71", "title": "NaN has a cause and is never lost", "statement": "An evaluation returns NaN only if it meets NaN: a NaN number or variable, an operation that IEEE 754 calls invalid, a factorial of a number that is not natural, or a function or ^ that returns it. A NaN value of a variable in vars makes the result NaN.", "quantifier": "all expressions, variable values, builds, user functions, histories", "why_tests_cant": "Quantifies over all trees and all values, and over every place NaN can come from.", "anchors": ["src/xprs.rs: eval_element", "src/utils/factorial.rs", "src/utils/built_in_functions.rs: MIN, MAX, SUM", "src/element/simplify.rs"]}
{"id": "C72", "title": "Printed numbers read back, with the fewest digits", "statement": "Every number of an expression and every value is printed (Display, Debug) as a text that reads back as that number: typed as an answer to the REPL for all numbers including infinities, NaN and negative zero; as an expression, in every build and context, for all finite numbers. Different numbers are printed differently. Display prints a decimal number without exponent that has the fewest places among those that read back, is the closest of these, and has at most 17 significant digits. Debug prints the same digits: in plain notation with at least one digit behind the point, except below 10^-4 and from 10^16 on, where one digit stands in front of the point and an exponent follows.", "quantifier": "all 2^64 numbers, builds, contexts, user functions", "why_tests_cant": "Quantifies over all floats; shortest-digit printing and correct rounding fail on isolated values only.", "anchors": ["src/element/mod.rs: Display for Element::Number", "src/bin/repl.rs: println!(\"Evaluated: {:#?}\"), ask_for_variables", "src/parser.rs: parse_number"]}
{"id": "C73", "title": "the names of variables do not matter", "statement": "Rename the names in an accepted text (each to a name with the same meaning, different variables to different names): the new text is accepted too, its tree is the old one under the new names, and its variables are the new names of the old ones. The value is that of the old expression for the old names, a missing variable is reported under its new name, and simplify_for does the same under the new names. A text that is not accepted is not accepted under other names either.", "quantifier": "all texts, renamings, contexts, builds, assignments", "why_tests_cant": "Ranges over all texts and all renamings; a dependence on a particular spelling shows only for the names somebody thought of trying.", "anchors": ["src/parser.rs: parse_identifier, Parser::op_infos (implicit multiplication before 'a'..='z')", "src/element/simplify.rs", "src/xprs.rs: eval, simplify_for"]}
{"id": "C74", "title": "the iteration order of hash sets shows only in errors", "statement": "Hash sets are iterated in an order that changes from run to run. For any two orders parse gives the same expression, the same error or the same panic; only if several variables are undeclared another one of them may be named, and the suggestions may come in another order. If one variable is undeclared, that one is named. Every bind function gives the same function, the same panic, or errors of the same kind with the same names in some order. The REPL asks for the variables in some order, but its reply is the same if every variable is given the same value.", "quantifier": "all texts, contexts, expressions, names, builds and any two iteration orders", "why_tests_cant": "A test runs under one random order; a dependence on the order shows only now and then.", "anchors": ["src/parser.rs: Parser::parse (difference, VariableNotDeclared)", "src/xprs.rs: bind*, BindError::from_diff", "src/bin/repl.rs: ask_for_variables"]}
{"id": "C75", "title": "the compiler channel matters only where there is a minus sign", "statement": "build.rs turns on further simplification rules (cfg NIGHTLY) when the crate is compiled by a nightly compiler. For every text without the character '-', parsing gives the same expression, the same error or the same panic in both builds. Everything obtained from it by simplify_for and simplify_for_multiple, with any values, is the same too. With a minus sign the builds differ: 'x + -x' is the number 0 in one and not in the other.", "quantifier": "all texts without '-', contexts, user functions, features, sequences of simplifications and values", "why_tests_cant": "A test suite is compiled by one channel; a rule that fires in one build only shows on the inputs nobody wrote.", "anchors": ["build.rs: cfg(NIGHTLY)", "src/element/simplify.rs: the #[cfg(NIGHTLY)] arms", "src/parser.rs: element"]}
{"id": "C76", "title": "evaluation rises and falls with the variables as the expression says", "statement": "Take an expression built from numbers, variables, +, -, multiples by a number, products and quotients of parts that cannot be negative, factorials and the functions floor, ceil, round, trunc, sqrt, sum, mean, min, max, factorial, abs and recip (the last two of parts that cannot be negative), in which every variable occurs only where the whole rises with it (or only where the whole falls). Evaluating it at larger values of the former and smaller values of the latter never gives a smaller result, all roundings, overflows and infinities included, provided no part of it is NaN. Without min and max it is enough that the two results are not NaN. The same holds for the expression simplified, with a variable fixed by simplify_for, and for the same text in any other build, where no operation on the way is a doubtful one (division by zero and the like).", "quantifier": "all such expressions of any size, all directions of the variables, all pairs of variable maps, builds", "why_tests_cant": "Rounding errors break monotonicity, if at all, at a few of 2^64 neighbouring values and for particular nestings of operations; a test samples pairs.", "anchors": ["src/xprs.rs: eval_element", "src/utils/built_in_functions.rs", "src/utils/factorial.rs"]}
{"id": "C77", "title": "an accepted text can be evaluated exactly if it has no !!", "statement": "In a build without compile-time-optimizations, an expression returned by parse has a value for some (equivalently: every complete) assignment of its variables iff its text has no two exclamation marks in a row, whitespace between them disregarded; if it has, eval panics (unreachable) for every assignment that gives all variables. In every build and after any simplifications the same holds with 'the tree has no binary ! node' in place of the condition on the text.", "quantifier": "every build, context of total functions, input text, history of simplifications and variable map", "why_tests_cant": "The equivalence covers all accepted texts: no other text panics and no text with !! escapes.", "anchors": ["src/xprs.rs: eval_element (lines 303, 349)", "src/parser.rs: element, atom"]}
{"id": "C78", "title": "what binding does in all cases", "statement": "Let k variables of the expression be not among the names given to a bind* function. With overflow checks and k >= 256 it panics; otherwise it succeeds iff 256 divides k, and else returns a BindError that lists all k variables, each once, of the kind OneVariable iff k mod 256 = 1. The returned function, given as many values as names, returns a number iff every variable occurring in the tree is named and no ! in the tree is a binary operator (for a freshly parsed expression of a build without optimizations: iff all of vars are named and the text has no !!); the number is the one eval returns for the same assignment.", "quantifier": "all ten bind functions, every build, expression reachable from a text, list of names, iteration order of the hash set, list of values", "why_tests_cant": "The wrap of the u8 counter needs 256 variables and differs between builds; the equivalence is over all expressions.", "anchors": ["src/xprs.rs: bind, bind2..bind9, bind_n, bind_n_runtime, BindError::from_diff"]}
{"id": "C79", "title": "simplification applies only the documented rules", "statement": "The tree that simplify_for_* returns is obtained from the original tree with the variable replaced by its value by applying, one after the other and anywhere in the tree, rewrite rules that are written in the comments of simplify.rs (0 + a => a, a - a => 0, ..., and the evaluation of operations on literals); rules marked NIGHTLY only in NIGHTLY builds. The same relates the tree that a build with compile-time-optimizations returns for a text to the tree of a build without, if in the text no number directly follows a closing parenthesis.", "quantifier": "every build, context, input text, expression, variable and value", "why_tests_cant": "A test sees the result for some trees; that no tree is ever changed in an undocumented way is about all trees, all depths and all orders of rewriting.", "anchors": ["src/element/simplify.rs:26-290", "src/xprs.rs: simplify_for", "src/parser.rs: element"]}
{"id": "C80", "title": "no documented rule is left to apply", "statement": "In an expression of a build with compile-time-optimizations (parsed, and after any simplifications), and in every result of simplify_for_*, no documented rule of simplify.rs applies to any part of the tree.", "quantifier": "every build, context, input text, history of simplifications and part of the tree", "why_tests_cant": "The statement is about all parts of all reachable trees; a rule that is shadowed by another arm is noticed only by the tree that needs it.", "anchors": ["src/element/simplify.rs:53-272 (the arm at 185-188)"]}
{"id": "C81", "title": "functions made with xprs_fn! get exactly the written arguments", "statement": "Wherever an expression calls a function made with xprs_fn!, the wrapped function receives the values of exactly the written arguments, in the written order and as many as it was declared with, so the indexing in the generated closure never panics. A function that is declared with 0 arguments can never be used: no text with its name as a token is accepted, whereas every other function registered under a name can be called.", "quantifier": "every build, context, input text, history of simplifications, function of 0 to 9 arguments or of a slice, assignment of the variables", "why_tests_cant": "A test calls a few functions with a few arguments. That no accepted text, of any length, reaches the closure with a slice of another length, and that no text at all uses a function of no arguments, is about all texts.", "anchors": ["src/token/function.rs:117-205 (xprs_fn!)", "src/parser.rs: parse_function", "src/xprs.rs: eval"]}
{"id": "C82", "title": "parsers that compare equal behave equally", "statement": "If two parsers (contexts) are equal by their derived ==, then they accept the same texts, with the same errors for the others, and the expressions they return for the same text have the same values.", "quantifier": "every build, pair of equal contexts, input text and assignment of the variables", "why_tests_cant": "The equality ignores the sign of zero and the order of the expected variables; that nothing else is ignored, and which texts tell equal parsers apart, is about all contexts and texts.", "anchors": ["src/context.rs:7-14", "src/context.rs:53-59", "src/parser.rs:37-41", "src/parser.rs: parse"]}
{"id": "C83", "title": "recursion is as deep as the text is nested", "statement": "How many calls parsing a text and evaluating the result make inside one another is bounded in terms of how many parentheses are open at once and how many signs stand in front of operands; the length of a flat text (such as x+x+...+x) does not matter.", "quantifier": "every build, context, input text (accepted or not) and assignment of the variables", "why_tests_cant": "A stack overflow needs texts longer than a test uses, and whether some flat text recurses deeply is about all texts.", "anchors": ["src/parser.rs:161-225 (element, atom)", "src/parser.rs:314-334 (parse_arguments)", "src/xprs.rs:272-361"]}
{"id": "C84", "title": "a name may be replaced by a text in parentheses", "statement": "If a text and some further texts are accepted, then the first text with some of its variables replaced by the further texts in parentheses is accepted too, and its value is the value of the first text when those variables are given the values of the further texts.", "quantifier": "every build, context, text, set of variables and texts to put in for them, and every assignment of the remaining variables", "why_tests_cant": "It quantifies over two texts at once and over every place where the name can stand (operand of any operator, argument, implicit factor, before a number); the counterexample (2+x 2) needs a name in one particular place and a number as what is put in.", "anchors": ["src/parser.rs:118-225", "src/parser.rs:227-312"]}
{"id": "C85", "title": "what is in parentheses in an accepted text is itself accepted", "statement": "If a text is accepted, then what stands between any of its opening parentheses and the closing one that belongs to it is accepted by itself (declarations of variables aside), or it is a list of accepted texts with commas between them, as many as the function named in front of the parenthesis takes. Without compile-time optimizations the parts are accepted under the same declarations, their trees are parts of the tree of the whole, they have no further variables, and they have a value whenever the whole has one.", "quantifier": "every build, context, accepted text and every matching pair of parentheses in it; every assignment of the variables", "why_tests_cant": "Texts nest without bound and the parser decides where a part ends with a recursion shared by parentheses, arguments and operators; a test fixes one nesting. That the declarations must be left aside shows only for a part that an optimization removes.", "anchors": ["src/parser.rs:161-225", "src/parser.rs:228-281", "src/parser.rs:314-356"]}
{"id": "C86", "title": "the two orders of operations accept the same texts and differ only at implicit products beside * / %", "statement": "The pemdas and pejmdas builds accept the same texts: rows of operands with operators or nothing between them, a description in which precedence does not occur. They give the same expression for a text without *, / and %, and for a text without implicit products. Every accepted text can be given parentheses, around its implicit products and what they multiply, so that both orders read it as the expression it stood for.", "quantifier": "every context (with or without declared variables), every text, every pair of builds differing in the order of operations; acceptance for builds without compile-time optimizations, and with them for texts without !! and without numbers right behind a closing parenthesis", "why_tests_cant": "It relates two builds that no single test binary contains, over all texts; the precedence-climbing loop treats implicit products in three places whose agreement shows only in unusual combinations of signs, factorials and numbers.", "anchors": ["src/parser.rs:161-225", "src/parser.rs:118-160", "src/utils/precedence.rs:11-30", "Cargo.toml:38-40"]}
{"id": "C87", "title": "with cancellation rounding errors are small against the terms", "statement": "Evaluating an expression of numbers, variables, signs, + - * and / (by divisors without cancellation) whose terms are neither very large nor very small gives a finite number. It is off the exact value by at most k/2^52 of the sum of the absolute values of the terms (the value after every number and variable is replaced by its absolute value and every - by +), where k counts the roundings that can add up, however much of the terms cancels. So a result larger than that has the right sign. The same holds after simplification and in every build.", "quantifier": "every such tree or text, every assignment of the variables, every build", "why_tests_cant": "Catastrophic cancellation happens at particular values; a bound for all values and all shapes of expressions cannot be sampled.", "anchors": ["src/xprs.rs:272-361 (eval_element)", "src/element/simplify.rs", "src/parser.rs:283-312 (parse_number)"]}
{"id": "C88", "title": "the platform matters only where a text asks for it", "statement": "What the library computes depends on the platform (libm, the zero sums start from, the user's functions) only through the `^` of a text and the functions it names. On two platforms that agree on these, parsing has the same outcome (expression, error or panic), the same expressions are reached by fixing variables, and all evaluations have the same results. In particular a text without `^` that names only abs, floor, ceil, round, trunc, fract, recip (invert), factorial, min, max and sqrt gives bit for bit the same results everywhere (up to the bits of NaN). No other built-in function can be added to that list. A text without `^` never computes a power, also after simplification.", "quantifier": "every text, every context, every build, every pair of platforms", "why_tests_cant": "Tests run on one platform; whether an optimisation such as x*x = x^2 brings in a call of libm on another one is a statement about all texts and all platforms.", "anchors": ["src/element/simplify.rs", "src/xprs.rs:272-361 (eval_element)", "src/utils/built_in_functions.rs:5-109", "src/parser.rs:229-281 (parse_identifier)"]}
{"id": "C89", "title": "a printed expression says which expression it is", "statement": "Two expressions made in one context (from any texts, in any builds, by any simplifications) that are printed alike, with Display or with Debug, are the same tree with the same numbers, operators, functions and variables, and so have the same values. Two expressions made in different contexts are printed alike with Debug exactly if their variables are listed alike and the trees differ at most in what functions compute that have the same name, the same number of arguments, and are both plain functions or both closures.", "quantifier": "all pairs of texts, histories, builds and platforms, every context (or pair of contexts) that stores functions under their own names", "why_tests_cant": "It speaks of all pairs of expressions; ambiguities show up only for pairs nobody thinks of comparing (the variable inf and the number 1e999).", "anchors": ["src/element/mod.rs:20-46", "src/element/binop.rs:7-37", "src/element/unop.rs:7-34", "src/element/function_call.rs:7-45", "src/token/operator.rs:5-56", "src/token/function.rs:7-17, 78-85", "src/xprs.rs:18-43"]}
{"id": "C90", "title": "the laws of arithmetic that hold exactly, and those that do not", "statement": "The value of an expression is not changed by a bit (up to the bits of NaN) when the laws a+b=b+a, a*b=b*a, a-b=a+(-b), -(-a)=a, (-a)*b=-(a*b), (-a)/b=a/(-b)=-(a/b), (-a)%b=-(a%b), a%(-b)=a%b, (a%b)%b=a%b, a+a=2*a, 1*a=a, a-0=a, a/c=a*(1/c) for c with an exact inverse, invert(a)=1/a, abs(-a)=abs(abs(a))=abs(a), abs(a*b)=abs(a)*abs(b), abs(a/b)=abs(a)/abs(b), abs(a%b)=abs(a)%b, floor(-a)=-ceil(a), trunc(-a)=-trunc(a), round(-a)=-round(a), and that floor, ceil, round and trunc do not change what one of them returned, are used any number of times, in both directions, anywhere in it. This includes infinities, NaN, zeros of both signs, overflow and underflow. In builds without compile-time optimisations it holds of the texts put together accordingly. The laws a+0=a, 0-a=-a, -(a+b)=(-a)+(-b), -(a-b)=b-a and fract(-a)=-fract(a) hold but for the sign of a zero result. Associativity, distributivity, (a+b)-b=a, (a/b)*b=a, (a*b)/b=a, a/b=a*(1/b), sqrt(a)*sqrt(a)=a and (a+b)/c=a/c+b/c fail for ordinary numbers.", "quantifier": "all expressions connected by any chain of the laws, all values of all variables, every platform; all accepted texts put in for the parts", "why_tests_cant": "Each law speaks of all pairs of floats with all kinds of overflow, underflow and NaN, and of rewriting at any place in an expression any number of times.", "anchors": ["src/xprs.rs:272-361 (eval_element, eval_element_unchecked)", "src/utils/built_in_functions.rs:5-109", "src/parser.rs:86-228"]}
{"id": "C91", "title": "accuracy of expressions with functions and constants", "statement": "Take an expression of +, -, *, /, signs and calls that adds only numbers of the same sign and subtracts only numbers of different signs, whose intermediate results are between 2^-1000 and 2^1000 in magnitude or zero, whose numbers and variables stand for real numbers (such as pi, e or 9.81) up to a few roundings, and whose functions are accurate where they are called. Then both evaluators return a finite number whose relative error against the value over the real numbers is at most k * 2^-52, where k counts the roundings that can add up. The same holds after simplification, after simplify_for, and for the text in every build. The functions abs, min and max add no rounding, recip adds one, sqrt halves the count and adds one, sum adds one for each argument and mean one more; a function of the platform that is right up to c roundings adds c wherever the function meant is well-conditioned, as exp is. The constants pi and e are the floats nearest to the real numbers. Functions that jump are not accurate where they jump: floor((0.1 + 0.7) * 10) is 7.", "quantifier": "all expressions of this kind, all values of all variables, every platform, every build", "why_tests_cant": "The bound compares floats with exact real numbers, including irrational ones, for all expressions and inputs at once; a test compares with another approximate computation at some points.", "anchors": ["src/xprs.rs:272-361 (eval_element, eval_element_unchecked)", "src/utils/built_in_functions.rs:5-109", "src/token/identifier.rs:25-64", "src/element/simplify.rs"]}
{"id": "C92", "title": "what the REPL prints says what it has read and found", "statement": "The indented form {:#?} of an expression is its compact form {:?} laid out anew: every entry of a bracket on a line of its own, indented by four blanks per enclosing bracket and followed by a comma. Expressions of one context printed alike with {:#?} are the same trees with the same variables. In the REPL, if two turns that found values print the same (whatever is printed after them), then the same tree was read, its variables were asked for in the same order, and the same value was found, to the bit. If two runs of the program have printed the same, after any numbers of turns or after the farewell, they have given the same replies and both have or have not ended, as long as the reports of errors can be told apart. The turn in which the program ends with an error or a panic prints no value: only the prompt if no expression was read, otherwise the expression and the questions asked so far; after the first answer that is not a number nothing more is asked.", "quantifier": "all inputs of the program, all builds, all platforms, all orders of the hash sets, any number of turns, all expressions of all contexts that store functions under their own names", "why_tests_cant": "It is about pairs of runs with equal output, of which a test meets none by chance; ambiguity would show only for particular names, numbers or nestings.", "anchors": ["src/bin/repl.rs:18-73", "src/element/mod.rs:20-46", "src/xprs.rs:18-43", "src/token/function.rs:7-17"]}
{"id": "C93", "title": "exactly one error for every wrong text, and which one", "statement": "For every non-empty input the error that parse reports (other than an undeclared variable) is determined by rules stated over the grammar: reading from the left, the error is found at the first operand that cannot be read, after the longest chain of operators and operands read so far; there it is UnexpectedEndOfExpression at the end, MalformedNumber for the whole maximal number text, ExpectedToken '(' after a function name, ExpectedToken ')' after a complete expression in parentheses, TooFew/TooManyArguments with the span of the whole call, UnexpectedToken for ')' , IllegalCharacter for all other characters; UnexpectedToken inside an argument becomes MissingArgument one byte earlier; after a complete expression any further character is UnexpectedToken. parse reports an error if and only if the rules give it, no text has two errors, and every text that is not in the grammar has one.", "quantifier": "every non-empty input, every error value, every context and build (for existence: no !! in optimizing builds, functions that do not panic)", "why_tests_cant": "The equivalence ranges over all texts and all error values with their offsets and lengths; sampled error messages cannot exclude a text reported with another kind or span.", "anchors": ["src/parser.rs:134-354", "src/parser.rs:561-671"]}
{"id": "C94", "title": "MissingArgument is reported where an argument is missing", "statement": "A parse error is MissingArgument if and only if what it points at is a missing argument: nothing but whitespace between '(' or ',' and ',' or ')' in a call.", "quantifier": "every rejected non-empty input, every context and build", "why_tests_cant": "Universal over inputs; the false reports need a stray character inside an argument of an argument, or an empty argument in front of a comma.", "anchors": ["src/parser.rs:189-225", "src/parser.rs:314-354", "src/parser.rs:664-670"]}
{"id": "C95", "title": "a change of units by a power of two scales the result exactly", "statement": "If an expression makes sense for quantities with units (only quantities of the same dimension are added, subtracted, compared or reduced modulo each other; factorial, powers and other functions are applied to pure numbers) and is measured in the d-th power of the unit, then multiplying every variable by the power of two that its dimension calls for multiplies the value of the expression by exactly the power of two that d calls for, bit for bit and whatever was rounded, provided no operation overflows or underflows in either evaluation; and if one evaluation fails the other fails with the same error. Optimizing builds agree up to the signs of zeros.", "quantifier": "every tree, assignment of dimensions, scale, pair of variable maps and platform library", "why_tests_cant": "Exact equality is claimed for all trees and all values although intermediate results are rounded; it fails for a single rounding that depends on the exponent.", "anchors": ["src/xprs.rs:272-362", "src/utils/built_in_functions.rs"]}
{"id": "C96", "title": "odd and even expressions", "statement": "If an expression is odd (even) in some variables by the rules of school - sums of odd (even) terms, products and quotients by counting signs, remainders by the dividend, odd functions of odd arguments, anything of even arguments - then changing the signs of these variables changes exactly the sign of its value (changes nothing), the two zeros not being distinguished, in every build, whenever the evaluation takes no doubtful step (no division by zero, no NaN). abs is even; round, trunc, fract, recip, sum and mean are odd on every platform; the functions of C99 are so on platforms that follow C99; min and max change places.", "quantifier": "every tree, every set of variables, every value of the variables, every build and platform", "why_tests_cant": "Universal over trees and values; a wrong sign rule or rounding direction shows only at particular values.", "anchors": ["src/xprs.rs:272-362", "src/utils/built_in_functions.rs:5-109"]}
{"id": "C97", "title": "nothing in a text is lost, invented or reordered", "statement": "In builds without simplification the tree of an accepted text, read from left to right, is exactly the sequence of the text's tokens: every literal with its value, every name as the constant, variable or function it stands for, every operator, in order; parentheses and commas stand for nothing, and the only thing without a token is the '*' of an implicit product, at most one between two operands, where the second begins with a lower case letter, a digit or '('. Hence, for texts without two adjacent '!' and total functions, the error of eval names exactly the first token of the text that is a variable without a value. In every build and after any simplifications the variables of the expression are tokens of the text in the order of the text.", "quantifier": "every accepted input, context, build, variable map and history of simplifications", "why_tests_cant": "Universal over texts; a parser that drops or repeats an operand only in some nesting passes any finite list of samples.", "anchors": ["src/parser.rs:107-354", "src/xprs.rs:272-318 (eval_element)", "src/element/simplify.rs"]}
{"id": "C98", "title": "bounds of the variables give bounds of the result", "statement": "If every variable lies within given finite bounds and interval arithmetic, done with the rounded f64 operations themselves, gives finite bounds for the expression (sums and differences of the ends, products and quotients between those of the ends, divisors whose bounds exclude zero, remainders of a non-negative by a positive number, rounding functions, sqrt, sum, mean, min, max, abs and recip by their values at the ends, other functions and '^' by bounds known for the platform), then eval succeeds for all such values of the variables and its result is a finite number within the bounds: no panic, NaN or overflow and no rounding error beyond the bounds. If nothing is taken modulo one, the same bounds hold for the results of every other build.", "quantifier": "every expression with bounds, every platform, every map with the variables within their bounds, every build", "why_tests_cant": "A box contains too many floats to try; overflow, a division by zero or a rounding beyond the bounds may happen only at single points inside of it.", "anchors": ["src/xprs.rs:272-362 (eval_element, eval_element_unchecked)", "src/utils/built_in_functions.rs:5-109", "src/element/simplify.rs"]}
{"id": "C99", "title": "programs that hold many expressions neither leak nor share nor free twice", "statement": "A program may parse, clone, simplify (in place or by value, one or several variables), evaluate and drop any number of expressions in any order. As long as no simplification panics, it sees exactly what it would see if expressions were plain values (copies are independent, an operation on one changes no other), and at any time every box ever allocated either belongs to exactly one expression that is held, once, or has been freed exactly once; after everything is dropped all have been freed exactly once. The same holds for the references to dynamic functions. If no text has two adjacent '!' and functions do not panic, no simplification and no evaluation ever panics. The first simplification that does panic leaves freed memory in use or has freed a box twice.", "quantifier": "every build, platform, context, sequence of commands of any length and every prefix of it", "why_tests_cant": "Universal over interleavings of operations on many expressions; a double free or a leak need not be visible in any result.", "anchors": ["src/xprs.rs:18-24 (derive Clone)", "src/xprs.rs:143-253", "src/element/simplify.rs", "src/element/mod.rs:20"]}
{"id": "C100", "title": "parsing leaks nothing and frees nothing twice", "statement": "Whatever the text and however parsing ends, every box that parsing allocates is accounted for: if it returns an expression, each box has been freed exactly once or is part of the expression exactly once; if it returns an error or panics, each has been freed exactly once. The same holds for the references to dynamic functions that parsing makes. Boxes of other expressions are not touched. In builds without compile-time-optimizations an accepted text frees nothing and allocates exactly the boxes and makes exactly the references of the result.", "quantifier": "every build, platform, context, hash order, byte string and state of the memory", "why_tests_cant": "A leak or double free on one of the many error paths does not show in any result.", "anchors": ["src/parser.rs:86-354", "src/element/simplify.rs", "src/element/binop.rs", "src/element/unop.rs", "src/element/function_call.rs"]}
{"id": "C101", "title": "a dynamic function lives exactly as long as something refers to it", "statement": "At any time in any program the strong count of the Arc of a dynamic function is the number of references the program holds itself (in contexts and elsewhere) plus the number of calls of that function in the expressions it holds: a function that some expression calls is never deallocated, even if the context is gone, and a function that no expression calls any more is kept alive by the program only.", "quantifier": "every build, platform, context, sequence of parses, clones, simplifications, evaluations and drops of any length, every dynamic function", "why_tests_cant": "Reference counts do not show in any result until a function is used after it was freed, or never is freed; universal over interleavings.", "anchors": ["src/token/function.rs:8-54", "src/parser.rs:236-274", "src/element/simplify.rs", "src/xprs.rs:143-253"]}
{"id": "C102", "title": "a library of functions means its text", "statement": "If functions are defined one after another, each by parsing a text in the context built so far, binding the expression to names with any bind function, wrapping the closure with xprs_fn! and putting it into the context (also under a name that is taken already), then an expression parsed with the whole library has, in every environment that gives its variables values, the value of the expression in which every call is replaced by the text of the function with the arguments in place of the names, again and again until only functions of the first context are called. No variables are needed that the expression does not have, and the functions defined before a name was redefined keep the old meaning.", "quantifier": "every sequence of definitions of any length and nesting, every final text, every environment", "why_tests_cant": "Universal over sequences of definitions, the texts of all of them and all values.", "anchors": ["README.md: Higher order functions", "src/xprs.rs: bind*", "src/token/function.rs: xprs_fn!", "src/context.rs: set_fn", "src/parser.rs: parse_identifier"]}
{"id": "C103", "title": "the parser stays within its text", "statement": "While a text is parsed the cursor never passes its end: no sum or difference of usize values overflows, no slice input[a..b] is out of range, and str::from_utf8_unchecked is only applied to ASCII. So builds with overflow checks and without, and builds for targets with a usize of different size, return the same for every text. (A text has at most isize::MAX bytes, as every str has.)", "quantifier": "every byte string, every context, every feature combination, overflow checks on or off, usize of 16, 32 or 64 bits", "why_tests_cant": "The bounds must hold at every cursor reached on any of infinitely many texts; an out-of-range slice or an overflow needs the one text that reaches it.", "anchors": ["src/parser.rs:113-121 (input, cursor)", "src/parser.rs:283-311 (parse_number)", "src/parser.rs:358-403 (take_while, skip_while, consume_if_eq, next, next_at)", "src/parser.rs:561-671 (ParseError::new_*)"]}
{"id": "C104", "title": "differences and quotients compare numbers", "statement": "If the expressions s and t have values that are not NaN and not the same infinity, (s)-(t) is negative, zero or positive exactly if s is less than, level with or greater than t: no difference is lost to underflow or rounding. If both are finite, not zero and of the same sign, (s)/(t) is less than, equal to or greater than 1 exactly if the magnitude of s is less than, equal to or greater than that of t. In builds without compile-time-optimizations this holds of all texts without further conditions, in the others for texts without doubtful steps (as in C16).", "quantifier": "all expressions and texts, all values including infinities and subnormal numbers, every build", "why_tests_cant": "Neighbouring numbers, subnormal ones and infinities are single points among 2^128 pairs; the claim is an equivalence over all of them.", "anchors": ["src/xprs.rs: eval, Minus and Divide of BinOp", "src/element/simplify.rs", "src/parser.rs: parse"]}
{"id": "C105", "title": "the rounding error of a sum can be computed", "statement": "The difference of two numbers within a factor of two of each other is exact. If the magnitude of y is at most that of x and x+y does not overflow, y-((x+y)-x) is exactly the error of x+y; without the order of the magnitudes, (x-((x+y)-y))+(y-((x+y)-((x+y)-y))) is, if (x+y)-y does not overflow either. Simplification, simplify_for and every build keep these values: no rule treats sums as if they were exact.", "quantifier": "all expressions in place of x and y, all finite values, every build", "why_tests_cant": "Exactness must hold for all pairs of floats; a simplification rule like (a+b)-a = b would agree with it on all sums that happen to be exact.", "anchors": ["src/element/simplify.rs: simplify_binop", "src/xprs.rs: eval", "src/xprs.rs: simplify_for"]}
{"id": "C106", "title": "the square root of a square", "statement": "If x*x neither overflows nor is smaller than the smallest normal number 2^-1022, sqrt(x*x) is exactly abs(x), although x*x is rounded; in every build and after simplify and simplify_for (where computing x takes no step for which the simplification rules are wrong, see C16).", "quantifier": "all expressions in place of x, all values in the range, every build", "why_tests_cant": "Two roundings must cancel for every one of the 2^62 numbers of the range.", "anchors": ["src/utils/built_in_functions.rs:54: SQRT", "src/xprs.rs: eval", "src/element/simplify.rs"]}
{"id": "C107", "title": "the mean lies between the smallest and the largest", "statement": "The mean of finite numbers is not smaller than all and not larger than all of them: if every argument lies between lo and hi, so does mean(...).", "quantifier": "every number of arguments, all finite values", "why_tests_cant": "Universal over lists of any length; it fails only where roundings of the partial sums add up.", "anchors": ["src/utils/built_in_functions.rs:82: MEAN", "README.md: Note2"]}
{"id": "C108", "title": "min and max form a lattice, and rising expressions pass through it", "statement": "Calls of min (of max) inside calls of min (of max) are one call with all the arguments, NaN and any number of arguments included; -min(a,...) is max(-a,...). For numbers, min(a,max(a,b)) and max(a,min(a,b)) are a, each distributes over the other, min(a,b)+max(a,b) is a+b, min(a,b)*max(a,b) is a*b, max(a,b)-min(a,b) is abs(a-b) and max(a,-a) is abs(a), all without any rounding difference (up to the sign of zero). An expression that rises with x has at the least (greatest) of some values of x the least (greatest) of its values, one that falls the greatest (least), roundings and overflow included. max(lo,min(x,hi)) with lo <= hi lies between lo and hi, is x where x lies there, lo below and hi above; it is hi where x is NaN.", "quantifier": "all argument lists, all f64 values, all expressions built from rising and falling operations, all texts put in for lo, x and hi", "why_tests_cant": "Universal over values including infinities and over lists of any length; roundings could break the exact laws at single pairs of numbers.", "anchors": ["src/utils/built_in_functions.rs: MIN, MAX", "README.md: Note: min and max can take any number of arguments"]}
{"id": "C109", "title": "fixing some variables and binding the others is binding all", "statement": "If every variable of an expression is among the names fixed with simplify_for_multiple or among those given to a bind function, then binding what is left succeeds. If the function of all variables returns a number for some values, then fixing succeeds and the function of the others returns a number for all values; and where evaluation takes no step for which the simplification rules are wrong (0*inf, x/0, x%1 and the like), it returns the same number (up to the sign of zero) as the function of all variables with the fixed values put in.", "quantifier": "every expression reached from a text, every list of fixed names and values, every one of the ten bind functions, every build, all values", "why_tests_cant": "The two sides run different code (folding then evaluating, against evaluating) on different trees for every expression, split of its variables and value.", "anchors": ["src/xprs.rs:219-253 (simplify_for_multiple)", "src/xprs.rs (bind..bind9, bind_n, bind_n_runtime)", "src/element/simplify.rs:19-44"]}
{"id": "C110", "title": "((x%y)+y)%y wraps", "statement": "For every finite x and every positive y that can be doubled, ((x%y)+y)%y is a number r with 0 <= r < y that differs from x by a multiple of y, up to at most y/2^52 (what the one sum can lose). If x%y + y is a number of the format, r is x - y*floor(x/y) exactly; for whole x and whole y up to 2^52 it is the remainder that is never negative. Any texts may be put in for x and y. If y is not 1 (optimisations take x%1 for 0) and computing x and y takes no step for which the simplification rules are wrong (0*inf, x/0 and the like), simplification, simplify_for and the builds with optimisations keep this.", "quantifier": "all expressions and texts in place of x and y, all finite values, every build", "why_tests_cant": "Universal over pairs of floats; r < y fails only where a rounded sum would reach 2y or the remainder of a rounded sum is off, and simplification rules could break it for single values of y (as one does for 1).", "anchors": ["src/xprs.rs:302 (eval of %)", "src/element/simplify.rs:196-218 (rules for %)", "src/parser.rs: element"]}
{"id": "C111", "title": "rounding errors of expressions with functions in which terms cancel", "statement": "Take an expression of numbers, variables, + - * / and calls, in which terms may cancel (but not in divisors), let q be its value over the real numbers, Q the value it would have with all terms taken positive, and k the number of roundings on the longest way (with products and quotients adding up). If all sizes Q of parts are zero or between 2^-1000 and 2^1000, it is evaluated to a number that differs from q by at most Q*k/2^52, in both evaluators, after simplification and simplify_for, and in every build; so its sign is right if |q| or the computed number is larger than that. abs, min and max add nothing, sum and mean one rounding for each argument (and one), sqrt divides Q by the root and adds one if the error of its argument is at most half of the argument; sin and cos of a platform that is right up to c roundings of numbers up to 1 turn Q and k into Q+1 and max(k, c), and likewise any function of the platform that does not grow faster than L.", "quantifier": "all expressions of this kind, all values, all real numbers they stand for, all numbers of arguments, every build and platform", "why_tests_cant": "It bounds the error for all inputs at once; the worst cases of cancellation are rare pairs of inputs that no sample is likely to contain.", "anchors": ["src/xprs.rs:280-320 (eval)", "src/element/simplify.rs", "src/utils/built_in_functions.rs (abs, min, max, sum, mean, sqrt, sin, cos)"]}
{"id": "C112", "title": "rounding to decimal places", "statement": "For floor, ceil, round and trunc as f and every power 10^k of ten in the format: if x is finite and x*10^k does not overflow, f(x*10^k)/10^k is the number nearest to N/10^k, that is the literal N with the point in front of the last k digits, for the whole number N that f makes of the rounded product (which is x*10^k itself if that is in the format), and Display prints it with at most k places. round leaves every literal with k places and at most 2^49 units unchanged; floor, ceil and trunc do not (floor(0.29*100)/100 is 0.28, ceil(1.1*100)/100 is 1.11). The same after simplification and simplify_for and in every build.", "quantifier": "all finite x, all k, all operands and texts, every build and platform", "why_tests_cant": "Whether scaling, rounding and scaling back always gives the literal, for every number and every number of places, depends on two correctly rounded operations; samples cannot show that no digit ever appears behind the k-th.", "anchors": ["src/utils/built_in_functions.rs (floor, ceil, round, trunc)", "src/xprs.rs:280-320 (eval)", "src/element/simplify.rs"]}
{"id": "C113", "title": "the order in which an expression is written", "statement": "Two expressions that differ only in the order of the two operands of + and *, in the order of the arguments of min and max, in arguments of these given more than once, or in calls of min (max) put among the arguments of min (max), anywhere and any number of times, have the same value up to the sign of a zero, if no operation is a doubtful one (division by zero, NaN); also if the two are texts parsed by different builds. sum may get whole numbers with absolute values of at most 2^53 together in every order; other numbers (n of them, zero or at least 2^-1000) give sums that differ by at most 2n/2^52 times the sum of their absolute values, and can differ.", "quantifier": "all expressions, all values, all rearrangements, all numbers of arguments, every build and platform", "why_tests_cant": "There are infinitely many rearrangements of infinitely many expressions; the worst differences of sums are rare.", "anchors": ["src/utils/built_in_functions.rs (min, max, sum)", "src/xprs.rs:280-320 (eval)", "src/element/simplify.rs"]}
{"id": "C114", "title": "the debug output of errors and parsers", "statement": "What {:?} writes for an error of parsing determines the text that was parsed and the error (kind with its characters and names, offset, length); what it writes for an error of evaluating or binding determines the error. All of these are one line without control characters, whatever the text holds (their {} is not: a control character is written as it is). What {:?} writes for a parser determines its symbols and expected variables up to what functions compute; a build without optimisations makes of each text, under two parsers that print alike, expressions of the same form that print alike, or the same error (with the names of the undeclared variables in some order), or the same panic. The derived orders of errors are total, agree with equality, and go by the kind first.", "quantifier": "all texts, contexts, expressions, histories, maps, sets of printable characters, orders of the hash tables, builds and platforms", "why_tests_cant": "That no two of infinitely many errors print alike, with quotes, backslashes, line ends and braces in the text, needs an argument about the escapes.", "anchors": ["src/parser.rs:451-460 (ParseError)", "src/parser.rs:528-559 (ErrorKind)", "src/xprs.rs:365-369 (EvalError)", "src/xprs.rs:732-741 (BindError)", "src/context.rs:7-59 (Symbol, Context)", "src/parser.rs:37-41 (Parser)"]}
{"id": "C115", "title": "whole-number arithmetic with quotients made whole is exact", "statement": "In an expression over whole numbers with + - * / % ! abs, min, max and sum, in which a quotient is either whole or at once made whole by floor, ceil, trunc (dividend below 2^53) or round (dividend below 2^52), and no result on the way is beyond 2^53, the computed value is exactly the integer one: the rounding of the division never moves a quotient across a whole number (or a half). The same holds after simplification, after fixing a variable and in every build. So a/b is computed as a whole number exactly if b divides a, a % b is zero exactly then, and a - b*floor(a/b) is the remainder with the sign of b, a - b*trunc(a/b) the one a % b gives. Beyond the bounds, and for operands that are not whole (floor(6/0.1)), it fails.", "quantifier": "all trees of that form of any size, all whole operands within the bounds, all maps, builds and worlds", "why_tests_cant": "There are about 2^106 pairs of operands, and a wrong quotient would show only where the true quotient is within 2^-53 of a whole number; no sample reaches all of these.", "anchors": ["src/utils/built_in_functions.rs: FLOOR, CEIL, TRUNC, ROUND, MIN, MAX, SUM", "src/xprs.rs: eval_element, simplify_for", "src/element/simplify.rs"]}
{"id": "C116", "title": "sums of decimal amounts, rounded to their places, are those of decimal arithmetic", "statement": "Take amounts with k decimal places (k <= 15, given as literals or in variables), added, subtracted, summed with sum and multiplied by whole numbers, and round the result as round(... * 10^k) / 10^k. If the absolute amounts come to B units of the last place, n roundings are made on the longest way through the expression, and B*(n+2) < 2^51, then the value is exactly the literal of the amount that decimal arithmetic gives, and prints with at most k places; in both evaluators, after simplification, after fixing a variable and in every build. So two such results are equal exactly if the exact amounts are equal, and ordered as they are. Without the rounding the error is at most B*n/2^52 units. With rates, quotients and functions the rounded value is still the nearest literal to the exact one whenever the exact one is further from a tie than the roundings add up to. Without rounding (0.1+0.2), or with floor for round, it fails.", "quantifier": "all expressions of that form of any size, all amounts within the bound, all numbers of places up to 15, all maps, builds and worlds", "why_tests_cant": "The amounts and the shapes of the expression are unbounded in number, and a wrong last digit would show only where the errors happen to add up to half a unit.", "anchors": ["src/utils/built_in_functions.rs: ROUND, SUM", "src/xprs.rs: eval_element, simplify_for", "src/element/simplify.rs", "src/parser.rs: parse_number"]}
{"id": "C117", "title": "dividing and multiplying back", "statement": "A number with at most 52 binary digits divided by a whole number with one or two binary digits other than zero (1, 2, 3, 4, 5, 6, 8, 9, 10, 12, 16, ...) and multiplied by it again is the number, and three thirds of it added make the number; in both evaluators, after simplification, and from the text in every build. Of the divisors 1..100 it holds for those only: for each other one some whole number below 2^52 is not restored. With 53 digits it fails: 7622602863731155/3*3 is not 7622602863731155.", "quantifier": "all numbers of at most 52 digits not less than n/2^1022, all divisors of that form up to 2^53 (for whole numbers) or in proportion to the number, all maps, builds and worlds", "why_tests_cant": "The quotient is rounded in nearly every case; that the product rounds back depends on the parity of the error, and fails for a few numerators only with any other divisor.", "anchors": ["src/xprs.rs: eval_element", "src/element/simplify.rs", "src/parser.rs: parse_number"]}
{"id": "C118", "title": "the indented debug output says what the one-line output says", "statement": "What {:#?} writes for an error of parsing, evaluating or binding, for a parser, and for an expression made in a context, is over several lines exactly what {:?} writes on one: leaving out the line ends with the blanks behind them, and the comma behind the last entry of each bracket, gives it back, whatever quotation marks, brackets, commas and line ends the text and the names hold. So it determines the parsed text and the error, the error of binding, and the parser up to what functions compute, as {:?} does (C114).", "quantifier": "all texts, errors, contexts, expressions, histories, sets of printable characters (none of them control characters), orders of the hash tables, builds and platforms", "why_tests_cant": "The text of an error may hold anything, also what looks like the end of a bracket; that nothing in it is taken for layout needs an argument about the escapes at every depth.", "anchors": ["src/parser.rs:451-460 (ParseError)", "src/parser.rs:528-559 (ErrorKind)", "src/xprs.rs:365-369 (EvalError)", "src/xprs.rs:732-741 (BindError)", "src/context.rs:7-59 (Symbol, Context)", "src/parser.rs:37-41 (Parser)", "src/xprs.rs:18-25 (Xprs)"]}
{"id": "C119", "title": "comparing products and quotients with a number", "statement": "Let k be a number of the format with magnitude at least 2^-1021. If the dividend (or the divisor) that makes the quotient k is a number of the format, then a computed quotient x/y is less than, equal to or greater than k exactly if the quotient of the numbers x and y is; likewise a computed product, if the factor that makes the product k is in the format. So if s*y = k, s/y = k or y/s = k exactly, then x*y, x/y or y/x computes to k at no other number x than s. In both evaluators, and from the texts (s)/(t) and (s)*(t) in every build.", "quantifier": "all finite operands, all k from 2^-1021 in magnitude, all maps, builds, contexts and worlds (in optimizing builds: parts with no doubtful step, as in C16)", "why_tests_cant": "Only operands next to the boundary could round onto it; that none does depends on how the spacings of operand and result compare, for every pair of numbers.", "anchors": ["src/xprs.rs: eval_element", "src/element/simplify.rs", "src/parser.rs"]}
{"id": "C120", "title": "whole parts of quotients", "statement": "floor, ceil, trunc and round make of the computed quotient of any number by a whole number what they make of the quotient itself, as long as the sum of their magnitudes is at most 2^53 (for round: less than 2^52) and, for floor and ceil, a quotient smaller than 2^-1074 is not on the side of zero where it matters. So dropping fractions after dividing by one whole number and then by another gives what dropping them after dividing by the product gives: f(f(x/a)/b) = f(x/(a*b)) for floor, ceil and trunc.", "quantifier": "all finite dividends and whole divisors within those bounds, all maps, builds, contexts and worlds", "why_tests_cant": "The dividend is any binary64 number, and the quotient is nearly always rounded; the dangerous ones are those within half a unit of a multiple of the divisor.", "anchors": ["src/xprs.rs: eval_element", "src/utils/built_in_functions.rs (floor, ceil, trunc, round)", "src/element/simplify.rs"]}
{"id": "C121", "title": "where a formula passes a number", "statement": "Take a formula made from an inner expression by additions, subtractions, multiplications, divisions by an operand and signs (the other operand of each step being any expression with a finite value), such that these steps, done exactly, lead from a number s to a number k through numbers of the format only; products and quotients on the way being at least 2^-1021 in magnitude, and each sum not in a coarser part of the format than the number it is made from. Then the computed value of the formula is less than, equal to or greater than k exactly if the value of the inner expression, infinities included, is less than, equal to or greater than s (the other way round for falling formulas), although any of the steps may round at all other values. So (x-32)*5/9 is computed to be 100 at x = 212 and nowhere else. In both evaluators, after simplification, and for texts in every build.", "quantifier": "all formulas of this kind of any length, all values of the inner expression that are not NaN, all maps, worlds, builds and contexts (in optimizing builds: formulas with no doubtful step, as in C16)", "why_tests_cant": "A computed value can meet the threshold wrongly only next to it, after any number of roundings; that it never does is a statement about every number and every formula.", "anchors": ["src/xprs.rs: eval_element", "src/element/simplify.rs", "src/parser.rs"]}
{"id": "C122", "title": "brackets of rounded formulas", "statement": "Let f be floor, ceil, round or trunc, N a whole number, and lo and hi the ends of the numbers of which f makes N. If a formula as in C121 passes lo at the number s and hi at the number t, then f of the computed value of the formula is N exactly if the value of the inner expression (any but NaN, infinities included) lies between s and t, each end counted or not as it is for f, in reverse order for falling formulas. So floor((x-1900)/100) is 1 exactly for the numbers from 2000 to less than 2100. In both evaluators, after simplification, and for texts in every build.", "quantifier": "all four functions, all whole N, all formulas of any length, all values that are not NaN, all maps, worlds, builds and contexts (in optimizing builds: formulas with no doubtful step, as in C16)", "why_tests_cant": "The numbers next to the ends of each bracket, for every formula, would have to be tried; between them the claim is about all numbers.", "anchors": ["src/xprs.rs: eval_element", "src/utils/built_in_functions.rs (floor, ceil, round, trunc)", "src/element/simplify.rs"]}
{"id": "C123", "title": "quotient and remainder fit together", "statement": "Let x be any number (not only a whole one) and n a whole number other than zero, |x|+|n| at most 2^53 (less than 2^52 for round). Then n*f(x/n) is computed exactly for f among floor, ceil, trunc and round (for floor and ceil if the quotient does not vanish on the side where it matters); x-n*f(x/n) is exactly what is left of x, always for trunc and round, for floor if the quotient is not negative, for ceil if it is not positive; x-n*trunc(x/n) equals x%n, and n*trunc(x/n)+x%n gives x back, exactly. In both evaluators, after simplification, and for texts in every build.", "quantifier": "all numbers x and whole n in these bounds, all expressions with these values, all maps, worlds, builds and contexts (in optimizing builds: parts with no doubtful step, as in C16, and not x%1 unless x is whole)", "why_tests_cant": "Four rounded operations are claimed to be exact for all of the about 2^63 numbers x and all whole n at once.", "anchors": ["src/xprs.rs: eval_element", "src/utils/built_in_functions.rs (floor, ceil, round, trunc)", "src/element/simplify.rs"]}
{"id": "C124", "title": "length of a hypotenuse", "statement": "Let the values of a and b be numbers that are zero or of magnitude from 2^-511 to 2^510. Then the computed sqrt(a*a+b*b) is a number, not less than |a| and not less than |b|, and not more than the computed abs(a)+abs(b): the three roundings never make the hypotenuse shorter than a side or longer than the detour along both sides. If the squares of all three sides of a right triangle are numbers of the format (as for all triangles with whole sides below 2^26), the result is exactly the third side. In both evaluators, after simplification, and for texts in every build.", "quantifier": "all numbers in these bounds, all expressions a and b with these values, all maps, worlds, builds and contexts (in optimizing builds: sides with no doubtful step, as in C16)", "why_tests_cant": "The upper bound is tight where the smaller side is just lost in rounding; the claim is about all pairs of numbers.", "anchors": ["src/xprs.rs: eval_element", "src/utils/built_in_functions.rs (sqrt, abs)", "src/element/simplify.rs"]}
{"id": "C125", "title": "linear interpolation stays within its ends", "statement": "Let a and b be numbers at a distance of at most 2^1023 and t a number with 0 <= t < 1. Then the computed a+(b-a)*t, with its three roundings, is a number between a and b, the ends included, whichever of the two is larger. As t goes from 0 to 1 it never moves back. At t = 0 it is a; at t = 1 it is b if b-a needs no rounding, and otherwise it can pass b (an example shows that). In both evaluators; that it stays between also after simplification, and for texts in every build.", "quantifier": "all numbers a, b, t in these bounds, all expressions with these values, all maps, worlds, builds and contexts (in optimizing builds: parts with no doubtful step, as in C16)", "why_tests_cant": "The formula is known to overshoot; that it does so only at t = 1 needs an argument about the number next below one and all pairs of ends.", "anchors": ["src/xprs.rs: eval_element", "src/element/simplify.rs"]}
{"id": "C126", "title": "infinity and NaN have a cause", "statement": "If an evaluation returns infinity or NaN, then at some place in the expression this happens for the first time: a literal or variable there is infinite or NaN, or an operation has numbers for its operands and no number for its result, because the exact result of + - * / is at least 2^1024 - 2^970 in magnitude, or it divides or takes the remainder by zero, or takes the factorial of something that is not a natural number up to 170, or ^ or a function returns infinity or NaN. And conversely all parts of the expression have numbers for their values exactly if there is no such place. Among the functions that do not depend on the platform, abs, floor, ceil, round, trunc, fract, min and max of numbers are numbers, sqrt fails exactly for negative numbers, recip for zero and where 1/x is too large, sum and mean where a partial sum becomes too large. If there is no such place in the tree of a text (without ^ and % by one), every build computes the same number.", "quantifier": "all expressions, values, maps, worlds; all texts and builds (for the last sentence: functions whose results do not depend on signs of zeros, as the ones named)", "why_tests_cant": "It is a statement about every way in which a number can get lost, with the exact limit of overflow, for trees of any shape.", "anchors": ["src/xprs.rs: eval_element", "src/utils/factorial.rs", "src/utils/built_in_functions.rs", "src/element/simplify.rs"]}
{"id": "C127", "title": "a formula in factored form never has the wrong sign", "statement": "Take an expression built with signs, *, / and abs from parts that can be computed without rounding (variables and literals for example) and from sums and differences of two such parts, as in (x-1)*(x-3)/(x+y). Its evaluation returns a value, in both ways of evaluating, and that value never has the wrong sign: where the exact value is zero, the result is zero or NaN, a positive result or positive infinity means that the exact value is positive, a negative one that it is negative. A result of zero for an exact value that is not zero comes only from a product or quotient of non-zero numbers that is at most 2^-1075 in magnitude or from a division by an infinite intermediate result, never from a difference. The sign is kept by every build if no doubtful step (NaN, division by zero) is taken. For other forms this does not hold: 1+2*x-1-x at x = 2^-1074 has a negative result and a positive value.", "quantifier": "all expressions of the form and all values of the variables; both builds", "why_tests_cant": "The sign must be right for every rounding of every factor, including overflow and underflow, for products of any length.", "anchors": ["src/xprs.rs: eval_element", "src/element/simplify.rs"]}
{"id": "C128", "title": "which builds there are, and what dependents of the crate share", "statement": "Cargo builds the crate once for all packages that depend on it, with all features any of them asks for. The build succeeds exactly if the compiler can be asked for its version (at least 1) and the dependents together ask for exactly one of pemdas and pejmdas (leaving the default features on asks for pemdas); otherwise the message says which of the two mistakes was made. The resulting configuration has simplification if one of the dependents asks for it, the precedence of implicit multiplication of the order asked for, and the nightly code exactly with a nightly compiler; unstable features are never requested of a compiler that refuses them. Every configuration is the build of some dependent. Dependents that build alone do not always build together: they do exactly if all ask for the same order of operations. A further dependent can change an existing build only by switching simplification on; texts are accepted as before (under the conditions of C16).", "quantifier": "all compilers, profiles, targets and all lists of dependents with any requests", "why_tests_cant": "A test suite is compiled in one configuration; the statement is about all combinations of dependents, of which the project has none under test.", "anchors": ["Cargo.toml: features", "build.rs: main", "src/lib.rs: compile_error", "src/utils/precedence.rs: IMPLICIT_MULTIPLICATION_PRECEDENCE", "src/parser.rs: element"]}
{"id": "C129", "title": "what is on the screen when the REPL waits, ends or cannot write", "statement": "Whenever the REPL waits for a line, be it an expression or the value of a variable, everything it has printed so far has been handed on by the line-buffered standard output, the question included. After every turn, and however the program ends, all of its transcript (C92) is out. If the output fails in the middle of a call (a closed pipe, a full disk), what has come through is a beginning of the transcript that contains all that was printed before the last line was read; the program then ends with an error: returned from main if it was flushing the prompt of the loop, as a panic otherwise. A turn takes from the input exactly one line, and one for each variable of the expression.", "quantifier": "all sessions: all inputs, builds, orders of variables, every behaviour of the buffer and every call at which the output may fail", "why_tests_cant": "It is about all points in time of all sessions and about every way in which a buffered output can hold back or lose text.", "anchors": ["src/bin/repl.rs: main", "src/bin/repl.rs: ask_for_variables"]}
{"id": "C130", "title": "formulas that are rounded once compare like their exact values", "statement": "Take two formulas in each of which at most one operation is rounded: a sum, difference, product or quotient of parts that need no rounding (variables, literals, signs, abs, floor, ceil, trunc, min and max of two), with signs and abs around it. If the exact value of the first is not greater than that of the second, then neither is its result; equal exact values give equal results (up to the sign of zero); and a result that is really less shows that the exact value is. The same holds for whole parts: floor of such a formula is not less than the result of another whose value is a whole number not greater than the first's, and likewise for ceil. So these hold as computed: abs(a+b) <= abs(a)+abs(b), abs(abs(a)-abs(b)) <= abs(a-b), min(a,b)+max(a,b) = a+b, min(a,b)*max(a,b) = a*b, max(a,b)-min(a,b) = abs(a-b), floor(a)+floor(b) <= floor(a+b), ceil(a+b) <= ceil(a)+ceil(b). All builds agree with this where no doubtful step is taken. With two roundings it does not hold (x+1-1 against x).", "quantifier": "all formulas of the form, all values of the variables, overflow and underflow included; both builds", "why_tests_cant": "An inequality that holds up to the last bit must be shown for all pairs of operands; counterexamples to such laws are typically single bit patterns.", "anchors": ["src/xprs.rs: eval_element", "src/utils/built_in_functions.rs", "src/element/simplify.rs"]}
{"id": "C131", "title": "counting with factorials", "statement": "Write the number of choices of k out of n things as n!/(k!*(n-k)!), and with regard to order as n!/(n-k)!, where n and k are any expressions that evaluate to whole numbers with k <= n. For n up to 22 both formulas are exact. For n up to 170 they have a value whose relative error is at most 2^-48, and round(...) of them is exactly the number of choices if that is below 2^47. Simplification, simplify_for and every build keep this. Beyond n = 170 the result is no number (infinity or NaN), and for k > n it is NaN, not 0. floor in place of round does not do: floor(24!/(1!*23!)) is 23.", "quantifier": "all operands, all n and k, every platform, every build", "why_tests_cant": "The table of factorials is not correctly rounded, three entries and two roundings add up, and there are as many texts for n and k as expressions; which of them come out exactly can only be shown for all at once.", "anchors": ["src/utils/factorial.rs", "src/xprs.rs: eval_element", "src/element/simplify.rs"]}
{"id": "C132", "title": "values of other types given to a context keep their number", "statement": "set_var and with_var accept every type that converts into f64: f64, f32, bool, i8, i16, i32, u8, u16 and u32. Whatever value of these types is given under a name, the text that is this name evaluates, in every build and with both evaluators, to exactly the number the value stands for (true is 1, false 0; an f32 by its sign, exponent and fraction, subnormals included), whatever had the name before. Infinities and NaN of f32 stay what they are, the sign of a zero is kept, and only floats have a negative zero. Values of different types compare as their numbers do, and a literal that stands for the same number is the same constant; so 0.5_f32 is 0.5, but 0.1_f32 is not the constant 0.1.", "quantifier": "all values of all these types, all names, all contexts, every build", "why_tests_cant": "There are 2^32 values of f32, i32 and u32 each, times all names and contexts; a conversion that loses a bit does so for few of them.", "anchors": ["src/context.rs: set_var, with_var", "src/token/identifier.rs: From<Symbol>", "src/parser.rs: parse"]}
{"id": "C133", "title": "whole parts of square roots", "statement": "For every whole number n below 2^52, whatever expression it is given by, floor(sqrt(n)), trunc(sqrt(n)) and ceil(sqrt(n)) are exactly the whole numbers next to the real root of n, although the computed root is rounded; round(sqrt(n)) is the whole number nearest to the real root for every n below 2^50. Below 2^52 the computed sqrt(n) is a whole number exactly when n is a square, and then it is its root. Simplification, simplify_for and every build keep these numbers. The limits are needed: floor(sqrt(2^52+2^27)) and round(sqrt(2^50+2^25)) are one too large, ceil(sqrt(2^52+1)) is one too small, and the computed root of 2^52+1 is whole.", "quantifier": "all whole numbers up to the limits, all expressions that give them, all trees, all variables, every build", "why_tests_cant": "There are 2^52 numbers, and the critical ones are next to the squares and to the products k(k+1); a root that is a unit off is noticed only there.", "anchors": ["src/utils/built_in_functions.rs (sqrt, floor, ceil, round, trunc)", "src/xprs.rs: eval, simplify_for", "src/parser.rs: parse"]}
{"id": "C134", "title": "quadratic equations with whole coefficients", "statement": "Let the expressions a, b, c give whole numbers A (not zero, below 2^50 in magnitude), B and C with B^2 + 4|AC| below 2^52. If A*X^2 + B*X + C = 0 has a rational solution, (-b+sqrt(b*b-4*a*c))/(2*a) and the same with - give all its solutions, each rounded once to nearest: a solution that is a number of f64 is found exactly, with + the one where 2AX+B is not negative. Both formulas are NaN exactly when the equation has no real solution. Simplification, simplify_for and every build keep the solutions. The bound is needed: for X^2 - (2^27+1)X + 2^52 + 2^26 = 0 both formulas give the number between the two solutions.", "quantifier": "all whole coefficients within the bounds, all expressions that give them, all variables, every build", "why_tests_cant": "There are about 2^100 equations; whether there is a solution depends on the last bit of a difference of products, and a wrong root shows only for some.", "anchors": ["src/xprs.rs: eval_element, simplify_for", "src/utils/built_in_functions.rs (sqrt)", "src/element/simplify.rs", "src/parser.rs: parse"]}
