{"id": "C01", "title": "UTF-8 encode/decode round trip", "statement": "Encoding any Unicode scalar value with encode_codepoint and decoding the resulting bytes with decode_codepoint (with any bytes following) returns the same code point and exactly the number of bytes written; surrogates and values above U+10FFFF encode to nothing.", "quantifier": "every char32_t value and every byte string following the encoding", "why_tests_cant": "1,112,064 scalar values times unbounded suffixes; the case boundaries (7F/80, 7FF/800, D7FF/D800, FFFF/10000, 10FFFF/110000) interact with the suffix", "anchors": ["peglib.h:encode_codepoint", "peglib.h:decode_codepoint", "peglib.h:codepoint_length"]}
{"id": "C02", "title": "UTF-8 decoding stays inside the buffer", "statement": "codepoint_length and decode_codepoint never report more bytes than remain, report the same number of bytes as each other, and report 0 only for an empty buffer, a stray continuation/invalid lead byte or a truncated sequence.", "quantifier": "every byte string of every length, valid UTF-8 or not", "why_tests_cant": "all byte strings of unbounded length; out-of-bounds reads are silent in tests", "anchors": ["peglib.h:codepoint_length", "peglib.h:decode_codepoint"]}
{"id": "C03", "title": "Code point counting (columns)", "statement": "codepoint_count of the UTF-8 encoding of n scalar values is n; on any bytes at all it terminates and lies between ceil(len/4) and len.", "quantifier": "every sequence of scalar values; every byte string", "why_tests_cant": "unbounded strings including malformed ones", "anchors": ["peglib.h:codepoint_count"]}
{"id": "C04", "title": "Escaping for display is undone by resolving escapes", "statement": "resolve_escape_sequence(escape_characters(s)) = s for every string s containing no backslash, and resolve_escape_sequence is the identity on strings without backslashes. (escape_characters does not escape the backslash itself, so the claim fails for strings containing one.)", "quantifier": "every byte string", "why_tests_cant": "round trip over all byte strings", "anchors": ["peglib.h:escape_characters", "peglib.h:resolve_escape_sequence"]}
{"id": "C05", "title": "Numeric escapes in literals denote the written code point", "statement": "In a grammar literal, \\x and \\u followed by hex digits, and \\ followed by octal digits, denote the code point with that value, encoded as UTF-8, independent of the ordinary text that follows the escape.", "quantifier": "every hexadecimal digit string and following text", "why_tests_cant": "unbounded digit strings; failure depends on the following character", "anchors": ["peglib.h:resolve_escape_sequence", "peglib.h:parse_hex_number", "peglib.h:parse_octal_number"]}
{"id": "C06", "title": "Complemented predefined classes are exact complements", "statement": "\\D, \\W, \\S and [:^name:] match a code point in 0..10FFFF iff the un-negated class does not, for every sorted non-overlapping range list; every predefined class table is sorted and non-overlapping.", "quantifier": "every sorted disjoint range list and every code point", "why_tests_cant": "quantifies over all range lists and all code points; off-by-one at range boundaries", "anchors": ["peglib.h:complement_character_ranges", "peglib.h:predefined_character_class"]}
{"id": "C07", "title": "Character class membership", "statement": "[..] matches exactly one code point c iff c lies in one of the listed ranges, [^..] iff it lies in none, and the ASCII bitset fast path gives the same answer as the range scan.", "quantifier": "every range list, every input and position", "why_tests_cant": "every range list and code point; the fast path and slow path must agree everywhere", "anchors": ["peglib.h:CharacterClass", "peglib.h:CharacterClass::parse_core"]}
{"id": "C08", "title": "Bulk scan of a repeated class equals repetition", "statement": "[class]* / + / {m,n} executed by the span fast path consumes exactly what repeating the single-class match one code point at a time would consume and succeeds in exactly the same cases.", "quantifier": "every class, min, max, input and position", "why_tests_cant": "two code paths must agree on all inputs incl. malformed UTF-8 and limits", "anchors": ["peglib.h:Repetition::parse_core", "peglib.h:CharacterClass::span_match"]}
{"id": "C09", "title": "Dictionary longest match", "statement": "The dictionary operator 'a' | 'b' | ... (case-sensitive or not) matches iff some word is a prefix of the remaining input, and then consumes the length of the longest such word.", "quantifier": "every word list and every input", "why_tests_cant": "all word lists including prefixes of each other and duplicates in any order", "anchors": ["peglib.h:Trie", "peglib.h:Dictionary::parse_core"]}
{"id": "C10", "title": "Dictionary reports the index of the matched word", "statement": "After a dictionary match the semantic value's choice() is the index in the grammar of (the first occurrence of) the word that matched.", "quantifier": "every word list and every input", "why_tests_cant": "depends on the relative order of words sharing a prefix", "anchors": ["peglib.h:Trie::match", "peglib.h:Dictionary::parse_core"]}
{"id": "C11", "title": "Line/column of a position", "statement": "line_info(start, cur) returns 1 + number of newlines before cur, and 1 + the number of code points between the last newline and cur.", "quantifier": "every text and every position in it", "why_tests_cant": "all texts and positions", "anchors": ["peglib.h:line_info"]}
{"id": "C12", "title": "Line/column caching never changes the answer", "statement": "Context::line_info (incremental, starting from the previously queried position or a line table) returns for each query the same answer regardless of which positions were queried before and in which order, equal to the direct computation.", "quantifier": "every text and every sequence of queries", "why_tests_cant": "history dependence over unbounded query sequences", "anchors": ["peglib.h:Context::line_info"]}
{"id": "C13", "title": "Error report is the furthest failure", "statement": "While no label/message is involved, the position reported for a failed parse is the maximum over all terminal failures recorded, the expected tokens are exactly those recorded at that position, and earlier failures never overwrite it.", "quantifier": "every sequence of recorded failures", "why_tests_cant": "depends on the whole failure history", "anchors": ["peglib.h:ErrorInfo", "peglib.h:Context::set_error_pos", "peglib.h:parse_literal"]}
{"id": "C14", "title": "Packrat store behaves as a map", "statement": "The open-addressing packrat table returns for a (rule, position) exactly the last result stored for it, or none if nothing was stored (since the last clear of that rule), through any number of insertions and growths.", "quantifier": "every sequence of insert/lookup/clear operations and any hash placement", "why_tests_cant": "unbounded operation histories, collisions and rehashes", "anchors": ["peglib.h:PackratCache"]}
{"id": "C15", "title": "Packrat parsing is transparent", "statement": "enable_packrat_parsing() does not change whether a parse succeeds, how much it consumes or the semantic values produced.", "quantifier": "every grammar and input", "why_tests_cant": "equivalence of two executions over all grammars/inputs; counterexamples need particular context changes between two visits of one (rule, position)", "anchors": ["peglib.h:Context::packrat", "peglib.h:Definition::packrat", "peglib.h:Holder::parse_core"]}
{"id": "C16", "title": "A match never extends past the end of the input", "statement": "Whatever the grammar, a successful (sub)match consumes at most the number of remaining bytes, and no byte outside [s, s+n) is read.", "quantifier": "every grammar, input, position and state", "why_tests_cant": "all grammars and inputs", "anchors": ["peglib.h:Ope::parse", "peglib.h:parse_literal"]}
{"id": "C17", "title": "Parsing is deterministic and more resources never change the answer", "statement": "Two parses of one input with one grammar yield the same result, values and log; a parse that terminates does so with a unique result.", "quantifier": "every grammar and input", "why_tests_cant": "universally quantified over grammars/inputs", "anchors": ["peglib.h:Ope::parse", "peglib.h:Definition::parse_core"]}
{"id": "C18", "title": "Predicates consume nothing and leave no trace", "statement": "&e and !e never consume input and leave no semantic values, tokens, tags or captures behind, whatever e does.", "quantifier": "every expression e, input and state", "why_tests_cant": "all e, including those that capture or fail midway", "anchors": ["peglib.h:AndPredicate::parse_core", "peglib.h:NotPredicate::parse_core"]}
{"id": "C19", "title": "Ordered choice commits to the first success", "statement": "e1 / e2 / ... returns the result of the first alternative that succeeds at the position (when no cut is used), choice() is its index, choice_count() the number of alternatives, and failed alternatives leave no values or captures.", "quantifier": "every list of alternatives, input and state", "why_tests_cant": "all alternatives; residue appears only after partially successful alternatives", "anchors": ["peglib.h:PrioritizedChoice::parse_core"]}
{"id": "C20", "title": "Sequence appends values in order", "statement": "A sequence succeeds iff each element succeeds in turn from where the previous one stopped; it consumes the sum of lengths and values appear in element order.", "quantifier": "every sequence, input and state", "why_tests_cant": "unbounded sequences", "anchors": ["peglib.h:Sequence::parse_core"]}
{"id": "C21", "title": "Repetition is greedy with exact bounds", "statement": "e{m,n} / e* / e+ / e? match as many successive e as possible up to n, succeed iff at least m matched, and a failing last attempt leaves nothing behind.", "quantifier": "every e, m, n, input and state", "why_tests_cant": "unbounded iteration counts", "anchors": ["peglib.h:Repetition::parse_core"]}
{"id": "C22", "title": "Parsing terminates", "statement": "For a grammar accepted by load_grammar, parsing every input terminates.", "quantifier": "every accepted grammar and every input", "why_tests_cant": "a non-terminating case cannot be observed by a finite test, and the accepted grammars are infinite", "anchors": ["peglib.h:DetectInfiniteLoop", "peglib.h:DetectLeftRecursion", "peglib.h:Holder::parse_core", "peglib.h:Repetition::parse_core"]}
{"id": "C23", "title": "Cut commits", "statement": "After the cut operator has been passed inside an alternative, failure of that alternative makes the whole choice fail without trying the later alternatives; a cut inside a nested choice does not affect the enclosing one.", "quantifier": "every grammar using the cut operator, every input", "why_tests_cant": "all nestings", "anchors": ["peglib.h:Cut::parse_core", "peglib.h:PrioritizedChoice::parse_core"]}
{"id": "C24", "title": "Captures and back-references", "statement": "$name matches exactly the text most recently captured under that name in scope; captures made by an alternative, iteration or predicate that is abandoned are forgotten; $( ) scopes hide their captures.", "quantifier": "every grammar with captures and every input", "why_tests_cant": "depends on the whole backtracking history", "anchors": ["peglib.h:Capture", "peglib.h:CaptureScope", "peglib.h:BackReference::parse_core", "peglib.h:Context::capture_entries"]}
{"id": "C25", "title": "Token boundary", "statement": "<e> yields as token exactly the text matched by e, without the whitespace skipped after it; inside < > no whitespace is skipped between literals.", "quantifier": "every e, whitespace rule and input", "why_tests_cant": "all e and inputs", "anchors": ["peglib.h:TokenBoundary::parse_core", "peglib.h:Context::skip_whitespace"]}
{"id": "C26", "title": "All per-parse stacks and flags are restored", "statement": "After any (sub)parse, successful or not, the rule stack, argument stack, cut stack, token-boundary counter, whitespace flag and predicate/logging flags are what they were before.", "quantifier": "every expression, input and state", "why_tests_cant": "needs every path incl. early failures", "anchors": ["peglib.h:Context", "peglib.h:Holder::parse_core", "peglib.h:Reference::parse_core", "peglib.h:TokenBoundary::parse_core", "peglib.h:Whitespace::parse_core"]}
{"id": "C27", "title": "Optimised parsing refines plain PEG semantics", "statement": "First-set filtering of alternatives, keyword guards, span scans, recognise-only mode, logging and packrat annotations change neither success nor consumed length compared with the plain PEG semantics of the grammar.", "quantifier": "every grammar, input and combination of optimisations", "why_tests_cant": "program equivalence", "anchors": ["peglib.h:PrioritizedChoice::parse_core", "peglib.h:Sequence::parse_core", "peglib.h:Repetition::parse_core", "peglib.h:SetupFirstSets"]}
{"id": "C28", "title": "First sets are sound", "statement": "An alternative skipped because the next byte is not in its first set could not have matched.", "quantifier": "every grammar, alternative and input", "why_tests_cant": "all grammars; cyclic rules are the hard case", "anchors": ["peglib.h:ComputeFirstSet", "peglib.h:SetupFirstSets"]}
{"id": "C29", "title": "Nullability is sound", "statement": "If an expression can succeed without consuming input then can_be_empty says so.", "quantifier": "every grammar and input", "why_tests_cant": "all grammars and inputs", "anchors": ["peglib.h:ComputeCanBeEmpty"]}
{"id": "C30", "title": "Infinite-loop detection is sound", "statement": "If load_grammar accepts a grammar, no repetition in it can iterate forever on a zero-length match.", "quantifier": "every accepted grammar and input", "why_tests_cant": "infinitely many grammars; the failure is a hang", "anchors": ["peglib.h:DetectInfiniteLoop", "peglib.h:HasEmptyElement"]}
{"id": "C31", "title": "Left-recursion detection is sound", "statement": "A rule that is not marked left-recursive is never re-entered at the same position during its own evaluation.", "quantifier": "every accepted grammar and input", "why_tests_cant": "infinitely many grammars; the failure is a stack overflow", "anchors": ["peglib.h:DetectLeftRecursion"]}
{"id": "C32", "title": "Direct left recursion parses like iteration", "statement": "A <- A r / b accepts the same prefix as b r* and nests its values to the left.", "quantifier": "every r, b and input", "why_tests_cant": "all r, b and inputs", "anchors": ["peglib.h:Holder::parse_core"]}
{"id": "C33", "title": "Left-recursion growing terminates and only grows", "statement": "Each growing iteration of a left-recursive rule strictly increases the match, at most once per input byte.", "quantifier": "every left-recursive rule and input", "why_tests_cant": "unbounded inputs", "anchors": ["peglib.h:Holder::parse_core"]}
{"id": "C34", "title": "Precedence climbing builds the right tree", "statement": "%prec/precedence groups operators by declared level and associativity: with the operators and atoms of the flat match, the produced tree is the unique one respecting levels and associativity, and its in-order reading is the input.", "quantifier": "every operator table and every atom/operator sequence", "why_tests_cant": "unbounded expressions and tables", "anchors": ["peglib.h:PrecedenceClimbing::parse_expression"]}
{"id": "C35", "title": "Macros behave as substitution", "statement": "A call M(e1,..,en) to a non-recursive macro matches exactly what its body does with the arguments substituted, including when arguments mention the caller's own parameters.", "quantifier": "every macro, argument list and input", "why_tests_cant": "all macro nestings", "anchors": ["peglib.h:Reference::parse_core", "peglib.h:FindReference", "peglib.h:Context::push_args"]}
{"id": "C36", "title": "Loading resolves every reference", "statement": "If load_grammar succeeds, every reference in the grammar names a defined rule, a macro called with the right number of arguments, or a parameter in scope; so no parse dereferences an unresolved rule or argument.", "quantifier": "every grammar text that loads", "why_tests_cant": "all grammars", "anchors": ["peglib.h:ReferenceChecker", "peglib.h:LinkReferences", "peglib.h:ParserGenerator::perform_core"]}
{"id": "C37", "title": "Error recovery is reported", "statement": "If any error was recovered by %recover during a parse then parse() returns false, whatever happened before or after the recovery and even if the whole input was matched; without recovery the result is true iff the rule matched the entire input (a prefix if the end-of-input check is off).", "quantifier": "every grammar and input", "why_tests_cant": "all grammars and inputs", "anchors": ["peglib.h:Recovery::parse_core", "peglib.h:Definition::parse_core"]}
{"id": "C38", "title": "parse() means whole-input match", "statement": "parse(s) is true iff the start rule, with leading whitespace skipped, matches all of s (unless eoi check is disabled, in which case a prefix suffices).", "quantifier": "every grammar and input", "why_tests_cant": "all grammars and inputs", "anchors": ["peglib.h:Definition::parse_core", "peglib.h:parser::post_process"]}
{"id": "C39", "title": "AST optimisation preserves the text", "statement": "AstOptimizer keeps the sequence of token leaves, source positions nest, is idempotent, and collapses a node iff it is a single-child node whose name is not excepted.", "quantifier": "every AST, exception list and mode", "why_tests_cant": "all trees", "anchors": ["peglib.h:AstOptimizer", "peglib.h:AstBase"]}
{"id": "C40", "title": "Grammar blob round trip", "statement": "load_blob(serialize(g)) yields a grammar with the same rules and operators as g.", "quantifier": "every grammar", "why_tests_cant": "all grammars; failure depends on word order in dictionaries", "anchors": ["peglib.h:GrammarBlob"]}
{"id": "C41", "title": "Blob loading is memory safe", "statement": "Loading a truncated or corrupted blob fails cleanly without reading outside the buffer.", "quantifier": "every byte string", "why_tests_cant": "all byte strings", "anchors": ["peglib.h:GrammarBlob::Reader"]}
{"id": "C42", "title": "Parses are independent of earlier parses", "statement": "The result of parse() does not depend on which parses (through which start rules) were done before with the same parser object.", "quantifier": "every history of parses", "why_tests_cant": "unbounded histories", "anchors": ["peglib.h:Definition::initialize_definition_ids", "peglib.h:AssignIDToDefinition"]}
{"id": "C43", "title": "Concurrent parses do not interfere", "statement": "Two threads parsing with one const parser object get the results they would get alone.", "quantifier": "every interleaving", "why_tests_cant": "all schedules", "anchors": ["peglib.h:PrecedenceClimbing::parse_expression", "peglib.h:Definition::parse_core"]}
{"id": "C44", "title": "Logging does not influence parsing", "statement": "Installing a log callback changes neither the result nor the values of a parse.", "quantifier": "every grammar and input", "why_tests_cant": "program equivalence", "anchors": ["peglib.h:Context::log", "peglib.h:parse_literal", "peglib.h:Definition::parse_core"]}
{"id": "C45", "title": "Case-insensitive literals", "statement": "'lit'i matches iff the input and the literal agree after ASCII lower-casing, consuming exactly the literal's length; 'lit' iff they are equal.", "quantifier": "every literal and input", "why_tests_cant": "all literals and inputs", "anchors": ["peglib.h:parse_literal", "peglib.h:LiteralString"]}
{"id": "C46", "title": "Keyword/word-boundary check", "statement": "With %word defined, a literal that is itself a word matches only if not followed by a word character continuation.", "quantifier": "every literal, %word rule and input", "why_tests_cant": "all inputs", "anchors": ["peglib.h:parse_literal"]}
{"id": "C47", "title": "Every accepted match is a derivation of the grammar", "statement": "Whatever parse() accepts is derivable from the grammar read as a context-free grammar with values (choices pick any alternative, predicates hold anywhere), and the delivered values are those of that derivation; this includes left-recursive rules, operator precedence, error recovery, macros, captures and packrat parsing.", "quantifier": "every grammar, input, combination of features and engine state reached", "why_tests_cant": "all grammars and inputs; memo tables and left-recursion seeds could return results of other rules or positions", "anchors": ["peglib.h:Ope::parse", "peglib.h:Holder::parse_core", "peglib.h:PrecedenceClimbing::parse_expression", "peglib.h:Context::packrat"]}
{"id": "C48", "title": "Matching UTF-8 never splits a character", "statement": "If the input and all literals of the grammar are well-formed UTF-8, every match, token and value begins and ends at a character boundary.", "quantifier": "every UTF-8 input and every grammar with UTF-8 literals", "why_tests_cant": "all texts and grammars", "anchors": ["peglib.h:CharacterClass::parse_core", "peglib.h:AnyCharacter::parse_core", "peglib.h:parse_literal", "peglib.h:Dictionary::parse_core", "peglib.h:BackReference::parse_core"]}
{"id": "C49", "title": "The AST mirrors the text", "statement": "After enable_ast() a successful parse delivers a tree whose nodes carry the rule's name, the position, length, line and column of the text the rule matched; children lie inside their parent, in order and disjoint; a token node's token lies in its text.", "quantifier": "every grammar, input and tree node", "why_tests_cant": "all grammars and inputs", "anchors": ["peglib.h:add_ast_action", "peglib.h:AstBase", "peglib.h:Holder::reduce"]}
{"id": "C50", "title": "Error reports advance and lie inside the input", "statement": "During one parse with error recovery the logger is called with strictly advancing positions, each inside the input (at most its length), so an input of n bytes produces at most n+1 reports and the same place is never reported twice.", "quantifier": "every grammar with labels and %recover, every input", "why_tests_cant": "the number and order of recovered errors depends on the whole parse history", "anchors": ["peglib.h:ErrorInfo::output_log", "peglib.h:Recovery::parse_core", "peglib.h:Context::set_error_pos"]}
{"id": "C51", "title": "Recognise-only parsing is unobservable", "statement": "A parse skips building values exactly when nothing can look at them: no logger, no tracer, no action, predicate, enter or leave callback on a reachable rule, no precedence climbing and no user operator. Then result, consumed length, recovery and delivered value are those of the same parse with all values built.", "quantifier": "every grammar, history of parses, input and set of callbacks", "why_tests_cant": "equivalence of two modes of the engine for all grammars and inputs", "anchors": ["peglib.h:Definition::parse_core", "peglib.h:Holder::parse_core"]}
{"id": "C52", "title": "Reading a grammar text ends", "statement": "Reading any UTF-8 text as a grammar ends, whatever the text, and its outcome (definitions, refusal, exception) depends on the text only, not on the iteration order of the parser's own rule table.", "quantifier": "every UTF-8 text", "why_tests_cant": "the reader is itself a backtracking parser; the failure is a hang", "anchors": ["peglib.h:ParserGenerator::make_grammar", "peglib.h:ParserGenerator::perform_core"]}
{"id": "C53", "title": "A grammar text is read as the notation says", "statement": "A text that writes a list of rules and macros in the documented notation (operators, precedence of /, sequences, prefixes, suffixes and labels, groups, tokens, captures, references and macro calls, literals and classes with escapes, instructions in braces, spacing and comments anywhere between tokens) is read as exactly these rules; every grammar expressible in the notation can be written; the notation is unambiguous.", "quantifier": "every list of definitions and every way of writing it", "why_tests_cant": "infinitely many texts; ordered choice in the reader can shadow alternatives", "anchors": ["peglib.h:ParserGenerator::make_grammar", "peglib.h:ParserGenerator::setup_actions"]}
{"id": "C54", "title": "Loading a grammar text never crashes", "statement": "Whatever UTF-8 text is given as a grammar, loading either refuses it with an error or builds a parser; no other exception escapes and nothing undefined happens. The rules built are of the regular form the rest of the library assumes (sequences and choices with two or more elements, ordered character ranges, macro calls with arguments, recovery only around %recover), and every name used in the text resolves.", "quantifier": "every UTF-8 text", "why_tests_cant": "the reader casts the values of its own parse unchecked; every text and every combination of constructs counts", "anchors": ["peglib.h:ParserGenerator::setup_actions", "peglib.h:ParserGenerator::perform_core", "peglib.h:resolve_escape_sequence"]}
{"id": "C55", "title": "A parser recognises the language its grammar text denotes", "statement": "For a grammar text, the parser built from it answers every input as the textbook PEG semantics of the rules written in the text says, with white space skipped after literals and tokens, no literal word or dictionary word directly followed by a word (%word), and A <- A r / b meaning b followed by r as often as it makes the match longer: it succeeds exactly if the start rule matches (up to the end of the input unless prefix matching is allowed) and consumes exactly what the rule matches, independently of earlier parses and of the internal optimisations (first sets, span scans, literal tokens, dictionaries).", "quantifier": "every grammar text that loads, every input, every history of parses", "why_tests_cant": "composes reader, loader, optimiser and engine; any grammar and any input can expose a deviation", "anchors": ["peglib.h:parser", "peglib.h:ParserGenerator::perform_core", "peglib.h:SetupFirstSets", "peglib.h:Definition::parse_core"]}
{"id": "C56", "title": "Error messages say where, what and what else", "statement": "Every error shown to the log or error-reporter callback gives the 1-based line and column (in characters) of its position, names as unexpected the separator or word (at most 32 characters, control characters escaped) that stands there, and lists the expected literals and rules (rules starting with _ left out) in the same order in the text and in the structured lists; a message given in the grammar is shown with %t and %c replaced by that token and its first character. Composing a message never reads outside the input and ends.", "quantifier": "every grammar, input, error position and message", "why_tests_cant": "all texts and messages; overlapping placeholders, multi-byte characters and input ends at every offset", "anchors": ["peglib.h:ErrorInfo::output_log", "peglib.h:ErrorInfo::heuristic_error_token", "peglib.h:ErrorInfo::replace_all"]}
{"id": "C57", "title": "Handlers come in matching pairs", "statement": "Every call of a rule's enter handler is followed by exactly one call of its leave handler with the same position, properly nested with the calls of the rules it uses, on every path: success, failure, abandoned alternatives, predicates, packrat hits and left-recursion growth. A rule's action runs between the two, after everything it uses, exactly once if the leave handler is told a match (and nothing was recovered before) and never otherwise.", "quantifier": "every grammar, input, history of parses and choice of watched rules", "why_tests_cant": "unbounded nesting and all backtracking paths; a missing leave only shows on a particular path", "anchors": ["peglib.h:Holder::parse_core", "peglib.h:Holder::reduce", "peglib.h:PrecedenceClimbing::parse_expression"]}
{"id": "C58", "title": "The custom message reported is the right one", "statement": "A rule's error_message (or the message of its predicate) is offered wherever the rule fails, with the rule's name as label and %{name} replaced by the latest capture of that name. If a parse fails after messages were offered, exactly one report is sent: the first of the messages offered at the furthest position, unless the library's own message replaces it; a plain syntax error is reported only if no message was offered. No report carries a message that is not one of these.", "quantifier": "every grammar with messages, every input and predicate", "why_tests_cant": "which message survives depends on the whole history of failures of the parse", "anchors": ["peglib.h:Holder::parse_core", "peglib.h:resolve_capture_placeholders", "peglib.h:ErrorInfo::output_log", "peglib.h:Definition::parse_core"]}
{"id": "C59", "title": "Errors are reported at whole characters", "statement": "For a UTF-8 input and a grammar whose literals are UTF-8, every error report (final or recovered) is at a character boundary: line and column count the characters in front of it, and the unexpected token is made of whole characters of the input.", "quantifier": "every such grammar (left recursion, captures, macros, operators, recovery), every UTF-8 input, every user-defined operator that stops at character boundaries", "why_tests_cant": "error positions are remembered from any failed attempt in the parse", "anchors": ["peglib.h:Context::set_error_pos", "peglib.h:ErrorInfo::output_log", "peglib.h:line_info", "peglib.h:BackReference::parse_core"]}
{"id": "C60", "title": "Well-formed grammars are never refused", "statement": "The loader's checks raise no false alarms: a grammar text in the core notation (sequences, choices, repetitions, predicates, literals, dictionaries, classes, tokens, ignored references, white space, %word; no macros, captures, cuts, labels, precedence) whose names are distinct, whose references are defined and whose rules are well-formed (no unbounded repetition of what may match nothing, no rule calling itself at the position where it starts, except through alternatives that begin with the rule's own name and precede the others, A <- A r / ... / b) makes a parser, with left-recursion support on (or off, if no rule is left-recursive) and in whatever order the rule table is visited, and that parser answers every UTF-8 input as the rules say.", "quantifier": "every well-formed text, rule order, option and input", "why_tests_cant": "completeness of static checks for all grammars; the checks cache verdicts and cut off visited paths, so a false alarm depends on the shape of the whole call graph", "anchors": ["peglib.h:DetectLeftRecursion", "peglib.h:DetectInfiniteLoop", "peglib.h:HasEmptyElement", "peglib.h:ComputeCanBeEmpty", "peglib.h:ParserGenerator::perform_core"]}
{"id": "C61", "title": "Back references are checked when a grammar is loaded", "statement": "A grammar text that loads contains no back reference `$x` that does not follow, in the text, a capture `$x<...>` whose scope `$( ... )` is still open there; every text with such a back reference is refused. Packrat parsing can be enabled exactly if every back reference follows a capture of its name in its own definition.", "quantifier": "every grammar text in UTF-8 that can be read, every nesting of scopes, every start rule and option", "why_tests_cant": "the rule about open scopes is about all sequences of captures, scopes and references a text can contain", "anchors": ["peglib.h: ParserGenerator::setup_actions (CapScope enter/leave, Primary case 4, BackRef, Definition enter), perform_core (undefined back references), Data::captures_stack, parser::enable_packrat_parsing"]}
{"id": "C62", "title": "A remembered rule is evaluated at most once at each position", "statement": "With packrat parsing enabled, a rule that the library chose to remember and that is not left-recursive has its body tried at most once at each input position during a parse (its enter handler is called at most once per position), however often the grammar calls it there: by alternatives, predicates, repetitions, macros, precedence operands. So all remembered rules together are evaluated at most (number of these rules) x (input length + 1) times. Input below 4 GiB; handlers called while recovering from an error get a datum of their own and are not counted.", "quantifier": "every grammar, every input, every set of handlers, every start rule, every position, every history of parses of the object that did not renumber the rules after the first parse from this start rule", "why_tests_cant": "the number of calls at one position is unbounded and depends on the whole backtracking history", "anchors": ["peglib.h: Context::packrat, write_packrat_cache, Definition::initialize_packrat_filter, Holder::parse_core"]}
{"id": "C63", "title": "A parser restored from a blob behaves like the original", "statement": "serialize_grammar() of a loaded parser followed by load_blob() gives a parser that answers every parse as the original does: same rules, flags, messages, references (macro parameters before rules), operators, precedence tables, first sets, white space, word and packrat settings, whatever the iteration order of the rule tables.", "quantifier": "every grammar without captures whose sizes fit and whose dictionaries have no word that is a prefix of an earlier one, every iteration order, every later input", "why_tests_cant": "all grammars and table orders; a lost flag or a reference linked to another rule only shows for particular grammars and inputs", "anchors": ["peglib.h:GrammarBlob", "peglib.h:parser::serialize_grammar", "peglib.h:parser::load_blob", "peglib.h:LinkReferences", "peglib.h:SetupFirstSets", "peglib.h:TokenChecker", "peglib.h:FindLiteralToken"]}
{"id": "C64", "title": "The printed form of an AST determines it", "statement": "ast_to_s prints one line per node, parents before their children and children in order, indented by depth, each followed by what the callback says about the node. Two trees (also optimised ones, also of different inputs) without line ends in their tokens print the same text exactly if they have the same shape, rules, alternatives, merged rules and token texts.", "quantifier": "every pair of trees and inputs, every callback", "why_tests_cant": "all trees; a text could be ambiguous only for rare combinations of names, depths and tokens", "anchors": ["peglib.h:ast_to_s", "peglib.h:ast_to_s_core"]}
{"id": "C65", "title": "Tracing does not influence parsing", "statement": "Attaching a tracer with enable_trace changes neither the result, the consumed length, recovery, the delivered value nor the user datum of a parse; while errors are logged it changes nothing at all, reports included.", "quantifier": "every grammar, history of parses, input and set of callbacks", "why_tests_cant": "program equivalence: a tracer switches off the recognise-only mode and keeps the full rule stack", "anchors": ["peglib.h:Context::Context", "peglib.h:Definition::parse_core", "peglib.h:parser::enable_trace"]}
{"id": "C66", "title": "What loading a grammar says is right", "statement": "With a log callback load_grammar gives the same result as without; every refusal comes with a message that is not a warning; every message (duplicate definition or instruction, undefined back reference, start rule missing or ignored, undefined name, wrong arguments, not a macro, left recursion, infinite loop, precedence not applicable) is true of the text; the warnings of a text that loads name exactly the rules nothing refers to.", "quantifier": "every UTF-8 text, start rule, setting and iteration order", "why_tests_cant": "relates all messages to all texts; the warnings depend on every reference of every rule", "anchors": ["peglib.h:ParserGenerator::perform_core", "peglib.h:ReferenceChecker", "peglib.h:ParserGenerator::apply_precedence_instruction"]}
{"id": "C67", "title": "Rules supplied by the application replace or join those of the text", "statement": "A parser made of a grammar text and a map of supplied rules has exactly the rules of the text, those supplied and the built-in macro; a supplied rule runs the supplied parser, whatever the text says of the name, and its value is ignored if its name was given with a leading ~; rules for which nothing is supplied keep their operators; every reference of the text resolves, to a parameter, a rule or macro of the text, or a supplied rule; the order in which the supplied rules are listed does not matter; parsing is safe if the supplied parsers stay within the input; and without supplied rules nothing changes.", "quantifier": "all UTF-8 grammar texts, maps of supplied rules, options, histories, inputs, callbacks", "why_tests_cant": "Tests supply one rule to one grammar; that no combination of text and supplied rules mixes up operators or leaves a reference unresolved needs all of them.", "anchors": ["peglib.h:ParserGenerator::perform_core", "peglib.h:parser::load_grammar", "peglib.h:Rules"]}
{"id": "C68", "title": "A parser object is what its last successful load made it", "statement": "Whatever was done with a parser object before, load_grammar (accepted or refused) and an accepted load_blob give it the same state as a new object, except for the setting of enable_left_recursion; after a refused grammar every parse is defined and false; settings (enable_packrat_parsing, disable_eoi_check) made after a load act as if made before the first parse, whenever they are made, and no longer than until the next load; a refused load_blob leaves the object as it was; asking for a rule that does not exist has no effect.", "quantifier": "all sequences of loads, blobs, settings, rule lookups and parses; all UTF-8 grammar texts, supplied rules, inputs, callbacks", "why_tests_cant": "The number of call sequences is unbounded and caches are filled lazily, so an effect may need a particular order of calls; tests create a fresh parser for each grammar.", "anchors": ["peglib.h:parser::load_grammar", "peglib.h:parser::load_blob", "peglib.h:parser::enable_packrat_parsing", "peglib.h:parser::disable_eoi_check", "peglib.h:parser::operator[]", "peglib.h:GrammarBlob::deserialize"]}
