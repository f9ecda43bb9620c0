import json
P=[]
def p(id,title,statement,quant,why,anchors):
    P.append(dict(id=id,title=title,statement=statement,quantifier=quant,why_tests_cant=why,anchors=anchors))
H="peglib.h"
p("C01","UTF-8 encode/decode round trip","Encoding any Unicode scalar value with encode_codepoint and decoding the resulting bytes with decode_codepoint (with any bytes following) returns the same code point and exactly the number of bytes written; surrogates and values above U+10FFFF encode to nothing.","every char32_t value and every byte string following the encoding","1,112,064 scalar values times unbounded suffixes; the case boundaries (7F/80, 7FF/800, D7FF/D800, FFFF/10000, 10FFFF/110000) interact with the suffix",[H+":encode_codepoint",H+":decode_codepoint",H+":codepoint_length"])
p("C02","UTF-8 decoding stays inside the buffer","codepoint_length and decode_codepoint never report more bytes than remain, report the same number of bytes as each other, and report 0 only for an empty buffer, a stray continuation/invalid lead byte or a truncated sequence.","every byte string of every length, valid UTF-8 or not","all byte strings of unbounded length; out-of-bounds reads are silent in tests",[H+":codepoint_length",H+":decode_codepoint"])
p("C03","Code point counting (columns)","codepoint_count of the UTF-8 encoding of n scalar values is n; on any bytes at all it terminates and lies between ceil(len/4) and len.","every sequence of scalar values; every byte string","unbounded strings including malformed ones",[H+":codepoint_count"])
p("C04","Escaping for display is undone by resolving escapes","resolve_escape_sequence(escape_characters(s)) = s for every string s containing no backslash, and resolve_escape_sequence is the identity on strings without backslashes. (escape_characters does not escape the backslash itself, so the claim fails for strings containing one.)","every byte string","round trip over all byte strings",[H+":escape_characters",H+":resolve_escape_sequence"])
p("C05","Numeric escapes in literals denote the written code point","In a grammar literal, \\x and \\u followed by hex digits, and \\ followed by octal digits, denote the code point with that value, encoded as UTF-8, independent of the ordinary text that follows the escape.","every hexadecimal digit string and following text","unbounded digit strings; failure depends on the following character",[H+":resolve_escape_sequence",H+":parse_hex_number",H+":parse_octal_number"])
p("C06","Complemented predefined classes are exact complements","\\D, \\W, \\S and [:^name:] match a code point in 0..10FFFF iff the un-negated class does not, for every sorted non-overlapping range list; every predefined class table is sorted and non-overlapping.","every sorted disjoint range list and every code point","quantifies over all range lists and all code points; off-by-one at range boundaries",[H+":complement_character_ranges",H+":predefined_character_class"])
p("C07","Character class membership","[..] matches exactly one code point c iff c lies in one of the listed ranges, [^..] iff it lies in none, and the ASCII bitset fast path gives the same answer as the range scan.","every range list, every input and position","every range list and code point; the fast path and slow path must agree everywhere",[H+":CharacterClass",H+":CharacterClass::parse_core"])
p("C08","Bulk scan of a repeated class equals repetition","[class]* / + / {m,n} executed by the span fast path consumes exactly what repeating the single-class match one code point at a time would consume and succeeds in exactly the same cases.","every class, min, max, input and position","two code paths must agree on all inputs incl. malformed UTF-8 and limits",[H+":Repetition::parse_core",H+":CharacterClass::span_match"])
p("C09","Dictionary longest match","The dictionary operator 'a' | 'b' | ... (case-sensitive or not) matches iff some word is a prefix of the remaining input, and then consumes the length of the longest such word.","every word list and every input","all word lists including prefixes of each other and duplicates in any order",[H+":Trie",H+":Dictionary::parse_core"])
p("C10","Dictionary reports the index of the matched word","After a dictionary match the semantic value's choice() is the index in the grammar of (the first occurrence of) the word that matched.","every word list and every input","depends on the relative order of words sharing a prefix",[H+":Trie::match",H+":Dictionary::parse_core"])
p("C11","Line/column of a position","line_info(start, cur) returns 1 + number of newlines before cur, and 1 + the number of code points between the last newline and cur.","every text and every position in it","all texts and positions",[H+":line_info"])
p("C12","Line/column caching never changes the answer","Context::line_info (incremental, starting from the previously queried position or a line table) returns for each query the same answer regardless of which positions were queried before and in which order, equal to the direct computation.","every text and every sequence of queries","history dependence over unbounded query sequences",[H+":Context::line_info"])
p("C13","Error report is the furthest failure","While no label/message is involved, the position reported for a failed parse is the maximum over all terminal failures recorded, the expected tokens are exactly those recorded at that position, and earlier failures never overwrite it.","every sequence of recorded failures","depends on the whole failure history",[H+":ErrorInfo",H+":Context::set_error_pos",H+":parse_literal"])
p("C14","Packrat store behaves as a map","The open-addressing packrat table returns for a (rule, position) exactly the last result stored for it, or none if nothing was stored (since the last clear of that rule), through any number of insertions and growths.","every sequence of insert/lookup/clear operations and any hash placement","unbounded operation histories, collisions and rehashes",[H+":PackratCache"])
p("C15","Packrat parsing is transparent","enable_packrat_parsing() does not change whether a parse succeeds, how much it consumes or the semantic values produced.","every grammar and input","equivalence of two executions over all grammars/inputs; counterexamples need particular context changes between two visits of one (rule, position)",[H+":Context::packrat",H+":Definition::packrat",H+":Holder::parse_core"])
p("C16","A match never extends past the end of the input","Whatever the grammar, a successful (sub)match consumes at most the number of remaining bytes, and no byte outside [s, s+n) is read.","every grammar, input, position and state","all grammars and inputs",[H+":Ope::parse",H+":parse_literal"])
p("C17","Parsing is deterministic and more resources never change the answer","Two parses of one input with one grammar yield the same result, values and log; a parse that terminates does so with a unique result.","every grammar and input","universally quantified over grammars/inputs",[H+":Ope::parse",H+":Definition::parse_core"])
p("C18","Predicates consume nothing and leave no trace","&e and !e never consume input and leave no semantic values, tokens, tags or captures behind, whatever e does.","every expression e, input and state","all e, including those that capture or fail midway",[H+":AndPredicate::parse_core",H+":NotPredicate::parse_core"])
p("C19","Ordered choice commits to the first success","e1 / e2 / ... returns the result of the first alternative that succeeds at the position (when no cut is used), choice() is its index, choice_count() the number of alternatives, and failed alternatives leave no values or captures.","every list of alternatives, input and state","all alternatives; residue appears only after partially successful alternatives",[H+":PrioritizedChoice::parse_core"])
p("C20","Sequence appends values in order","A sequence succeeds iff each element succeeds in turn from where the previous one stopped; it consumes the sum of lengths and values appear in element order.","every sequence, input and state","unbounded sequences",[H+":Sequence::parse_core"])
p("C21","Repetition is greedy with exact bounds","e{m,n} / e* / e+ / e? match as many successive e as possible up to n, succeed iff at least m matched, and a failing last attempt leaves nothing behind.","every e, m, n, input and state","unbounded iteration counts",[H+":Repetition::parse_core"])
p("C22","Parsing terminates","For a grammar accepted by load_grammar, parsing every input terminates.","every accepted grammar and every input","a non-terminating case cannot be observed by a finite test, and the accepted grammars are infinite",[H+":DetectInfiniteLoop",H+":DetectLeftRecursion",H+":Holder::parse_core",H+":Repetition::parse_core"])
p("C23","Cut commits","After the cut operator has been passed inside an alternative, failure of that alternative makes the whole choice fail without trying the later alternatives; a cut inside a nested choice does not affect the enclosing one.","every grammar using the cut operator, every input","all nestings",[H+":Cut::parse_core",H+":PrioritizedChoice::parse_core"])
p("C24","Captures and back-references","$name matches exactly the text most recently captured under that name in scope; captures made by an alternative, iteration or predicate that is abandoned are forgotten; $( ) scopes hide their captures.","every grammar with captures and every input","depends on the whole backtracking history",[H+":Capture",H+":CaptureScope",H+":BackReference::parse_core",H+":Context::capture_entries"])
p("C25","Token boundary","<e> yields as token exactly the text matched by e, without the whitespace skipped after it; inside < > no whitespace is skipped between literals.","every e, whitespace rule and input","all e and inputs",[H+":TokenBoundary::parse_core",H+":Context::skip_whitespace"])
p("C26","All per-parse stacks and flags are restored","After any (sub)parse, successful or not, the rule stack, argument stack, cut stack, token-boundary counter, whitespace flag and predicate/logging flags are what they were before.","every expression, input and state","needs every path incl. early failures",[H+":Context",H+":Holder::parse_core",H+":Reference::parse_core",H+":TokenBoundary::parse_core",H+":Whitespace::parse_core"])
p("C27","Optimised parsing refines plain PEG semantics","First-set filtering of alternatives, keyword guards, span scans, recognise-only mode, logging and packrat annotations change neither success nor consumed length compared with the plain PEG semantics of the grammar.","every grammar, input and combination of optimisations","program equivalence",[H+":PrioritizedChoice::parse_core",H+":Sequence::parse_core",H+":Repetition::parse_core",H+":SetupFirstSets"])
p("C28","First sets are sound","An alternative skipped because the next byte is not in its first set could not have matched.","every grammar, alternative and input","all grammars; cyclic rules are the hard case",[H+":ComputeFirstSet",H+":SetupFirstSets"])
p("C29","Nullability is sound","If an expression can succeed without consuming input then can_be_empty says so.","every grammar and input","all grammars and inputs",[H+":ComputeCanBeEmpty"])
p("C30","Infinite-loop detection is sound","If load_grammar accepts a grammar, no repetition in it can iterate forever on a zero-length match.","every accepted grammar and input","infinitely many grammars; the failure is a hang",[H+":DetectInfiniteLoop",H+":HasEmptyElement"])
p("C31","Left-recursion detection is sound","A rule that is not marked left-recursive is never re-entered at the same position during its own evaluation.","every accepted grammar and input","infinitely many grammars; the failure is a stack overflow",[H+":DetectLeftRecursion"])
p("C32","Direct left recursion parses like iteration","A <- A r / b accepts the same prefix as b r* and nests its values to the left.","every r, b and input","all r, b and inputs",[H+":Holder::parse_core"])
p("C33","Left-recursion growing terminates and only grows","Each growing iteration of a left-recursive rule strictly increases the match, at most once per input byte.","every left-recursive rule and input","unbounded inputs",[H+":Holder::parse_core"])
p("C34","Precedence climbing builds the right tree","%prec/precedence groups operators by declared level and associativity: with the operators and atoms of the flat match, the produced tree is the unique one respecting levels and associativity, and its in-order reading is the input.","every operator table and every atom/operator sequence","unbounded expressions and tables",[H+":PrecedenceClimbing::parse_expression"])
p("C35","Macros behave as substitution","A call M(e1,..,en) to a non-recursive macro matches exactly what its body does with the arguments substituted, including when arguments mention the caller's own parameters.","every macro, argument list and input","all macro nestings",[H+":Reference::parse_core",H+":FindReference",H+":Context::push_args"])
p("C36","Loading resolves every reference","If load_grammar succeeds, every reference in the grammar names a defined rule, a macro called with the right number of arguments, or a parameter in scope; so no parse dereferences an unresolved rule or argument.","every grammar text that loads","all grammars",[H+":ReferenceChecker",H+":LinkReferences",H+":ParserGenerator::perform_core"])
p("C37","Error recovery is reported","If any error was recovered by %recover during a parse then parse() returns false, whatever happened before or after the recovery and even if the whole input was matched; without recovery the result is true iff the rule matched the entire input (a prefix if the end-of-input check is off).","every grammar and input","all grammars and inputs",[H+":Recovery::parse_core",H+":Definition::parse_core"])
p("C38","parse() means whole-input match","parse(s) is true iff the start rule, with leading whitespace skipped, matches all of s (unless eoi check is disabled, in which case a prefix suffices).","every grammar and input","all grammars and inputs",[H+":Definition::parse_core",H+":parser::post_process"])
p("C39","AST optimisation preserves the text","AstOptimizer keeps the sequence of token leaves, source positions nest, is idempotent, and collapses a node iff it is a single-child node whose name is not excepted.","every AST, exception list and mode","all trees",[H+":AstOptimizer",H+":AstBase"])
p("C40","Grammar blob round trip","load_blob(serialize(g)) yields a grammar with the same rules and operators as g.","every grammar","all grammars; failure depends on word order in dictionaries",[H+":GrammarBlob"])
p("C41","Blob loading is memory safe","Loading a truncated or corrupted blob fails cleanly without reading outside the buffer.","every byte string","all byte strings",[H+":GrammarBlob::Reader"])
p("C42","Parses are independent of earlier parses","The result of parse() does not depend on which parses (through which start rules) were done before with the same parser object.","every history of parses","unbounded histories",[H+":Definition::initialize_definition_ids",H+":AssignIDToDefinition"])
p("C43","Concurrent parses do not interfere","Two threads parsing with one const parser object get the results they would get alone.","every interleaving","all schedules",[H+":PrecedenceClimbing::parse_expression",H+":Definition::parse_core"])
p("C44","Logging does not influence parsing","Installing a log callback changes neither the result nor the values of a parse.","every grammar and input","program equivalence",[H+":Context::log",H+":parse_literal",H+":Definition::parse_core"])
p("C45","Case-insensitive literals","'lit'i matches iff the input and the literal agree after ASCII lower-casing, consuming exactly the literal's length; 'lit' iff they are equal.","every literal and input","all literals and inputs",[H+":parse_literal",H+":LiteralString"])
p("C46","Keyword/word-boundary check","With %word defined, a literal that is itself a word matches only if not followed by a word character continuation.","every literal, %word rule and input","all inputs",[H+":parse_literal"])
p("C47","Every accepted match is a derivation of the grammar","Whatever parse() accepts is derivable from the grammar read as a context-free grammar with values (choices pick any alternative, predicates hold anywhere), and the delivered values are those of that derivation; this includes left-recursive rules, operator precedence, error recovery, macros, captures and packrat parsing.","every grammar, input, combination of features and engine state reached","all grammars and inputs; memo tables and left-recursion seeds could return results of other rules or positions",[H+":Ope::parse",H+":Holder::parse_core",H+":PrecedenceClimbing::parse_expression",H+":Context::packrat"])
p("C48","Matching UTF-8 never splits a character","If the input and all literals of the grammar are well-formed UTF-8, every match, token and value begins and ends at a character boundary.","every UTF-8 input and every grammar with UTF-8 literals","all texts and grammars",[H+":CharacterClass::parse_core",H+":AnyCharacter::parse_core",H+":parse_literal",H+":Dictionary::parse_core",H+":BackReference::parse_core"])
p("C49","The AST mirrors the text","After enable_ast() a successful parse delivers a tree whose nodes carry the rule's name, the position, length, line and column of the text the rule matched; children lie inside their parent, in order and disjoint; a token node's token lies in its text.","every grammar, input and tree node","all grammars and inputs",[H+":add_ast_action",H+":AstBase",H+":Holder::reduce"])
p("C50","Error reports advance and lie inside the input","During one parse with error recovery the logger is called with strictly advancing positions, each inside the input (at most its length), so an input of n bytes produces at most n+1 reports and the same place is never reported twice.","every grammar with labels and %recover, every input","the number and order of recovered errors depends on the whole parse history",[H+":ErrorInfo::output_log",H+":Recovery::parse_core",H+":Context::set_error_pos"])
p("C51","Recognise-only parsing is unobservable","A parse skips building values exactly when nothing can look at them: no logger, no tracer, no action, predicate, enter or leave callback on a reachable rule, no precedence climbing and no user operator. Then result, consumed length, recovery and delivered value are those of the same parse with all values built.","every grammar, history of parses, input and set of callbacks","equivalence of two modes of the engine for all grammars and inputs",[H+":Definition::parse_core",H+":Holder::parse_core"])
p("C52","Reading a grammar text ends","Reading any UTF-8 text as a grammar ends, whatever the text, and its outcome (definitions, refusal, exception) depends on the text only, not on the iteration order of the parser's own rule table.","every UTF-8 text","the reader is itself a backtracking parser; the failure is a hang",[H+":ParserGenerator::make_grammar",H+":ParserGenerator::perform_core"])
p("C53","A grammar text is read as the notation says","A text that writes a list of rules and macros in the documented notation (operators, precedence of /, sequences, prefixes, suffixes and labels, groups, tokens, captures, references and macro calls, literals and classes with escapes, instructions in braces, spacing and comments anywhere between tokens) is read as exactly these rules; every grammar expressible in the notation can be written; the notation is unambiguous.","every list of definitions and every way of writing it","infinitely many texts; ordered choice in the reader can shadow alternatives",[H+":ParserGenerator::make_grammar",H+":ParserGenerator::setup_actions"])
p("C54","Loading a grammar text never crashes","Whatever UTF-8 text is given as a grammar, loading either refuses it with an error or builds a parser; no other exception escapes and nothing undefined happens. The rules built are of the regular form the rest of the library assumes (sequences and choices with two or more elements, ordered character ranges, macro calls with arguments, recovery only around %recover), and every name used in the text resolves.","every UTF-8 text","the reader casts the values of its own parse unchecked; every text and every combination of constructs counts",[H+":ParserGenerator::setup_actions",H+":ParserGenerator::perform_core",H+":resolve_escape_sequence"])
p("C55","A parser recognises the language its grammar text denotes","For a grammar text, the parser built from it answers every input as the textbook PEG semantics of the rules written in the text says, with white space skipped after literals and tokens, no literal word or dictionary word directly followed by a word (%word), and A <- A r / b meaning b followed by r as often as it makes the match longer: it succeeds exactly if the start rule matches (up to the end of the input unless prefix matching is allowed) and consumes exactly what the rule matches, independently of earlier parses and of the internal optimisations (first sets, span scans, literal tokens, dictionaries).","every grammar text that loads, every input, every history of parses","composes reader, loader, optimiser and engine; any grammar and any input can expose a deviation",[H+":parser",H+":ParserGenerator::perform_core",H+":SetupFirstSets",H+":Definition::parse_core"])
p("C56","Error messages say where, what and what else","Every error shown to the log or error-reporter callback gives the 1-based line and column (in characters) of its position, names as unexpected the separator or word (at most 32 characters, control characters escaped) that stands there, and lists the expected literals and rules (rules starting with _ left out) in the same order in the text and in the structured lists; a message given in the grammar is shown with %t and %c replaced by that token and its first character. Composing a message never reads outside the input and ends.","every grammar, input, error position and message","all texts and messages; overlapping placeholders, multi-byte characters and input ends at every offset",[H+":ErrorInfo::output_log",H+":ErrorInfo::heuristic_error_token",H+":ErrorInfo::replace_all"])
p("C57","Handlers come in matching pairs","Every call of a rule's enter handler is followed by exactly one call of its leave handler with the same position, properly nested with the calls of the rules it uses, on every path: success, failure, abandoned alternatives, predicates, packrat hits and left-recursion growth. A rule's action runs between the two, after everything it uses, exactly once if the leave handler is told a match (and nothing was recovered before) and never otherwise.","every grammar, input, history of parses and choice of watched rules","unbounded nesting and all backtracking paths; a missing leave only shows on a particular path",[H+":Holder::parse_core",H+":Holder::reduce",H+":PrecedenceClimbing::parse_expression"])
p("C58","The custom message reported is the right one","A rule's error_message (or the message of its predicate) is offered wherever the rule fails, with the rule's name as label and %{name} replaced by the latest capture of that name. If a parse fails after messages were offered, exactly one report is sent: the first of the messages offered at the furthest position, unless the library's own message replaces it; a plain syntax error is reported only if no message was offered. No report carries a message that is not one of these.","every grammar with messages, every input and predicate","which message survives depends on the whole history of failures of the parse",[H+":Holder::parse_core",H+":resolve_capture_placeholders",H+":ErrorInfo::output_log",H+":Definition::parse_core"])
p("C59","Errors are reported at whole characters","For a UTF-8 input and a grammar whose literals are UTF-8, every error report (final or recovered) is at a character boundary: line and column count the characters in front of it, and the unexpected token is made of whole characters of the input.","every such grammar (left recursion, captures, macros, operators, recovery), every UTF-8 input, every user-defined operator that stops at character boundaries","error positions are remembered from any failed attempt in the parse",[H+":Context::set_error_pos",H+":ErrorInfo::output_log",H+":line_info",H+":BackReference::parse_core"])
p("C60","Well-formed grammars are never refused","The loader's checks raise no false alarms: a grammar text in the core notation (sequences, choices, repetitions, predicates, literals, dictionaries, classes, tokens, ignored references, white space, %word; no macros, captures, cuts, labels, precedence) whose names are distinct, whose references are defined and whose rules are well-formed (no unbounded repetition of what may match nothing, no rule calling itself at the position where it starts, except through alternatives that begin with the rule's own name and precede the others, A <- A r / ... / b) makes a parser, with left-recursion support on (or off, if no rule is left-recursive) and in whatever order the rule table is visited, and that parser answers every UTF-8 input as the rules say.","every well-formed text, rule order, option and input","completeness of static checks for all grammars; the checks cache verdicts and cut off visited paths, so a false alarm depends on the shape of the whole call graph",[H+":DetectLeftRecursion",H+":DetectInfiniteLoop",H+":HasEmptyElement",H+":ComputeCanBeEmpty",H+":ParserGenerator::perform_core"])
p("C61","Back references are checked when a grammar is loaded","A grammar text that loads contains no back reference `$x` that does not follow, in the text, a capture `$x<...>` whose scope `$( ... )` is still open there; every text with such a back reference is refused. Packrat parsing can be enabled exactly if every back reference follows a capture of its name in its own definition.","every grammar text in UTF-8 that can be read, every nesting of scopes, every start rule and option","the rule about open scopes is about all sequences of captures, scopes and references a text can contain",["peglib.h: ParserGenerator::setup_actions (CapScope enter/leave, Primary case 4, BackRef, Definition enter), perform_core (undefined back references), Data::captures_stack, parser::enable_packrat_parsing"])
p("C62","A remembered rule is evaluated at most once at each position","With packrat parsing enabled, a rule that the library chose to remember and that is not left-recursive has its body tried at most once at each input position during a parse (its enter handler is called at most once per position), however often the grammar calls it there: by alternatives, predicates, repetitions, macros, precedence operands. So all remembered rules together are evaluated at most (number of these rules) x (input length + 1) times. Input below 4 GiB; handlers called while recovering from an error get a datum of their own and are not counted.","every grammar, every input, every set of handlers, every start rule, every position, every history of parses of the object that did not renumber the rules after the first parse from this start rule","the number of calls at one position is unbounded and depends on the whole backtracking history",["peglib.h: Context::packrat, write_packrat_cache, Definition::initialize_packrat_filter, Holder::parse_core"])
p("C63","A parser restored from a blob behaves like the original","serialize_grammar() of a loaded parser followed by load_blob() gives a parser that answers every parse as the original does: same rules, flags, messages, references (macro parameters before rules), operators, precedence tables, first sets, white space, word and packrat settings, whatever the iteration order of the rule tables.","every grammar without captures whose sizes fit and whose dictionaries have no word that is a prefix of an earlier one, every iteration order, every later input","all grammars and table orders; a lost flag or a reference linked to another rule only shows for particular grammars and inputs",[H+":GrammarBlob",H+":parser::serialize_grammar",H+":parser::load_blob",H+":LinkReferences",H+":SetupFirstSets",H+":TokenChecker",H+":FindLiteralToken"])
p("C64","The printed form of an AST determines it","ast_to_s prints one line per node, parents before their children and children in order, indented by depth, each followed by what the callback says about the node. Two trees (also optimised ones, also of different inputs) without line ends in their tokens print the same text exactly if they have the same shape, rules, alternatives, merged rules and token texts.","every pair of trees and inputs, every callback","all trees; a text could be ambiguous only for rare combinations of names, depths and tokens",[H+":ast_to_s",H+":ast_to_s_core"])
p("C65","Tracing does not influence parsing","Attaching a tracer with enable_trace changes neither the result, the consumed length, recovery, the delivered value nor the user datum of a parse; while errors are logged it changes nothing at all, reports included.","every grammar, history of parses, input and set of callbacks","program equivalence: a tracer switches off the recognise-only mode and keeps the full rule stack",[H+":Context::Context",H+":Definition::parse_core",H+":parser::enable_trace"])
p("C66","What loading a grammar says is right","With a log callback load_grammar gives the same result as without; every refusal comes with a message that is not a warning; every message (duplicate definition or instruction, undefined back reference, start rule missing or ignored, undefined name, wrong arguments, not a macro, left recursion, infinite loop, precedence not applicable) is true of the text; the warnings of a text that loads name exactly the rules nothing refers to.","every UTF-8 text, start rule, setting and iteration order","relates all messages to all texts; the warnings depend on every reference of every rule",[H+":ParserGenerator::perform_core",H+":ReferenceChecker",H+":ParserGenerator::apply_precedence_instruction"])
p("C67","Rules supplied by the application replace or join those of the text","A parser made of a grammar text and a map of supplied rules has exactly the rules of the text, those supplied and the built-in macro; a supplied rule runs the supplied parser, whatever the text says of the name, and its value is ignored if its name was given with a leading ~; rules for which nothing is supplied keep their operators; every reference of the text resolves, to a parameter, a rule or macro of the text, or a supplied rule; the order in which the supplied rules are listed does not matter; parsing is safe if the supplied parsers stay within the input; and without supplied rules nothing changes.","all UTF-8 grammar texts, maps of supplied rules, options, histories, inputs, callbacks","Tests supply one rule to one grammar; that no combination of text and supplied rules mixes up operators or leaves a reference unresolved needs all of them.",[H+":ParserGenerator::perform_core",H+":parser::load_grammar",H+":Rules"])
p("C68","A parser object is what its last successful load made it","Whatever was done with a parser object before, load_grammar (accepted or refused) and an accepted load_blob give it the same state as a new object, except for the setting of enable_left_recursion; after a refused grammar every parse is defined and false; settings (enable_packrat_parsing, disable_eoi_check) made after a load act as if made before the first parse, whenever they are made, and no longer than until the next load; a refused load_blob leaves the object as it was; asking for a rule that does not exist has no effect.","all sequences of loads, blobs, settings, rule lookups and parses; all UTF-8 grammar texts, supplied rules, inputs, callbacks","The number of call sequences is unbounded and caches are filled lazily, so an effect may need a particular order of calls; tests create a fresh parser for each grammar.",[H+":parser::load_grammar",H+":parser::load_blob",H+":parser::enable_packrat_parsing",H+":parser::disable_eoi_check",H+":parser::operator[]",H+":GrammarBlob::deserialize"])
json.dump
with open('/verif/properties.jsonl','w') as f:
    for x in P: f.write(json.dumps(x)+"\n")
print(len(P))
