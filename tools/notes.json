{
 "C05": {
  "status": "partial",
  "note": "Holds when the text after the escape is not itself a digit of the same base; counterexamples proved."
 },
 "C07": {
  "status": "partial",
  "note": "Case-insensitive ranges compare lower-cased endpoints; counterexample proved."
 },
 "C08": {
  "status": "partial",
  "note": "Equality proved for non-inverted bounds and inputs on which no malformed UTF-8 stops the class with length 0; counterexamples proved for the rest."
 },
 "C10": {
  "status": "partial",
  "note": "Proved when no word is a prefix of another; false in general, counterexample proved."
 },
 "C15": {
  "status": "partial",
  "note": "Proved for certified grammars (memoised rules are called in one mode, leave no cut and no captures; no precedence, recovery, user parsers); false in general, counterexamples proved. C34_packrat_loses_operator_witness is a further counterexample (precedence climbing). C15_packrat_for_texts_partial: the same from the bytes of a grammar text, for loaded parsers and any history of parses. C15_packrat_not_transparent_for_texts: three texts, with the packrat filter the library has, for which packrat parsing changes the answer (one shows that the switch of C61 is not enough)."
 },
 "C22": {
  "status": "partial",
  "note": "Proved for every grammar that passes the computable certificate test and for every grammar the loader accepts that meets Accepted; false in general: accepted grammars that do not terminate are proved. C22_left_recursive_hangs: also a rule marked as left-recursive, A <- (A / 'x')*."
 },
 "C27": {
  "status": "partial",
  "note": "Proved for certified grammars with right annotations, for the annotations the loader computes (keyword guards excepted), and for grammars the loader accepts that meet Accepted; keyword guards are wrong in general, counterexamples proved."
 },
 "C44": {
  "status": "partial",
  "note": "Proved for certified grammars and, for every grammar and history, if no reachable left-recursive macro passes on its parameters without calling a macro and %whitespace calls no macro. False without that: C44_logger_changes_language. Stated for parses without a tracer (see C65)."
 },
 "C28": {
  "status": "partial",
  "note": "Proved for every grammar whose rules pass the computable tests (and UTF-8 input), for any order of visiting the rules; false in general for left-recursive nullable rules, cuts before the first character, white space skipped after empty matches, cross-case ranges and overlong U+0000: counterexamples proved."
 },
 "C40": {
  "status": "partial",
  "note": "Round trip proved for all grammars with sizes below 2^32 whose dictionaries have no word that is a proper prefix of an earlier one (this condition is proved necessary for dictionaries); counterexample proved otherwise. First sets, keyword guards and whitespace attachment are recomputed from the restored operators and not repeated in the model of load_blob."
 },
 "C41": {
  "status": "partial",
  "note": "Termination, clean refusal without magic number and of truncated blobs, and that the unchecked string copy and null operators are the only faults are proved for all byte strings; the general claim is false, two counterexamples proved."
 },
 "C29": {
  "status": "partial",
  "note": "The computed flags are proved to be the least fixed point for every grammar and order; soundness is proved for grammars without the nodes the analysis gets wrong (cut, bounded repetition of nullable, empty literals under repetition, back references, macros); false in general, counterexamples proved."
 },
 "C30": {
  "status": "partial",
  "note": "Proved for grammars meeting LoopHyp (no nodes the nullability analysis gets wrong, no recursive nullable rules, loop bodies whose parts before the first consuming element are simple); false in general: four accepted grammars are proved not to terminate. The loop check also accepts A <- (A / 'x')* (C22_left_recursive_hangs)."
 },
 "C31": {
  "status": "partial",
  "note": "Proved statically, for all derivations, and for the engine (guard replaced by a trap) for grammars without the nodes the analysis gets wrong; false in general: three unmarked rules are proved to be re-entered."
 },
 "C13": {
  "status": "partial",
  "note": "Position: proved for every parse without recovery. Expected tokens: exactly those recorded at the furthest position and not dropped by a later failure there; that all of them are shown is false, counterexample proved."
 },
 "C42": {
  "status": "partial",
  "note": "Proved for any history when the start rule does no packrat parsing, and with packrat for histories that use other start rules only before the first use of this one. False otherwise: counterexamples proved (changed result, index out of range)."
 },
 "C36": {
  "status": "partial",
  "note": "Reading the text is a separate model (C52, C53); here rules are given as operator trees with names; left-recursion and loop checks are arbitrary oracles. Resolution proved for all references except inside argument lists of parameter references (false there, witness). Safety of parses proved for all loaded grammars without macros/labels/user operators/precedence, and for all others under conditions the loader does not check (Careful); without them false, counterexamples proved. The literal looked up for error reports is not part of that safety claim; it is safe if no rule calls one of its parameters with arguments (C36_literal_lookup_safe), otherwise the lookup dereferences null (C36_parameter_call_null)."
 },
 "C43": {
  "status": "partial",
  "note": "Proved for every number of threads and every schedule (sequentially consistent steps, one access each; call_once blocking), with race freedom and absence of deadlock, for grammars without precedence climbing; false with precedence climbing, schedule with a wrong result and data race proved. Callbacks are pure functions; loggers, tracers and packrat statistics are not modelled."
 },
 "C35": {
  "status": "partial",
  "note": "Proved (all inputs, all grammars): a grammar and its textual expansion (relation Expands: a call is replaced by the macro's body with the arguments for the parameters, repeatedly) have the same meaning in the reference semantics, and certified grammars give the same parse result, length and values, for macro arguments that are 'flat' (no reference named like a macro parameter, no parameter inside the arguments of a call that is itself an argument, no back references). Each restriction is shown necessary by a witness: C35_capture (unhygienic names), C35_nested_call_hangs (infinite recursion on every text), C35_back_reference (null pointer), C35_choice (choice() lost). Missing: left-recursive macros, precedence climbing and recovery inside macros (outside the reference semantics). Grammars with left-recursive rules are excluded (hypothesis noLR)."
 },
 "C34": {
  "status": "partial",
  "note": "Specification PrecTree.lean (trees respecting levels and associativity; exactly one per operand/operator sequence, for every table). Proved in the reference semantics for every table, input and grammar: a match reads the input as operands and operators, stops before no table operator, and has the value of that tree; conversely every such reading is parsed; it fails only without an operand or with a dangling operator, and a dangling operator fails the whole expression. Transferred to the engine for certified grammars (parse finishes, same result and value). Missing: packrat parsing (false there when the operator rule is memoised, see C34_packrat_loses_operator_witness), grammars with captures, precedence rules inside macros, predicates and leave hooks on the rule itself in the engine-level statement; std::map construction of the table is taken as given."
 },
 "C32": {
  "status": "partial",
  "note": "For every rule A <- A r1 / ... / A rn / b1 / ... / bk of every grammar of the reference semantics: same matches, captures and failures as (b1/.../bk)(r1/.../rn)* at every position (predicates may not look at values, r must consume), values nested to the left (no precedence climbing in r). The engine does this for certified grammars (Ready: the rule is called in one mode, no captures); outside, C32_mode_blind_table and C32_given_up_round_leaves_capture are counterexamples on the engine model. Indirect left recursion and left-recursive macros are not covered."
 },
 "C53": {
  "status": "proved",
  "note": "For all texts in the notation of MetaSpec.lean, instructions in braces and all escapes included. Texts outside that notation which the reader happens to accept (some juxtapositions without spacing, unclosed quotes in operators, surrogates via \\u) are not covered. Where the reader departs from what one would expect the notation says so, and the departure is proved as a counterexample (counts above 2^64, nine-digit escapes, empty alternatives, glued arrow, mixed dictionaries, instructions after precedence)."
 },
 "C52": {
  "status": "proved",
  "note": "Reader = bootstrap grammar (rules transcribed) + actions, run by the engine model. An exception inside an action ends the parse at once in the code, at the end in the model."
 },
 "C54": {
  "status": "partial",
  "note": "Proved for every UTF-8 text without overlong escapes (no \\x or \\u followed by 8 hex digits, no \\ followed by 11 digits): reading ends in a refusal or regular definitions; loading ends unless all names begin with %. The two excluded cases are real failures (C54_counterexample_*). Safety of the resulting parser: texts without macros, labels, precedence (C54_loaded_text_safe_partial), others under conditions on the loaded rules (C54_careful_text_safe_partial, sample with macro, label and precedence). Rules passed by the user: C67. The literal looked up for error reports: C36_literal_lookup_safe, C36_parameter_call_null."
 },
 "C55": {
  "status": "partial",
  "note": "Proved end to end, from bytes of the grammar text to the answer, for well-formed texts (WellFormed: conditions on the rules of the text alone, in the manner of Ford: no loop over what may match nothing, no rule calling itself at its own position except in leading alternatives that begin with it, A <- A r / ... / b; plus no keyword-guard shape, case-insensitive classes uniform, no empty tokens with white space) without macros, captures, cuts, labels, recovery, precedence and other (indirect, hidden) left recursion; UTF-8 inputs, with or without packrat parsing (each rule then called in one way only), with or without logger. C60_well_formed_text_works adds that such a text is never refused by the loader's checks. In general false: C55_counterexample_keyword (the keyword-guard optimisation accepts what the text refuses); see also C27/C28 counterexamples."
 },
 "C56": {
  "status": "partial",
  "note": "Proved for every report of every parse: rendering reads nothing outside the input and ends, line/column/position, format and order of the message, the structured lists equal the items of the message. The unexpected token is characterised for UTF-8 text from the position on (C56_unexpected_token) and bounded for any bytes. Custom messages: C56_custom_message_partial needs text parts without '%' and a position at a character other than '%' or a control character; counterexamples: '%c' at a line break shows a backslash, placeholders stay at the end of the input, '%tc' at '%', literals are neither escaped nor shown past a NUL."
 },
 "C57": {
  "status": "proved",
  "note": "Handlers are observed through the user datum they are given; calls made while recovering from an error get a datum of their own (C57_recovery_unseen) and are not covered. Rules with a precedence instruction: pairing and nesting are proved, the number of their actions is not (they run per operator, C57_precedence_actions). A precedence instruction on a macro or on %whitespace is excluded. C++ exceptions thrown by handlers are not modelled."
 },
 "C58": {
  "status": "partial",
  "note": "Which message is reported and that nothing else is: every grammar and parse without recovery (C58_reported, C58_first_furthest, C58_plain_only_without_messages); origin of messages: every report, recovery included (C58_message_origin); placeholders: every message (C58_placeholders). That a failing rule offers its message is proved without packrat parsing, for rules that are neither macros nor left-recursive. Findings: a message hides failures further on (C58_message_masks_error); the library's messages keep the label of an earlier message (C58_stale_label)."
 },
 "C60": {
  "status": "proved",
  "note": "For the core notation, from the bytes of the text; C60_checks_are_silent is the statement for the checks alone, for every operator except macros. Outside (macros) false: C60_counterexample_parameter_name (a parameter named like the calling rule is reported as left recursion)."
 },
 "C61": {
  "status": "proved",
  "note": "The walk over what was read stands for the actions that run while reading (in a text read to its end no capture, scope or back reference is read in an abandoned attempt). C61_counterexample_other_alternative: an accepted back reference may still be tried when nothing was captured."
 },
 "C63": {
  "status": "partial",
  "note": "C63_restored_parser_partial: for every loaded grammar within the limits of blobs (Def.storable) the restored parser equals the original for every listing and iteration order. Missing because false or refused: captures (C63_captures_refused, an exact characterisation) and dictionaries with a word that is a prefix of an earlier one (C63_word_lost); also not covered: case-insensitive dictionaries with upper-case words. C63_text_partial: the same for grammar texts, where is_token and the literals need not be assumed; excluded: arguments written behind a parameter, and a parameter called %recover. C63_sample, C63_text_sample: grammars with macros, precedence, white space, dictionary."
 },
 "C65": {
  "status": "partial",
  "note": "C65_tracing_while_logging: every grammar and history, exact equality. Without a logger: every grammar and history if no reachable left-recursive macro passes on its parameters without calling a macro and %whitespace calls no macro (as C44); false without that: C65_tracer_changes_language. Tracer callbacks are not modelled beyond their presence (they get constant references)."
 },
 "C66": {
  "status": "partial",
  "note": "Result, justification of messages, explanation of refusals and (for texts that load) the exact set of warnings are proved for every text. Warnings of refused texts are right if all names referred to are defined; otherwise false: C66_counterexample_false_warning. Not modelled: line and column of messages, the names in messages about instructions and back references, the path in the infinite-loop message; left-recursion and loop verdicts as in C30/C31."
 },
 "C67": {
  "status": "partial",
  "note": "C67_rules, C67_supplied_parser, C67_text_rules_stay (rules without a precedence instruction), C67_references_resolve, C67_none_supplied: every UTF-8 text (no parameter called %recover, no supplied rule of that name). C67_order: if no two supplied rules are for one name; false otherwise (C67_counterexample_order: N and ~N). C67_safe_partial: under the conditions of C36. C67_macro_stays_macro: a macro for which a parser is supplied stays a macro. The literal looked up for error reports: C36_literal_lookup_safe."
 },
 "C68": {
  "status": "partial",
  "note": "C68_last_load, C68_last_blob: every sequence of calls. C68_refused_text: every refused text. C68_settings: every UTF-8 text that loads (no parameter called %recover, no supplied rule of that name) and every sequence of settings and parses. A refused blob: unchanged if the bytes do not begin with the magic number (C68_refused_blob_partial); otherwise false, the start rule may change and the next parse may be undefined (C68_counterexample_refused_blob). Looking up an unknown rule does affect the object: a saved copy crashes the loader, for every parser that can be saved (C68_counterexample_unknown_rule). enable_packrat_parsing() after load_blob never has an effect (C68_blob_packrat)."
 }
}