# Formal model of cpp-peglib in Lean 4 — design

The library is header only: everything is in `/repo/peglib.h` (7219 lines); line numbers below refer to it.

## Trusted base

* Lean 4.33.0's kernel.  The axioms that occur are `propext`, `Classical.choice` and `Quot.sound` (most theorems use all three,
  through core lemmas, `omega` and `simp`); none is added, no `native_decide`/`bv_decide`.  Concrete witnesses are
  evaluated by the kernel (`decide +kernel`).
* The reading of the C++ code: each Lean definition carries the line range it models and any simplification.  The model is never
  run against the C++ program (it cannot be built here).  `MetaRules.lean` (the bootstrap grammar) is transcribed by
  `tools/mkmeta.py`, whose input is a hand transcription of 5461-5659.
* The C++ runtime: `std::vector`, `std::map`, `std::any`, `std::function`, `shared_ptr` behave as specified; the "C" locale for
  `tolower/toupper/ispunct/isspace`; `size_t` has 64 bits, `int` 32.  Memory exhaustion, stack overflow depth and timing are outside
  the model.  Threads: sequentially consistent steps; race freedom is proved where it is claimed.

Undefined behaviour (out-of-bounds index, null dereference, `back()` of an empty vector, a read through a dangling pointer into a
destroyed capture string, a user parser that returns more than the remaining length) is an explicit outcome `Out.ub`, distinct from
failure; `Out.oof` means "needs more fuel", so non-termination is `∀ fuel, run fuel … = oof`.

## What is modelled, what is not

Modelled: UTF-8 helpers, escapes, character classes, the dictionary trie, line info, the packrat table (with and without its data
structure), semantic values, the context, every operator class, rules with packrat, left recursion, recovery, precedence climbing,
macros, token boundaries, white space, word boundaries, cut, captures, error data and reports, recognise-only mode; loading (reader of
grammar texts, reference check, linking, the start rule, infinite-loop and nullability analysis, left recursion, white space, word,
precedence, first sets, span scans, keyword guards, rule numbering); AST building and optimisation; grammar blobs; lazily initialised
members and threads; histories of parses on one object.

Not modelled: the events a tracer sees and the profiling helpers (`enable_trace`, of which only the presence is modelled, `enable_profiling`), packrat statistics, `FindLiteralToken` (2507-2524, 4380-4387) on a rule that is nothing but the
call of a parameter with arguments (the code uses a null pointer there: `S <- M([b])  M(x) <- x('a')` on `c`), identity of expected literals (the code compares pointers, the model texts: a literal written twice may
be listed twice), `parser::load_grammar(filepath)` and other I/O, `enable_ast<T>` with a user node
type other than its shape, `Action` overload resolution (templates), the deprecated aliases, the
combinator API's own overloads (combinators build the same operators), exceptions thrown by user callbacks, and lifetime of
`string_view`s into the grammar text (capture names and precedence operators keep views into it: a grammar text that dies before the
parser is outside the model).

Deliberate abstractions:
* `Cfg.trap`, `Err.notes` and `St.fails` are ghost fields of the engine (a switch that replaces the re-entry guard by a trap; the lists of messages offered and of recorded
  failures); they influence nothing else.
* Which rules the packrat filter (4753-4915) keeps is a parameter of the session model (`F`): theorems hold for every filter.  `packratFilter`
  (`Filter.lean`) is the library's filter; the counterexamples from texts use it.
* `load` takes the verdict of the left-recursion detector (`mark`) and of the loop detector (`loops`) as parameters; the detectors
  themselves are modelled in `Analysis.lean`; `realMark`, `realLoops` (`TextSane.lean`) instantiate the parameters with them (C60).
* Callbacks (actions, predicates, enter/leave, user parsers) are functions of what they are given; they do not throw and do not modify
  the context.
* In the reader an exception thrown in an action ends the model's parse only at its end.

## Modules (`lean/Verif`)

Model (M), specification (S), proofs (P).

| module | kind | contents |
|---|---|---|
| `Basic` | M | bytes, outcomes |
| `Utf8`, `Utf8Pos` | M S P | 88-222; texts and character boundaries |
| `Escape` | M P | 224-376 |
| `CharClass` | M P | 381-416, 1823-1967, span scan |
| `Trie` | M P | 438-521, 3684-3718 |
| `LineInfo` | M P | 530-571, 1400-1429 |
| `PackratCache`, `PackratCacheProofs` | M P | 898-1000 |
| `Ope`, `Engine` | M | 1002-2214, 2861-2940, 3106-3445, 3446-4313 |
| `EngineMono`, `EngineInv`, `EngineFrame`, `Parses` | P | fuel, invariants, frame property of the engine |
| `Spec` | S | plain PEG semantics with values: no tables, no optimisations |
| `PegDet`, `PegErase`, `PegShift`, `PegSolid`, `Plain` | P | facts about the reference semantics |
| `Cert`, `Check` | S | computable certificates of well-formed grammars |
| `Sim*` | P | engine = reference semantics for certified grammars |
| `PrecTree`, `PrecPeg` | S P | operator trees; precedence climbing |
| `FirstSet`, `FirstSetProofs`, `Annotate`, `Loaded` | M P | 2948-3093, 4580-4752 |
| `Der`, `DerOk`, `DerProofs`, `DerParse`, `DerVals`, `Utf8Der` | S P | grammars as context-free grammars with values |
| `Ast`, `AstProofs`, `AstBuild` | M P | 6475-6660, 7004-7050 |
| `Blob`, `BlobProofs`, `BlobRound` | M P | 4953-5364 |
| `Analysis`, `NullProofs`, `LoopProofs`, `LeftRec`, `Accepted`, `Enters` | M P | 2510-2823, 4389-4558, 6353-6460 |
| `ErrTrace` | P | error data as a function of recorded failures |
| `Safety`, `Link`, `Load`, `LoadInv`, `LoadSafe`, `LoadSimple`, `Props/Literal` | M P | 2507-2524, 4380-4387, 2829-2859, 4558-4580, 4917-4939, 6237-6460 |
| `Ids`, `Congr`, `Session`, `Lockstep`, `Modes` | M P | 2438-2456, 3331-3425, 4338-4369, 4753-4915 (as parameter): histories, modes |
| `Threads`, `ThreadParse` | M P | 3275-3439, 4063, 4170-4202: schedules |
| `Macro`, `MacroSubst` | S P | macro expansion as substitution |
| `MetaRules`, `Meta`, `MetaReady` | M P | 5408-6133, 6197-6225: the reader of grammar texts |
| `MetaSpec` | S | the notation of grammar texts |
| `MetaAlg`, `MetaTok`, `MetaLex*`, `MetaRead`, `MetaPrim`, `MetaExp`, `MetaInstr`, `MetaDef`, `MetaPrint` | P | reading what is written |
| `SrcEq` | — | evaluation of examples |
| `MetaLang`, `MetaShape`, `MetaType`, `MetaAct`, `MetaChars` | P/S | which bytes and values each rule of the reader's grammar can give; specification `Regular`, `GoodDef`, `ShortEscapes` |
| `Props/ReadTypes` (`loadText`) | M/T | from grammar text to parser |
| `TextSem` | S | the textbook meaning of the rules of a text (`Sem`, `Recog`) |
| `TextMeans`, `Reflag`, `TextMade` | P | what loading makes of a text has that meaning |
| `Props/TextMeaning` | T | C55 |
| `ErrText` | M | the text of error messages: unexpected token, placeholders, expected list |
| `Quiet` | P | without back references error reports are always defined |
| `Repack` | P | a parse is what it would be if rules it cannot reach had numbers of their own |
| `TextQuiet` | P | rules of a simple text meet the hypotheses of the derivation theorem |
| `TextWf` | S P | well-formed texts (`WellFormed`) and their certificates |
| `Props/ErrText` | T | C56 |
| `Props/ErrUtf8` | T | C59 |
| `NoAlarm` | S P | `Sane` rules; the checks report nothing in them |
| `TextSane` | M P | the loader's checks as functions (`realMark`, `realLoops`); well-formed texts are `Sane` |
| `Props/NoAlarm` | T | C60 |
| `Captures` | M S P | 5436-5445, 5723-5727, 5860-5871, 6014-6065, 6264-6273: the check of back references |
| `Filter` | M | 2641-2730, 4753-4915: signatures, the packrat filter |
| `Props/Captures` | T | C61, C15 |
| `AstPrint`, `Props/AstPrint` | M S P T | 6548-6580: C64 |
| `LoadLog`, `Props/LoadLog` | M S P T | 4558-4581, 6197-6470: messages of the loader: C66 |
| `Props/UserRules` | M S T | 6226-6239: rules supplied by the application: C67 |
| `Object`, `Props/Object` | M S T | 6820-6975, 7036-7055: the parser object, any sequence of loads, settings and parses: C68 |
| `Once`, `Props/Once` | P T | C62: potential argument over all tasks of the engine |
| `BlobParser`, `Props/BlobParser`, `BlobText`, `Props/BlobText` | M P T | 5253-5292, 5334-5363, 6846-6864, 2462-2524, 4369-4387: C63 |
| `Handlers` | P | the order of `enter`, action and `leave` calls through a parse (`Hn`, `noteAll`) |
| `Props/Handlers` | T | C57 |
| `Props/Messages` | T | C58 |
| `Props/*` | | the theorems `C<nn>_…`, one file per area, with instances and counterexamples |

## Per property: what is modelled and how it is proved

`MANIFEST.json` gives the theorems and what is missing.  Where a property is false of the code, the theorem carrying it is named
`_partial` (it has the condition the code needs) and a counterexample is proved next to it (`_counterexample`/`_witness`).

* C01-C03: arithmetic on bytes (`omega` over div/mod forms of the bit operations), induction on the string.
* C04-C05: induction over the scan loop of `Escape.resolve`; counterexamples for escapes followed by digits.
* C06-C08: induction over the sorted range list; both lookup paths against `∃ range`; induction over the span loop.
* C09-C10: invariant of the trie built word by word (which prefixes are present, which are marked).
* C11-C13: induction; invariant of the line hint over all query histories; error data against the list of recorded failures (`ErrTrace`).
* C14: refinement of a finite map, open addressing with tombstones, for every hash function.
* C15, C27, C44, C51: `Sim*`: engine = reference semantics for certified grammars, whatever the optimisations; `Lockstep`: two engines side by side for all grammars.
* C16-C21, C23-C26: invariants of `Engine` by induction on fuel, for every operator (`EngineInv`, `EngineFrame`).
* C22, C30, C31: termination from certificates (`Cert`), certificates from the loader's verdicts (`Accepted`); hang witnesses.
* C28, C29: first sets and nullability against the reference semantics, for every order in which rules are visited.
* C32, C33: reference semantics of direct left recursion against iteration; growth of the seed in the engine.
* C34: `PrecTree`: exactly one tree per operand/operator sequence; `PrecPeg`: climbing builds it.
* C35: `Expands` (substitution) against environments, in the reference semantics and for certified grammars.
* C36: `load` by stages (`LoadInv`), safety of linked grammars (`Safety`, `LoadSafe`, `LoadSimple`). The lookup of a literal for error reports is a separate small model (`Props/Literal`): `litVisit` with the null pointer against `litScan` of `linkAll` without it; the safety theorems of C36, C54 and C67 do not include this lookup.
* C37, C38, C50: `parseCore`: verdict against match and recovery; strictly advancing reports.
* C39, C49: structural induction on ASTs; heap model of the optimiser; positions from derivations.
* C40, C41: reader against writer, byte by byte; every read of the blob reader.
* C42, C43: invariant over histories of parses; interleaving semantics, ownership of lazily initialised cells.
* C45, C46: induction over the literal; the engine's literal task.
* C47, C48: `Der`: every finished engine run has a derivation; derivations stay on character boundaries.
* C52, C53: the bootstrap grammar passes the certificate test on UTF-8 texts; `Writes` (notation) implies a match of the reference semantics with the right values, by induction over the way a grammar is written.  Instructions in braces (`MetaInstr`) are read by the same calculus, with the values computed by the actions of `PrecedenceInfo` and `Instruction`.
* C54: type soundness of the reader's actions: for every rule of the bootstrap grammar, the list of values a match can add (`Sh`) and the bytes it can match (`Lg`), by induction over derivations; each action succeeds on such values or reports a syntax error.
* C55: a derivation of the reference semantics of the linked rules is a derivation of the textbook semantics of the text (`peg_sem`, by induction); composed with C52/C54 (reading), C36 (linking) and C27 (engine); the certificates of C27 are computed from the conditions of `WellFormed` (`TextWf`). Rules `A <- A r / ... / b` mean iteration (`lrParts`, `grow`), shown with the growing semantics of `Spec`. `%word` is tested on a bare page (no white space, no words), with certificates of its own (`modeWord`).
* C56: induction over the text: token against code points (`tokenOf`), `replace_all` against splitting at the marker, the message loop against `filterMap`/`intercalate`; invariant `Made` (every report was made by `output_log`) over parses.
* C57: invariant over the engine: the notes appended to `dt` by any task, filtered to watched rules, leave the stack of open calls as it was (`noteAll`); loading puts precedence operators only at the top of their own rule (`load_precIn`).
* C58: invariant over the engine (`ErrTrace`): the custom message kept is a fold over all messages offered (`Err.notes`, ghost), each from a rule or predicate of the grammar (`Origin`); the fold is characterised by `Wins`, placeholder substitution by the relation `Filled`.
* C59: the derivation invariant (`DerProofs`) carries the error data: every remembered position is one the derivation relation allows (`ErrD`), in UTF-8 grammars a character boundary; `lineOf`, `colOf`, `tokenOf` say in characters what a message must show.
* C60: both visitors are followed by induction on the expression; invariants: nothing reported so far, all cached verdicts negative, visited rules (path names) distinct so that the recursion bound is never reached, every rule reached at the start has smaller rank or is a directly left-recursive rule already visited; what the visitor takes for possibly empty is nullable in the certificate (least fixed point for the `can_be_empty` flags). Composed with the loader and C55.
* C61: the walk over a tree is a fold over its list of events; the stack after a prefix holds in level k exactly the captures after which k more scopes were opened than closed and never more closed than opened (induction from the right).
* C62: for one rule and one position, (number of `enter` notes) - (table entry marked) never increases, over every operator (`On`, `run_O`); the bounds of `EngineInv` show that matches fit the table. Nothing is entered behind the end of the input, so summing over the positions gives the linear bound (`C62_linear`). Parser objects: unreachable rules are renumbered away with `parse_eq`. Counterexamples for rules that are not remembered (`&A A`) and for left-recursive rules.
* C63: `blobOf` (what the writer sees of a loaded parser) and `restore` (linking by name, first sets, white space, word, packrat flag after reading) are inverse: induction on operators (`relink`), the stages of `load` (`fresh_of_load`), annotations are not written (`toB_plain`) and recomputed; with C40 for the bytes. For texts (`C63_text_partial`) the properties computed on demand are those of the loaded operators: `link_scan`, by induction on expressions. Counterexamples: captures, dictionaries.
* C64: the printed text is a list of lines (no line end inside), a line determines indentation and what is shown (names contain no blank, `/`, brackets), a list of depths in preorder determines the tree (mutual induction with the rest of the list).  A token with a line end in it is a proved counterexample to the unconditional claim.
* C65: `Call.trace` (a tracer is attached) enters `needs_rule_stack` and the choice of the recognise-only mode; same lockstep simulation as C44 and C51 (`watch_lk`).
* C66: `loadLog` is `load` with the messages; both are walked in parallel (`loadLog_load`), the ways to end are listed (`LogCase`); what `ReferenceChecker` looks at is what is used if everything it looks at is defined (induction on the expression).
* C67: supplied rules are added to what was read (`addRule`), by name: `lookup_addRules` (induction on the list); the rest is C36 for the extended source, and the stages of `load` (`loaded_rule`). A supplied rule `%recover` (it would replace the built-in macro) is not modelled.
* C68: the object is a record of the members of `parser`; each call is a step. `run_leftRec` (induction on the calls): all that survives a load is the left-recursion setting. `Since`: invariant of the calls after a load; a rule numbered by a parse without packrat parsing is as good as new (`prepare_plain_then`). Callbacks and loggers are part of each parse. Not modelled: AST actions set by `enable_ast` in relation to later loads (they are callbacks), tracer start/end callbacks.
