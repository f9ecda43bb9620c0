import Verif.Link
/-!
# The bootstrap grammar (peglib.h 5461-5659)

The grammar in which grammar texts are read, built by `make_grammar` with the combinators.  Generated by tools/mkmeta.py.  `rX` is the number of
rule `X`, `dX` the rule.  Simplification: the combinators hold other rules by `WeakHolder`, here they are references; both call the rule, a
reference also pushes an empty argument list, which nothing reads here (there are no macros and no left recursion).
-/

namespace Verif.Meta
open Verif

/-- peglib.h 2216-2343: the combinator. -/
abbrev seq (es : List Ope) : Ope := .seq es none
/-- peglib.h 2216-2343: the combinator. -/
abbrev cho (es : List Ope) : Ope := .cho es false []
/-- peglib.h 2216-2343: the combinator. -/
abbrev zom (e : Ope) : Ope := .rep e 0 none none
/-- peglib.h 2216-2343: the combinator. -/
abbrev oom (e : Ope) : Ope := .rep e 1 none none
/-- peglib.h 2216-2343: the combinator. -/
abbrev opt (e : Ope) : Ope := .rep e 0 (some 1) none
/-- peglib.h 2216-2343: the combinator. -/
abbrev npd (e : Ope) : Ope := .not_ e
/-- peglib.h 2216-2343: the combinator. -/
abbrev lit (s : List Byte) : Ope := .lit s false
/-- peglib.h 2216-2343: the combinator. -/
abbrev cls (r : List (Nat × Nat)) : Ope := .cls ⟨r, false, false⟩

/-- peglib.h 5463: the number of `Grammar`. -/
@[match_pattern] abbrev rGrammar : Nat := 0
/-- peglib.h 5468-5470: the number of `Definition`. -/
@[match_pattern] abbrev rDefinition : Nat := 1
/-- peglib.h 5471: the number of `Expression`. -/
@[match_pattern] abbrev rExpression : Nat := 2
/-- peglib.h 5472: the number of `Sequence`. -/
@[match_pattern] abbrev rSequence : Nat := 3
/-- peglib.h 5473: the number of `Prefix`. -/
@[match_pattern] abbrev rPrefix : Nat := 4
/-- peglib.h 5474-5475: the number of `SuffixWithLabel`. -/
@[match_pattern] abbrev rSuffixWithLabel : Nat := 5
/-- peglib.h 5476: the number of `Suffix`. -/
@[match_pattern] abbrev rSuffix : Nat := 6
/-- peglib.h 5477: the number of `Loop`. -/
@[match_pattern] abbrev rLoop : Nat := 7
/-- peglib.h 5478-5487: the number of `Primary`. -/
@[match_pattern] abbrev rPrimary : Nat := 8
/-- peglib.h 5492: the number of `Identifier`. -/
@[match_pattern] abbrev rIdentifier : Nat := 9
/-- peglib.h 5493: the number of `IdentCont`. -/
@[match_pattern] abbrev rIdentCont : Nat := 10
/-- peglib.h 5497-5498: the number of `IdentStart`. -/
@[match_pattern] abbrev rIdentStart : Nat := 11
/-- peglib.h 5500: the number of `IdentRest`. -/
@[match_pattern] abbrev rIdentRest : Nat := 12
/-- peglib.h 5502: the number of `Dictionary`. -/
@[match_pattern] abbrev rDictionary : Nat := 13
/-- peglib.h 5504-5505: the number of `DictionaryI`. -/
@[match_pattern] abbrev rDictionaryI : Nat := 14
/-- peglib.h 5504-5508: the number of `Literal`. -/
@[match_pattern] abbrev rLiteral : Nat := 15
/-- peglib.h 5511: the number of `LiteralD`. -/
@[match_pattern] abbrev rLiteralD : Nat := 16
/-- peglib.h 5511-5516: the number of `LiteralI`. -/
@[match_pattern] abbrev rLiteralI : Nat := 17
/-- peglib.h 5519: the number of `LiteralID`. -/
@[match_pattern] abbrev rLiteralID : Nat := 18
/-- peglib.h 5523-5525: the number of `Class`. -/
@[match_pattern] abbrev rClass : Nat := 19
/-- peglib.h 5526-5528: the number of `ClassI`. -/
@[match_pattern] abbrev rClassI : Nat := 20
/-- peglib.h 5530-5532: the number of `NegatedClass`. -/
@[match_pattern] abbrev rNegatedClass : Nat := 21
/-- peglib.h 5533-5535: the number of `NegatedClassI`. -/
@[match_pattern] abbrev rNegatedClassI : Nat := 22
/-- peglib.h 5539-5540: the number of `Range`. -/
@[match_pattern] abbrev rRange : Nat := 23
/-- peglib.h 5542: the number of `ClassEscape`. -/
@[match_pattern] abbrev rClassEscape : Nat := 24
/-- peglib.h 5543-5544: the number of `PosixClass`. -/
@[match_pattern] abbrev rPosixClass : Nat := 25
/-- peglib.h 5543-5553: the number of `Char`. -/
@[match_pattern] abbrev rChar : Nat := 26
/-- peglib.h 5557-5558: the number of `Repetition`. -/
@[match_pattern] abbrev rRepetition : Nat := 27
/-- peglib.h 5559-5561: the number of `RepetitionRange`. -/
@[match_pattern] abbrev rRepetitionRange : Nat := 28
/-- peglib.h 5562: the number of `Number`. -/
@[match_pattern] abbrev rNumber : Nat := 29
/-- peglib.h 5564: the number of `CapScope`. -/
@[match_pattern] abbrev rCapScope : Nat := 30
/-- peglib.h 5566: the number of `LEFTARROW`. -/
@[match_pattern] abbrev rLEFTARROW : Nat := 31
/-- peglib.h 5567: the number of `SLASH`. -/
@[match_pattern] abbrev rSLASH : Nat := 32
/-- peglib.h 5568: the number of `PIPE`. -/
@[match_pattern] abbrev rPIPE : Nat := 33
/-- peglib.h 5569: the number of `AND`. -/
@[match_pattern] abbrev rAND : Nat := 34
/-- peglib.h 5570: the number of `NOT`. -/
@[match_pattern] abbrev rNOT : Nat := 35
/-- peglib.h 5571: the number of `QUESTION`. -/
@[match_pattern] abbrev rQUESTION : Nat := 36
/-- peglib.h 5572: the number of `STAR`. -/
@[match_pattern] abbrev rSTAR : Nat := 37
/-- peglib.h 5573: the number of `PLUS`. -/
@[match_pattern] abbrev rPLUS : Nat := 38
/-- peglib.h 5574: the number of `OPEN`. -/
@[match_pattern] abbrev rOPEN : Nat := 39
/-- peglib.h 5575: the number of `CLOSE`. -/
@[match_pattern] abbrev rCLOSE : Nat := 40
/-- peglib.h 5576: the number of `DOT`. -/
@[match_pattern] abbrev rDOT : Nat := 41
/-- peglib.h 5578: the number of `CUT`. -/
@[match_pattern] abbrev rCUT : Nat := 42
/-- peglib.h 5579: the number of `LABEL`. -/
@[match_pattern] abbrev rLABEL : Nat := 43
/-- peglib.h 5581: the number of `Spacing`. -/
@[match_pattern] abbrev rSpacing : Nat := 44
/-- peglib.h 5582-5583: the number of `Comment`. -/
@[match_pattern] abbrev rComment : Nat := 45
/-- peglib.h 5584: the number of `Space`. -/
@[match_pattern] abbrev rSpace : Nat := 46
/-- peglib.h 5585: the number of `EndOfLine`. -/
@[match_pattern] abbrev rEndOfLine : Nat := 47
/-- peglib.h 5586: the number of `EndOfFile`. -/
@[match_pattern] abbrev rEndOfFile : Nat := 48
/-- peglib.h 5588: the number of `BeginTok`. -/
@[match_pattern] abbrev rBeginTok : Nat := 49
/-- peglib.h 5589: the number of `EndTok`. -/
@[match_pattern] abbrev rEndTok : Nat := 50
/-- peglib.h 5591: the number of `BeginCapScope`. -/
@[match_pattern] abbrev rBeginCapScope : Nat := 51
/-- peglib.h 5592: the number of `EndCapScope`. -/
@[match_pattern] abbrev rEndCapScope : Nat := 52
/-- peglib.h 5594: the number of `BeginCap`. -/
@[match_pattern] abbrev rBeginCap : Nat := 53
/-- peglib.h 5595: the number of `EndCap`. -/
@[match_pattern] abbrev rEndCap : Nat := 54
/-- peglib.h 5597: the number of `BackRef`. -/
@[match_pattern] abbrev rBackRef : Nat := 55
/-- peglib.h 5599: the number of `IGNORE`. -/
@[match_pattern] abbrev rIGNORE : Nat := 56
/-- peglib.h 5601: the number of `Ignore`. -/
@[match_pattern] abbrev rIgnore : Nat := 57
/-- peglib.h 5602-5603: the number of `Parameters`. -/
@[match_pattern] abbrev rParameters : Nat := 58
/-- peglib.h 5604-5605: the number of `Arguments`. -/
@[match_pattern] abbrev rArguments : Nat := 59
/-- peglib.h 5606: the number of `COMMA`. -/
@[match_pattern] abbrev rCOMMA : Nat := 60
/-- peglib.h 5609-5613: the number of `Instruction`. -/
@[match_pattern] abbrev rInstruction : Nat := 61
/-- peglib.h 5614-5615: the number of `InstructionItem`. -/
@[match_pattern] abbrev rInstructionItem : Nat := 62
/-- peglib.h 5616: the number of `InstructionItemSeparator`. -/
@[match_pattern] abbrev rInstructionItemSeparator : Nat := 63
/-- peglib.h 5618: the number of `SpacesZom`. -/
@[match_pattern] abbrev rSpacesZom : Nat := 64
/-- peglib.h 5619: the number of `SpacesOom`. -/
@[match_pattern] abbrev rSpacesOom : Nat := 65
/-- peglib.h 5620: the number of `BeginBracket`. -/
@[match_pattern] abbrev rBeginBracket : Nat := 66
/-- peglib.h 5621: the number of `EndBracket`. -/
@[match_pattern] abbrev rEndBracket : Nat := 67
/-- peglib.h 5624-5626: the number of `PrecedenceClimbing`. -/
@[match_pattern] abbrev rPrecedenceClimbing : Nat := 68
/-- peglib.h 5627-5629: the number of `PrecedenceInfo`. -/
@[match_pattern] abbrev rPrecedenceInfo : Nat := 69
/-- peglib.h 5630-5638: the number of `PrecedenceOpe`. -/
@[match_pattern] abbrev rPrecedenceOpe : Nat := 70
/-- peglib.h 5639: the number of `PrecedenceAssoc`. -/
@[match_pattern] abbrev rPrecedenceAssoc : Nat := 71
/-- peglib.h 5642-5643: the number of `ErrorMessage`. -/
@[match_pattern] abbrev rErrorMessage : Nat := 72
/-- peglib.h 5646: the number of `NoAstOpt`. -/
@[match_pattern] abbrev rNoAstOpt : Nat := 73
/-- peglib.h 5649: the number of `NoWhitespace`. -/
@[match_pattern] abbrev rNoWhitespace : Nat := 74
/-- peglib.h 5652-5653: the number of `AstName`. -/
@[match_pattern] abbrev rAstName : Nat := 75

/-- peglib.h 5463: `Grammar` -/
abbrev nGrammar : List Byte := [71, 114, 97, 109, 109, 97, 114]
/-- peglib.h 5468-5470: `Definition` -/
abbrev nDefinition : List Byte := [68, 101, 102, 105, 110, 105, 116, 105, 111, 110]
/-- peglib.h 5471: `Expression` -/
abbrev nExpression : List Byte := [69, 120, 112, 114, 101, 115, 115, 105, 111, 110]
/-- peglib.h 5472: `Sequence` -/
abbrev nSequence : List Byte := [83, 101, 113, 117, 101, 110, 99, 101]
/-- peglib.h 5473: `Prefix` -/
abbrev nPrefix : List Byte := [80, 114, 101, 102, 105, 120]
/-- peglib.h 5474-5475: `SuffixWithLabel` -/
abbrev nSuffixWithLabel : List Byte := [83, 117, 102, 102, 105, 120, 87, 105, 116, 104, 76, 97, 98, 101, 108]
/-- peglib.h 5476: `Suffix` -/
abbrev nSuffix : List Byte := [83, 117, 102, 102, 105, 120]
/-- peglib.h 5477: `Loop` -/
abbrev nLoop : List Byte := [76, 111, 111, 112]
/-- peglib.h 5478-5487: `Primary` -/
abbrev nPrimary : List Byte := [80, 114, 105, 109, 97, 114, 121]
/-- peglib.h 5492: `Identifier` -/
abbrev nIdentifier : List Byte := [73, 100, 101, 110, 116, 105, 102, 105, 101, 114]
/-- peglib.h 5493: `IdentCont` -/
abbrev nIdentCont : List Byte := [73, 100, 101, 110, 116, 67, 111, 110, 116]
/-- peglib.h 5497-5498: `IdentStart` -/
abbrev nIdentStart : List Byte := [73, 100, 101, 110, 116, 83, 116, 97, 114, 116]
/-- peglib.h 5500: `IdentRest` -/
abbrev nIdentRest : List Byte := [73, 100, 101, 110, 116, 82, 101, 115, 116]
/-- peglib.h 5502: `Dictionary` -/
abbrev nDictionary : List Byte := [68, 105, 99, 116, 105, 111, 110, 97, 114, 121]
/-- peglib.h 5504-5505: `DictionaryI` -/
abbrev nDictionaryI : List Byte := [68, 105, 99, 116, 105, 111, 110, 97, 114, 121, 73]
/-- peglib.h 5504-5508: `Literal` -/
abbrev nLiteral : List Byte := [76, 105, 116, 101, 114, 97, 108]
/-- peglib.h 5511: `LiteralD` -/
abbrev nLiteralD : List Byte := [76, 105, 116, 101, 114, 97, 108, 68]
/-- peglib.h 5511-5516: `LiteralI` -/
abbrev nLiteralI : List Byte := [76, 105, 116, 101, 114, 97, 108, 73]
/-- peglib.h 5519: `LiteralID` -/
abbrev nLiteralID : List Byte := [76, 105, 116, 101, 114, 97, 108, 73, 68]
/-- peglib.h 5523-5525: `Class` -/
abbrev nClass : List Byte := [67, 108, 97, 115, 115]
/-- peglib.h 5526-5528: `ClassI` -/
abbrev nClassI : List Byte := [67, 108, 97, 115, 115, 73]
/-- peglib.h 5530-5532: `NegatedClass` -/
abbrev nNegatedClass : List Byte := [78, 101, 103, 97, 116, 101, 100, 67, 108, 97, 115, 115]
/-- peglib.h 5533-5535: `NegatedClassI` -/
abbrev nNegatedClassI : List Byte := [78, 101, 103, 97, 116, 101, 100, 67, 108, 97, 115, 115, 73]
/-- peglib.h 5539-5540: `Range` -/
abbrev nRange : List Byte := [82, 97, 110, 103, 101]
/-- peglib.h 5542: `ClassEscape` -/
abbrev nClassEscape : List Byte := [67, 108, 97, 115, 115, 69, 115, 99, 97, 112, 101]
/-- peglib.h 5543-5544: `PosixClass` -/
abbrev nPosixClass : List Byte := [80, 111, 115, 105, 120, 67, 108, 97, 115, 115]
/-- peglib.h 5543-5553: `Char` -/
abbrev nChar : List Byte := [67, 104, 97, 114]
/-- peglib.h 5557-5558: `Repetition` -/
abbrev nRepetition : List Byte := [82, 101, 112, 101, 116, 105, 116, 105, 111, 110]
/-- peglib.h 5559-5561: `RepetitionRange` -/
abbrev nRepetitionRange : List Byte := [82, 101, 112, 101, 116, 105, 116, 105, 111, 110, 82, 97, 110, 103, 101]
/-- peglib.h 5562: `Number` -/
abbrev nNumber : List Byte := [78, 117, 109, 98, 101, 114]
/-- peglib.h 5564: `CapScope` -/
abbrev nCapScope : List Byte := [67, 97, 112, 83, 99, 111, 112, 101]
/-- peglib.h 5566: `LEFTARROW` -/
abbrev nLEFTARROW : List Byte := [76, 69, 70, 84, 65, 82, 82, 79, 87]
/-- peglib.h 5567: `SLASH` -/
abbrev nSLASH : List Byte := [83, 76, 65, 83, 72]
/-- peglib.h 5568: `PIPE` -/
abbrev nPIPE : List Byte := [80, 73, 80, 69]
/-- peglib.h 5569: `AND` -/
abbrev nAND : List Byte := [65, 78, 68]
/-- peglib.h 5570: `NOT` -/
abbrev nNOT : List Byte := [78, 79, 84]
/-- peglib.h 5571: `QUESTION` -/
abbrev nQUESTION : List Byte := [81, 85, 69, 83, 84, 73, 79, 78]
/-- peglib.h 5572: `STAR` -/
abbrev nSTAR : List Byte := [83, 84, 65, 82]
/-- peglib.h 5573: `PLUS` -/
abbrev nPLUS : List Byte := [80, 76, 85, 83]
/-- peglib.h 5574: `OPEN` -/
abbrev nOPEN : List Byte := [79, 80, 69, 78]
/-- peglib.h 5575: `CLOSE` -/
abbrev nCLOSE : List Byte := [67, 76, 79, 83, 69]
/-- peglib.h 5576: `DOT` -/
abbrev nDOT : List Byte := [68, 79, 84]
/-- peglib.h 5578: `CUT` -/
abbrev nCUT : List Byte := [67, 85, 84]
/-- peglib.h 5579: `LABEL` -/
abbrev nLABEL : List Byte := [76, 65, 66, 69, 76]
/-- peglib.h 5581: `Spacing` -/
abbrev nSpacing : List Byte := [83, 112, 97, 99, 105, 110, 103]
/-- peglib.h 5582-5583: `Comment` -/
abbrev nComment : List Byte := [67, 111, 109, 109, 101, 110, 116]
/-- peglib.h 5584: `Space` -/
abbrev nSpace : List Byte := [83, 112, 97, 99, 101]
/-- peglib.h 5585: `EndOfLine` -/
abbrev nEndOfLine : List Byte := [69, 110, 100, 79, 102, 76, 105, 110, 101]
/-- peglib.h 5586: `EndOfFile` -/
abbrev nEndOfFile : List Byte := [69, 110, 100, 79, 102, 70, 105, 108, 101]
/-- peglib.h 5588: `BeginTok` -/
abbrev nBeginTok : List Byte := [66, 101, 103, 105, 110, 84, 111, 107]
/-- peglib.h 5589: `EndTok` -/
abbrev nEndTok : List Byte := [69, 110, 100, 84, 111, 107]
/-- peglib.h 5591: `BeginCapScope` -/
abbrev nBeginCapScope : List Byte := [66, 101, 103, 105, 110, 67, 97, 112, 83, 99, 111, 112, 101]
/-- peglib.h 5592: `EndCapScope` -/
abbrev nEndCapScope : List Byte := [69, 110, 100, 67, 97, 112, 83, 99, 111, 112, 101]
/-- peglib.h 5594: `BeginCap` -/
abbrev nBeginCap : List Byte := [66, 101, 103, 105, 110, 67, 97, 112]
/-- peglib.h 5595: `EndCap` -/
abbrev nEndCap : List Byte := [69, 110, 100, 67, 97, 112]
/-- peglib.h 5597: `BackRef` -/
abbrev nBackRef : List Byte := [66, 97, 99, 107, 82, 101, 102]
/-- peglib.h 5599: `IGNORE` -/
abbrev nIGNORE : List Byte := [73, 71, 78, 79, 82, 69]
/-- peglib.h 5601: `Ignore` -/
abbrev nIgnore : List Byte := [73, 103, 110, 111, 114, 101]
/-- peglib.h 5602-5603: `Parameters` -/
abbrev nParameters : List Byte := [80, 97, 114, 97, 109, 101, 116, 101, 114, 115]
/-- peglib.h 5604-5605: `Arguments` -/
abbrev nArguments : List Byte := [65, 114, 103, 117, 109, 101, 110, 116, 115]
/-- peglib.h 5606: `COMMA` -/
abbrev nCOMMA : List Byte := [67, 79, 77, 77, 65]
/-- peglib.h 5609-5613: `Instruction` -/
abbrev nInstruction : List Byte := [73, 110, 115, 116, 114, 117, 99, 116, 105, 111, 110]
/-- peglib.h 5614-5615: `InstructionItem` -/
abbrev nInstructionItem : List Byte := [73, 110, 115, 116, 114, 117, 99, 116, 105, 111, 110, 73, 116, 101, 109]
/-- peglib.h 5616: `InstructionItemSeparator` -/
abbrev nInstructionItemSeparator : List Byte := [73, 110, 115, 116, 114, 117, 99, 116, 105, 111, 110, 73, 116, 101, 109, 83, 101, 112, 97, 114, 97, 116, 111, 114]
/-- peglib.h 5618: `SpacesZom` -/
abbrev nSpacesZom : List Byte := [83, 112, 97, 99, 101, 115, 90, 111, 109]
/-- peglib.h 5619: `SpacesOom` -/
abbrev nSpacesOom : List Byte := [83, 112, 97, 99, 101, 115, 79, 111, 109]
/-- peglib.h 5620: `BeginBracket` -/
abbrev nBeginBracket : List Byte := [66, 101, 103, 105, 110, 66, 114, 97, 99, 107, 101, 116]
/-- peglib.h 5621: `EndBracket` -/
abbrev nEndBracket : List Byte := [69, 110, 100, 66, 114, 97, 99, 107, 101, 116]
/-- peglib.h 5624-5626: `PrecedenceClimbing` -/
abbrev nPrecedenceClimbing : List Byte := [80, 114, 101, 99, 101, 100, 101, 110, 99, 101, 67, 108, 105, 109, 98, 105, 110, 103]
/-- peglib.h 5627-5629: `PrecedenceInfo` -/
abbrev nPrecedenceInfo : List Byte := [80, 114, 101, 99, 101, 100, 101, 110, 99, 101, 73, 110, 102, 111]
/-- peglib.h 5630-5638: `PrecedenceOpe` -/
abbrev nPrecedenceOpe : List Byte := [80, 114, 101, 99, 101, 100, 101, 110, 99, 101, 79, 112, 101]
/-- peglib.h 5639: `PrecedenceAssoc` -/
abbrev nPrecedenceAssoc : List Byte := [80, 114, 101, 99, 101, 100, 101, 110, 99, 101, 65, 115, 115, 111, 99]
/-- peglib.h 5642-5643: `ErrorMessage` -/
abbrev nErrorMessage : List Byte := [69, 114, 114, 111, 114, 77, 101, 115, 115, 97, 103, 101]
/-- peglib.h 5646: `NoAstOpt` -/
abbrev nNoAstOpt : List Byte := [78, 111, 65, 115, 116, 79, 112, 116]
/-- peglib.h 5649: `NoWhitespace` -/
abbrev nNoWhitespace : List Byte := [78, 111, 87, 104, 105, 116, 101, 115, 112, 97, 99, 101]
/-- peglib.h 5652-5653: `AstName` -/
abbrev nAstName : List Byte := [65, 115, 116, 78, 97, 109, 101]

/-- peglib.h 5463: `g["Grammar"]`. -/
abbrev gGrammar : Ope := .ref rGrammar nGrammar []
/-- peglib.h 5468-5470: `g["Definition"]`. -/
abbrev gDefinition : Ope := .ref rDefinition nDefinition []
/-- peglib.h 5471: `g["Expression"]`. -/
abbrev gExpression : Ope := .ref rExpression nExpression []
/-- peglib.h 5472: `g["Sequence"]`. -/
abbrev gSequence : Ope := .ref rSequence nSequence []
/-- peglib.h 5473: `g["Prefix"]`. -/
abbrev gPrefix : Ope := .ref rPrefix nPrefix []
/-- peglib.h 5474-5475: `g["SuffixWithLabel"]`. -/
abbrev gSuffixWithLabel : Ope := .ref rSuffixWithLabel nSuffixWithLabel []
/-- peglib.h 5476: `g["Suffix"]`. -/
abbrev gSuffix : Ope := .ref rSuffix nSuffix []
/-- peglib.h 5477: `g["Loop"]`. -/
abbrev gLoop : Ope := .ref rLoop nLoop []
/-- peglib.h 5478-5487: `g["Primary"]`. -/
abbrev gPrimary : Ope := .ref rPrimary nPrimary []
/-- peglib.h 5492: `g["Identifier"]`. -/
abbrev gIdentifier : Ope := .ref rIdentifier nIdentifier []
/-- peglib.h 5493: `g["IdentCont"]`. -/
abbrev gIdentCont : Ope := .ref rIdentCont nIdentCont []
/-- peglib.h 5497-5498: `g["IdentStart"]`. -/
abbrev gIdentStart : Ope := .ref rIdentStart nIdentStart []
/-- peglib.h 5500: `g["IdentRest"]`. -/
abbrev gIdentRest : Ope := .ref rIdentRest nIdentRest []
/-- peglib.h 5502: `g["Dictionary"]`. -/
abbrev gDictionary : Ope := .ref rDictionary nDictionary []
/-- peglib.h 5504-5505: `g["DictionaryI"]`. -/
abbrev gDictionaryI : Ope := .ref rDictionaryI nDictionaryI []
/-- peglib.h 5504-5508: `g["Literal"]`. -/
abbrev gLiteral : Ope := .ref rLiteral nLiteral []
/-- peglib.h 5511: `g["LiteralD"]`. -/
abbrev gLiteralD : Ope := .ref rLiteralD nLiteralD []
/-- peglib.h 5511-5516: `g["LiteralI"]`. -/
abbrev gLiteralI : Ope := .ref rLiteralI nLiteralI []
/-- peglib.h 5519: `g["LiteralID"]`. -/
abbrev gLiteralID : Ope := .ref rLiteralID nLiteralID []
/-- peglib.h 5523-5525: `g["Class"]`. -/
abbrev gClass : Ope := .ref rClass nClass []
/-- peglib.h 5526-5528: `g["ClassI"]`. -/
abbrev gClassI : Ope := .ref rClassI nClassI []
/-- peglib.h 5530-5532: `g["NegatedClass"]`. -/
abbrev gNegatedClass : Ope := .ref rNegatedClass nNegatedClass []
/-- peglib.h 5533-5535: `g["NegatedClassI"]`. -/
abbrev gNegatedClassI : Ope := .ref rNegatedClassI nNegatedClassI []
/-- peglib.h 5539-5540: `g["Range"]`. -/
abbrev gRange : Ope := .ref rRange nRange []
/-- peglib.h 5542: `g["ClassEscape"]`. -/
abbrev gClassEscape : Ope := .ref rClassEscape nClassEscape []
/-- peglib.h 5543-5544: `g["PosixClass"]`. -/
abbrev gPosixClass : Ope := .ref rPosixClass nPosixClass []
/-- peglib.h 5543-5553: `g["Char"]`. -/
abbrev gChar : Ope := .ref rChar nChar []
/-- peglib.h 5557-5558: `g["Repetition"]`. -/
abbrev gRepetition : Ope := .ref rRepetition nRepetition []
/-- peglib.h 5559-5561: `g["RepetitionRange"]`. -/
abbrev gRepetitionRange : Ope := .ref rRepetitionRange nRepetitionRange []
/-- peglib.h 5562: `g["Number"]`. -/
abbrev gNumber : Ope := .ref rNumber nNumber []
/-- peglib.h 5564: `g["CapScope"]`. -/
abbrev gCapScope : Ope := .ref rCapScope nCapScope []
/-- peglib.h 5566: `g["LEFTARROW"]`. -/
abbrev gLEFTARROW : Ope := .ref rLEFTARROW nLEFTARROW []
/-- peglib.h 5567: `g["SLASH"]`. -/
abbrev gSLASH : Ope := .ref rSLASH nSLASH []
/-- peglib.h 5568: `g["PIPE"]`. -/
abbrev gPIPE : Ope := .ref rPIPE nPIPE []
/-- peglib.h 5569: `g["AND"]`. -/
abbrev gAND : Ope := .ref rAND nAND []
/-- peglib.h 5570: `g["NOT"]`. -/
abbrev gNOT : Ope := .ref rNOT nNOT []
/-- peglib.h 5571: `g["QUESTION"]`. -/
abbrev gQUESTION : Ope := .ref rQUESTION nQUESTION []
/-- peglib.h 5572: `g["STAR"]`. -/
abbrev gSTAR : Ope := .ref rSTAR nSTAR []
/-- peglib.h 5573: `g["PLUS"]`. -/
abbrev gPLUS : Ope := .ref rPLUS nPLUS []
/-- peglib.h 5574: `g["OPEN"]`. -/
abbrev gOPEN : Ope := .ref rOPEN nOPEN []
/-- peglib.h 5575: `g["CLOSE"]`. -/
abbrev gCLOSE : Ope := .ref rCLOSE nCLOSE []
/-- peglib.h 5576: `g["DOT"]`. -/
abbrev gDOT : Ope := .ref rDOT nDOT []
/-- peglib.h 5578: `g["CUT"]`. -/
abbrev gCUT : Ope := .ref rCUT nCUT []
/-- peglib.h 5579: `g["LABEL"]`. -/
abbrev gLABEL : Ope := .ref rLABEL nLABEL []
/-- peglib.h 5581: `g["Spacing"]`. -/
abbrev gSpacing : Ope := .ref rSpacing nSpacing []
/-- peglib.h 5582-5583: `g["Comment"]`. -/
abbrev gComment : Ope := .ref rComment nComment []
/-- peglib.h 5584: `g["Space"]`. -/
abbrev gSpace : Ope := .ref rSpace nSpace []
/-- peglib.h 5585: `g["EndOfLine"]`. -/
abbrev gEndOfLine : Ope := .ref rEndOfLine nEndOfLine []
/-- peglib.h 5586: `g["EndOfFile"]`. -/
abbrev gEndOfFile : Ope := .ref rEndOfFile nEndOfFile []
/-- peglib.h 5588: `g["BeginTok"]`. -/
abbrev gBeginTok : Ope := .ref rBeginTok nBeginTok []
/-- peglib.h 5589: `g["EndTok"]`. -/
abbrev gEndTok : Ope := .ref rEndTok nEndTok []
/-- peglib.h 5591: `g["BeginCapScope"]`. -/
abbrev gBeginCapScope : Ope := .ref rBeginCapScope nBeginCapScope []
/-- peglib.h 5592: `g["EndCapScope"]`. -/
abbrev gEndCapScope : Ope := .ref rEndCapScope nEndCapScope []
/-- peglib.h 5594: `g["BeginCap"]`. -/
abbrev gBeginCap : Ope := .ref rBeginCap nBeginCap []
/-- peglib.h 5595: `g["EndCap"]`. -/
abbrev gEndCap : Ope := .ref rEndCap nEndCap []
/-- peglib.h 5597: `g["BackRef"]`. -/
abbrev gBackRef : Ope := .ref rBackRef nBackRef []
/-- peglib.h 5599: `g["IGNORE"]`. -/
abbrev gIGNORE : Ope := .ref rIGNORE nIGNORE []
/-- peglib.h 5601: `g["Ignore"]`. -/
abbrev gIgnore : Ope := .ref rIgnore nIgnore []
/-- peglib.h 5602-5603: `g["Parameters"]`. -/
abbrev gParameters : Ope := .ref rParameters nParameters []
/-- peglib.h 5604-5605: `g["Arguments"]`. -/
abbrev gArguments : Ope := .ref rArguments nArguments []
/-- peglib.h 5606: `g["COMMA"]`. -/
abbrev gCOMMA : Ope := .ref rCOMMA nCOMMA []
/-- peglib.h 5609-5613: `g["Instruction"]`. -/
abbrev gInstruction : Ope := .ref rInstruction nInstruction []
/-- peglib.h 5614-5615: `g["InstructionItem"]`. -/
abbrev gInstructionItem : Ope := .ref rInstructionItem nInstructionItem []
/-- peglib.h 5616: `g["InstructionItemSeparator"]`. -/
abbrev gInstructionItemSeparator : Ope := .ref rInstructionItemSeparator nInstructionItemSeparator []
/-- peglib.h 5618: `g["SpacesZom"]`. -/
abbrev gSpacesZom : Ope := .ref rSpacesZom nSpacesZom []
/-- peglib.h 5619: `g["SpacesOom"]`. -/
abbrev gSpacesOom : Ope := .ref rSpacesOom nSpacesOom []
/-- peglib.h 5620: `g["BeginBracket"]`. -/
abbrev gBeginBracket : Ope := .ref rBeginBracket nBeginBracket []
/-- peglib.h 5621: `g["EndBracket"]`. -/
abbrev gEndBracket : Ope := .ref rEndBracket nEndBracket []
/-- peglib.h 5624-5626: `g["PrecedenceClimbing"]`. -/
abbrev gPrecedenceClimbing : Ope := .ref rPrecedenceClimbing nPrecedenceClimbing []
/-- peglib.h 5627-5629: `g["PrecedenceInfo"]`. -/
abbrev gPrecedenceInfo : Ope := .ref rPrecedenceInfo nPrecedenceInfo []
/-- peglib.h 5630-5638: `g["PrecedenceOpe"]`. -/
abbrev gPrecedenceOpe : Ope := .ref rPrecedenceOpe nPrecedenceOpe []
/-- peglib.h 5639: `g["PrecedenceAssoc"]`. -/
abbrev gPrecedenceAssoc : Ope := .ref rPrecedenceAssoc nPrecedenceAssoc []
/-- peglib.h 5642-5643: `g["ErrorMessage"]`. -/
abbrev gErrorMessage : Ope := .ref rErrorMessage nErrorMessage []
/-- peglib.h 5646: `g["NoAstOpt"]`. -/
abbrev gNoAstOpt : Ope := .ref rNoAstOpt nNoAstOpt []
/-- peglib.h 5649: `g["NoWhitespace"]`. -/
abbrev gNoWhitespace : Ope := .ref rNoWhitespace nNoWhitespace []
/-- peglib.h 5652-5653: `g["AstName"]`. -/
abbrev gAstName : Ope := .ref rAstName nAstName []

/-- peglib.h 5463 -/
def dGrammar : Def :=
  { name := nGrammar
    ope := seq [gSpacing, oom gDefinition, gEndOfFile] }

/-- peglib.h 5468-5470 -/
def dDefinition : Def :=
  { name := nDefinition
    ope := seq [gIgnore, gIdentCont, opt gParameters, gSpacing, gLEFTARROW, gExpression, opt gInstruction] }

/-- peglib.h 5471 -/
def dExpression : Def :=
  { name := nExpression
    ope := seq [gSequence, zom (seq [gSLASH, gSequence])] }

/-- peglib.h 5472 -/
def dSequence : Def :=
  { name := nSequence
    ope := zom (cho [gCUT, gPrefix]) }

/-- peglib.h 5473 -/
def dPrefix : Def :=
  { name := nPrefix
    ope := seq [opt (cho [gAND, gNOT]), gSuffixWithLabel] }

/-- peglib.h 5474-5475 -/
def dSuffixWithLabel : Def :=
  { name := nSuffixWithLabel
    ope := seq [gSuffix, opt (seq [gLABEL, gIdentifier])] }

/-- peglib.h 5476 -/
def dSuffix : Def :=
  { name := nSuffix
    ope := seq [gPrimary, opt gLoop] }

/-- peglib.h 5477 -/
def dLoop : Def :=
  { name := nLoop
    ope := cho [gQUESTION, gSTAR, gPLUS, gRepetition] }

/-- peglib.h 5478-5487 -/
def dPrimary : Def :=
  { name := nPrimary
    ope := cho [seq [gIgnore, gIdentCont, opt gArguments, gSpacing, npd (seq [opt gParameters, gLEFTARROW])], seq [gOPEN, gExpression, gCLOSE], seq
      [gBeginTok, gExpression, gEndTok], gCapScope, seq [gBeginCap, gExpression, gEndCap], gBackRef, gDictionaryI, gLiteralI, gDictionary, gLiteral,
      gNegatedClassI, gNegatedClass, gClassI, gClass, gDOT] }

/-- peglib.h 5492 -/
def dIdentifier : Def :=
  { name := nIdentifier
    ope := seq [gIdentCont, gSpacing] }

/-- peglib.h 5493 -/
def dIdentCont : Def :=
  { name := nIdentCont
    ope := .tok (seq [gIdentStart, zom gIdentRest]) }

/-- peglib.h 5497-5498 -/
def dIdentStart : Def :=
  { name := nIdentStart
    ope := seq [npd (lit [226, 134, 145]), npd (lit [226, 135, 145]), cho [cls [(97, 122), (65, 90), (95, 95), (37, 37)], cls [(128, 65535)]]] }

/-- peglib.h 5500 -/
def dIdentRest : Def :=
  { name := nIdentRest
    ope := cho [gIdentStart, cls [(48, 57)]] }

/-- peglib.h 5502 -/
def dDictionary : Def :=
  { name := nDictionary
    ope := seq [gLiteralD, oom (seq [gPIPE, gLiteralD])] }

/-- peglib.h 5504-5505 -/
def dDictionaryI : Def :=
  { name := nDictionaryI
    ope := seq [gLiteralID, oom (seq [gPIPE, gLiteralID])] }

/-- peglib.h 5504-5508 -/
def dLiteral : Def :=
  { name := nLiteral
    ope := cho [seq [cls [(39, 39)], .tok (zom (seq [npd (cls [(39, 39)]), gChar])), cls [(39, 39)], gSpacing], seq [cls [(34, 34)], .tok (zom (seq
      [npd (cls [(34, 34)]), gChar])), cls [(34, 34)], gSpacing]] }

/-- peglib.h 5511 -/
def dLiteralD : Def :=
  { name := nLiteralD
    ope := cho [seq [cls [(39, 39)], .tok (zom (seq [npd (cls [(39, 39)]), gChar])), cls [(39, 39)], gSpacing], seq [cls [(34, 34)], .tok (zom (seq
      [npd (cls [(34, 34)]), gChar])), cls [(34, 34)], gSpacing]] }

/-- peglib.h 5511-5516 -/
def dLiteralI : Def :=
  { name := nLiteralI
    ope := cho [seq [cls [(39, 39)], .tok (zom (seq [npd (cls [(39, 39)]), gChar])), lit [39, 105], gSpacing], seq [cls [(34, 34)], .tok (zom (seq
      [npd (cls [(34, 34)]), gChar])), lit [34, 105], gSpacing]] }

/-- peglib.h 5519 -/
def dLiteralID : Def :=
  { name := nLiteralID
    ope := cho [seq [cls [(39, 39)], .tok (zom (seq [npd (cls [(39, 39)]), gChar])), lit [39, 105], gSpacing], seq [cls [(34, 34)], .tok (zom (seq
      [npd (cls [(34, 34)]), gChar])), lit [34, 105], gSpacing]] }

/-- peglib.h 5523-5525 -/
def dClass : Def :=
  { name := nClass
    ope := seq [.chr 91, npd (.chr 94), .tok (oom (seq [npd (.chr 93), gRange])), .chr 93, gSpacing] }

/-- peglib.h 5526-5528 -/
def dClassI : Def :=
  { name := nClassI
    ope := seq [.chr 91, npd (.chr 94), .tok (oom (seq [npd (.chr 93), gRange])), lit [93, 105], gSpacing] }

/-- peglib.h 5530-5532 -/
def dNegatedClass : Def :=
  { name := nNegatedClass
    ope := seq [lit [91, 94], .tok (oom (seq [npd (.chr 93), gRange])), .chr 93, gSpacing] }

/-- peglib.h 5533-5535 -/
def dNegatedClassI : Def :=
  { name := nNegatedClassI
    ope := seq [lit [91, 94], .tok (oom (seq [npd (.chr 93), gRange])), lit [93, 105], gSpacing] }

/-- peglib.h 5539-5540 -/
def dRange : Def :=
  { name := nRange
    ope := cho [seq [gChar, .chr 45, npd (.chr 93), gChar], gClassEscape, gPosixClass, gChar] }

/-- peglib.h 5542 -/
def dClassEscape : Def :=
  { name := nClassEscape
    ope := seq [.chr 92, cls [(100, 100), (68, 68), (119, 119), (87, 87), (115, 115), (83, 83)]] }

/-- peglib.h 5543-5544 -/
def dPosixClass : Def :=
  { name := nPosixClass
    ope := seq [lit [91, 58], opt (.chr 94), oom (cls [(97, 122)]), lit [58, 93]] }

/-- peglib.h 5543-5553 -/
def dChar : Def :=
  { name := nChar
    ope := cho [seq [.chr 92, cls [(102, 102), (110, 110), (114, 114), (116, 116), (118, 118), (39, 39), (34, 34), (91, 91), (93, 93), (92, 92), (94,
      94), (45, 45)]], seq [.chr 92, cls [(48, 51)], cls [(48, 55)], cls [(48, 55)]], seq [.chr 92, cls [(48, 55)], opt (cls [(48, 55)])], seq [lit
      [92, 120], cls [(48, 57), (97, 102), (65, 70)], opt (cls [(48, 57), (97, 102), (65, 70)])], seq [lit [92, 117], cho [seq [cho [seq [.chr 48, cls
      [(48, 57), (97, 102), (65, 70)]], lit [49, 48]], .rep (cls [(48, 57), (97, 102), (65, 70)]) 4 (some 4) none], .rep (cls [(48, 57), (97, 102),
      (65, 70)]) 4 (some 5) none]], seq [npd (.chr 92), .dot]] }

/-- peglib.h 5557-5558 -/
def dRepetition : Def :=
  { name := nRepetition
    ope := seq [gBeginBracket, gRepetitionRange, gEndBracket] }

/-- peglib.h 5559-5561 -/
def dRepetitionRange : Def :=
  { name := nRepetitionRange
    ope := cho [seq [gNumber, gCOMMA, gNumber], seq [gNumber, gCOMMA], gNumber, seq [gCOMMA, gNumber]] }

/-- peglib.h 5562 -/
def dNumber : Def :=
  { name := nNumber
    ope := seq [oom (cls [(48, 57)]), gSpacing] }

/-- peglib.h 5564 -/
def dCapScope : Def :=
  { name := nCapScope
    ope := seq [gBeginCapScope, gExpression, gEndCapScope] }

/-- peglib.h 5566 -/
def dLEFTARROW : Def :=
  { name := nLEFTARROW
    ope := seq [cho [lit [60, 45], lit [226, 134, 144]], gSpacing] }

/-- peglib.h 5567 -/
def dSLASH : Def :=
  { name := nSLASH, ignoreSV := true
    ope := seq [.chr 47, gSpacing] }

/-- peglib.h 5568 -/
def dPIPE : Def :=
  { name := nPIPE, ignoreSV := true
    ope := seq [.chr 124, gSpacing] }

/-- peglib.h 5569 -/
def dAND : Def :=
  { name := nAND
    ope := seq [.chr 38, gSpacing] }

/-- peglib.h 5570 -/
def dNOT : Def :=
  { name := nNOT
    ope := seq [.chr 33, gSpacing] }

/-- peglib.h 5571 -/
def dQUESTION : Def :=
  { name := nQUESTION
    ope := seq [.chr 63, gSpacing] }

/-- peglib.h 5572 -/
def dSTAR : Def :=
  { name := nSTAR
    ope := seq [.chr 42, gSpacing] }

/-- peglib.h 5573 -/
def dPLUS : Def :=
  { name := nPLUS
    ope := seq [.chr 43, gSpacing] }

/-- peglib.h 5574 -/
def dOPEN : Def :=
  { name := nOPEN, ignoreSV := true
    ope := seq [.chr 40, gSpacing] }

/-- peglib.h 5575 -/
def dCLOSE : Def :=
  { name := nCLOSE, ignoreSV := true
    ope := seq [.chr 41, gSpacing] }

/-- peglib.h 5576 -/
def dDOT : Def :=
  { name := nDOT
    ope := seq [.chr 46, gSpacing] }

/-- peglib.h 5578 -/
def dCUT : Def :=
  { name := nCUT
    ope := seq [lit [226, 134, 145], gSpacing] }

/-- peglib.h 5579 -/
def dLABEL : Def :=
  { name := nLABEL, ignoreSV := true
    ope := seq [cho [.chr 94, lit [226, 135, 145]], gSpacing] }

/-- peglib.h 5581 -/
def dSpacing : Def :=
  { name := nSpacing, ignoreSV := true
    ope := zom (cho [gSpace, gComment]) }

/-- peglib.h 5582-5583 -/
def dComment : Def :=
  { name := nComment
    ope := seq [.chr 35, zom (seq [npd gEndOfLine, .dot]), opt gEndOfLine] }

/-- peglib.h 5584 -/
def dSpace : Def :=
  { name := nSpace
    ope := cho [.chr 32, .chr 9, gEndOfLine] }

/-- peglib.h 5585 -/
def dEndOfLine : Def :=
  { name := nEndOfLine
    ope := cho [lit [13, 10], .chr 10, .chr 13] }

/-- peglib.h 5586 -/
def dEndOfFile : Def :=
  { name := nEndOfFile
    ope := npd .dot }

/-- peglib.h 5588 -/
def dBeginTok : Def :=
  { name := nBeginTok, ignoreSV := true
    ope := seq [.chr 60, gSpacing] }

/-- peglib.h 5589 -/
def dEndTok : Def :=
  { name := nEndTok, ignoreSV := true
    ope := seq [.chr 62, gSpacing] }

/-- peglib.h 5591 -/
def dBeginCapScope : Def :=
  { name := nBeginCapScope, ignoreSV := true
    ope := seq [.chr 36, .chr 40, gSpacing] }

/-- peglib.h 5592 -/
def dEndCapScope : Def :=
  { name := nEndCapScope, ignoreSV := true
    ope := seq [.chr 41, gSpacing] }

/-- peglib.h 5594 -/
def dBeginCap : Def :=
  { name := nBeginCap
    ope := seq [.chr 36, .tok gIdentCont, .chr 60, gSpacing] }

/-- peglib.h 5595 -/
def dEndCap : Def :=
  { name := nEndCap, ignoreSV := true
    ope := seq [.chr 62, gSpacing] }

/-- peglib.h 5597 -/
def dBackRef : Def :=
  { name := nBackRef
    ope := seq [.chr 36, .tok gIdentCont, gSpacing] }

/-- peglib.h 5599 -/
def dIGNORE : Def :=
  { name := nIGNORE
    ope := .chr 126 }

/-- peglib.h 5601 -/
def dIgnore : Def :=
  { name := nIgnore
    ope := opt gIGNORE }

/-- peglib.h 5602-5603 -/
def dParameters : Def :=
  { name := nParameters
    ope := seq [gOPEN, gIdentifier, zom (seq [gCOMMA, gIdentifier]), gCLOSE] }

/-- peglib.h 5604-5605 -/
def dArguments : Def :=
  { name := nArguments
    ope := seq [gOPEN, gExpression, zom (seq [gCOMMA, gExpression]), gCLOSE] }

/-- peglib.h 5606 -/
def dCOMMA : Def :=
  { name := nCOMMA, ignoreSV := true
    ope := seq [.chr 44, gSpacing] }

/-- peglib.h 5609-5613 -/
def dInstruction : Def :=
  { name := nInstruction
    ope := seq [gBeginBracket, opt (seq [gInstructionItem, zom (seq [gInstructionItemSeparator, gInstructionItem])]), gEndBracket] }

/-- peglib.h 5614-5615 -/
def dInstructionItem : Def :=
  { name := nInstructionItem
    ope := cho [gPrecedenceClimbing, gErrorMessage, gNoAstOpt, gNoWhitespace, gAstName] }

/-- peglib.h 5616 -/
def dInstructionItemSeparator : Def :=
  { name := nInstructionItemSeparator, ignoreSV := true
    ope := seq [.chr 59, gSpacing] }

/-- peglib.h 5618 -/
def dSpacesZom : Def :=
  { name := nSpacesZom, ignoreSV := true
    ope := zom gSpace }

/-- peglib.h 5619 -/
def dSpacesOom : Def :=
  { name := nSpacesOom, ignoreSV := true
    ope := oom gSpace }

/-- peglib.h 5620 -/
def dBeginBracket : Def :=
  { name := nBeginBracket, ignoreSV := true
    ope := seq [.chr 123, gSpacing] }

/-- peglib.h 5621 -/
def dEndBracket : Def :=
  { name := nEndBracket, ignoreSV := true
    ope := seq [.chr 125, gSpacing] }

/-- peglib.h 5624-5626 -/
def dPrecedenceClimbing : Def :=
  { name := nPrecedenceClimbing
    ope := seq [lit [112, 114, 101, 99, 101, 100, 101, 110, 99, 101], gSpacesOom, gPrecedenceInfo, zom (seq [gSpacesOom, gPrecedenceInfo]),
      gSpacesZom] }

/-- peglib.h 5627-5629 -/
def dPrecedenceInfo : Def :=
  { name := nPrecedenceInfo
    ope := seq [gPrecedenceAssoc, oom (seq [.ign gSpacesOom, gPrecedenceOpe])] }

/-- peglib.h 5630-5638 -/
def dPrecedenceOpe : Def :=
  { name := nPrecedenceOpe
    ope := cho [seq [cls [(39, 39)], .tok (zom (seq [npd (cho [gSpace, cls [(39, 39)]]), gChar])), cls [(39, 39)]], seq [cls [(34, 34)], .tok (zom
      (seq [npd (cho [gSpace, cls [(34, 34)]]), gChar])), cls [(34, 34)]], .tok (oom (seq [npd (cho [gPrecedenceAssoc, gSpace, .chr 125]), .dot]))] }

/-- peglib.h 5639 -/
def dPrecedenceAssoc : Def :=
  { name := nPrecedenceAssoc
    ope := cls [(76, 76), (82, 82)] }

/-- peglib.h 5642-5643 -/
def dErrorMessage : Def :=
  { name := nErrorMessage
    ope := seq [lit [101, 114, 114, 111, 114, 95, 109, 101, 115, 115, 97, 103, 101], gSpacesOom, gLiteralD, gSpacesZom] }

/-- peglib.h 5646 -/
def dNoAstOpt : Def :=
  { name := nNoAstOpt
    ope := seq [lit [110, 111, 95, 97, 115, 116, 95, 111, 112, 116], gSpacesZom] }

/-- peglib.h 5649 -/
def dNoWhitespace : Def :=
  { name := nNoWhitespace
    ope := seq [lit [110, 111, 95, 119, 104, 105, 116, 101, 115, 112, 97, 99, 101], gSpacesZom] }

/-- peglib.h 5652-5653 -/
def dAstName : Def :=
  { name := nAstName
    ope := seq [lit [97, 115, 116, 95, 110, 97, 109, 101], gSpacesZom, lit [58], gSpacesZom, gIdentifier, gSpacesZom] }

/-- peglib.h 5461-5659: all rules. -/
def metaRules : List Def :=
  [dGrammar, dDefinition, dExpression, dSequence, dPrefix, dSuffixWithLabel, dSuffix, dLoop, dPrimary, dIdentifier, dIdentCont, dIdentStart,
   dIdentRest, dDictionary, dDictionaryI, dLiteral, dLiteralD, dLiteralI, dLiteralID, dClass, dClassI, dNegatedClass, dNegatedClassI,
   dRange, dClassEscape, dPosixClass, dChar, dRepetition, dRepetitionRange, dNumber, dCapScope, dLEFTARROW, dSLASH, dPIPE, dAND, dNOT,
   dQUESTION, dSTAR, dPLUS, dOPEN, dCLOSE, dDOT, dCUT, dLABEL, dSpacing, dComment, dSpace, dEndOfLine, dEndOfFile, dBeginTok, dEndTok,
   dBeginCapScope, dEndCapScope, dBeginCap, dEndCap, dBackRef, dIGNORE, dIgnore, dParameters, dArguments, dCOMMA, dInstruction,
   dInstructionItem, dInstructionItemSeparator, dSpacesZom, dSpacesOom, dBeginBracket, dEndBracket, dPrecedenceClimbing, dPrecedenceInfo,
   dPrecedenceOpe, dPrecedenceAssoc, dErrorMessage, dNoAstOpt, dNoWhitespace, dAstName]

end Verif.Meta
