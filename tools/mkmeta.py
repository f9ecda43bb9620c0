#!/usr/bin/env python3
"""Writes the rule table of lean/Verif/MetaRules.lean: the bootstrap grammar of peglib.h 5461-5659."""
import os
def S(s): return [b for b in s.encode('utf-8')]
def bl(s): return '[' + ', '.join(str(b) for b in S(s)) + ']'
def seq(*a): return f"seq [{', '.join(a)}]"
def cho(*a): return f"cho [{', '.join(a)}]"
def P(x): return '(' + x + ')' if ' ' in x else x
def zom(e): return f"zom {P(e)}"
def oom(e): return f"oom {P(e)}"
def opt(e): return f"opt {P(e)}"
def rep(e,a,b): return f".rep {P(e)} {a} (some {b}) none"
def npd(e): return f"npd {P(e)}"
def lit(s): return f"lit {bl(s)}"
def chr_(c): return f".chr {ord(c)}"
def cls(s):
    cs=[ord(c) for c in s]; r=[]; i=0
    while i < len(cs):
        if i+2 < len(cs) and cs[i+1]==45: r.append((cs[i],cs[i+2])); i+=3
        else: r.append((cs[i],cs[i])); i+=1
    return "cls [" + ', '.join(f"({a}, {b})" for a,b in r) + "]"
def clsr(*r): return "cls [" + ', '.join(f"({a}, {b})" for a,b in r) + "]"
def tok(e): return f".tok {P(e)}"
def ign(e): return f".ign {P(e)}"
dot=".dot"
def g(n): return "g"+n
rules=[]
def R(n,e,lines,ig=False): rules.append((n,e,lines,ig))
HEX="0-9a-fA-F"
R("Grammar", seq(g("Spacing"), oom(g("Definition")), g("EndOfFile")), "5463")
R("Definition", seq(g("Ignore"), g("IdentCont"), opt(g("Parameters")), g("Spacing"), g("LEFTARROW"), g("Expression"), opt(g("Instruction"))), "5468-5470")
R("Expression", seq(g("Sequence"), zom(seq(g("SLASH"), g("Sequence")))), "5471")
R("Sequence", zom(cho(g("CUT"), g("Prefix"))), "5472")
R("Prefix", seq(opt(cho(g("AND"), g("NOT"))), g("SuffixWithLabel")), "5473")
R("SuffixWithLabel", seq(g("Suffix"), opt(seq(g("LABEL"), g("Identifier")))), "5474-5475")
R("Suffix", seq(g("Primary"), opt(g("Loop"))), "5476")
R("Loop", cho(g("QUESTION"), g("STAR"), g("PLUS"), g("Repetition")), "5477")
R("Primary", cho(seq(g("Ignore"), g("IdentCont"), opt(g("Arguments")), g("Spacing"), npd(seq(opt(g("Parameters")), g("LEFTARROW")))),
  seq(g("OPEN"), g("Expression"), g("CLOSE")), seq(g("BeginTok"), g("Expression"), g("EndTok")), g("CapScope"),
  seq(g("BeginCap"), g("Expression"), g("EndCap")), g("BackRef"), g("DictionaryI"), g("LiteralI"), g("Dictionary"), g("Literal"),
  g("NegatedClassI"), g("NegatedClass"), g("ClassI"), g("Class"), g("DOT")), "5478-5487")
R("Identifier", seq(g("IdentCont"), g("Spacing")), "5492")
R("IdentCont", tok(seq(g("IdentStart"), zom(g("IdentRest")))), "5493")
R("IdentStart", seq(npd(lit("↑")), npd(lit("⇑")), cho(cls("a-zA-Z_%"), clsr((0x80,0xFFFF)))), "5497-5498")
R("IdentRest", cho(g("IdentStart"), cls("0-9")), "5500")
R("Dictionary", seq(g("LiteralD"), oom(seq(g("PIPE"), g("LiteralD")))), "5502")
R("DictionaryI", seq(g("LiteralID"), oom(seq(g("PIPE"), g("LiteralID")))), "5504-5505")
def litope(i):
    def one(q):
        return seq(cls(q), tok(zom(seq(npd(cls(q)), g("Char")))), lit(q+"i") if i else cls(q), g("Spacing"))
    return cho(one("'"), one('"'))
R("Literal", litope(False), "5504-5508"); R("LiteralD", litope(False), "5511")
R("LiteralI", litope(True), "5511-5516"); R("LiteralID", litope(True), "5519")
items = tok(oom(seq(npd(chr_(']')), g("Range"))))
R("Class", seq(chr_('['), npd(chr_('^')), items, chr_(']'), g("Spacing")), "5523-5525")
R("ClassI", seq(chr_('['), npd(chr_('^')), items, lit("]i"), g("Spacing")), "5526-5528")
R("NegatedClass", seq(lit("[^"), items, chr_(']'), g("Spacing")), "5530-5532")
R("NegatedClassI", seq(lit("[^"), items, lit("]i"), g("Spacing")), "5533-5535")
R("Range", cho(seq(g("Char"), chr_('-'), npd(chr_(']')), g("Char")), g("ClassEscape"), g("PosixClass"), g("Char")), "5539-5540")
R("ClassEscape", seq(chr_('\\'), cls("dDwWsS")), "5542")
R("PosixClass", seq(lit("[:"), opt(chr_('^')), oom(cls("a-z")), lit(":]")), "5543-5544")
R("Char", cho(seq(chr_('\\'), cls("fnrtv'\"[]\\^-")), seq(chr_('\\'), cls("0-3"), cls("0-7"), cls("0-7")),
  seq(chr_('\\'), cls("0-7"), opt(cls("0-7"))), seq(lit("\\x"), cls(HEX), opt(cls(HEX))),
  seq(lit("\\u"), cho(seq(cho(seq(chr_('0'), cls(HEX)), lit("10")), rep(cls(HEX),4,4)), rep(cls(HEX),4,5))),
  seq(npd(chr_('\\')), dot)), "5543-5553")
R("Repetition", seq(g("BeginBracket"), g("RepetitionRange"), g("EndBracket")), "5557-5558")
R("RepetitionRange", cho(seq(g("Number"), g("COMMA"), g("Number")), seq(g("Number"), g("COMMA")), g("Number"), seq(g("COMMA"), g("Number"))), "5559-5561")
R("Number", seq(oom(cls("0-9")), g("Spacing")), "5562")
R("CapScope", seq(g("BeginCapScope"), g("Expression"), g("EndCapScope")), "5564")
R("LEFTARROW", seq(cho(lit("<-"), lit("←")), g("Spacing")), "5566")
for n,c,ig,l in [("SLASH",'/',1,5567),("PIPE",'|',1,5568),("AND",'&',0,5569),("NOT",'!',0,5570),("QUESTION",'?',0,5571),("STAR",'*',0,5572),
  ("PLUS",'+',0,5573),("OPEN",'(',1,5574),("CLOSE",')',1,5575),("DOT",'.',0,5576)]:
    R(n, seq(chr_(c), g("Spacing")), str(l), bool(ig))
R("CUT", seq(lit("↑"), g("Spacing")), "5578")
R("LABEL", seq(cho(chr_('^'), lit("⇑")), g("Spacing")), "5579", True)
R("Spacing", zom(cho(g("Space"), g("Comment"))), "5581", True)
R("Comment", seq(chr_('#'), zom(seq(npd(g("EndOfLine")), dot)), opt(g("EndOfLine"))), "5582-5583")
R("Space", cho(chr_(' '), chr_('\t'), g("EndOfLine")), "5584")
R("EndOfLine", cho(lit("\r\n"), chr_('\n'), chr_('\r')), "5585")
R("EndOfFile", npd(dot), "5586")
R("BeginTok", seq(chr_('<'), g("Spacing")), "5588", True)
R("EndTok", seq(chr_('>'), g("Spacing")), "5589", True)
R("BeginCapScope", seq(chr_('$'), chr_('('), g("Spacing")), "5591", True)
R("EndCapScope", seq(chr_(')'), g("Spacing")), "5592", True)
R("BeginCap", seq(chr_('$'), tok(g("IdentCont")), chr_('<'), g("Spacing")), "5594")
R("EndCap", seq(chr_('>'), g("Spacing")), "5595", True)
R("BackRef", seq(chr_('$'), tok(g("IdentCont")), g("Spacing")), "5597")
R("IGNORE", chr_('~'), "5599")
R("Ignore", opt(g("IGNORE")), "5601")
R("Parameters", seq(g("OPEN"), g("Identifier"), zom(seq(g("COMMA"), g("Identifier"))), g("CLOSE")), "5602-5603")
R("Arguments", seq(g("OPEN"), g("Expression"), zom(seq(g("COMMA"), g("Expression"))), g("CLOSE")), "5604-5605")
R("COMMA", seq(chr_(','), g("Spacing")), "5606", True)
R("Instruction", seq(g("BeginBracket"), opt(seq(g("InstructionItem"), zom(seq(g("InstructionItemSeparator"), g("InstructionItem"))))), g("EndBracket")), "5609-5613")
R("InstructionItem", cho(g("PrecedenceClimbing"), g("ErrorMessage"), g("NoAstOpt"), g("NoWhitespace"), g("AstName")), "5614-5615")
R("InstructionItemSeparator", seq(chr_(';'), g("Spacing")), "5616", True)
R("SpacesZom", zom(g("Space")), "5618", True)
R("SpacesOom", oom(g("Space")), "5619", True)
R("BeginBracket", seq(chr_('{'), g("Spacing")), "5620", True)
R("EndBracket", seq(chr_('}'), g("Spacing")), "5621", True)
R("PrecedenceClimbing", seq(lit("precedence"), g("SpacesOom"), g("PrecedenceInfo"), zom(seq(g("SpacesOom"), g("PrecedenceInfo"))), g("SpacesZom")), "5624-5626")
R("PrecedenceInfo", seq(g("PrecedenceAssoc"), oom(seq(ign(g("SpacesOom")), g("PrecedenceOpe")))), "5627-5629")
def pq(q): return seq(cls(q), tok(zom(seq(npd(cho(g("Space"), cls(q))), g("Char")))), cls(q))
R("PrecedenceOpe", cho(pq("'"), pq('"'), tok(oom(seq(npd(cho(g("PrecedenceAssoc"), g("Space"), chr_('}'))), dot)))), "5630-5638")
R("PrecedenceAssoc", cls("LR"), "5639")
R("ErrorMessage", seq(lit("error_message"), g("SpacesOom"), g("LiteralD"), g("SpacesZom")), "5642-5643")
R("NoAstOpt", seq(lit("no_ast_opt"), g("SpacesZom")), "5646")
R("NoWhitespace", seq(lit("no_whitespace"), g("SpacesZom")), "5649")
R("AstName", seq(lit("ast_name"), g("SpacesZom"), lit(":"), g("SpacesZom"), g("Identifier"), g("SpacesZom")), "5652-5653")
names=[r[0] for r in rules]
assert len(set(names))==len(names)
out=['import Verif.Link','/-!','# The bootstrap grammar (peglib.h 5461-5659)','',
'The grammar in which grammar texts are read, built by `make_grammar` with the combinators.  Generated by tools/mkmeta.py.  `rX` is the number of',
'rule `X`, `dX` the rule.  Simplification: the combinators hold other rules by `WeakHolder`, here they are references; both call the rule, a',
'reference also pushes an empty argument list, which nothing reads here (there are no macros and no left recursion).','-/','',
'namespace Verif.Meta','open Verif','']
for a in ["seq (es : List Ope) : Ope := .seq es none","cho (es : List Ope) : Ope := .cho es false []","zom (e : Ope) : Ope := .rep e 0 none none",
 "oom (e : Ope) : Ope := .rep e 1 none none","opt (e : Ope) : Ope := .rep e 0 (some 1) none","npd (e : Ope) : Ope := .not_ e",
 "lit (s : List Byte) : Ope := .lit s false","cls (r : List (Nat × Nat)) : Ope := .cls ⟨r, false, false⟩"]:
    out.append("/-- peglib.h 2216-2343: the combinator. -/\nabbrev "+a)
out.append('')
for i,n in enumerate(names): out.append(f"/-- peglib.h {rules[i][2]}: the number of `{n}`. -/\n@[match_pattern] abbrev r{n} : Nat := {i}")
out.append('')
for i,n in enumerate(names): out.append(f"/-- peglib.h {rules[i][2]}: `{n}` -/\nabbrev n{n} : List Byte := {bl(n)}")
out.append('')
for i,n in enumerate(names): out.append(f"/-- peglib.h {rules[i][2]}: `g[\"{n}\"]`. -/\nabbrev g{n} : Ope := .ref r{n} n{n} []")
out.append('')
for n,e,l,ig in rules:
    a=f"/-- peglib.h {l} -/\ndef d{n} : Def :=\n  {{ name := n{n}"
    if ig: a+=", ignoreSV := true"
    body="ope := "+e
    # wrap
    out.append(a)
    import textwrap
    out.append('\n'.join(textwrap.wrap(body, 150, initial_indent='    ', subsequent_indent='      ', break_long_words=False, break_on_hyphens=False))+' }')
    out.append('')
out.append("/-- peglib.h 5461-5659: all rules. -/\ndef metaRules : List Def :=")
out.append('\n'.join(textwrap.wrap('['+', '.join('d'+n for n in names)+']',140,initial_indent='  ',subsequent_indent='   ')))
out.append('\nend Verif.Meta')
open(os.path.join(os.path.dirname(__file__),'../lean/Verif/MetaRules.lean'),'w').write('\n'.join(out)+'\n')
open('/tmp/metanames.txt','w').write('\n'.join(names))
print(len(names))
