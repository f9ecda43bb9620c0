import Verif.Meta
import Verif.Utf8Pos
/-!
# How a grammar is written

A specification of the notation of grammar texts, independent of the reader: tokens, the characters they are written with, where spacing is
possible and necessary, and which token sequences write which expressions and definitions.  Texts are lists of characters (Unicode scalar
values); `enc` is their UTF-8 form.

Not covered (the reader accepts more): some juxtapositions without spacing that happen to be read as intended, operators of `precedence` that
start with a quote but are not closed, and surrogates written with `\u`.
-/

namespace Verif.Meta
open Verif CharClass Utf8

abbrev Str := List Nat

def enc (s : Str) : List Byte := s.flatMap encodeCodepoint

/-- Membership in a list of intervals. -/
def inCs (l : List (Nat × Nat)) (c : Nat) : Bool := l.any fun r => decide (r.1 ≤ c ∧ c ≤ r.2)

/-! ## Characters of literals and classes -/

/-- One-character escapes: character after the backslash, character denoted. -/
def escapes : List (Nat × Nat) :=
  [(102, 12), (110, 10), (114, 13), (116, 9), (118, 11), (39, 39), (34, 34), (91, 91), (93, 93), (92, 92), (94, 94), (45, 45)]

def hexDigit (c : Nat) : Bool := inCs [(48, 57), (97, 102), (65, 70)] c

def hexVal (c : Nat) : Nat := if c ≤ 57 then c - 48 else if 97 ≤ c then c - 87 else c - 55

def hexs : List (Nat × Nat) := [(48, 57), (97, 102), (65, 70)]

def octDigit (c : Nat) : Bool := inCs [(48, 55)] c

/-- The number the digits denote. -/
def digitsVal (base : Nat) (ds : Str) : Nat := ds.foldl (fun n d => n * base + hexVal d) 0

inductive Chr where
  /-- the character itself -/
  | raw (c : Nat)
  /-- backslash and `e` -/
  | esc (e : Nat)
  /-- backslash, `x` and one or two hexadecimal digits -/
  | hex (ds : Str)
  /-- backslash, `u` and four or five hexadecimal digits, or six of which the first two are `10` or at most `0F` -/
  | uni (ds : Str)
  /-- backslash and one or two octal digits, or three of which the first is at most 3 -/
  | oct (ds : Str)
  deriving DecidableEq

def Chr.chars : Chr → Str
  | .raw c => [c]
  | .esc e => [92, e]
  | .hex ds => 92 :: 120 :: ds
  | .uni ds => 92 :: 117 :: ds
  | .oct ds => 92 :: ds

/-- The character denoted. -/
def Chr.val : Chr → Nat
  | .raw c => c
  | .esc e => (escapes.lookup e).getD 0
  | .hex ds => digitsVal 16 ds
  | .uni ds => digitsVal 16 ds
  | .oct ds => digitsVal 8 ds

/-- `bad`: characters that must be escaped (besides the backslash). -/
def Chr.Ok (bad : List Nat) : Chr → Prop
  | .raw c => c ≠ 92 ∧ c ∉ bad
  | .esc e => (escapes.lookup e).isSome = true
  | .hex ds => (ds.length = 1 ∨ ds.length = 2) ∧ ∀ d ∈ ds, hexDigit d = true
  | .uni ds => (ds.length = 4 ∨ ds.length = 5 ∨ ds.length = 6 ∧ (ds.head? = some 48 ∨ ds.take 2 = [49, 48])) ∧ (∀ d ∈ ds, hexDigit d = true) ∧
      IsScalar (digitsVal 16 ds)
  | .oct ds => (ds.length = 1 ∨ ds.length = 2 ∨ ds.length = 3 ∧ ∀ d, ds.head? = some d → d ≤ 51) ∧ ∀ d ∈ ds, octDigit d = true

/-- Characters that would be taken to belong to the escape before them. -/
def Chr.open_ : Chr → List (Nat × Nat)
  | .hex ds => if ds.length < 2 then hexs else []
  | .uni ds => if ds.length < 6 then hexs else []
  | .oct ds => if ds.length = 1 ∨ ds.length = 2 ∧ ds.head?.any (· ≤ 51) then [(48, 55)] else []
  | _ => []

/-- The same in a literal, where a number goes on as long as there are digits (C05); digits 8 and 9 continue octal numbers, too. -/
def Chr.runs : Chr → List (Nat × Nat)
  | .hex _ | .uni _ => hexs
  | .oct _ => [(48, 57)]
  | _ => []

/-- The characters of a literal in quotes `q`.  A numeric escape must not be followed by a digit (C05: the digit would be taken to belong to the
escape). -/
def LitOk (q : Nat) : List Chr → Prop
  | [] => True
  | u :: us => u.Ok [q] ∧ (∀ w, us.head? = some w → ∀ c, w.chars.head? = some c → inCs u.runs c = false) ∧ LitOk q us

/-- Characters written in sequence, where `bad` must be escaped. -/
def UnitsOk (bad : List Nat) : List Chr → Prop
  | [] => True
  | u :: us => u.Ok bad ∧ (∀ w, us.head? = some w → ∀ c, w.chars.head? = some c → inCs u.open_ c = false) ∧ UnitsOk bad us

/-- An element of a character class. -/
inductive Item where
  | one (u : Chr)
  | range (a b : Chr)
  /-- backslash and one of `d D s S w W` -/
  | pre (c : Nat)
  /-- `[:name:]`, `[:^name:]` -/
  | posix (neg : Bool) (nm : Str)
  deriving DecidableEq

def Item.chars : Item → Str
  | .one u => u.chars
  | .range a b => a.chars ++ 45 :: b.chars
  | .pre c => [92, c]
  | .posix neg nm => [91, 58] ++ (if neg then [94] else []) ++ nm ++ [58, 93]

/-- The named classes (peglib.h 381-403). -/
def named (nm : String) : List (Nat × Nat) := (predefined.lookup nm).getD []

/-- What the element stands for. -/
def Item.ranges : Item → List (Nat × Nat)
  | .one u => [(u.val, u.val)]
  | .range a b => [(a.val, b.val)]
  | .pre c =>
    if c = 100 then named "digit" else if c = 68 then complement (named "digit")
    else if c = 115 then named "space" else if c = 83 then complement (named "space")
    else if c = 119 then named "word" else complement (named "word")
  | .posix neg nm =>
    let r := (predefinedB.lookup (enc nm)).getD []
    if neg then complement r else r

/-- In a class `]`, `[` and the backslash must be escaped. -/
def Item.Ok : Item → Prop
  | .one u => u.Ok [93, 91]
  | .range a b => a.Ok [93, 91] ∧ b.Ok [93, 91] ∧ a.val ≤ b.val
  | .pre c => c ∈ [100, 68, 115, 83, 119, 87]
  | .posix _ nm => nm ≠ [] ∧ (∀ c ∈ nm, 97 ≤ c ∧ c ≤ 122) ∧ (predefinedB.lookup (enc nm)).isSome = true

/-- Characters that would be taken to belong to the element before them. -/
def Item.open_ : Item → List (Nat × Nat)
  | .one u => u.open_
  | .range _ b => b.open_
  | _ => []

/-- A `-` after a single character must be escaped unless it is the last character of the class; short numeric escapes must not be followed by a
digit. -/
def ItemsOk : List Item → Prop
  | [] => True
  | i :: is => i.Ok ∧ (∀ u, i = .one u → ∀ k, is.head? = some k → k.chars.head? = some 45 → is = [.one (.raw 45)]) ∧
      (∀ k, is.head? = some k → ∀ c, k.chars.head? = some c → inCs i.open_ c = false) ∧ ItemsOk is

/-! ## Names -/

/-- Letters, `_`, `%` and everything from U+0080 to U+FFFF except the arrows `↑` and `⇑`. -/
def idStart : List (Nat × Nat) := [(97, 122), (65, 90), (95, 95), (37, 37), (128, 0x2190), (0x2192, 0x21D0), (0x21D2, 0xFFFF)]

def idRest : List (Nat × Nat) := (48, 57) :: idStart

/-- Names must not start with `←`. -/
def NameOk : Str → Prop
  | [] => False
  | c :: cs => inCs idStart c = true ∧ c ≠ 0x2190 ∧ ∀ d ∈ cs, inCs idRest d = true

/-! ## Instructions -/

/-- Space, tab, line feed, carriage return. -/
def blanks : List Nat := [32, 9, 10, 13]

/-- `Sp s u`: `s` is spacing, and may stand before `u`: blanks and comments; only at the end of the text may a comment lack the end of line. -/
inductive Sp : Str → Str → Prop where
  | nil {u : Str} : Sp [] u
  | blank {c : Nat} {s u : Str} : c ∈ blanks → Sp s u → Sp (c :: s) u
  | comment {cs : Str} {e : Nat} {s u : Str} : (∀ c ∈ cs, c ≠ 10 ∧ c ≠ 13) → e = 10 ∨ e = 13 → Sp s u → Sp (35 :: cs ++ e :: s) u
  | last {cs : Str} : (∀ c ∈ cs, c ≠ 10 ∧ c ≠ 13) → Sp (35 :: cs) []

/-- An operator in a table of precedences. -/
inductive OpTok where
  /-- in quotes `q` -/
  | quoted (q : Nat) (us : List Chr)
  | bare (s : Str)
  deriving DecidableEq

def OpTok.chars : OpTok → Str
  | .quoted q us => q :: us.flatMap Chr.chars ++ [q]
  | .bare s => s

/-- The operator: what is written, without the quotes.  Escapes are not resolved. -/
def OpTok.val : OpTok → List Byte
  | .quoted _ us => enc (us.flatMap Chr.chars)
  | .bare s => enc s

/-- In quotes there are no blanks; without quotes no `L`, `R`, `}` either. -/
def OpTok.Ok : OpTok → Prop
  | .quoted q us => q ∈ [39, 34] ∧ UnitsOk (q :: blanks) us
  | .bare s => s ≠ [] ∧ (∀ c ∈ s, c ∉ 76 :: 82 :: 125 :: blanks) ∧ ∀ c, s.head? = some c → c ∉ [39, 34]

/-- A level of a table of precedences: `L` or `R` and operators, each with the blanks before it. -/
structure Level where
  left : Bool
  ops : List (Str × OpTok)
  deriving DecidableEq

def Level.chars (l : Level) : Str := (if l.left then 76 else 82) :: l.ops.flatMap fun o => o.1 ++ o.2.chars

/-- One or more blanks (no comments). -/
def Gap (b : Str) : Prop := b ≠ [] ∧ ∀ c ∈ b, c ∈ blanks

def Level.Ok (l : Level) : Prop := l.ops ≠ [] ∧ ∀ o ∈ l.ops, Gap o.1 ∧ o.2.Ok

/-- The entries of level `n`. -/
def Level.entries (n : Nat) (l : Level) : List (List Byte × Nat × Byte) := l.ops.map fun o => (o.2.val, n, if l.left then 76 else 82)

/-- An instruction. -/
inductive InstrTok where
  /-- `precedence`, levels with the blanks before them, blanks -/
  | prec (ls : List (Str × Level)) (b : Str)
  /-- `error_message`, blanks, a literal in quotes `q`, spacing -/
  | msg (b : Str) (q : Nat) (us : List Chr) (sp : Str)
  /-- `no_ast_opt`, blanks -/
  | noAst (b : Str)
  /-- `no_whitespace`, blanks -/
  | noWs (b : Str)
  /-- `ast_name`, blanks, `:`, blanks, a name, spacing -/
  | astName (b b' : Str) (nm sp : Str)
  deriving DecidableEq

/-- `precedence` -/
def wPrecedence : Str := [112, 114, 101, 99, 101, 100, 101, 110, 99, 101]
/-- `error_message` -/
def wMessage : Str := [101, 114, 114, 111, 114, 95, 109, 101, 115, 115, 97, 103, 101]
/-- `no_ast_opt` -/
def wNoAst : Str := [110, 111, 95, 97, 115, 116, 95, 111, 112, 116]
/-- `no_whitespace` -/
def wNoWs : Str := [110, 111, 95, 119, 104, 105, 116, 101, 115, 112, 97, 99, 101]
/-- `ast_name` -/
def wAstName : Str := [97, 115, 116, 95, 110, 97, 109, 101]

def InstrTok.chars : InstrTok → Str
  | .prec ls b => wPrecedence ++ (ls.flatMap (fun l => l.1 ++ l.2.chars) ++ b)
  | .msg b q us sp => wMessage ++ (b ++ (q :: us.flatMap Chr.chars ++ q :: sp))
  | .noAst b => wNoAst ++ b
  | .noWs b => wNoWs ++ b
  | .astName b b' nm sp => wAstName ++ (b ++ (58 :: (b' ++ (nm ++ sp))))

/-- The entries of all levels, numbered from `n`. -/
def entries : Nat → List (Str × Level) → List (List Byte × Nat × Byte)
  | _, [] => []
  | n, l :: ls => l.2.entries n ++ entries (n + 1) ls

/-- The instruction.  The table of precedences is searched from the end: the last entry of an operator counts. -/
def InstrTok.val : InstrTok → Instr
  | .prec ls _ => .prec (entries 1 ls).reverse
  | .msg _ _ us _ => .msg (enc (us.map Chr.val))
  | .noAst _ => .noAstOpt
  | .noWs _ => .noWs
  | .astName _ _ nm _ => .astName (enc nm)

def InstrTok.Ok : InstrTok → Prop
  | .prec ls b => ls ≠ [] ∧ (∀ l ∈ ls, Gap l.1 ∧ l.2.Ok) ∧ ∀ c ∈ b, c ∈ blanks
  | .msg b q us sp => Gap b ∧ q ∈ [39, 34] ∧ LitOk q us ∧ Sp sp [125]
  | .noAst b | .noWs b => ∀ c ∈ b, c ∈ blanks
  | .astName b b' nm sp => (∀ c ∈ b, c ∈ blanks) ∧ (∀ c ∈ b', c ∈ blanks) ∧ NameOk nm ∧ Sp sp [125]

/-- After a table of precedences, a `;` is an operator, unless it follows immediately an operator in quotes. -/
def InstrTok.Closed : InstrTok → Prop
  | .prec ls b => b = [] ∧ ∀ l, ls.getLast? = some l → ∀ o, l.2.ops.getLast? = some o → ∃ q us, o.2 = .quoted q us
  | _ => True

/-- `; i`: a further instruction, with the spacing after the semicolon. -/
def moreInstr (is : List (Str × InstrTok)) : Str := is.flatMap fun i => 59 :: (i.1 ++ i.2.chars)

/-- Instructions between braces: spacing, and instructions separated by semicolons. -/
inductive Block where
  | empty (sp : Str)
  | items (sp : Str) (i : InstrTok) (is : List (Str × InstrTok))
  deriving DecidableEq

def Block.chars : Block → Str
  | .empty sp => 123 :: (sp ++ [125])
  | .items sp i is => 123 :: (sp ++ (i.chars ++ (moreInstr is ++ [125])))

def Block.vals : Block → List Instr
  | .empty _ => []
  | .items _ i is => i.val :: is.map fun i => i.2.val

/-- Every instruction but the last must be closed. -/
def InstrsOk : InstrTok → List (Str × InstrTok) → Prop
  | i, [] => i.Ok
  | i, k :: is => i.Ok ∧ i.Closed ∧ Sp k.1 [125] ∧ InstrsOk k.2 is

def Block.Ok : Block → Prop
  | .empty sp => Sp sp [125]
  | .items sp i is => Sp sp [125] ∧ InstrsOk i is

/-! ## Tokens -/

inductive Tok where
  /-- a name, possibly with `~` -/
  | ident (ign : Bool) (nm : Str)
  /-- a name with `(` right after it -/
  | call (ign : Bool) (nm : Str)
  | sym (c : Nat)
  /-- `<-` or `←` -/
  | arrow (uni : Bool)
  /-- `$(` -/
  | scope
  /-- `$name<` -/
  | capOpen (nm : Str)
  /-- `$name` -/
  | bref (nm : Str)
  | num (ds : Str)
  /-- a literal in quotes `q`, possibly followed by `i` -/
  | lit (q : Nat) (us : List Chr) (ic : Bool)
  | cls (neg : Bool) (is : List Item) (ic : Bool)
  /-- instructions in braces -/
  | block (b : Block)
  deriving DecidableEq

def tilde (ign : Bool) : Str := if ign then [126] else []

def suffixI (ic : Bool) : Str := if ic then [105] else []

def Tok.chars : Tok → Str
  | .ident ign nm => tilde ign ++ nm
  | .call ign nm => tilde ign ++ nm ++ [40]
  | .sym c => [c]
  | .arrow uni => if uni then [0x2190] else [60, 45]
  | .scope => [36, 40]
  | .capOpen nm => 36 :: nm ++ [60]
  | .bref nm => 36 :: nm
  | .num ds => ds
  | .lit q us ic => q :: us.flatMap Chr.chars ++ q :: suffixI ic
  | .cls neg is ic => 91 :: (if neg then [94] else []) ++ is.flatMap Item.chars ++ 93 :: suffixI ic
  | .block b => b.chars

/-- `/ | & ! ? * + ( ) . ^ ⇑ ↑ < > , { }` -/
def symbols : List Nat := [47, 124, 38, 33, 63, 42, 43, 40, 41, 46, 94, 0x21D1, 0x2191, 60, 62, 44, 123, 125]

def Tok.Ok : Tok → Prop
  | .ident _ nm => NameOk nm
  | .call _ nm => NameOk nm
  | .sym c => c ∈ symbols
  | .arrow _ => True
  | .scope => True
  | .capOpen nm => NameOk nm
  | .bref nm => NameOk nm
  | .num ds => ds ≠ [] ∧ ∀ c ∈ ds, 48 ≤ c ∧ c ≤ 57
  | .lit q us _ => q ∈ [39, 34] ∧ LitOk q us
  | .cls neg is _ => is ≠ [] ∧ ItemsOk is ∧ (neg = false → (is.flatMap Item.chars).head? ≠ some 94)
  | .block b => b.Ok

/-- Characters that must not follow the token directly. -/
def Tok.glue : Tok → List (Nat × Nat)
  | .ident _ _ => (40, 40) :: idRest
  | .bref _ => (60, 60) :: idRest
  | .num _ => [(48, 57)]
  | .lit _ _ false => [(105, 105)]
  | .cls _ _ false => [(105, 105)]
  | _ => []

/-! ## Spacing -/

/-- The text is the tokens in order, each followed by spacing. -/
def Lay : List Tok → Str → Prop
  | [], t => t = []
  | k :: ks, t => ∃ sp u, t = k.chars ++ (sp ++ u) ∧ k.Ok ∧ Sp sp u ∧
      (sp = [] → ∀ k', ks.head? = some k' → ∀ c, k'.chars.head? = some c → inCs k.glue c = false) ∧ Lay ks u

/-! ## Expressions -/

/-- A reference to a rule. `%recover(…)` is the error recovery operator. -/
def refTo (ign : Bool) (nm : Str) (args : Option (List Src)) : Src :=
  let e := if enc nm = recoverName then Src.recov (enc nm) args.isSome (args.getD []) else Src.ref (enc nm) args.isSome (args.getD [])
  if ign then .ign e else e

/-- A sequence; the empty sequence is `!""` (it never matches). -/
def seqOf : List Src → Src
  | [] => .not_ (.lit [] false)
  | [e] => e
  | es => .seq es

def choOf : List Src → Src
  | [e] => e
  | es => .cho es false

/-- `e^l`: where `e` fails, the recovery rule `l` is tried. -/
def labelled (e : Src) (l : Str) : Src := .cho [e, .recov recoverName true [.ref (enc l) false []]] true

/-- The text a literal denotes. -/
def litVal (us : List Chr) : List Byte := enc (us.map Chr.val)

/-- A decimal number. -/
def numVal (ds : Str) : Nat := ds.foldl (fun n d => n * 10 + (d - 48)) 0

/-- Numbers must be less than 2^64-1. -/
def NumOk (ds : Str) : Prop := numVal ds < sizeMax

/-- Repetition operators: bounds and tokens. -/
inductive Bounds : Nat → Option Nat → List Tok → Prop where
  | quest : Bounds 0 (some 1) [.sym 63]
  | star : Bounds 0 none [.sym 42]
  | plus : Bounds 1 none [.sym 43]
  | both {a b : Str} : NumOk a → NumOk b → Bounds (numVal a) (some (numVal b)) [.sym 123, .num a, .sym 44, .num b, .sym 125]
  | least {a : Str} : NumOk a → Bounds (numVal a) none [.sym 123, .num a, .sym 44, .sym 125]
  | exactly {a : Str} : NumOk a → Bounds (numVal a) (some (numVal a)) [.sym 123, .num a, .sym 125]
  | most {b : Str} : NumOk b → Bounds 0 (some (numVal b)) [.sym 123, .sym 44, .num b, .sym 125]

/-- `| w` for the further words of a dictionary. -/
def moreWords (ic : Bool) (ws : List (Nat × List Chr)) : List Tok := ws.flatMap fun w => [.sym 124, .lit w.1 w.2 ic]

/-- What is written. -/
inductive Form where
  /-- an operand -/
  | prim (e : Src)
  /-- an operand with repetition operator -/
  | suf (e : Src)
  /-- the same with label -/
  | lab (e : Src)
  /-- the same with `&` or `!`, or a cut -/
  | item (e : Src)
  | items (es : List Src)
  | sqn (e : Src)
  /-- further alternatives -/
  | alts (es : List Src)
  | exp (e : Src)
  /-- further arguments -/
  | args (es : List Src)

inductive Writes : Form → List Tok → Prop where
  | ref {ign : Bool} {nm : Str} : Writes (.prim (refTo ign nm none)) [.ident ign nm]
  | call {ign : Bool} {nm : Str} {a : Src} {as : List Src} {ts ts' : List Tok} : Writes (.exp a) ts → Writes (.args as) ts' →
      Writes (.prim (refTo ign nm (some (a :: as)))) (.call ign nm :: (ts ++ (ts' ++ [.sym 41])))
  | group {e : Src} {ts : List Tok} : Writes (.exp e) ts → Writes (.prim e) (.sym 40 :: (ts ++ [.sym 41]))
  | token {e : Src} {ts : List Tok} : Writes (.exp e) ts → Writes (.prim (.tok e)) (.sym 60 :: (ts ++ [.sym 62]))
  | scope {e : Src} {ts : List Tok} : Writes (.exp e) ts → Writes (.prim (.capScope e)) (.scope :: (ts ++ [.sym 41]))
  | capture {nm : Str} {e : Src} {ts : List Tok} : Writes (.exp e) ts → Writes (.prim (.cap (enc nm) e)) (.capOpen nm :: (ts ++ [.sym 62]))
  | bref {nm : Str} : Writes (.prim (.bref (enc nm))) [.bref nm]
  | lit {q : Nat} {us : List Chr} {ic : Bool} : Writes (.prim (.lit (litVal us) ic)) [.lit q us ic]
  | dict {q : Nat} {us : List Chr} {w : Nat × List Chr} {ws : List (Nat × List Chr)} {ic : Bool} :
      Writes (.prim (.dict (litVal us :: (w :: ws).map fun w => litVal w.2) ic)) (.lit q us ic :: moreWords ic (w :: ws))
  | cls {neg : Bool} {is : List Item} {ic : Bool} : Writes (.prim (.cls ⟨is.flatMap Item.ranges, neg, ic⟩)) [.cls neg is ic]
  | dot : Writes (.prim .dot) [.sym 46]
  | suf {e : Src} {ts : List Tok} : Writes (.prim e) ts → Writes (.suf e) ts
  | rep {e : Src} {ts lt : List Tok} {mn : Nat} {mx : Option Nat} : Writes (.prim e) ts → Bounds mn mx lt → Writes (.suf (.rep e mn mx)) (ts ++ lt)
  | lab {e : Src} {ts : List Tok} : Writes (.suf e) ts → Writes (.lab e) ts
  | label {e : Src} {ts : List Tok} {c : Nat} {l : Str} : Writes (.suf e) ts → c = 94 ∨ c = 0x21D1 →
      Writes (.lab (labelled e l)) (ts ++ [.sym c, .ident false l])
  | item {e : Src} {ts : List Tok} : Writes (.lab e) ts → Writes (.item e) ts
  | and_ {e : Src} {ts : List Tok} : Writes (.lab e) ts → Writes (.item (.and_ e)) (.sym 38 :: ts)
  | not_ {e : Src} {ts : List Tok} : Writes (.lab e) ts → Writes (.item (.not_ e)) (.sym 33 :: ts)
  | cut : Writes (.item .cut) [.sym 0x2191]
  | none : Writes (.items []) []
  | more {e : Src} {es : List Src} {ts ts' : List Tok} : Writes (.item e) ts → Writes (.items es) ts' → Writes (.items (e :: es)) (ts ++ ts')
  | sqn {es : List Src} {ts : List Tok} : Writes (.items es) ts → Writes (.sqn (seqOf es)) ts
  | noAlt : Writes (.alts []) []
  | alt {e : Src} {es : List Src} {ts ts' : List Tok} : Writes (.sqn e) ts → Writes (.alts es) ts' →
      Writes (.alts (e :: es)) (.sym 47 :: (ts ++ ts'))
  | exp {e : Src} {es : List Src} {ts ts' : List Tok} : Writes (.sqn e) ts → Writes (.alts es) ts' → Writes (.exp (choOf (e :: es))) (ts ++ ts')
  | noArg : Writes (.args []) []
  | arg {e : Src} {es : List Src} {ts ts' : List Tok} : Writes (.exp e) ts → Writes (.args es) ts' →
      Writes (.args (e :: es)) (.sym 44 :: (ts ++ ts'))

/-! ## Definitions -/

/-- A definition may end with instructions. -/
inductive Ending : List Instr → List Tok → Prop where
  | none : Ending [] []
  | block {b : Block} : Ending b.vals [.block b]

inductive WritesDef : RDef → List Tok → Prop where
  | rule {ign uni : Bool} {nm : Str} {e : Src} {is : List Instr} {ts te : List Tok} : Writes (.exp e) ts → Ending is te →
      WritesDef ⟨ign, enc nm, none, e, is⟩ (.ident ign nm :: .arrow uni :: (ts ++ te))
  | macro_ {ign uni : Bool} {nm p : Str} {ps : List Str} {e : Src} {is : List Instr} {ts te : List Tok} : Writes (.exp e) ts → Ending is te →
      WritesDef ⟨ign, enc nm, some ((p :: ps).map enc), e, is⟩
        (.call ign nm :: .ident false p :: (ps.flatMap (fun p => [.sym 44, .ident false p]) ++ .sym 41 :: .arrow uni :: (ts ++ te)))

inductive WritesDefs : List RDef → List Tok → Prop where
  | one {d : RDef} {ts : List Tok} : WritesDef d ts → WritesDefs [d] ts
  | more {d : RDef} {ds : List RDef} {ts ts' : List Tok} : WritesDef d ts → WritesDefs ds ts' → WritesDefs (d :: ds) (ts ++ ts')

/-- The text writes the definitions: spacing, then the tokens. -/
def Written (ds : List RDef) (t : Str) : Prop := ∃ sp u ts, t = sp ++ u ∧ Sp sp u ∧ Lay ts u ∧ WritesDefs ds ts

end Verif.Meta
