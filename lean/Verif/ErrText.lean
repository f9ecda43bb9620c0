import Verif.Engine
import Verif.LineInfo
import Verif.Escape
/-!
# The text of error messages (peglib.h 797-880, 3510-3598)

`Err.output` (module `Engine`) says when a report is sent and about which position; this module models what the user sees:
line, column, unexpected token, message.  The input is a list of bytes, positions are offsets.
-/

namespace Verif
namespace ErrText
open Utf8 Escape

/-- peglib.h 853: `std::ispunct` in the "C" locale. -/
def isPunct (b : Byte) : Bool :=
  (33 ≤ b && b ≤ 47) || (58 ≤ b && b ≤ 64) || (91 ≤ b && b ≤ 96) || (123 ≤ b && b ≤ 126)

/-- peglib.h 853, 854-855: the test that ends a token. -/
def isSep (b : Byte) : Bool := isPunct b || isSpaceByte b

/-- peglib.h 851-858: the value of `i` after the loop, `s` being the input from the position on. -/
def runLen : List Byte → Nat
  | [] => 0
  | b :: t => if isSep b then 1 else 1 + (t.takeWhile fun c => !isSep c).length

/-- peglib.h 862-865: the loop advancing by at most `count` characters; `w` is what is left of the `i` bytes (for a
malformed character `codepoint_length` is zero and `j` stays). -/
def advance : Nat → List Byte → Nat
  | 0, _ => 0
  | _ + 1, [] => 0
  | count + 1, b :: w =>
    let l := codepointLength (b :: w)
    l + advance count ((b :: w).drop l)

/-- peglib.h 17-19 `CPPPEGLIB_HEURISTIC_ERROR_TOKEN_MAX_CHAR_COUNT`. -/
def maxCharCount : Nat := 32

/-- peglib.h 847-870 `heuristic_error_token`.  A position past the end makes `n - distance` wrap and the code read
outside of the input. -/
def heuristicToken (text : List Byte) (pos : Nat) : Out (List Byte) :=
  if text.length < pos then .ub "error position outside of the input"
  else
    let rest := text.drop pos
    let j := advance maxCharCount (rest.take (runLen rest))
    .ok (escapeCharacters (rest.take j))

/-- peglib.h 860-880: `std::string::find(pat, pos)`; `k` bounds the number of positions tried. -/
def findAt (pat str : List Byte) : Nat → Nat → Option Nat
  | 0, _ => none
  | k + 1, pos => if pat.isPrefixOf (str.drop pos) then some pos else findAt pat str k (pos + 1)

/-- peglib.h 860-880: `str.find(pat, pos)`. -/
def find (pat str : List Byte) (pos : Nat) : Option Nat := findAt pat str (str.length + 1 - pos) pos

/-- peglib.h 872-880 `replace_all`: the loop, with `fuel` bounding the rounds. -/
def replaceLoop (pat new : List Byte) : Nat → List Byte → Nat → Out (List Byte)
  | 0, _, _ => .oof
  | fuel + 1, str, pos =>
    match find pat str pos with
    | none => .ok str
    | some p => replaceLoop pat new fuel (str.take p ++ new ++ str.drop (p + pat.length)) (p + new.length)

/-- peglib.h 872-880 `replace_all`. -/
def replaceAll (fuel : Nat) (str pat new : List Byte) : Out (List Byte) := replaceLoop pat new fuel str 0

/-- peglib.h 3518-3529: the placeholders of a message written in the grammar. -/
def customMessage (fuel : Nat) (message token : List Byte) : Out (List Byte) :=
  if token ≠ [] then
    (replaceAll fuel message [37, 116] token).bind fun m =>
      replaceAll fuel m [37, 99] (token.take (codepointLength token))
  else .ok message

/-- peglib.h 3510-3598: the name of a rule. -/
def ruleName (rules : List Def) (r : Nat) : List Byte := (rules[r]?.map (·.name)).getD []

/-- peglib.h 3566-3589: the loop over the expected tokens, appending to `msg`. -/
def listExpected (rules : List Def) : List (Option ErrLit × Option Nat) → Bool → List Byte → Out (List Byte)
  | [], _, msg => .ok msg
  | (el, er) :: ts, first, msg =>
    if er.isSome && ((er.map (ruleName rules)).getD []).head? = some 95 then listExpected rules ts first msg
    else
      -- ", expecting " / ", "
      let msg := msg ++ if first then [44, 32, 101, 120, 112, 101, 99, 116, 105, 110, 103, 32] else [44, 32]
      match el with
      | some (.cap _) => .ub "expected literal points into a destroyed capture"
      | some (.lit l) => listExpected rules ts false (msg ++ [39] ++ cstr l ++ [39])
      | none => listExpected rules ts false (msg ++ [60] ++ (er.map (ruleName rules)).getD [] ++ [62])

/-- peglib.h 3551-3590: the text of a syntax error, and the unexpected token stored in the report. -/
def syntaxMessage (rules : List Def) (toks : List (Option ErrLit × Option Nat)) (token : List Byte) :
    Out (List Byte × List Byte) :=
  -- "syntax error."
  if toks = [] then .ok ([115, 121, 110, 116, 97, 120, 32, 101, 114, 114, 111, 114, 46], [])
  else
    -- "syntax error"
    let msg := [115, 121, 110, 116, 97, 120, 32, 101, 114, 114, 111, 114]
    -- ", unexpected '" token "'"
    let msg := if token ≠ [] then
        msg ++ [44, 32, 117, 110, 101, 120, 112, 101, 99, 116, 101, 100, 32, 39] ++ token ++ [39] else msg
    (listExpected rules toks true msg).bind fun m => .ok (m ++ [46], token)

/-- What the callbacks get: the arguments of `log` and the fields of `ErrorReport` (peglib.h 788-789, 797-806). -/
structure Shown where
  line : Nat
  col : Nat
  position : Nat
  unexpected : List Byte
  literals : List (List Byte)
  ruleNames : List (List Byte)
  label : List Byte
  /-- `ErrorReport::message`: empty unless the grammar supplies the message. -/
  message : List Byte
  /-- the `msg` argument of `log`. -/
  logMsg : List Byte

/-- peglib.h 3510-3598 `output_log`: what is shown for a report. -/
def render (fuel : Nat) (rules : List Def) (text : List Byte) (rep : Report) : Out Shown :=
  (heuristicToken text rep.pos).bind fun token =>
    let lc := LineInfo.lineInfo text rep.pos
    match rep.msg with
    | some m => (customMessage fuel m token).bind fun msg =>
        .ok ⟨lc.1, lc.2, rep.pos, token, [], [], rep.label, msg, msg⟩
    | none => (syntaxMessage rules rep.toks token).bind fun x =>
        .ok ⟨lc.1, lc.2, rep.pos, x.2, rep.lits, rep.rules.map (ruleName rules), rep.label, [], x.1⟩

end ErrText
end Verif
