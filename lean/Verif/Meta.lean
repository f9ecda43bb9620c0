import Verif.MetaRules
import Verif.Escape
import Verif.FirstSet
import Verif.Load
/-!
# Reading a grammar text (peglib.h 5371-6134, 6176-6225)

The bootstrap grammar `metaRules` with the actions of `setup_actions` (5661-6133) is run by the engine on the text; the values of the rules are
the pieces of the operator tree.

Simplifications.
* `std::any` is `Option MV`.  A failing `any_cast` (an exception), an index past the end of the values, a thrown `SyntaxErrorException` and an
  integer overflow inside `resolve_escape_sequence` are the value `bad`, which every action hands on.  In the code such an exception ends the
  parse at once, here when the parse is over; in between only attempts are made that meet the same piece of text again or fail.
* The actions of `Definition`, `Capture` and `BackRef` also write to `Data`.  Here `Definition` returns the definition, and `Grammar`
  (which has no action in the code) collects them (its last value is that of `EndOfFile`); what `Data` contains is computed from this list (`toSource`).  The sets of captures
  (`captures_stack`, `captures_in_current_definition`) are not modelled.
* Positions kept for messages are left out.
-/

namespace Verif.Meta
open Verif CharClass Utf8

/-- peglib.h 5425-5429 `Instruction`, by type. -/
inductive Instr where
  /-- operators by level: associativity letter and operators; the level is the position, from 1 -/
  | prec (info : List (List Byte × Nat × Byte))
  | msg (s : List Byte)
  | noAstOpt
  | noWs
  | astName (s : List Byte)
  deriving DecidableEq, Repr

/-- peglib.h 5425-5429: The type of an instruction (`Instruction::type`). -/
def Instr.kind : Instr → Nat
  | .prec _ => 0
  | .msg _ => 1
  | .noAstOpt => 2
  | .noWs => 3
  | .astName _ => 4

/-- peglib.h 5661-5720: A definition as read: `~`, name, parameters if it is a macro, body, instructions. -/
structure RDef where
  ign : Bool
  name : List Byte
  params : Option (List (List Byte))
  body : Src
  instrs : List Instr := []

/-- Why there is no value.  Model only: what `std::any_cast`, `vs[i]` do otherwise (peglib.h 5661-6133). -/
inductive Bad where
  /-- `std::bad_any_cast` -/
  | cast
  /-- `vs[i]` or `vs.tokens.front()` with nothing there -/
  | index
  /-- `SyntaxErrorException` -/
  | syntaxErr
  /-- signed overflow or a read past the end in `resolve_escape_sequence` -/
  | ub
  deriving DecidableEq, Repr

/-- peglib.h 5661-6133: The types that occur in `std::any`. -/
inductive MV where
  | ope (e : Src)
  | opes (es : List Src)
  | str (s : List Byte)
  | strs (s : List (List Byte))
  | view (s : List Byte)
  | views (s : List (List Byte))
  | flag (b : Bool)
  | chr (c : Byte)
  | num (n : Nat)
  /-- `pair<size_t, size_t>` -/
  | pair (a b : Nat)
  /-- `Loop`: minimum and maximum -/
  | loop (min : Nat) (max : Option Nat)
  | rng (r : Nat × Nat)
  | rngs (r : List (Nat × Nat))
  | instr (i : Instr)
  | instrs (i : List Instr)
  | defn (d : RDef)
  | defns (d : List RDef)
  | bad (b : Bad)

/-- Model only: `std::any`. -/
abbrev Val := Option MV
/-- Model only: the result of an action, or what goes wrong in it (peglib.h 5661-6133). -/
abbrev Act := Except Bad MV

/-! ## `std::any_cast` -/

def asOpe : Val → Except Bad Src | some (.ope e) => .ok e | _ => .error .cast
def asOpes : Val → Except Bad (List Src) | some (.opes e) => .ok e | _ => .error .cast
def asStr : Val → Except Bad (List Byte) | some (.str s) => .ok s | _ => .error .cast
def asStrs : Val → Except Bad (List (List Byte)) | some (.strs s) => .ok s | _ => .error .cast
def asView : Val → Except Bad (List Byte) | some (.view s) => .ok s | _ => .error .cast
def asViews : Val → Except Bad (List (List Byte)) | some (.views s) => .ok s | _ => .error .cast
def asFlag : Val → Except Bad Bool | some (.flag b) => .ok b | _ => .error .cast
def asChr : Val → Except Bad Byte | some (.chr b) => .ok b | _ => .error .cast
def asNum : Val → Except Bad Nat | some (.num b) => .ok b | _ => .error .cast
def asPair : Val → Except Bad (Nat × Nat) | some (.pair a b) => .ok (a, b) | _ => .error .cast
def asLoop : Val → Except Bad (Nat × Option Nat) | some (.loop a b) => .ok (a, b) | _ => .error .cast
def asInstr : Val → Except Bad Instr | some (.instr i) => .ok i | _ => .error .cast
def asInstrs : Val → Except Bad (List Instr) | some (.instrs i) => .ok i | _ => .error .cast
def asDefn : Val → Except Bad RDef | some (.defn d) => .ok d | _ => .error .cast

/-- `vs.transform<T>()`: all values cast (peglib.h 618-627). -/
def castAll (f : Val → Except Bad α) : List Val → Except Bad (List α)
  | [] => .ok []
  | v :: vs => do .ok ((← f v) :: (← castAll f vs))

/-- peglib.h 5661-6133: `vs[i]`. -/
def nth (vs : List Val) (i : Nat) : Except Bad Val :=
  match vs[i]? with
  | some v => .ok v
  | none => .error .index

/-! ## The actions

`vs`: the values; `tk`: the tokens; `sv`: the matched text; `k`: `vs.choice()`. -/

/-- peglib.h 604-608 `vs.token()`. -/
def token (tk : List (List Byte)) (sv : List Byte) : List Byte := tk.head?.getD sv

/-- peglib.h 5891: `vs.tokens.front()`. -/
def frontTok (tk : List (List Byte)) : Except Bad (List Byte) :=
  match tk with
  | t :: _ => .ok t
  | [] => .error .index

/-- peglib.h 296-376, 5892: `resolve_escape_sequence`. -/
def unescape (s : List Byte) : Except Bad (List Byte) :=
  match Escape.resolve s with
  | .ok r => .ok r
  | _ => .error .ub

/-- peglib.h 1721: `std::numeric_limits<size_t>::max()` -/
def sizeMax : Nat := 18446744073709551615

/-- peglib.h 426-436 `token_to_number_<size_t>`: the leading digits; out of range leaves 0. -/
def toNumber (s : List Byte) : Nat :=
  let n := (s.takeWhile fun b => 48 ≤ b ∧ b ≤ 57).foldl (fun n b => n * 10 + (b.toNat - 48)) 0
  if n ≤ sizeMax then n else 0

/-- peglib.h 1673: A `size_t` maximum as bound of a repetition. -/
def bound (n : Nat) : Option Nat := if n = sizeMax then none else some n

/-- peglib.h 5909-5922 `collect_ranges`. -/
def collect : List Val → Except Bad (List (Nat × Nat))
  | [] => .ok []
  | some (.rng r) :: vs => do .ok (r :: (← collect vs))
  | some (.rngs r) :: vs => do .ok (r ++ (← collect vs))
  | _ :: _ => .error .cast

/-- The `std::map` of `predefined_character_class` (peglib.h 381-403), by the bytes of the name. -/
def predefinedB : List (List Byte × List (Nat × Nat)) := predefined.map fun p => (p.1.toUTF8.toList, p.2)

/-- peglib.h 5662-5727. -/
def aDefinition (vs : List Val) : Act := do
  let v2 ← nth vs 2
  let isMacro := match v2 with
    | some (.strs _) => true
    | _ => false
  let ign ← asFlag (← nth vs 0)
  let name ← asStr (← nth vs 1)
  if isMacro then
    let ps ← asStrs v2
    let e ← asOpe (← nth vs 4)
    let is ← if vs.length = 6 then asInstrs (← nth vs 5) else .ok []
    .ok (.defn ⟨ign, name, some ps, e, is⟩)
  else
    let e ← asOpe (← nth vs 3)
    let is ← if vs.length = 5 then asInstrs (← nth vs 4) else .ok []
    .ok (.defn ⟨ign, name, none, e, is⟩)

/-- peglib.h 5729-5741. -/
def aExpression (vs : List Val) : Act :=
  match vs with
  | [v] => do .ok (.ope (← asOpe v))
  | _ => do .ok (.ope (.cho (← castAll asOpe vs) false))

/-- peglib.h 5743-5756: without elements `!""`, which never matches. -/
def aSequence (vs : List Val) : Act :=
  match vs with
  | [] => .ok (.ope (.not_ (.lit [] false)))
  | [v] => do .ok (.ope (← asOpe v))
  | _ => do .ok (.ope (.seq (← castAll asOpe vs)))

/-- peglib.h 5758-5773. -/
def aPrefix (vs : List Val) : Act := do
  if vs.length = 1 then .ok (.ope (← asOpe (← nth vs 0)))
  else
    let t ← asChr (← nth vs 0)
    let e ← asOpe (← nth vs 1)
    if t = 38 then .ok (.ope (.and_ e)) else .ok (.ope (.not_ e))

/-- peglib.h 5775-5788. -/
def aSuffixWithLabel (vs : List Val) : Act := do
  let e ← asOpe (← nth vs 0)
  if vs.length = 1 then .ok (.ope e)
  else
    let l ← asStr (← nth vs 1)
    .ok (.ope (.cho [e, .recov recoverName true [.ref l false []]] true))

/-- peglib.h 5796-5811. -/
def aSuffix (vs : List Val) : Act := do
  let e ← asOpe (← nth vs 0)
  if vs.length = 1 then .ok (.ope e)
  else
    let l ← asLoop (← nth vs 1)
    .ok (.ope (.rep e l.1 l.2))

/-- peglib.h 5813-5825 (with 5790-5795: `?` is 0 to 1, `*` 0 to max, `+` 1 to max). -/
def aLoop (vs : List Val) (k : Nat) : Act :=
  match k with
  | 0 => .ok (.loop 0 (some 1))
  | 1 => .ok (.loop 0 none)
  | 2 => .ok (.loop 1 none)
  | _ => do
    let p ← asPair (← nth vs 0)
    .ok (.loop p.1 (bound p.2))

/-- peglib.h 5827-5875. -/
def aPrimary (vs : List Val) (k : Nat) : Act :=
  match k with
  | 0 => do
    let ign ← asFlag (← nth vs 0)
    let nm ← asStr (← nth vs 1)
    let mac := decide (2 < vs.length)
    let as ← if 2 < vs.length then asOpes (← nth vs 2) else .ok []
    let e := if nm = recoverName then Src.recov nm mac as else Src.ref nm mac as
    .ok (.ope (if ign then .ign e else e))
  | 1 => do .ok (.ope (← asOpe (← nth vs 0)))
  | 2 => do .ok (.ope (.tok (← asOpe (← nth vs 0))))
  | 3 => do .ok (.ope (.capScope (← asOpe (← nth vs 0))))
  | 4 => do
    let nm ← asView (← nth vs 0)
    let e ← asOpe (← nth vs 1)
    .ok (.ope (.cap nm e))
  | _ => do .ok (.ope (← asOpe (← nth vs 0)))

/-- peglib.h 5936-5958. -/
def aRange (vs : List Val) (k : Nat) : Act :=
  match k with
  | 0 => do
    let a := decodeOr0 (← asStr (← nth vs 0))
    let b := decodeOr0 (← asStr (← nth vs 1))
    if b < a then .error .syntaxErr else .ok (.rng (a, b))
  | 3 => do
    let a := decodeOr0 (← asStr (← nth vs 0))
    .ok (.rng (a, a))
  | _ => do
    match ← nth vs 0 with
    | some v => .ok v
    | none => .error .cast

/-- peglib.h 5960-5974. -/
def aClassEscape (sv : List Byte) : Act :=
  match sv[1]? with
  | none => .error .index
  | some c =>
    let nm := if c = 100 ∨ c = 68 then "digit" else if c = 115 ∨ c = 83 then "space" else "word"
    match predefined.lookup nm with
    | none => .error .ub
    | some r => .ok (.rngs (if c = 68 ∨ c = 83 ∨ c = 87 then complement r else r))

/-- peglib.h 5976-5986. -/
def aPosixClass (sv : List Byte) : Act :=
  let neg := decide (sv[2]? = some 94)
  let nm := (sv.drop (if neg then 3 else 2)).take (sv.length - (if neg then 5 else 4))
  match predefinedB.lookup nm with
  | none => .error .syntaxErr
  | some r => .ok (.rngs (if neg then complement r else r))

/-- peglib.h 5991-6008. -/
def aRepetitionRange (vs : List Val) (k : Nat) : Act :=
  match k with
  | 0 => do .ok (.pair (← asNum (← nth vs 0)) (← asNum (← nth vs 1)))
  | 1 => do .ok (.pair (← asNum (← nth vs 0)) sizeMax)
  | 2 => do
    let n ← asNum (← nth vs 0)
    .ok (.pair n n)
  | _ => do .ok (.pair 0 (← asNum (← nth vs 0)))

/-- peglib.h 6080-6089: the operators of a level are entered in `binOpeInfo` with its number. -/
def levels : Nat → List (List (List Byte)) → Except Bad (List (List Byte × Nat × Byte))
  | _, [] => .ok []
  | n, ts :: tss =>
    match ts with
    | (a :: _) :: ops => do .ok (ops.map (fun o => (o, n, a)) ++ (← levels (n + 1) tss))
    | _ => .error .index

/-- peglib.h 6079-6085: `binOpeInfo[token] = …` overwrites: the last entry of an operator wins.  (`info.lookup` takes the first.) -/
def lastWins (l : List (List Byte × Nat × Byte)) : List (List Byte × Nat × Byte) := l.reverse

/-- peglib.h 5661-6133 `setup_actions`, by rule (`Grammar` has none in the code, see above). -/
def act (r : Nat) (vs : List Val) (tk : List (List Byte)) (sv : List Byte) (k : Nat) : Option Act :=
  match r with
  | rGrammar => some (do .ok (.defns (← castAll asDefn vs.dropLast)))
  | rDefinition => some (aDefinition vs)
  | rExpression => some (aExpression vs)
  | rSequence => some (aSequence vs)
  | rPrefix => some (aPrefix vs)
  | rSuffixWithLabel => some (aSuffixWithLabel vs)
  | rSuffix => some (aSuffix vs)
  | rLoop => some (aLoop vs k)
  | rPrimary => some (aPrimary vs k)
  -- peglib.h 5877-5879
  | rIdentCont => some (.ok (.str sv))
  -- peglib.h 5881-5888
  | rDictionary => some (do .ok (.ope (.dict (← castAll asStr vs) false)))
  | rDictionaryI => some (do .ok (.ope (.dict (← castAll asStr vs) true)))
  -- peglib.h 5890-5905
  | rLiteral => some (do .ok (.ope (.lit (← unescape (← frontTok tk)) false)))
  | rLiteralI => some (do .ok (.ope (.lit (← unescape (← frontTok tk)) true)))
  | rLiteralD => some (do .ok (.str (← unescape (← frontTok tk))))
  | rLiteralID => some (do .ok (.str (← unescape (← frontTok tk))))
  -- peglib.h 5924-5935
  | rClass => some (do .ok (.ope (.cls ⟨← collect vs, false, false⟩)))
  | rClassI => some (do .ok (.ope (.cls ⟨← collect vs, false, true⟩)))
  | rNegatedClass => some (do .ok (.ope (.cls ⟨← collect vs, true, false⟩)))
  | rNegatedClassI => some (do .ok (.ope (.cls ⟨← collect vs, true, true⟩)))
  | rRange => some (aRange vs k)
  | rClassEscape => some (aClassEscape sv)
  | rPosixClass => some (aPosixClass sv)
  -- peglib.h 5987-5989
  | rChar => some (do .ok (.str (← unescape sv)))
  | rRepetitionRange => some (aRepetitionRange vs k)
  -- peglib.h 6010-6012
  | rNumber => some (.ok (.num (toNumber (token tk sv))))
  -- peglib.h 6026-6030
  | rAND => some (match sv with | c :: _ => .ok (.chr c) | [] => .error .index)
  | rNOT => some (match sv with | c :: _ => .ok (.chr c) | [] => .error .index)
  | rQUESTION => some (match sv with | c :: _ => .ok (.chr c) | [] => .error .index)
  | rSTAR => some (match sv with | c :: _ => .ok (.chr c) | [] => .error .index)
  | rPLUS => some (match sv with | c :: _ => .ok (.chr c) | [] => .error .index)
  -- peglib.h 6032-6036
  | rDOT => some (.ok (.ope .dot))
  | rCUT => some (.ok (.ope .cut))
  | rBeginCap => some (.ok (.view (token tk sv)))
  -- peglib.h 6038-6066
  | rBackRef => some (.ok (.ope (.bref (token tk sv))))
  -- peglib.h 6068-6076
  | rIgnore => some (.ok (.flag (decide (0 < vs.length))))
  | rParameters => some (do .ok (.strs (← castAll asStr vs)))
  | rArguments => some (do .ok (.opes (← castAll asOpe vs)))
  -- peglib.h 6078-6099
  | rPrecedenceClimbing => some (do .ok (.instr (.prec (lastWins (← levels 1 (← castAll asViews vs))))))
  | rPrecedenceInfo => some (do .ok (.views (← castAll asView vs)))
  | rPrecedenceOpe => some (.ok (.view (token tk sv)))
  | rPrecedenceAssoc => some (.ok (.view (token tk sv)))
  -- peglib.h 6101-6129
  | rErrorMessage => some (do .ok (.instr (.msg (← asStr (← nth vs 0)))))
  | rNoAstOpt => some (.ok (.instr .noAstOpt))
  | rNoWhitespace => some (.ok (.instr .noWs))
  | rAstName => some (do .ok (.instr (.astName (← asStr (← nth vs 0)))))
  -- peglib.h 6131-6133
  | rInstruction => some (do .ok (.instrs (← castAll asInstr vs)))
  | _ => none

/-- The first `bad` among the values.  Model only: an exception in an action ends the parse (peglib.h 5661-6133). -/
def poison : List Val → Option Bad
  | [] => none
  | some (.bad b) :: _ => some b
  | _ :: vs => poison vs

/-- Model only (peglib.h 4049-4068): The value of an action. -/
def valueOf (vs : List Val) (a : Act) : MV :=
  match poison vs with
  | some b => .bad b
  | none => match a with
    | .ok v => v
    | .error b => .bad b

/-- peglib.h 573-640 (`std::string_view`): The bytes of a stretch of text. -/
def slice (text : List Byte) (p : Nat × Nat) : List Byte := (text.drop p.1).take p.2

/-- peglib.h 4049-4068: The action of rule `r` on a scope. -/
def onFrame (text : List Byte) (r : Nat) (f : Frame MV) : Val :=
  (act r f.vals (f.tokens.map (slice text)) (slice text f.sv) f.choice).map (valueOf f.vals)

/-- peglib.h 5661-6133: Whether `setup_actions` sets an action (the test does not depend on the arguments). -/
def hasAct (r : Nat) : Bool := (act r [] [] [] 0).isSome

/-- peglib.h 6176-6200: The reader before its rules are annotated. -/
def metaBase (text : List Byte) : Cfg MV :=
  { input := text, rules := [], hasCut := false
    action := fun r => if hasAct r then some fun f d _ => (onFrame text r f, d) else none }

/-- peglib.h 6176-6200: The reader with the rules `rs`. -/
def metaCfgOf (rs : List Def) (text : List Byte) : Cfg MV := { metaBase text with rules := rs }

/-- peglib.h 5408-5420: the rules are annotated with first sets, in the order in which the map of rules is iterated. -/
def metaCfg (order : List Nat) (text : List Byte) : Cfg MV := metaCfgOf (setupAll metaRules order) text

/-- peglib.h 6176-6215: What reading a text gives. -/
inductive Read where
  /-- a syntax error is reported -/
  | refused
  /-- an exception other than `SyntaxErrorException` leaves the function, or undefined behaviour -/
  | crash (b : Bad)
  /-- definitions in the order of the text -/
  | defs (ds : List RDef)

/-- peglib.h 6197-6225: `g["Grammar"].parse` and the `catch`. -/
def readText (fuel : Nat) (order : List Nat) (text : List Byte) : Out Read :=
  (parseCore fuel (metaCfg order text) rGrammar true {}).bind fun res =>
    .ok (if res.ret then
      match res.st.vs.vals.head? with
      | some (some (.defns ds)) => .defs ds
      | some (some (.bad .syntaxErr)) => .refused
      | some (some (.bad b)) => .crash b
      | _ => .crash .cast
    else .refused)

/-! ## What perform_core has after reading -/

/-- peglib.h 5685-5698: the instructions of a definition that count: the first of each type. -/
def firstOfKind : List Instr → List Nat → List Instr
  | [], _ => []
  | i :: is, seen => if i.kind ∈ seen then firstOfKind is seen else i :: firstOfKind is (i.kind :: seen)

/-- peglib.h 6420-6440: the instructions other than `precedence`. `no_ast_opt` and `ast_name` only concern AST building. -/
def applyInstr (d : Def) : Instr → Def
  | .msg s => { d with errorMessage := s }
  | .noWs => { d with noWs := true }
  | _ => d

/-- peglib.h 5701-5712: the rule made of a definition. -/
def RDef.toSDef (d : RDef) : SDef where
  head := d.instrs.foldl applyInstr
    { name := d.name, ope := .cut, isMacro := d.params.isSome, params := d.params.getD [], ignoreSV := d.ign }
  body := d.body

/-- peglib.h 6136-6172, 6420-6440: The `precedence` instruction of a definition. -/
def RDef.precInfo (d : RDef) : Option (List (List Byte × Nat × Byte)) :=
  d.instrs.findSome? fun i => match i with | .prec info => some info | _ => none

/-- peglib.h 6252-6262: no instruction type is given twice in a definition. -/
def dupInstr (ds : List RDef) : Bool := ds.any fun d => !((d.instrs.map Instr.kind).Nodup : Bool)

/-- peglib.h 6176-6215: What `load` starts from. -/
def toSource (ds : List RDef) (start : Option (List Byte)) (packrat leftRec : Bool) : Source where
  defs := ds.map RDef.toSDef
  start := start
  prec r := (ds[r - 1]?).bind fun d => if r = 0 then none else d.precInfo
  packrat := packrat
  leftRec := leftRec

end Verif.Meta
