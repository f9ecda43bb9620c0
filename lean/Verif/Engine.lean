import Verif.Ope
/-!
# The parse engine (peglib.h 1002-2214, 3348-3425, 3446-4313)

`run n cfg task pos st` executes a parse task with at most `n` nested calls.  Positions are offsets into
`cfg.input`; a result is `some j` (success, `j` is the end offset; the code returns the length `j - pos`) or `none`
(`size_t(-1)`).  `Out.ub` marks undefined behaviour, `Out.oof` that `n` nested calls are not enough.

Not modelled: the tracer callbacks (`needsRuleStack` covers their only influence on parsing), packrat statistics,
callbacks that modify the `Context` or the `SemanticValues` they are given, and everything callbacks do outside the
parser.  A `std::any` is an `Option V` (`none` = empty); so is the user datum `dt`.
-/

namespace Verif
open CharClass

/-- peglib.h 575-679 the data of `SemanticValues`.  Texts are (offset, length); `name` is the rule index. -/
structure Frame (V : Type) where
  vals : List (Option V) := []
  tags : List UInt32 := []
  tokens : List (Nat × Nat) := []
  sv : Nat × Nat := (0, 0)
  choiceCount : Nat := 0
  choice : Nat := 0
  name : Option Nat := none

/-- peglib.h 817-835, 3446-3503, 4150-4168: An expected literal in an error report: the text of a grammar literal, or a pointer into the text of a capture
(`BackReference::parse_core` passes the captured string to `parse_literal`). -/
inductive ErrLit where
  | lit (s : List Byte)
  | cap (s : List Byte)
  deriving DecidableEq, Repr

/-- peglib.h 797-880, 3609-3641 (not in the code): A custom message as it is offered: where, what, which label it comes with (none: the label is left as it is), and whether it
replaces a message from further on.  Not in the code, which keeps only the result; used to state which message is reported. -/
structure Note where
  pos : Nat
  msg : List Byte
  label : Option (List Byte)
  force : Bool
  deriving DecidableEq, Repr

/-- peglib.h 815-822 the data of `ErrorInfo` (a null pointer is `none`).  Expected literals are compared by content,
the code compares the addresses. -/
structure Err where
  pos : Option Nat := none
  toks : List (Option ErrLit × Option Nat) := []
  msgPos : Option Nat := none
  msg : List Byte := []
  label : List Byte := []
  lastOut : Option Nat := none
  keep : Bool := false
  /-- all messages offered since the last report (not in the code) -/
  notes : List Note := []
  deriving DecidableEq, Repr

/-- peglib.h 797-880, 3609-3641 (not in the code): A failure as it is recorded: where, whether expectations recorded before at the same position are dropped, and what was expected.
Not in the code, which keeps only the result; used to state what the error data are. -/
structure Fail where
  pos : Nat
  reset : Bool
  item : Option (Option ErrLit × Option Nat)
  deriving DecidableEq, Repr

/-- peglib.h 797-806 `ErrorReport` (the fields computed from the position are left out; `msg` is the message before
`%t`/`%c` substitution, `none` for a plain syntax error; `toks` are the expectations the text of the message is made
from, see `ErrText`). -/
structure Report where
  pos : Nat
  msg : Option (List Byte)
  lits : List (List Byte)
  rules : List Nat
  label : List Byte
  toks : List (Option ErrLit × Option Nat)
  deriving DecidableEq, Repr

/-- A left-recursion rule instance and key (peglib.h 1064-1069): rule, macro instantiation, position. -/
abbrev LRKey := Nat × Nat × Nat

/-- peglib.h 1002-1083 the mutable data of `Context` plus the current `SemanticValues` scope and `dt`.
Vectors used as stacks have their back at the head, except `caps`, which is in order.  `precToks` are the `tok`
variables of the active `parse_expression` calls with the binary-operator rule whose action they hook (4187-4204). -/
structure St (V : Type) where
  vs : Frame V := {}
  dt : Option V := none
  caps : List (List Byte × List Byte) := []
  cut : List Bool := []
  args : List (List Ope × Nat) := [([], 0)]
  ruleStack : List Nat := []
  tokCount : Nat := 0
  inWs : Bool := false
  recovered : Bool := false
  err : Err := {}
  logOn : Bool := false
  logs : List Report := []
  memo : Nat → Option (Option (Nat × Option V)) := fun _ => none
  active : Nat → Option Nat := fun _ => none
  insts : List (Nat × List Ope) := []
  lrMemo : List (LRKey × Option (Nat × Option V)) := []
  lrRefs : List (Nat × Nat) := []
  lrActive : List LRKey := []
  precToks : List (Nat × List Byte) := []
  /-- all failures recorded so far (not in the code) -/
  fails : List Fail := []

/-- peglib.h 1002-1060: What is fixed during one parse: the input, the rules, the callbacks and the `const` members of `Context`. -/
structure Cfg (V : Type) where
  input : List Byte
  rules : List Def
  /-- `Action`: scope, dt, predicate data ↦ value, new dt -/
  action : Nat → Option (Frame V → Option V → Option V → Option V × Option V) := fun _ => none
  /-- `Predicate`: scope, dt ↦ result, message, predicate data -/
  predicate : Nat → Option (Frame V → Option V → Bool × List Byte × Option V) := fun _ => none
  /-- `enter`: position, dt ↦ new dt -/
  enter : Nat → Option (Nat → Option V → Option V) := fun _ => none
  /-- `leave`: position, result, value, dt ↦ value, new dt -/
  leave : Nat → Option (Nat → Option Nat → Option V → Option V → Option V × Option V) := fun _ => none
  /-- `User` parsers: position, scope, dt ↦ length or failure, scope, dt -/
  user : Nat → Nat → Frame V → Option V → Option Nat × Frame V × Option V := fun _ _ f d => (none, f, d)
  ws : Option Ope := none
  word : Option Ope := none
  packrat : Bool := false
  defCount : Nat := 0
  defId : Nat → Nat := id
  packratIndex : Option (List (Option Nat)) := none
  cachedCount : Nat := 0
  recognizeOnly : Bool := false
  hasCut : Bool := true
  needsRuleStack : Bool := false
  /-- Not in the code (there it is always false): report a rule entered again at the position where it is being evaluated instead of
  failing, to state that this does not happen. -/
  trap : Bool := false

/-- peglib.h 1701-1711, 3825-4047, 4170-4258: What the engine can be asked to do.  `rep` is the second loop of `Repetition::parse_core` with `count`
iterations done; `grow` the growing loop of a left-recursive rule with the current seed; `prec`
`parse_expression`, `precLoop` its loop (`start` is the position of the expression). -/
inductive Task (V : Type) where
  | ope (e : Ope)
  | rep (e : Ope) (max : Option Nat) (count : Nat)
  | hold (r : Nat)
  | grow (r inst : Nat) (cycle : List (Nat × Nat)) (j : Nat) (val : Option V)
  | prec (atom binop : Ope) (info : List (List Byte × Nat × Byte)) (rule minPrec : Nat)
  | precLoop (atom binop : Ope) (info : List (List Byte × Nat × Byte)) (rule minPrec bin start : Nat)

/-- The result of `Ope::parse_core` (a length or -1, peglib.h 1442-1460) as end position, with the context. -/
abbrev Res (V : Type) := Option Nat × St V
/-- A result with the value `val` of `Holder::parse_core` (peglib.h 3825-4047). -/
abbrev VRes (V : Type) := Option Nat × Option V × St V
/-- Model only: the engine as a parameter of its own steps (the virtual call `ope->parse`, peglib.h 3664-3674). -/
abbrev Rec (V : Type) := Cfg V → Task V → Nat → St V → Out (Res V)

variable {V : Type}

/-- On success continue at the end position, on failure return it.  Model only: the tests `if (fail(len)) return` (e.g. peglib.h 1694-1699). -/
def andThen (x : Out (Res V)) (f : Nat → St V → Out (Res V)) : Out (Res V) :=
  x.bind fun r => match r.1 with
    | none => .ok (none, r.2)
    | some j => f j r.2

/-- peglib.h 56-86: Apply a clean-up to the state (the `scope_exit`s). -/
def after (x : Out (Res V)) (f : St V → St V) : Out (Res V) :=
  x.bind fun r => .ok (r.1, f r.2)

/-! ## Context helpers -/

/-- peglib.h 1358-1366 `Snapshot`. -/
structure Snap where
  nvals : Nat
  ntags : Nat
  ntokens : Nat
  sv : Nat × Nat
  cc : Nat
  ch : Nat
  ncaps : Nat

/-- peglib.h 1368-1371 `snapshot`. -/
def St.snapshot (st : St V) : Snap :=
  ⟨st.vs.vals.length, st.vs.tags.length, st.vs.tokens.length, st.vs.sv, st.vs.choiceCount, st.vs.choice,
   st.caps.length⟩

/-- peglib.h 1372-1385: `std::vector::resize`. -/
def resize {α : Type} (l : List α) (n : Nat) (dflt : α) : List α :=
  l.take n ++ List.replicate (n - l.length) dflt

/-- peglib.h 1373-1381 `rollback`. -/
def St.rollback (st : St V) (s : Snap) : St V :=
  { st with
    vs := { st.vs with
      vals := resize st.vs.vals s.nvals none
      tags := resize st.vs.tags s.ntags 0
      tokens := resize st.vs.tokens s.ntokens (0, 0)
      sv := s.sv
      choiceCount := s.cc
      choice := s.ch }
    caps := resize st.caps s.ncaps ([], []) }

/-- peglib.h 3609-3641: Pointer comparison `error_pos <= a_s`; a null pointer is below everything. -/
def optLe : Option Nat → Nat → Bool
  | none, _ => true
  | some p, q => p ≤ q

/-- peglib.h 3609-3641: Pointer comparison `error_pos < a_s`. -/
def optLt : Option Nat → Nat → Bool
  | none, _ => true
  | some p, q => p < q

/-- peglib.h 831-836 `ErrorInfo::add`. -/
def Err.add (e : Err) (t : Option ErrLit × Option Nat) : Err :=
  if t ∈ e.toks then e else { e with toks := e.toks ++ [t] }

/-- peglib.h 824-829 `ErrorInfo::clear`. -/
def Err.clear (e : Err) : Err := { e with pos := none, toks := [], msgPos := none, msg := [], notes := [] }

/-- Setting `message_pos`, `message` and `label` (peglib.h 3420-3421, 3899-3904, 3912-3918, 4164-4165, 4270-4273), if nothing is kept from there or
from further on or the message replaces everything. -/
def Err.note (e : Err) (n : Note) : Err :=
  if n.force || optLt e.msgPos n.pos then
    { e with msgPos := some n.pos, msg := n.msg, label := n.label.getD e.label, notes := e.notes ++ [n] }
  else { e with notes := e.notes ++ [n] }

/-- peglib.h 3631-3634: scanning the rule stack from the oldest entry for a token rule; the newest one if none is. -/
def errRule (rules : List Def) : List Nat → Option Nat → Option Nat
  | [], cur => cur
  | r :: rs, _ => if (rules[r]?.map (·.isToken)).getD false then some r else errRule rules rs (some r)

/-- peglib.h 3617-3637: what `set_error_pos` records as expected. -/
def expectation (rules : List Def) (stack : List Nat) (lit : Option ErrLit) : Option (Option ErrLit × Option Nat) :=
  let el := match lit with
    | some l => some l
    | none => (stack.head?.bind fun r => rules[r]?.bind (·.errLit)).map .lit
  let er := errRule rules stack.reverse none
  if el.isSome || er.isSome then some (el, er) else none

/-- peglib.h 3610-3639 `set_error_pos` on the error data. -/
def Err.setPos (rules : List Def) (stack : List Nat) (e : Err) (pos : Nat) (lit : Option ErrLit) : Err :=
  if optLe e.pos pos then
    let e := if optLt e.pos pos || !e.keep then { e with pos := some pos, toks := [] } else e
    match expectation rules stack lit with
    | some t => e.add t
    | none => e
  else e

/-- peglib.h 3609-3641 `Context::set_error_pos`. -/
def setErr (cfg : Cfg V) (st : St V) (pos : Nat) (lit : Option ErrLit := none) : St V :=
  if st.logOn then
    { st with
      err := st.err.setPos cfg.rules st.ruleStack pos lit
      fails := st.fails ++ [⟨pos, !st.err.keep, expectation cfg.rules st.ruleStack lit⟩] }
  else st

/-- peglib.h 1608-1621: recording the expectation of an alternative skipped by its first set. -/
def fsErr (st : St V) (fs : FirstSet) (id i : Nat) : St V :=
  if st.logOn && (fs.firstLit.isSome || fs.firstRule.isSome) then
    let t : Option ErrLit × Option Nat := match fs.firstLit with
      | some l => (some (.lit l), none)
      | none => (none, fs.firstRule)
    let e := if optLe st.err.pos i then
        (if optLt st.err.pos i || id = 0 then { st.err with pos := some i, toks := [] } else st.err).add t
      else st.err
    { st with err := e, fails := st.fails ++ [⟨i, id = 0, some t⟩] }
  else st

/-- peglib.h 1627, 2206: `cut_stack.back() = b` if the stack is not empty. -/
def St.setCut (st : St V) (b : Bool) : St V :=
  match st.cut with
  | [] => st
  | _ :: t => { st with cut := b :: t }

/-- peglib.h 1630, 1647 (`keep_previous_token`). -/
def St.setKeep (st : St V) (b : Bool) : St V := { st with err := { st.err with keep := b } }

/-- peglib.h 3774-3778: `isspace` in the "C" locale. -/
def isSpaceByte (b : Byte) : Bool := b = 32 || (9 ≤ b && b ≤ 13)

/-- peglib.h 3771-3781: trimming white space at both ends. -/
def trimSpace (s : List Byte) : List Byte := ((s.reverse.dropWhile isSpaceByte).reverse).dropWhile isSpaceByte

/-- peglib.h 4150-4160, 3766-3770: The most recent capture of a name. -/
def findCap (caps : List (List Byte × List Byte)) (name : List Byte) : Option (List Byte) :=
  (caps.reverse.find? fun e => e.1 = name).map (·.2)

/-- peglib.h 3755-3789 `resolve_capture_placeholders`; `fuel` bounds the number of characters looked at. -/
def resolvePlaceholders (caps : List (List Byte × List Byte)) : Nat → List Byte → List Byte
  | 0, s => s
  | _ + 1, [] => []
  | fuel + 1, b :: s =>
    if b = 37 ∧ s.head? = some 123 ∧ 125 ∈ s.tail then
      let body := s.tail
      let name := body.takeWhile (· ≠ 125)
      trimSpace ((findCap caps name).getD []) ++ resolvePlaceholders caps fuel (body.drop (name.length + 1))
    else b :: resolvePlaceholders caps fuel s

/-- peglib.h 3510-3598: A `const char *` read as a C string: it ends at the first NUL. -/
def cstr (s : List Byte) : List Byte := s.takeWhile (· ≠ 0)

/-- The expected-token part of `ErrorInfo::output_log` (peglib.h 3565-3587): rules whose name starts with `_` are
skipped; a rule without a literal supplies the label if there is none yet.  A literal that points into a capture is
read after the capture may have been destroyed: undefined. -/
def expected (rules : List Def) : List (Option ErrLit × Option Nat) → List Byte →
    Out (List (List Byte) × List Nat × List Byte)
  | [], label => .ok ([], [], label)
  | (el, er) :: ts, label =>
    let nm := (er.bind fun r => rules[r]?.map (·.name)).getD []
    if er.isSome && nm.head? = some 95 then expected rules ts label
    else match el with
      | some (.cap _) => .ub "expected literal points into a destroyed capture"
      | some (.lit l) => (expected rules ts label).bind fun x => .ok (cstr l :: x.1, x.2.1, x.2.2)
      | none =>
        (expected rules ts (if label = [] then nm else label)).bind fun x => .ok (x.1, er.toList ++ x.2.1, x.2.2)

/-- peglib.h 3510-3598 `ErrorInfo::output_log`: the report sent, if any, and the new error data. -/
def Err.output (rules : List Def) (e : Err) : Out (Option Report × Err) :=
  match e.msgPos with
  | some p =>
    if optLt e.lastOut p then .ok (some ⟨p, some e.msg, [], [], e.label, []⟩, { e with lastOut := some p })
    else .ok (none, e)
  | none =>
    match e.pos with
    | some p =>
      if optLt e.lastOut p then
        (expected rules e.toks e.label).bind fun x =>
          .ok (some ⟨p, none, x.1, x.2.1, x.2.2, e.toks⟩, { e with lastOut := some p, label := x.2.2 })
      else .ok (none, e)
    | none => .ok (none, e)

/-! ## Terminals -/

/-- the part of the input from `i` on.  Model only: `s`, `n` of `parse_core` (peglib.h 1442-1460). -/
def Cfg.rest (cfg : Cfg V) (i : Nat) : List Byte := cfg.input.drop i

/-- peglib.h 3450-3461: the literal is a prefix of the rest of the input (bytes compared after lower-casing if
`ic`; the table is `std::tolower` at parse start). -/
def litMatch (lit : List Byte) (ic : Bool) (s : List Byte) : Bool :=
  if ic then (Trie.toLower lit).isPrefixOf (Trie.toLower s) else lit.isPrefixOf s

/-- peglib.h 1852-1880, 1932-1965: A terminal that is a length function: failure records the position. -/
def terminal (cfg : Cfg V) (i : Nat) (st : St V) (m : Option Nat) : Out (Res V) :=
  match m with
  | none => .ok (none, setErr cfg st i)
  | some k => .ok (some (i + k), st)

/-- peglib.h 3600-3607 `skip_whitespace`. -/
def skipWs (rec : Rec V) (cfg : Cfg V) (i : Nat) (st : St V) : Out (Res V) :=
  if st.tokCount ≠ 0 then .ok (some i, st)
  else match cfg.ws with
    | none => .ok (some i, st)
    | some w => rec cfg (.ope w) i st

/-- The `Context` made for the word check (peglib.h 3471-3474): same rules and callbacks, no white space, no word
rule, no packrat, no log. -/
def Cfg.dummy (cfg : Cfg V) (input : List Byte) : Cfg V :=
  { cfg with input := input, ws := none, word := none, packrat := false, defCount := 0, packratIndex := none,
             cachedCount := 0, recognizeOnly := false, hasCut := true, needsRuleStack := false }

/-- peglib.h 3481-3493, 3696-3708: `!wordOpe` at `i` in a fresh context.  `true` = the check passes. -/
def wordCheck (rec : Rec V) (cfg : Cfg V) (w : Ope) (i : Nat) : Out Bool :=
  (rec (cfg.dummy cfg.input) (.ope w) i {}).bind fun r => .ok r.1.isNone

/-- peglib.h 3470-3479: does the literal itself start with a word?  (The code computes this once per literal; the
answer is the same every time.) -/
def isWord (rec : Rec V) (cfg : Cfg V) (w : Ope) (lit : List Byte) : Out Bool :=
  (rec (cfg.dummy lit) (.ope w) 0 {}).bind fun r => .ok r.1.isSome

/-- peglib.h 3446-3503 `parse_literal`. -/
def parseLiteral (rec : Rec V) (cfg : Cfg V) (lit : List Byte) (ic : Bool) (el : ErrLit) (i : Nat) (st : St V) :
    Out (Res V) :=
  if litMatch lit ic (cfg.rest i) then
    match cfg.word with
    | none => skipWs rec cfg (i + lit.length) st
    | some w =>
      (isWord rec cfg w lit).bind fun isw =>
        if isw then
          (wordCheck rec cfg w (i + lit.length)).bind fun good =>
            if good then skipWs rec cfg (i + lit.length) st
            else .ok (none, setErr cfg st i (some el))
        else skipWs rec cfg (i + lit.length) st
  else .ok (none, setErr cfg st i (some el))

/-- peglib.h 670-671, 1634-1636: Recording the choice made (`choice_count_`, `choice_`). -/
def St.setChoice (st : St V) (count id : Nat) : St V := { st with vs := { st.vs with choiceCount := count, choice := id } }

/-- peglib.h 3675-3718 `Dictionary::parse_core`. -/
def parseDict (rec : Rec V) (cfg : Cfg V) (words : List (List Byte)) (ic : Bool) (i : Nat) (st : St V) :
    Out (Res V) :=
  let m := (Trie.build words ic).matchText (cfg.rest i)
  if m.1 = 0 then .ok (none, setErr cfg st i)
  else
    let st := st.setChoice words.length m.2
    match cfg.word with
    | none => skipWs rec cfg (i + m.1) st
    | some w =>
      (wordCheck rec cfg w (i + m.1)).bind fun good =>
        if good then skipWs rec cfg (i + m.1) st
        else .ok (none, setErr cfg st i)

/-- peglib.h 4150-4168 `BackReference::parse_core`. -/
def parseBref (rec : Rec V) (cfg : Cfg V) (name : List Byte) (i : Nat) (st : St V) : Out (Res V) :=
  match findCap st.caps name with
  | some text => parseLiteral rec cfg text false (.cap text) i st
  | none =>
    .ok (none, { st with err := st.err.note ⟨i, "undefined back reference '$".toUTF8.toList ++ name ++ "'...".toUTF8.toList, none, true⟩ })

/-- Appending the token of a token boundary (peglib.h 3743) unless nothing observes values. -/
def addToken (cfg : Cfg V) (t : Nat × Nat) (st : St V) : St V :=
  if cfg.recognizeOnly then st else { st with vs := { st.vs with tokens := st.vs.tokens ++ [t] } }

/-- peglib.h 2006-2018, 3727-3750 `TokenBoundary::parse_core` around the body. -/
def tokenBody (rec : Rec V) (cfg : Cfg V) (e : Ope) (i : Nat) (st : St V) : Out (Res V) :=
  andThen (after (rec cfg (.ope e) i { st with tokCount := st.tokCount + 1 })
      fun st => { st with tokCount := st.tokCount - 1 }) fun j st =>
    skipWs rec cfg j (addToken cfg (i, j - i) st)

/-! ## Composite operators -/

/-- peglib.h 1491-1497 the loop of `Sequence::parse_core`. -/
def seqLoop (rec : Rec V) (cfg : Cfg V) : List Ope → Nat → St V → Out (Res V)
  | [], i, st => .ok (some i, st)
  | e :: es, i, st => andThen (rec cfg (.ope e) i st) fun j st => seqLoop rec cfg es j st

/-- peglib.h 1512-1519 length of the identifier scanned by the keyword guard (`none`: no identifier here). -/
def kwScan (kw : KwGuard) (s : List Byte) : Option Nat :=
  match s with
  | [] => none
  | b :: t => if b ∈ kw.first then some (1 + (t.takeWhile (· ∈ kw.rest)).length) else none

/-- peglib.h 1506-1553 `parse_keyword_guarded`; `none` means: fall through to the normal path. -/
def kwGuarded (rec : Rec V) (cfg : Cfg V) (kw : KwGuard) (i : Nat) (st : St V) : Option (Out (Res V)) :=
  match kwScan kw (cfg.rest i) with
  | none => some (.ok (none, setErr cfg st i))
  | some k =>
    let word := Trie.toLower ((cfg.rest i).take k)
    let inLen := kw.minLen ≤ k ∧ k ≤ kw.maxLen
    if inLen ∧ word ∈ kw.exact then some (.ok (none, setErr cfg st i))
    else if inLen ∧ word ∈ kw.pref then none
    else
      some (skipWs rec cfg (i + k) (addToken cfg (i, k) st))

/-- peglib.h 1483-1498 `Sequence::parse_core`. -/
def parseSeq (rec : Rec V) (cfg : Cfg V) (es : List Ope) (kw : Option KwGuard) (i : Nat) (st : St V) :
    Out (Res V) :=
  match kw.bind fun k => kwGuarded rec cfg k i st with
  | some r => r
  | none => seqLoop rec cfg es i st

/-- peglib.h 1604-1607: the alternative cannot start with the next byte. -/
def fsSkip (fs : Option FirstSet) (s : List Byte) : Bool :=
  match fs, s with
  | some f, b :: _ => !f.anyChar && !f.canBeEmpty && b ∉ f.chars
  | _, _ => false

/-- peglib.h 1627: `if (c.has_cut && !c.cut_stack.empty()) { c.cut_stack.back() = false; }`. -/
def resetCut (cfg : Cfg V) (st : St V) : St V := if cfg.hasCut then st.setCut false else st

/-- peglib.h 1595-1599: the cut scope of a choice. -/
def pushCut (track : Bool) (st : St V) : St V := if track then { st with cut := false :: st.cut } else st

/-- peglib.h 1597-1599: leaving the cut scope of a choice. -/
def choExit (track : Bool) (st : St V) : St V :=
  if track then { st.setKeep false with cut := st.cut.tail } else st.setKeep false

/-- peglib.h 3799-3801, 3821: the rule stack is maintained only when it can be observed. -/
def pushRule (b : Bool) (r : Nat) (st : St V) : St V :=
  if b then { st with ruleStack := r :: st.ruleStack } else st

/-- peglib.h 3821. -/
def popRule (b : Bool) (st : St V) : St V := if b then { st with ruleStack := st.ruleStack.tail } else st

/-- peglib.h 1601-1645 the loop of `PrioritizedChoice::parse_core`. -/
def choLoop (rec : Rec V) (cfg : Cfg V) (total : Nat) (fs : List FirstSet) : List Ope → Nat → Nat → St V → Out (Res V)
  | [], _, _, st => .ok (none, st)
  | e :: es, id, i, st =>
    if fsSkip fs[id]? (cfg.rest i) then
      choLoop rec cfg total fs es (id + 1) i (fsErr st (fs[id]?.getD {}) id i)
    else
      (rec cfg (.ope e) i ((resetCut cfg st).setKeep (id > 0))).bind fun r =>
        match r.1 with
        | some j => .ok (some j, { r.2 with vs := { r.2.vs with choiceCount := total, choice := id } })
        | none =>
          if cfg.hasCut && (r.2.rollback st.snapshot).cut.headD false then .ok (none, r.2.rollback st.snapshot)
          else choLoop rec cfg total fs es (id + 1) i (r.2.rollback st.snapshot)

/-- peglib.h 1591-1649 `PrioritizedChoice::parse_core`. -/
def parseCho (rec : Rec V) (cfg : Cfg V) (es : List Ope) (forLabel : Bool) (fs : List FirstSet) (i : Nat)
    (st : St V) : Out (Res V) :=
  after (choLoop rec cfg es.length fs es 0 i (pushCut (cfg.hasCut && !forLabel) st))
    (choExit (cfg.hasCut && !forLabel))

/-- peglib.h 1691-1698 the first loop of `Repetition::parse_core`: `k` mandatory iterations. -/
def repMin (rec : Rec V) (cfg : Cfg V) (e : Ope) : Nat → Nat → St V → Out (Res V)
  | 0, i, st => .ok (some i, st)
  | k + 1, i, st => andThen (rec cfg (.ope e) i st) fun j st => repMin rec cfg e k j st

/-- peglib.h 1700-1710 one round of the second loop of `Repetition::parse_core`. -/
def repRound (rec : Rec V) (cfg : Cfg V) (e : Ope) (max : Option Nat) (count i : Nat) (st : St V) : Out (Res V) :=
  if max.all (count < ·) then
    let snap := st.snapshot
    (rec cfg (.ope e) i st).bind fun r =>
      match r.1 with
      | none => .ok (some i, r.2.rollback snap)
      | some j => rec cfg (.rep e max (count + 1)) j r.2
  else .ok (some i, st)

/-- peglib.h 1665-1711 `Repetition::parse_core`. -/
def parseRep (rec : Rec V) (cfg : Cfg V) (e : Ope) (min : Nat) (max : Option Nat) (span : Option Cls) (i : Nat)
    (st : St V) : Out (Res V) :=
  match span with
  | some c =>
    let s := cfg.rest i
    let k := match max with
      | none => (s.takeWhile c.asciiBit).length
      | some m => ((s.take m).takeWhile c.asciiBit).length
    if k < min then .ok (none, setErr cfg st (i + k)) else .ok (some (i + k), st)
  | none => andThen (repMin rec cfg e min i st) fun j st => rec cfg (.rep e max min) j st

/-- peglib.h 1744-1754 `AndPredicate::parse_core`. -/
def parseAnd (rec : Rec V) (cfg : Cfg V) (e : Ope) (i : Nat) (st : St V) : Out (Res V) :=
  (rec cfg (.ope e) i st).bind fun r => .ok (r.1.map fun _ => i, r.2.rollback st.snapshot)

/-- peglib.h 1765-1776 `NotPredicate::parse_core`. -/
def parseNot (rec : Rec V) (cfg : Cfg V) (e : Ope) (i : Nat) (st : St V) : Out (Res V) :=
  (rec cfg (.ope e) i st).bind fun r =>
    let st := r.2.rollback st.snapshot
    match r.1 with
    | some _ => .ok (none, setErr cfg st i)
    | none => .ok (some i, st)

/-- peglib.h 1973-1979 `CaptureScope::parse_core`. -/
def parseCapScope (rec : Rec V) (cfg : Cfg V) (e : Ope) (i : Nat) (st : St V) : Out (Res V) :=
  after (rec cfg (.ope e) i st) fun st' => { st' with caps := resize st'.caps st.caps.length ([], []) }

/-- peglib.h 1993-1998 `Capture::parse_core` with the match action of peglib.h 5867-5869. -/
def parseCap (rec : Rec V) (cfg : Cfg V) (name : List Byte) (e : Ope) (i : Nat) (st : St V) : Out (Res V) :=
  andThen (rec cfg (.ope e) i st) fun j st =>
    .ok (some j, { st with caps := st.caps ++ [(name, (cfg.rest i).take (j - i))] })

/-- peglib.h 3872: the `enter` callback. -/
def callEnter (cfg : Cfg V) (r i : Nat) (st : St V) : St V :=
  match cfg.enter r with
  | some f => { st with dt := f i st.dt }
  | none => st

/-- Run with a fresh semantic-value scope and come back to the caller's (push/pop_semantic_values_scope,
peglib.h 1275-1301).  Simplification: a reused scope is taken to be empty; the code keeps old tags when the values
were removed without them, which no modelled operation does. -/
def inScope (st : St V) (x : St V → Out (Res V)) : Out (Res V) :=
  after (x { st with vs := {} }) fun st' => { st' with vs := st.vs }

/-- peglib.h 2024-2029 `Ignore::parse_core`. -/
def parseIgn (rec : Rec V) (cfg : Cfg V) (e : Ope) (i : Nat) (st : St V) : Out (Res V) :=
  inScope st fun st => rec cfg (.ope e) i st

/-- peglib.h 2042-2046 `User::parse_core`; a length beyond the remaining input breaks the callback's contract. -/
def parseUsr (cfg : Cfg V) (id i : Nat) (st : St V) : Out (Res V) :=
  let r := cfg.user id i st.vs st.dt
  let st := { st with vs := r.2.1, dt := r.2.2 }
  match r.1 with
  | none => .ok (none, st)
  | some k => if i + k ≤ cfg.input.length then .ok (some (i + k), st) else .ub "user parser returned too long a match"

/-- peglib.h 2131-2137 `Whitespace::parse_core`. -/
def parseWs (rec : Rec V) (cfg : Cfg V) (e : Ope) (i : Nat) (st : St V) : Out (Res V) :=
  if st.inWs then .ok (some i, st)
  else after (rec cfg (.ope e) i { st with inWs := true }) fun st => { st with inWs := false }

/-! ## Rules -/

/-- peglib.h 3796-3823 `Holder::parse_ope_body`. -/
def opeBody (rec : Rec V) (cfg : Cfg V) (r : Nat) (d : Def) (i : Nat) (st : St V) : Out (Res V) :=
  after
    (if d.noWs then
      andThen (after (rec cfg (.ope d.ope) i
          { pushRule (cfg.needsRuleStack || d.hasMacroRef) r st with tokCount := st.tokCount + 1 })
        fun st => { st with tokCount := st.tokCount - 1 }) fun j st => skipWs rec cfg j st
    else rec cfg (.ope d.ope) i (pushRule (cfg.needsRuleStack || d.hasMacroRef) r st))
    (popRule (cfg.needsRuleStack || d.hasMacroRef))

/-- peglib.h 608-612 `token()`: the first token, else the whole match. -/
def Frame.token (f : Frame V) (input : List Byte) : List Byte :=
  let t := f.tokens.headD f.sv
  (input.drop t.1).take t.2

/-- Calling `rule.action` as it is at this moment: while a `parse_expression` over binary-operator rule `r` is active
the action of `r` is the wrapper of peglib.h 4193-4202, which records the token and then calls the original. -/
def callAction (cfg : Cfg V) (r : Nat) (f : Frame V) (pdata : Option V) (st : St V) : Option V × St V :=
  let st := { st with precToks := st.precToks.map fun e => if e.1 = r then (e.1, f.token cfg.input) else e }
  match cfg.action r with
  | some a => let x := a f st.dt pdata; (x.1, { st with dt := x.2 })
  | none => (f.vals.head?.getD none, st)

/-- peglib.h 4049-4068. -/
def hasAction (cfg : Cfg V) (r : Nat) (st : St V) : Bool :=
  (cfg.action r).isSome || st.precToks.any (·.1 = r)

/-- peglib.h 4049-4058 `Holder::reduce`. -/
def reduce (cfg : Cfg V) (r : Nat) (d : Def) (f : Frame V) (pdata : Option V) (st : St V) : Option V × St V :=
  if hasAction cfg r st && !d.disableAction then callAction cfg r f pdata st
  else (f.vals.head?.getD none, st)

/-- peglib.h 3882-3892: what the scope looks like after a successful body. -/
def finishFrame (r : Nat) (d : Def) (i j : Nat) (f : Frame V) : Frame V :=
  let f := { f with sv := (i, j - i), name := some r }
  if d.ope.choiceLikeTop then f else { f with choiceCount := 0, choice := 0 }

/-- peglib.h 3881-3920 the part of `do_parse` after the body: predicate, action, error message. -/
def finishRule (cfg : Cfg V) (r : Nat) (d : Def) (i : Nat) (x : Option Nat) (st : St V) : VRes V :=
  match x with
  | some j =>
    let f := finishFrame r d i j st.vs
    let st := { st with vs := f }
    match cfg.predicate r with
    | some p =>
      let q := p f st.dt
      if q.1 then
        if st.recovered then (some j, none, st)
        else let v := reduce cfg r d f q.2.2 st; (some j, v.1, v.2)
      else
        (none, none, if st.logOn && q.2.1 ≠ [] then
          { st with err := st.err.note ⟨i, q.2.1, some d.name, false⟩ } else st)
    | none =>
      if st.recovered then (some j, none, st)
      else let v := reduce cfg r d f none st; (some j, v.1, v.2)
  | none =>
    (none, none, if st.logOn && d.errorMessage ≠ [] then
      { st with err := st.err.note ⟨i, resolvePlaceholders st.caps d.errorMessage.length d.errorMessage, some d.name, false⟩ } else st)

/-- peglib.h 3871-3921 `do_parse`. -/
def doParse (rec : Rec V) (cfg : Cfg V) (r : Nat) (d : Def) (i : Nat) (st : St V) : Out (VRes V) :=
  (opeBody rec cfg r d i { callEnter cfg r i st with vs := {} }).bind fun x =>
    let y := finishRule cfg r d i x.1 x.2
    let st := { y.2.2 with vs := st.vs }
    match cfg.leave r with
    | some f => let z := f i y.1 y.2.1 st.dt; .ok (y.1, z.1, { st with dt := z.2 })
    | none => .ok (y.1, y.2.1, st)

/-- peglib.h 1085-1088 `cache_slot`. -/
def Cfg.slot (cfg : Cfg V) (defId : Nat) : Option Nat :=
  match cfg.packratIndex with
  | none => some defId
  | some ix => (ix[defId]?).getD none

/-- peglib.h 1166-1180: the members of the memo tables: `cache_registered` etc. have `packrat_cached_count * (l + 1)` entries. -/
def Cfg.memoSize (cfg : Cfg V) : Nat := cfg.cachedCount * (cfg.input.length + 1)

/-- peglib.h 1094-1095: the index of a table entry. -/
def Cfg.memoIdx (cfg : Cfg V) (slot i : Nat) : Nat := cfg.cachedCount * i + slot

/-- Model only: assignment to an array element. -/
def fset {α β : Type} [DecidableEq α] (f : α → β) (a : α) (b : β) : α → β := fun x => if x = a then b else f x

/-- peglib.h 1090-1101 `clear_packrat_cache`. -/
def clearMemo (cfg : Cfg V) (r i : Nat) (st : St V) : St V :=
  if cfg.packrat then
    match cfg.slot (cfg.defId r) with
    | some s => { st with memo := fset st.memo (cfg.memoIdx s i) none }
    | none => st
  else st

/-- peglib.h 1103-1130 `write_packrat_cache` (the tables themselves are the subject of `PackratCache`). -/
def writeMemo (cfg : Cfg V) (r i j : Nat) (v : Option V) (st : St V) : St V :=
  if cfg.packrat then
    match cfg.slot (cfg.defId r) with
    | some s =>
      if cfg.memoIdx s i < cfg.memoSize then
        if j - i ≤ 4294967295 then { st with memo := fset st.memo (cfg.memoIdx s i) (some (some (j - i, v))) }
        else { st with memo := fset st.memo (cfg.memoIdx s i) none }
      else st
    | none => st
  else st

/-- peglib.h 1225-1230, 3857-3858 and 4028-4029: a rule entered again at the position where it is being evaluated fails. -/
def reentered (cfg : Cfg V) (st : St V) : Out (VRes V) :=
  if cfg.trap then .ub "rule entered again at the same position" else .ok (none, none, st)

theorem reentered_ok {cfg : Cfg V} {st : St V} {r : VRes V} (h : reentered cfg st = .ok r) : r = (none, none, st) := by
  unfold reentered at h
  split at h
  · cases h
  · cases h; rfl

/-- peglib.h 1214-1272 `Context::packrat` (packrat enabled) and the no-packrat re-entry guard of peglib.h
3853-3865, 4019-4036. -/
def guarded (cfg : Cfg V) (r i : Nat) (st : St V) (fn : St V → Out (VRes V)) : Out (VRes V) :=
  if cfg.packrat then
    match cfg.slot (cfg.defId r) with
    | none =>
      if cfg.defCount ≤ cfg.defId r then .ub "active_pos index out of range"
      else if st.active (cfg.defId r) = some i then reentered cfg st
      else
        (fn { st with active := fset st.active (cfg.defId r) (some i) }).bind fun x =>
          .ok (x.1, x.2.1, { x.2.2 with active := fset x.2.2.active (cfg.defId r) (st.active (cfg.defId r)) })
    | some s =>
      if cfg.memoSize ≤ cfg.memoIdx s i then .ub "cache_registered index out of range"
      else match st.memo (cfg.memoIdx s i) with
        | some (some (len, v)) => .ok (some (i + len), v, st)
        | some none => .ok (none, none, st)
        | none =>
          (fn { st with memo := fset st.memo (cfg.memoIdx s i) (some none) }).bind fun x =>
            match x.1 with
            | some j => .ok (some j, x.2.1, writeMemo cfg r i j x.2.1 x.2.2)
            | none => .ok (none, x.2.1, x.2.2)
  else
    match st.args with
    | [] => .ub "empty argument stack"
    | (_, inst) :: _ =>
      if (st.lrMemo.lookup (r, inst, i)).isSome then reentered cfg st
      else
        (fn { st with lrMemo := ((r, inst, i), none) :: st.lrMemo }).bind fun x =>
          .ok (x.1, x.2.1, { x.2.2 with lrMemo := x.2.2.lrMemo.filter (·.1 ≠ (r, inst, i)) })

/-- peglib.h 4039-4044: the value of a successful rule goes to the caller's scope. -/
def emplace (cfg : Cfg V) (d : Def) (v : Option V) (st : St V) : St V :=
  if !d.ignoreSV && !cfg.recognizeOnly then
    { st with vs := { st.vs with vals := st.vs.vals ++ [v], tags := st.vs.tags ++ [str2tag d.name] } }
  else st

/-- peglib.h 1071-1078 (`std::set::insert`): Insert into a set kept as a list. -/
def setInsert {α : Type} [DecidableEq α] (a : α) (l : List α) : List α := if a ∈ l then l else a :: l

/-- peglib.h 1069, 3943: `lr_memo[key] = v`. -/
def lrSet (k : LRKey) (v : Option (Nat × Option V)) (l : List (LRKey × Option (Nat × Option V))) :
    List (LRKey × Option (Nat × Option V)) := (k, v) :: l.filter (·.1 ≠ k)

/-- peglib.h 4013-4017 and 4039-4044: the end of a successful left-recursive rule. -/
def growDone (cfg : Cfg V) (r inst : Nat) (d : Def) (i j : Nat) (v : Option V) (st : St V) : Res V :=
  let st := if d.isMacro then st else writeMemo cfg r i j v st
  let st := { st with lrActive := st.lrActive.filter (· ≠ (r, inst, i)) }
  (some j, emplace cfg d v st)

/-- peglib.h 3979-4010 one round of the growing loop. -/
def growRound (rec : Rec V) (cfg : Cfg V) (r inst : Nat) (cycle : List (Nat × Nat)) (j : Nat) (v : Option V) (i : Nat)
    (st : St V) : Out (Res V) :=
  match cfg.rules[r]? with
  | none => .ub "no such rule"
  | some d =>
    let st := if d.isMacro then st else clearMemo cfg r i st
    let st := { st with lrMemo := st.lrMemo.filter fun e =>
      !(e.1.2.2 = i && (e.1.1, e.1.2.1) ≠ (r, inst) && (e.1.1, e.1.2.1) ∈ cycle && e.1 ∉ st.lrActive) }
    (doParse rec cfg r d i st).bind fun x =>
      match x.1 with
      | none => .ok (growDone cfg r inst d i j v x.2.2)
      | some j' =>
        if j' ≤ j then .ok (growDone cfg r inst d i j v x.2.2)
        else rec cfg (.grow r inst cycle j' x.2.1) i
          { x.2.2 with lrMemo := lrSet (r, inst, i) (some (j', x.2.1)) x.2.2.lrMemo }

/-- peglib.h 3923-4018 the left-recursive branch of `Holder::parse_core`. -/
def lrHold (rec : Rec V) (cfg : Cfg V) (r : Nat) (d : Def) (i : Nat) (st : St V) : Out (Res V) :=
  match st.args with
  | [] => .ub "empty argument stack"
  | (_, inst) :: _ =>
    match st.lrMemo.lookup (r, inst, i) with
    | some m =>
      let st := { st with lrRefs := setInsert (r, inst) st.lrRefs }
      match m with
      | some (j, v) => .ok (some j, emplace cfg d v st)
      | none => .ok (none, st)
    | none =>
      (doParse rec cfg r d i { st with
          lrMemo := lrSet (r, inst, i) none st.lrMemo
          lrActive := setInsert (r, inst, i) st.lrActive
          lrRefs := [] }).bind fun x =>
        let cyc := if x.2.2.lrRefs = [] then [] else setInsert (r, inst) x.2.2.lrRefs
        let st2 := { x.2.2 with lrRefs := cyc.foldr setInsert st.lrRefs }
        match x.1 with
        | none => .ok (none, { st2 with lrActive := st2.lrActive.filter (· ≠ (r, inst, i)) })
        | some j => rec cfg (.grow r inst cyc j x.2.1) i
            { st2 with lrMemo := lrSet (r, inst, i) (some (j, x.2.1)) st2.lrMemo }

/-- peglib.h 3825-4047 `Holder::parse_core`. -/
def holder (rec : Rec V) (cfg : Cfg V) (r i : Nat) (st : St V) : Out (Res V) :=
  match cfg.rules[r]? with
  | none => .ub "no such rule"
  | some d =>
    if d.isMacro && !d.isLR then
      after (rec cfg (.ope d.ope) i { st with ruleStack := r :: st.ruleStack })
        fun st => { st with ruleStack := st.ruleStack.tail }
    else if d.isLR then lrHold rec cfg r d i st
    else if cfg.recognizeOnly then
      (guarded cfg r i st fun st => (opeBody rec cfg r d i st).bind fun x => .ok (x.1, none, x.2)).bind fun x =>
        .ok (x.1, x.2.2)
    else
      (guarded cfg r i st fun st => doParse rec cfg r d i st).bind fun x =>
        match x.1 with
        | some j => .ok (some j, emplace cfg d x.2.1 x.2.2)
        | none => .ok (none, x.2.2)

/-- peglib.h 1350-1355 `intern_macro_inst`: ids start at 1. -/
def intern (insts : List (Nat × List Ope)) (key : Nat × List Ope) : Nat × List (Nat × List Ope) :=
  match insts.findIdx? (fun k => k.1 = key.1 && Ope.beqList k.2 key.2) with
  | some n => (n + 1, insts)
  | none => (insts.length + 1, insts ++ [key])

/-- peglib.h 1313-1335, 4121-4136: Push an argument frame for the call and pop it afterwards. -/
def withArgs (st : St V) (frame : List Ope × Nat) (x : St V → Out (Res V)) : Out (Res V) :=
  after (x { st with args := frame :: st.args }) fun st => { st with args := st.args.tail }

/-- peglib.h 4101-4138 `Reference::parse_dispatch` for a reference to a rule.  `params_[i]` is read for every `i` below
the number of arguments in scope: if the rule on top of the rule stack has fewer parameters this is undefined. -/
def refer (rec : Rec V) (cfg : Cfg V) (r : Nat) (args : List Ope) (i : Nat) (st : St V) : Out (Res V) :=
  match cfg.rules[r]? with
  | none => .ub "no such rule"
  | some d =>
    if d.isMacro then
      match st.ruleStack, st.args with
      | [], _ => .ub "rule_stack.back() of an empty vector"
      | _, [] => .ub "empty argument stack"
      | cur :: _, (top, _) :: _ =>
        match cfg.rules[cur]? with
        | none => .ub "no such rule"
        | some c =>
          if args ≠ [] && top.length > c.params.length then .ub "params_ index out of range"
          else
            let args' := resolveList c.params top args
            if d.isLR then
              let k := intern st.insts (r, args'.map instArg)
              withArgs { st with insts := k.2 } (args', k.1) fun st => rec cfg (.hold r) i st
            else withArgs st (args', 0) fun st => rec cfg (.hold r) i st
    else if !d.hasMacroRef && !d.isLR && cfg.packrat then rec cfg (.hold r) i st
    else withArgs st ([], 0) fun st => rec cfg (.hold r) i st

/-- peglib.h 4139-4143: a reference to a macro parameter. -/
def parseParam (rec : Rec V) (cfg : Cfg V) (k i : Nat) (st : St V) : Out (Res V) :=
  match st.args with
  | [] => .ub "empty argument stack"
  | (top, _) :: _ =>
    match top[k]? with
    | none => .ub "argument index out of range"
    | some e => rec cfg (.ope e) i st

/-! ## Precedence climbing -/

/-- peglib.h 4170-4181 `get_reference_for_binop`. -/
def binopRule (cfg : Cfg V) (binop : Ope) (rule : Nat) (st : St V) : Out Nat :=
  match cfg.rules[rule]? with
  | none => .ub "no such rule"
  | some d =>
    if d.isMacro then
      match binop, st.args with
      | .param k _, (top, _) :: _ =>
        match top[k]? with
        | some (.ref r _ _) => .ok r
        | _ => .ub "binary operator argument is not a rule reference"
      | _, _ => .ub "binary operator is not a macro parameter"
    else match binop with
      | .ref r _ _ => .ok r
      | _ => .ub "binary operator is not a rule reference"

/-- peglib.h 4183-4205, 4257: `parse_expression` up to the loop, and the restored action after it. -/
def parsePrec (rec : Rec V) (cfg : Cfg V) (atom binop : Ope) (info : List (List Byte × Nat × Byte))
    (rule minPrec i : Nat) (st : St V) : Out (Res V) :=
  andThen (rec cfg (.ope atom) i st) fun j st =>
    (binopRule cfg binop rule st).bind fun b =>
      after (rec cfg (.precLoop atom binop info rule minPrec b i) j { st with precToks := (b, []) :: st.precToks })
        fun st => { st with precToks := st.precToks.tail }

/-- peglib.h 4244-4253: combining the operands. -/
def precReduce (cfg : Cfg V) (rule start j : Nat) (st : St V) : St V :=
  if hasAction cfg rule st then
    let f := { st.vs with sv := (start, j - start) }
    let x := callAction cfg rule f none st
    { x.2 with vs := { f with vals := [x.1] } }
  else { st with vs := { st.vs with vals := [st.vs.vals.head?.getD none] } }

/-- peglib.h 4206-4257 one round of the loop of `parse_expression`. -/
def precRound (rec : Rec V) (cfg : Cfg V) (atom binop : Ope) (info : List (List Byte × Nat × Byte))
    (rule minPrec b start i : Nat) (st : St V) : Out (Res V) :=
  if i < cfg.input.length then
    (rec cfg (.ope binop) i { st with vs := {} }).bind fun x =>
      let chvs := x.2.vs
      let st1 := { x.2 with vs := st.vs }
      match x.1 with
      | none => .ok (some i, st1)
      | some j =>
        match info.lookup ((st1.precToks.head?.map (·.2)).getD []) with
        | none => .ok (some i, st1)
        | some (level, assoc) =>
          if level < minPrec then .ok (some i, st1)
          else match chvs.vals with
            | [] => .ub "chvs[0] of an empty vector"
            | opv :: _ =>
              let st2 := { st1 with vs := { st1.vs with vals := st1.vs.vals ++ [opv] } }
              (rec cfg (.prec atom binop info rule (if assoc = 76 then level + 1 else level)) j
                  { st2 with vs := {} }).bind fun y =>
                let rvs := y.2.vs
                match y.1 with
                | none => .ok (none, { y.2 with vs := st.vs })
                | some k =>
                  match rvs.vals with
                  | [] => .ub "chvs[0] of an empty vector"
                  | rv :: _ =>
                    let st3 := { y.2 with vs := { st2.vs with vals := st2.vs.vals ++ [rv] } }
                    rec cfg (.precLoop atom binop info rule minPrec b start) k (precReduce cfg rule start k st3)
  else .ok (some i, st)

/-! ## Recovery -/

/-- peglib.h 4260-4313 `Recovery::parse_core`. -/
def parseRecov (rec : Rec V) (cfg : Cfg V) (r : Nat) (nm : List Byte) (args : List Ope) (i : Nat) (st : St V) :
    Out (Res V) :=
  let label : Out (St V) :=
    if st.logOn then
      match args with
      | [] => .ub "args_[0] of an empty vector"
      | .ref l _ _ :: _ =>
        match cfg.rules[l]? with
        | none => .ub "no such rule"
        | some ld =>
          if ld.errorMessage ≠ [] then
            .ok { st with err := st.err.note ⟨i, resolvePlaceholders st.caps ld.errorMessage.length ld.errorMessage, some ld.name, true⟩ }
          else .ok st
      | .param _ _ :: _ => .ub "label is an unresolved macro parameter"
      | _ :: _ => .ok st
    else .ok st
  label.bind fun st =>
    (rec cfg (.ope (.ref r nm args)) i { st with logOn := false, vs := {}, dt := none }).bind fun x =>
      let st1 := { x.2 with logOn := st.logOn, vs := st.vs, dt := st.dt }
      let st2 : Out (St V) :=
        if x.1.isSome then
          let st1 := { st1 with recovered := true }
          if st1.logOn then
            (st1.err.output cfg.rules).bind fun o =>
              .ok { st1 with logs := st1.logs ++ o.1.toList, err := o.2.clear }
          else .ok st1
        else .ok st1
      st2.bind fun st2 => .ok (x.1, st2.setCut true)

/-! ## The engine -/

/-- `Ope::parse` (peglib.h 3664-3674) dispatching to the `parse_core` of each operator.  A position beyond the end
makes `n - i` wrap around: undefined behaviour. -/
def parseOpe (rec : Rec V) (cfg : Cfg V) (e : Ope) (i : Nat) (st : St V) : Out (Res V) :=
  if cfg.input.length < i then .ub "position beyond the end of the input" else
  match e with
  | .seq es kw => parseSeq rec cfg es kw i st
  | .cho es l fs => parseCho rec cfg es l fs i st
  | .rep e mn mx sp => parseRep rec cfg e mn mx sp i st
  | .and_ e => parseAnd rec cfg e i st
  | .not_ e => parseNot rec cfg e i st
  | .dict w ic => parseDict rec cfg w ic i st
  | .lit s ic => parseLiteral rec cfg s ic (.lit s) i st
  | .cls c => terminal cfg i st (c.matchLen (cfg.rest i))
  | .chr c => terminal cfg i st (matchChar c (cfg.rest i))
  | .dot => terminal cfg i st (matchAny (cfg.rest i))
  | .capScope e => parseCapScope rec cfg e i st
  | .cap nm e => parseCap rec cfg nm e i st
  | .tok e => tokenBody rec cfg e i st
  | .ign e => parseIgn rec cfg e i st
  | .usr id => parseUsr cfg id i st
  | .weak r => rec cfg (.hold r) i st
  | .ref r _ as => refer rec cfg r as i st
  | .param k _ => parseParam rec cfg k i st
  | .ws e => parseWs rec cfg e i st
  | .bref nm => parseBref rec cfg nm i st
  | .prec a b info r => rec cfg (.prec a b info r 0) i st
  | .recov r nm as => parseRecov rec cfg r nm as i st
  | .cut => .ok (some i, st.setCut true)
  | .null => .ub "null operator"

/-- The virtual call of `parse_core` (peglib.h 3664-3674). -/
def step (rec : Rec V) : Rec V := fun cfg t i st =>
  match t with
  | .ope e => parseOpe rec cfg e i st
  | .rep e mx c => repRound rec cfg e mx c i st
  | .hold r => holder rec cfg r i st
  | .grow r inst cyc j v => growRound rec cfg r inst cyc j v i st
  | .prec a b info r mp => parsePrec rec cfg a b info r mp i st
  | .precLoop a b info r mp bin s => precRound rec cfg a b info r mp bin s i st

/-- peglib.h 3664-3674: The engine with at most `n` nested calls. -/
def run : Nat → Rec V
  | 0 => fun _ _ _ _ => .oof
  | n + 1 => step (run n)

/-! ## The entry points -/

/-- `Definition::Result` (peglib.h 3108-3113) with the final state. -/
structure Result (V : Type) where
  ret : Bool
  recovered : Bool
  len : Nat
  st : St V

/-- peglib.h 3416-3421: the end-of-input check. -/
def eoiCheck (cfg : Cfg V) (eoi : Bool) (j : Nat) (st : St V) : Result V :=
  if eoi && j < cfg.input.length then
    let st := if optLt st.err.pos j then
      { st with err := st.err.note ⟨j, "expected end of input".toUTF8.toList, none, true⟩ } else st
    ⟨false, st.recovered, j, st⟩
  else ⟨true, st.recovered, j, st⟩

/-- peglib.h 3348-3425 `Definition::parse_core` for start rule `r`. -/
def parseCore (n : Nat) (cfg : Cfg V) (r : Nat) (eoi : Bool) (st : St V) : Out (Result V) :=
  let lead : Out (Res V) := match cfg.ws with
    | none => .ok (some 0, st)
    | some w => run n cfg (.ope w) 0 st
  lead.bind fun x =>
  match x.1 with
  | none => .ok ⟨false, x.2.recovered, 0, x.2⟩
  | some i =>
    (run n cfg (.hold r) i x.2).bind fun y =>
      match y.1 with
      | none => .ok ⟨false, y.2.recovered, i, y.2⟩
      | some j => .ok (eoiCheck cfg eoi j y.2)

/-- peglib.h 6865-6960: What the caller of `parser::parse` sees: the return value, the value assigned to `val` (`none`: nothing assigned),
the error reports sent, and the final context. -/
structure Answer (V : Type) where
  ok : Bool
  val : Option V
  logs : List Report
  res : Result V

/-- peglib.h 3163-3178: `val = vs[0]` if the parse succeeded and the scope is not empty.  `any_cast` to the wrong type
(an exception) is not modelled. -/
def deliver (res : Result V) : Option V :=
  if res.ret then (res.st.vs.vals.head?.getD none) else none

/-- peglib.h 7033-7038 `post_process`. -/
def postProcess (cfg : Cfg V) (log : Bool) (res : Result V) : Out (Answer V) :=
  if log && !res.ret then
    (res.st.err.output cfg.rules).bind fun o =>
      .ok ⟨res.ret && !res.recovered, deliver res, res.st.logs ++ o.1.toList, res⟩
  else .ok ⟨res.ret && !res.recovered, deliver res, res.st.logs, res⟩

/-- peglib.h 6868-6905 `parser::parse_n` (grammar loaded) with start rule `r`, user datum `dt`; `log` is whether a logger
or error reporter is installed. -/
def parserParse (n : Nat) (cfg : Cfg V) (r : Nat) (eoi log : Bool) (dt : Option V) : Out (Answer V) :=
  (parseCore n cfg r eoi { dt := dt, logOn := log }).bind (postProcess cfg log)

end Verif
