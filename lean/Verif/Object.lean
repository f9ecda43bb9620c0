import Verif.Props.UserRules
import Verif.BlobParser
import Verif.Session
/-!
# The parser object: loads, settings and parses in any order

peglib.h 6790-7056 class `parser`: the grammar it owns (or none), the name of the start rule, and the two options kept across loads.
-/

namespace Verif.Object
open Verif Out Meta Blob

variable {V : Type}

/-- peglib.h 7052 `grammar_`: the loaded rules, the end-of-input flag of each rule (3321), the rules without operator that `operator[]`
made for unknown names (6953), and what parses leave behind.  Such a rule cannot be reached from the others: their references were resolved
when they were loaded. -/
structure Held where
  G : Parser
  eoi : Nat → Bool := fun _ => true
  extra : List (List Byte) := []
  sh : Shared := {}

/-- peglib.h 7052-7055: the members of `parser`; log and error reporter are part of each `Call`. -/
structure Obj where
  gram : Option Held := none
  start : List Byte := []
  leftRec : Bool := true
  allow : Bool := false

/-- What the model leaves open: fuel of the reader, iteration orders, verdicts of the left-recursion and loop checks, the packrat filter. -/
structure Given where
  fuel : Nat
  metaOrder : List Nat
  mark : List Def → Nat → Bool
  loops : List Def → Nat → Bool
  order : List Nat
  F : List Nat → Nat → List Bool

/-- The calls on a parser object. -/
inductive Op (V : Type) where
  | load (text : List Byte) (us : List (List Byte × Src)) (start : Option (List Byte))
  | blob (bytes : List Byte)
  | packrat
  | noEoi
  | leftRec (b : Bool)
  | touch (nm : List Byte)
  | parse (n : Nat) (c : Call V)

/-- peglib.h 6953 `(*grammar_)[s]`: the rule of a name in the map. -/
def Held.find (h : Held) (nm : List Byte) : Option Nat := h.G.rules.findIdx? fun d => decide (d.name = nm)

/-- peglib.h 5377, 6453 `ParserContext::enablePackratParsing`: whether the text allows packrat parsing. -/
def allowed (E : Given) (text : List Byte) : Bool :=
  match readText E.fuel E.metaOrder text with
  | .ok (.defs ds) => ownCaps ds
  | _ => false

/-- peglib.h 6820-6828 `load_grammar`: the members are overwritten whatever the outcome. -/
def Obj.load (E : Given) (o : Obj) (text : List Byte) (us : List (List Byte × Src)) (start : Option (List Byte)) : Out Obj :=
  (loadTextWith E.fuel E.metaOrder E.mark E.loops E.order text us start false o.leftRec).bind fun r =>
    match r with
    | none => .ok { leftRec := o.leftRec }
    | some (G, a) => .ok { gram := some { G := G }, start := ((G.rules[a]?).map Def.name).getD [], leftRec := o.leftRec, allow := allowed E text }

/-- peglib.h 5294-5299: the name of the start rule is stored in the object as soon as it is read, before the rest of the blob. -/
def storedStart (bytes : List Byte) : Option (List Byte) :=
  match (ru32.bind fun m => if m ≠ magic then Rd.throw else rstr) bytes with
  | .ok s _ => some s
  | _ => none

/-- peglib.h 6852-6864 `load_blob`.  Simplified: if no rule of the blob has the name of the start rule, the code makes an empty one and is undefined at the
first parse; here at once.  The restored rules are listed in the order of the blob (the code: a hash map). -/
def Obj.blob (E : Given) (o : Obj) (bytes : List Byte) : Out Obj :=
  match loadBlob bytes with
  | .ok none _ => .ok { o with start := (storedStart bytes).getD o.start }
  | .ok (some (start, g)) _ =>
    match restore E.order g start with
    | none => .ub "the start rule has no operator"
    | some (G, a) => .ok { gram := some { G := G, eoi := fun r => ((g[r]?).map BDef.eoi).getD true }, start := start, leftRec := o.leftRec, allow := G.packrat a }
  | .fail => .ub "not reached"
  | .over _ _ => .ub "read outside the blob"
  | .nullDeref => .ub "null operator"
  | .oof => .oof

/-- peglib.h 6865-6908 `parse_n`, 7036-7042: without a grammar the answer is false (`none`), and nothing is reported. -/
def Obj.parse (E : Given) (n : Nat) (o : Obj) (c : Call V) : Out (Option (Answer V) × Obj) :=
  match o.gram with
  | none => .ok (none, o)
  | some h =>
    match h.find o.start with
    | none => .ub "a rule without operator is parsed"
    | some a =>
      let r := h.sh.parse E.F h.G n { c with start := a, eoi := h.eoi a }
      r.1.bind fun ans => .ok (some ans, { o with gram := some { h with sh := r.2 } })

/-- peglib.h 6959-6975: the start rule, for the settings: `(*grammar_)[start_]` (the missing rule would be made: `extra`). -/
def Obj.atStart (o : Obj) (f : Held → Nat → Held) : Obj :=
  match o.gram with
  | none => o
  | some h =>
    match h.find o.start with
    | none => { o with gram := some { h with extra := h.extra ++ [o.start] } }
    | some a => { o with gram := some (f h a) }

/-- peglib.h 6820-6975: one call. -/
def Obj.step (E : Given) (o : Obj) : Op V → Out Obj
  | .load text us start => o.load E text us start
  | .blob bytes => o.blob E bytes
  | .packrat => .ok (o.atStart fun h a => { h with G := { h.G with packrat := fun r => if r = a then o.allow else h.G.packrat r } })
  | .noEoi => .ok (o.atStart fun h a => { h with eoi := fun r => if r = a then false else h.eoi r })
  | .leftRec b => .ok { o with leftRec := b }
  | .touch nm =>
    match o.gram with
    | none => .ub "null grammar"
    | some h => .ok (if (h.find nm).isSome || h.extra.contains nm then o else { o with gram := some { h with extra := h.extra ++ [nm] } })
  | .parse n c => (o.parse E n c).bind fun r => .ok r.2

/-- peglib.h 6820-6975: a series of calls. -/
def Obj.run (E : Given) : Obj → List (Op V) → Out Obj
  | o, [] => .ok o
  | o, x :: xs => (o.step E x).bind fun o' => o'.run E xs

/-! ## Specification -/

/-- The last setting of `enable_left_recursion`, on by default. -/
def lastLeftRec (h : List (Op V)) : Bool := ((h.filterMap fun | .leftRec b => some b | _ => none).getLast?).getD true

/-- Calls that neither load nor look up rules. -/
def Op.quiet : Op V → Bool
  | .load .. => false
  | .blob _ => false
  | .touch _ => false
  | _ => true

def Op.isPackrat : Op V → Bool
  | .packrat => true
  | _ => false

def Op.isNoEoi : Op V → Bool
  | .noEoi => true
  | _ => false

/-- peglib.h 5253-5292, 6846-6848: what `serialize_grammar` writes; rules without operator are written too (5011-5014). -/
def Obj.serialize (x : Nat → Extras) (o : Obj) : Option (List Byte) :=
  match o.gram with
  | none => none
  | some h => Blob.serialize (blobOf (fun r => { x r with eoi := h.eoi r }) h.G ++ h.extra.map fun nm => { name := nm, ope := .null }) o.start

end Verif.Object
