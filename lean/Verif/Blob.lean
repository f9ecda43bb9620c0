import Verif.Trie
import Verif.CharClass
/-!
# Grammar blobs (peglib.h 4953-5364, `GrammarBlob`)

`BOpe` is the operator tree as the serialiser sees it: references still carry names, first sets, keyword guards and
spans (recomputed on load) are absent.
-/

namespace Verif
namespace Blob
open CharClass

/-- The operator objects `write_ope` distinguishes (peglib.h 5009-5119).  `dict` holds the trie the object owns;
`cap` whether a match action is attached; `usr` stands for every class `write_ope` rejects (`User`, `WeakHolder`,
`Holder`).  `rep`'s bounds are `size_t` values (`2^64-1` = unbounded). `null` is the null pointer. -/
inductive BOpe where
  | null
  | seq (es : List BOpe)
  | cho (forLabel : Bool) (es : List BOpe)
  | rep (min max : Nat) (e : BOpe)
  | and_ (e : BOpe)
  | not_ (e : BOpe)
  | dict (t : Trie.T)
  | lit (s : List Byte) (ic : Bool)
  | cls (c : Cls)
  | chr (c : Nat)
  | dot
  | capScope (e : BOpe)
  | cap (action : Bool) (e : BOpe)
  | tok (e : BOpe)
  | ign (e : BOpe)
  | bref (name : List Byte)
  | ref (isMacro : Bool) (name : List Byte) (args : List BOpe)
  | wsp (e : BOpe)
  | recov (e : BOpe)
  | cut
  | prec (atom binop : BOpe) (info : List (List Byte × Nat × Byte))
  | usr
  deriving Inhabited

/-- The serialised fields of `Definition` (peglib.h 5270-5291). -/
structure BDef where
  name : List Byte
  ignoreSV : Bool := false
  isMacro : Bool := false
  noAstOpt : Bool := false
  eoi : Bool := true
  packrat : Bool := false
  isLR : Bool := false
  canBeEmpty : Bool := false
  disableAction : Bool := false
  noWs : Bool := false
  params : List (List Byte) := []
  astName : List Byte := []
  errorMessage : List Byte := []
  ope : BOpe
  deriving Inhabited

/-! ## Writer -/

/-- peglib.h 4995-5002: the low `k` bytes of `n`, least significant first. -/
def le : Nat → Nat → List Byte
  | 0, _ => []
  | k + 1, n => UInt8.ofNat n :: le k (n / 256)

/-- peglib.h 4995-4998 `Writer::u32`. -/
def u32 (n : Nat) : List Byte := le 4 n

/-- peglib.h 4999-5002 `Writer::u64`. -/
def u64 (n : Nat) : List Byte := le 8 n

/-- peglib.h 4994: `w.u8(b ? 1 : 0)`. -/
def u8b (b : Bool) : List Byte := [if b then 1 else 0]

/-- peglib.h 5003-5006 `Writer::str`. -/
def wstr (s : List Byte) : List Byte := u32 s.length ++ s

/-- peglib.h 5108-5113, 5263-5270 (`std::map` order): Order of `std::string` (`char_traits::lt` compares bytes as unsigned char). -/
def lexLe : List Byte → List Byte → Bool
  | [], _ => true
  | _ :: _, [] => false
  | a :: s, b :: t => if a = b then lexLe s t else decide (a < b)

/-- peglib.h 5108-5113, 5263-5270 (`std::map` order, sorting): insertion into a sorted list -/
def insertBy (f : α → List Byte) (x : α) : List α → List α
  | [] => [x]
  | y :: l => if lexLe (f x) (f y) then x :: y :: l else y :: insertBy f x l

/-- The elements in the order of their keys: `std::map` iteration order, and `std::sort` by name
(peglib.h 5265-5270). -/
def sortBy (f : α → List Byte) : List α → List α
  | [] => []
  | x :: l => insertBy f x (sortBy f l)

/-- peglib.h 5045-5048: the words of a dictionary, each matching key placed at its id. -/
def trieWords (t : Trie.T) : List (List Byte) :=
  (sortBy (·.1) t.dic).foldl
    (fun ws kv => if kv.2.isMatch && decide (kv.2.id < ws.length) then ws.set kv.2.id kv.1 else ws)
    (List.replicate t.itemsCount [])

mutual
/-- peglib.h 5009-5119 `write_ope`; `none` is the exception.  The order of the tests is irrelevant (no class derives
from another). -/
def writeOpe : BOpe → Option (List Byte)
  | .null => some [20]
  | .seq es => (writeOpes es).map fun b => 0 :: (u32 es.length ++ b)
  | .cho fl es => (writeOpes es).map fun b => 1 :: (u8b fl ++ u32 es.length ++ b)
  | .rep mn mx e => (writeOpe e).map fun b => 2 :: (u64 mn ++ u64 mx ++ b)
  | .and_ e => (writeOpe e).map fun b => 3 :: b
  | .not_ e => (writeOpe e).map fun b => 4 :: b
  | .dict t => some (5 :: (u8b t.ignoreCase ++ u32 (trieWords t).length ++ (trieWords t).flatMap wstr))
  | .lit s ic => some (6 :: (u8b ic ++ wstr s))
  | .cls c => some (7 :: (u8b c.negated ++ u8b c.ignoreCase ++ u32 c.ranges.length ++
      c.ranges.flatMap fun r => u32 r.1 ++ u32 r.2))
  | .chr c => some (8 :: u32 c)
  | .dot => some [9]
  | .capScope e => (writeOpe e).map fun b => 10 :: b
  | .cap action e => if action then none else (writeOpe e).map fun b => 11 :: b
  | .tok e => (writeOpe e).map fun b => 12 :: b
  | .ign e => (writeOpe e).map fun b => 13 :: b
  | .bref name => some (14 :: wstr name)
  | .ref im name args => (writeOpes args).map fun b => 15 :: (u8b im ++ wstr name ++ u32 args.length ++ b)
  | .wsp e => (writeOpe e).map fun b => 16 :: b
  | .recov e => (writeOpe e).map fun b => 17 :: b
  | .cut => some [18]
  | .prec atom binop info =>
    (writeOpe atom).bind fun a => (writeOpe binop).map fun b =>
      19 :: (a ++ b ++ u32 info.length ++ info.flatMap fun i => wstr i.1 ++ u64 i.2.1 ++ [i.2.2])
  | .usr => none

/-- peglib.h 5009-5119: The loops over children. -/
def writeOpes : List BOpe → Option (List Byte)
  | [] => some []
  | e :: es => (writeOpe e).bind fun a => (writeOpes es).map fun b => a ++ b
end

/-- `(x ? 1 : 0) | (y ? 2 : 0) | …` (peglib.h 5275-5280). -/
def flagByte (d : BDef) : Byte :=
  (if d.ignoreSV then 1 else 0) ||| (if d.isMacro then 2 else 0) ||| (if d.noAstOpt then 4 else 0) |||
  (if d.eoi then 8 else 0) ||| (if d.packrat then 16 else 0) ||| (if d.isLR then 32 else 0) |||
  (if d.canBeEmpty then 64 else 0) ||| (if d.disableAction then 128 else 0)

/-- peglib.h 5271-5289 one definition. -/
def writeDef (d : BDef) : Option (List Byte) :=
  (writeOpe d.ope).map fun b =>
    wstr d.name ++ flagByte d :: (if d.noWs then 1 else 0) :: (u32 d.params.length ++ d.params.flatMap wstr ++
      wstr d.astName ++ wstr d.errorMessage ++ b)

/-- peglib.h 5253-5291: the loop over the definitions -/
def writeDefs : List BDef → Option (List Byte)
  | [] => some []
  | d :: ds => (writeDef d).bind fun a => (writeDefs ds).map fun b => a ++ b

/-- peglib.h 5251 `MAGIC`. -/
def magic : Nat := 0x50454732

/-- peglib.h 5253-5292 `serialize`; the grammar is the list of definitions (a map from names, so names are
distinct) in any order. -/
def serialize (g : List BDef) (start : List Byte) : Option (List Byte) :=
  (writeDefs (sortBy (·.name) g)).map fun b => u32 magic ++ wstr start ++ u32 g.length ++ b

/-! ## Reader -/

/-- peglib.h 5121-5146, 6852-6864: Outcome of reading: a value and the bytes left, an exception (`load_blob` then returns false), an access outside
the buffer (`over n left`: `n` bytes were to be copied with only `left` bytes left), a null pointer dereference, or
out of fuel. -/
inductive R (α : Type) where
  | ok (a : α) (rest : List Byte)
  | fail
  | over (n : Nat) (rest : List Byte)
  | nullDeref
  | oof
  deriving Repr, DecidableEq

/-- peglib.h 5121-5146: A reader: a function of the bytes from `p` to `end`. -/
abbrev Rd (α : Type) := List Byte → R α

def Rd.bind (x : Rd α) (f : α → Rd β) : Rd β := fun bs =>
  match x bs with
  | .ok a r => f a r
  | .fail => .fail
  | .over n r => .over n r
  | .nullDeref => .nullDeref
  | .oof => .oof

def Rd.pure (a : α) : Rd α := fun bs => .ok a bs

instance : Monad Rd where
  pure := Rd.pure
  bind := Rd.bind

/-- peglib.h 5121-5146: an exception -/
def Rd.throw : Rd α := fun _ => .fail

/-- peglib.h 5123-5127 `Reader::u8`. -/
def ru8 : Rd Byte
  | [] => .fail
  | b :: bs => .ok b bs

/-- peglib.h 5128-5139 the loops of `u32`, `u64`. -/
def rle : Nat → Rd Nat
  | 0 => Rd.pure 0
  | k + 1 => ru8.bind fun b => (rle k).bind fun v => Rd.pure (b.toNat + 256 * v)

/-- peglib.h 5121-5146. -/
def ru32 : Rd Nat := rle 4
/-- peglib.h 5121-5146. -/
def ru64 : Rd Nat := rle 8

/-- peglib.h 5121-5146: `bool x = r.u8()`. -/
def rbool : Rd Bool := ru8.bind fun b => Rd.pure (b != 0)

/-- peglib.h 5140-5145 `Reader::str`: the length is not compared with what is left, so a too large one makes the
string constructor read past the buffer. -/
def rstr : Rd (List Byte) := ru32.bind fun n => fun bs =>
  if n ≤ bs.length then .ok (bs.take n) (bs.drop n) else .over n bs

/-- peglib.h 5148-5245: `for (i = 0; i < n; i++) v.push_back(…)`. -/
def rmany (n : Nat) (x : Rd α) : Rd (List α) :=
  match n with
  | 0 => Rd.pure []
  | n + 1 => x.bind fun a => (rmany n x).bind fun l => Rd.pure (a :: l)

/-- `info_[key] = v` on a `std::map` (peglib.h 5243); the order of entries is immaterial. -/
def put (m : List (List Byte × Nat × Byte)) (k : List Byte) (v : Nat × Byte) : List (List Byte × Nat × Byte) :=
  if m.any (fun e => e.1 == k) then m.map fun e => if e.1 = k then (k, v) else e else m ++ [(k, v)]

/-- peglib.h 5148-5249 `read_ope`; `owner` is always the definition being read, never null, so the exception for a
missing owner cannot occur.  Allocation failure in `reserve` is not modelled. -/
def readOpe : Nat → Rd BOpe
  | 0 => fun _ => .oof
  | f + 1 => ru8.bind fun tag =>
    match tag.toNat with
    | 20 => Rd.pure .null
    | 0 => ru32.bind fun n => (rmany n (readOpe f)).bind fun v => Rd.pure (.seq v)
    | 1 => rbool.bind fun fl => ru32.bind fun n => (rmany n (readOpe f)).bind fun v => Rd.pure (.cho fl v)
    | 2 => ru64.bind fun mn => ru64.bind fun mx => (readOpe f).bind fun e => Rd.pure (.rep mn mx e)
    | 3 => (readOpe f).bind fun e => Rd.pure (.and_ e)
    | 4 => (readOpe f).bind fun e => Rd.pure (.not_ e)
    | 5 => rbool.bind fun ic => ru32.bind fun n => (rmany n rstr).bind fun words =>
        Rd.pure (.dict (Trie.build words ic))
    | 6 => rbool.bind fun ic => rstr.bind fun s => Rd.pure (.lit s ic)
    | 7 => rbool.bind fun neg => rbool.bind fun ic => ru32.bind fun n =>
        (rmany n (ru32.bind fun lo => ru32.bind fun hi => Rd.pure (lo, hi))).bind fun rs =>
        Rd.pure (.cls ⟨rs, neg, ic⟩)
    | 8 => ru32.bind fun c => Rd.pure (.chr c)
    | 9 => Rd.pure .dot
    | 10 => (readOpe f).bind fun e => Rd.pure (.capScope e)
    | 11 => (readOpe f).bind fun e => Rd.pure (.cap false e)
    | 12 => (readOpe f).bind fun e => Rd.pure (.tok e)
    | 13 => (readOpe f).bind fun e => Rd.pure (.ign e)
    | 14 => rstr.bind fun s => Rd.pure (.bref s)
    | 15 => rbool.bind fun im => rstr.bind fun nm => ru32.bind fun n => (rmany n (readOpe f)).bind fun args =>
        Rd.pure (.ref im nm args)
    | 16 => (readOpe f).bind fun e => Rd.pure (.wsp e)
    | 17 => (readOpe f).bind fun e => Rd.pure (.recov e)
    | 18 => Rd.pure .cut
    | 19 => (readOpe f).bind fun atom => (readOpe f).bind fun binop => ru32.bind fun n =>
        (rmany n (rstr.bind fun k => ru64.bind fun l => ru8.bind fun a => Rd.pure (k, l, a))).bind fun es =>
        Rd.pure (.prec atom binop (es.foldl (fun m e => put m e.1 e.2) []))
    | _ => Rd.throw

/-- peglib.h 5318-5325: `flags & 2^i` as a boolean. -/
def bit (b m : Byte) : Bool := (b &&& m) != 0

/-- peglib.h 5305-5333 one iteration of the loop: the definition read. -/
def readDef (f : Nat) : Rd BDef :=
  rstr.bind fun name => ru8.bind fun flags => ru8.bind fun flags2 => ru32.bind fun np =>
  (rmany np rstr).bind fun params => rstr.bind fun astName => rstr.bind fun err => (readOpe f).bind fun body =>
  Rd.pure { name := name, ignoreSV := bit flags 1, isMacro := bit flags 2, noAstOpt := bit flags 4,
            eoi := bit flags 8, packrat := bit flags 16, isLR := bit flags 32, canBeEmpty := bit flags 64,
            disableAction := bit flags 128, noWs := bit flags2 1, params := params, astName := astName,
            errorMessage := err, ope := body }

/-- `(*g)[name]` then assignment to every field (peglib.h 5315-5332): a later definition of the same name replaces
the earlier one. -/
def putDef (g : List BDef) (d : BDef) : List BDef :=
  if g.any (fun e => e.name == d.name) then g.map fun e => if e.name = d.name then d else e else g ++ [d]

mutual
/-- Does the `TraversalVisitor`/`LinkReferences` walk of peglib.h 2374-2401, 4917-4939 reach a null pointer?
(`accept` through it is undefined behaviour.)  Only the atom of a precedence operator is visited. -/
def hitsNull : BOpe → Bool
  | .null => true
  | .seq es => hitsNulls es
  | .cho _ es => hitsNulls es
  | .rep _ _ e => hitsNull e
  | .and_ e => hitsNull e
  | .not_ e => hitsNull e
  | .capScope e => hitsNull e
  | .cap _ e => hitsNull e
  | .tok e => hitsNull e
  | .ign e => hitsNull e
  | .ref _ _ args => hitsNulls args
  | .wsp e => hitsNull e
  | .recov e => hitsNull e
  | .prec a _ _ => hitsNull a
  | _ => false

/-- The loops over children of the same. -/
def hitsNulls : List BOpe → Bool
  | [] => false
  | e :: es => hitsNull e || hitsNulls es
end

/-- peglib.h 5334-5345 the linking of one rule: body, then the binary operator when the body is a precedence
operator. -/
def linkHitsNull (d : BDef) : Bool :=
  hitsNull d.ope || (match d.ope with | .prec _ b _ => hitsNull b | _ => false)

/-- peglib.h 5294-5333: the start rule and the definitions in the order of the blob. -/
def readGrammar (f : Nat) : Rd (List Byte × List BDef) :=
  ru32.bind fun m => if m ≠ magic then Rd.throw else
    rstr.bind fun start => ru32.bind fun n => (rmany n (readDef f)).bind fun ds => Rd.pure (start, ds)

/-- peglib.h 5294-5333 and the walk of 5334-5345.  Recomputing first sets (5346-5350) and attaching the whitespace
and word operators (5355-5361) depends only on the operators read and is not repeated here.  Trailing bytes are
ignored, as in the code. -/
def deserialize : Rd (List Byte × List BDef) := fun blob =>
  ((readGrammar (blob.length + 1)).bind fun a =>
    if (a.2.foldl putDef []).any linkHitsNull then (fun _ => .nullDeref)
    else Rd.pure (a.1, a.2.foldl putDef [])) blob

/-- peglib.h 6852-6864 `load_blob`: `some (start, grammar)`, or `none` when it returns false. -/
def loadBlob (blob : List Byte) : R (Option (List Byte × List BDef)) :=
  match deserialize blob with
  | .ok a r => .ok (some a) r
  | .fail => .ok none []
  | .over n r => .over n r
  | .nullDeref => .nullDeref
  | .oof => .oof

end Blob
end Verif
