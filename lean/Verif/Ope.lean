import Verif.CharClass
import Verif.Trie
/-!
# Operators, rules and macro-argument resolution

The operator classes of peglib.h 1442-2214 as one inductive type, `Definition` (peglib.h 3106-3445) as the record
`Def`, and `FindReference` (peglib.h 2861-2940, 4942-4951) as `resolve`.

Rules are numbered: a `Definition *` is an index into the list of rules.  `null` is the null `shared_ptr<Ope>`;
executing it is undefined behaviour.
-/

namespace Verif
open CharClass

/-- peglib.h 1459-1472 `KeywordGuardData`; the two `bitset<256>` are lists of bytes. -/
structure KwGuard where
  first : List Byte
  rest : List Byte
  exact : List (List Byte)
  pref : List (List Byte)
  minLen : Nat
  maxLen : Nat
  deriving DecidableEq, Repr

/-- peglib.h 1556-1572 `FirstSet`; the `bitset<256>` is a list of bytes. -/
structure FirstSet where
  chars : List Byte := []
  canBeEmpty : Bool := false
  anyChar : Bool := false
  firstLit : Option (List Byte) := none
  firstRule : Option Nat := none
  deriving DecidableEq, Repr

/-- The operator classes, peglib.h 1474-2214.

* `seq es kw` Sequence with the optional keyword guard (1474-1554)
* `cho es forLabel fs` PrioritizedChoice with `first_sets_` (1574-1658)
* `rep e min max span` Repetition, `max = none` is `size_t` max, `span` the class whose bitset `span_bitset_`
  points to (1660-1738)
* `and_ e`, `not_ e` predicates (1740-1781); `dict ws ic` Dictionary (1783-1796); `lit s ic` LiteralString
  (1798-1821); `cls c` (1823-1925); `chr c` (1927-1951); `dot` (1953-1967)
* `capScope e` (1969-1984); `cap name e` Capture with the match action of the grammar front end, which appends
  (name, matched text) to `capture_entries` (1986-2004, 5865-5870)
* `tok e` TokenBoundary (2006-2018); `ign e` Ignore (2020-2034); `usr id` User, the callback is
  `Cfg.user id` (2039-2051)
* `weak r` WeakHolder or Holder of rule `r` (2053-2094)
* `ref r name args` Reference resolved to rule `r`; `param k name` Reference to macro parameter `k` (2098-2125)
* `ws e` Whitespace (2127-2142); `bref name` BackReference (2144-2156)
* `prec atom binop info rule` PrecedenceClimbing, `info` maps an operator token to (level, associativity letter)
  (2158-2188)
* `recov r name args` Recovery around a reference to rule `r` (2190-2200); `cut` (2202-2211)
* `null` a null pointer. -/
inductive Ope where
  | seq (es : List Ope) (kw : Option KwGuard)
  | cho (es : List Ope) (forLabel : Bool) (fs : List FirstSet)
  | rep (e : Ope) (min : Nat) (max : Option Nat) (span : Option Cls)
  | and_ (e : Ope)
  | not_ (e : Ope)
  | dict (words : List (List Byte)) (ic : Bool)
  | lit (s : List Byte) (ic : Bool)
  | cls (c : Cls)
  | chr (c : Nat)
  | dot
  | capScope (e : Ope)
  | cap (name : List Byte) (e : Ope)
  | tok (e : Ope)
  | ign (e : Ope)
  | usr (id : Nat)
  | weak (r : Nat)
  | ref (r : Nat) (name : List Byte) (args : List Ope)
  | param (k : Nat) (name : List Byte)
  | ws (e : Ope)
  | bref (name : List Byte)
  | prec (atom binop : Ope) (info : List (List Byte × Nat × Byte)) (rule : Nat)
  | recov (r : Nat) (name : List Byte) (args : List Ope)
  | cut
  | null
  deriving Inhabited

mutual
/-- Equality test of operators (used for interning macro instantiations). -/
def Ope.beq : Ope → Ope → Bool
  | .seq es kw, .seq es' kw' => Ope.beqList es es' && kw == kw'
  | .cho es l fs, .cho es' l' fs' => Ope.beqList es es' && l == l' && fs == fs'
  | .rep e a b c, .rep e' a' b' c' => e.beq e' && a == a' && b == b' && c == c'
  | .and_ e, .and_ e' => e.beq e'
  | .not_ e, .not_ e' => e.beq e'
  | .dict w c, .dict w' c' => w == w' && c == c'
  | .lit s c, .lit s' c' => s == s' && c == c'
  | .cls c, .cls c' => c == c'
  | .chr c, .chr c' => c == c'
  | .dot, .dot => true
  | .capScope e, .capScope e' => e.beq e'
  | .cap n e, .cap n' e' => n == n' && e.beq e'
  | .tok e, .tok e' => e.beq e'
  | .ign e, .ign e' => e.beq e'
  | .usr i, .usr i' => i == i'
  | .weak r, .weak r' => r == r'
  | .ref r n as, .ref r' n' as' => r == r' && n == n' && Ope.beqList as as'
  | .param k n, .param k' n' => k == k' && n == n'
  | .ws e, .ws e' => e.beq e'
  | .bref n, .bref n' => n == n'
  | .prec a b i r, .prec a' b' i' r' => a.beq a' && b.beq b' && i == i' && r == r'
  | .recov r n as, .recov r' n' as' => r == r' && n == n' && Ope.beqList as as'
  | .cut, .cut => true
  | .null, .null => true
  | _, _ => false

def Ope.beqList : List Ope → List Ope → Bool
  | [], [] => true
  | e :: es, e' :: es' => e.beq e' && Ope.beqList es es'
  | _, _ => false
end

/-- peglib.h 1452-1453: `is_choice_like`. -/
def Ope.isChoiceLike : Ope → Bool
  | .cho .. => true
  | .dict .. => true
  | _ => false

/-- peglib.h 3885-3892: the operator inspected to decide whether choice numbers are kept. -/
def Ope.choiceLikeTop : Ope → Bool
  | .tok e => e.isChoiceLike
  | e => e.isChoiceLike

/-- `Definition` (peglib.h 3276-3330).  `errLit` is what `FindLiteralToken::token` returns for the rule's core
operator when it is not empty, `isToken` what `is_token()` returns; both only feed error reports, and every
theorem holds for arbitrary values of them. -/
structure Def where
  name : List Byte
  ope : Ope
  isMacro : Bool := false
  params : List (List Byte) := []
  isLR : Bool := false
  ignoreSV : Bool := false
  noWs : Bool := false
  hasMacroRef : Bool := false
  canBeEmpty : Bool := false
  errorMessage : List Byte := []
  disableAction : Bool := false
  isToken : Bool := false
  errLit : Option (List Byte) := none
  deriving Inhabited

/-- peglib.h 551-560 `str2tag`. -/
def str2tag (s : List Byte) : UInt32 := s.foldl (fun h b => (h * 33) ^^^ b.toUInt32) 0

/-- peglib.h 4942-4951 `FindReference::visit(Reference &)`: the first parameter (among the first `args.size()`
ones) with the reference's name wins. -/
def lookupArg (params : List (List Byte)) (args : List Ope) (name : List Byte) : Option Ope :=
  ((params.zip args).find? fun p => p.1 = name).map (·.2)

mutual
/-- peglib.h 2861-2940 `FindReference`: replaces references to the parameters by the arguments.  Choices are rebuilt
without label flag and first sets, sequences without keyword guard, repetitions without span.  References are not
entered (their own arguments stay as they are).  `BackReference` and `User` have no visitor, so the result is the
null pointer.  `WeakHolder` (never an argument in a grammar text; the code would continue into the rule's body) is
modelled as null as well.  `PrecedenceClimbing` (never an argument) becomes a capture scope of the atom, as coded. -/
def resolve (params : List (List Byte)) (args : List Ope) : Ope → Ope
  | .seq es _ => .seq (resolveList params args es) none
  | .cho es _ _ => .cho (resolveList params args es) false []
  | .rep e mn mx _ => .rep (resolve params args e) mn mx none
  | .and_ e => .and_ (resolve params args e)
  | .not_ e => .not_ (resolve params args e)
  | .dict w ic => .dict w ic
  | .lit s ic => .lit s ic
  | .cls c => .cls c
  | .chr c => .chr c
  | .dot => .dot
  | .capScope e => .capScope (resolve params args e)
  | .cap nm e => .cap nm (resolve params args e)
  | .tok e => .tok (resolve params args e)
  | .ign e => .ign (resolve params args e)
  | .usr _ => .null
  | .weak _ => .null
  | .ref r nm as => (lookupArg params args nm).getD (.ref r nm as)
  | .param k nm => (lookupArg params args nm).getD (.param k nm)
  | .ws e => .ws (.ign (resolve params args e))
  | .bref _ => .null
  | .prec atom _ _ _ => .capScope (resolve params args atom)
  | .recov r nm as =>
    match lookupArg params args nm with
    | none => .recov r nm as
    | some (.ref r' nm' as') => .recov r' nm' as'
    | some _ => .null
  | .cut => .cut
  | .null => .null

/-- peglib.h 2861-2946 (the loops over children). -/
def resolveList (params : List (List Byte)) (args : List Ope) : List Ope → List Ope
  | [] => []
  | e :: es => resolve params args e :: resolveList params args es
end

/-- peglib.h 4071-4083 `macro_inst_key`: a reference to a rule counts as that rule, whatever its own arguments;
anything else as the node itself.  Simplification: nodes are compared by structure, the code compares addresses. -/
def instArg : Ope → Ope
  | .ref r nm _ => .ref r nm []
  | e => e

end Verif
