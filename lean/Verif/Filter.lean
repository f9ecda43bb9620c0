import Verif.Analysis
import Verif.Session
/-!
# Which rules packrat parsing remembers (peglib.h 2641-2730, 4753-4915)

`packratFilter` is `Definition::initialize_packrat_filter`: a rule is kept if two alternatives of a choice may call it at the same position, or if it is
left-recursive and no macro.  The theorems about sessions hold for every filter (parameter `F`); this is the one the library has.
-/

namespace Verif
open CharClass

/-- peglib.h 2641-2730: The bytes of an ASCII string. -/
def asciiBytes (s : String) : List Byte := s.toList.map fun c => UInt8.ofNat c.toNat

/-- peglib.h 2653-2691: `std::to_string`. -/
def numBytes (n : Nat) : List Byte := asciiBytes (toString n)

def flagBytes (b : Bool) : List Byte := if b then [49] else [48]

mutual
/-- peglib.h 2646-2730 `OpeSignature`.  `none`: the signature contains the address of an operator, so it is different from all others (every element of an
alternative is an operator of its own).  `nameOf r`: the name of rule `r`. -/
def Ope.sig (nameOf : Nat → List Byte) : Ope → Option (List Byte)
  | .seq es _ => (Ope.sigL nameOf es).map fun s => asciiBytes "(seq" ++ s ++ [41]
  | .cho es _ _ => (Ope.sigL nameOf es).map fun s => asciiBytes "(cho" ++ s ++ [41]
  | .rep e mn mx _ => (Ope.sig nameOf e).map fun s =>
      asciiBytes "(rep " ++ numBytes mn ++ [32] ++ (match mx with | none => asciiBytes "inf" | some m => numBytes m) ++ [32] ++ s ++ [41]
  | .and_ e => (Ope.sig nameOf e).map fun s => asciiBytes "(and " ++ s ++ [41]
  | .not_ e => (Ope.sig nameOf e).map fun s => asciiBytes "(not " ++ s ++ [41]
  | .capScope e => (Ope.sig nameOf e).map fun s => asciiBytes "(cps " ++ s ++ [41]
  | .cap _ e => (Ope.sig nameOf e).map fun s => asciiBytes "(cap " ++ s ++ [41]
  | .tok e => (Ope.sig nameOf e).map fun s => asciiBytes "(tok " ++ s ++ [41]
  | .ign e => (Ope.sig nameOf e).map fun s => asciiBytes "(ign " ++ s ++ [41]
  | .ws e => (Ope.sig nameOf e).map fun s => asciiBytes "(wsp " ++ s ++ [41]
  | .recov _ nm as => (Ope.sigL nameOf as).map fun s => asciiBytes "(rec (ref " ++ nm ++ s ++ [41, 41]
  | .weak r => some (asciiBytes "(wek (hld " ++ nameOf r ++ [41, 41])
  | .ref _ nm as => (Ope.sigL nameOf as).map fun s => asciiBytes "(ref " ++ nm ++ s ++ [41]
  | .param _ nm => some (asciiBytes "(ref " ++ nm ++ [41])
  | .lit t ic => some (asciiBytes "(lit " ++ flagBytes ic ++ [32] ++ t ++ [41])
  | .cls c => some (asciiBytes "(cls " ++ flagBytes c.negated ++ [32] ++ flagBytes c.ignoreCase ++
      c.ranges.flatMap (fun p => [32] ++ numBytes p.1 ++ [45] ++ numBytes p.2) ++ [41])
  | .chr c => some (asciiBytes "(chr " ++ numBytes c ++ [41])
  | .dot => some (asciiBytes "(any)")
  | .dict _ _ => none
  | .usr _ => none
  | .bref _ => none
  | .prec _ _ _ _ => none
  | .cut => none
  | .null => none

/-- peglib.h 2709-2717 the elements of a group, each after a space. -/
def Ope.sigL (nameOf : Nat → List Byte) : List Ope → Option (List Byte)
  | [] => some []
  | e :: es =>
    match Ope.sig nameOf e, Ope.sigL nameOf es with
    | some s, some t => some (32 :: s ++ t)
    | _, _ => none
end

section
variable (go : Nat → List Nat → List Nat) (tbl : Nat → Bool)

mutual
/-- peglib.h 4764-4806 `CollectLeftmostRules`: the numbers of the rules the expression may call where it starts, added to `s`; `tbl`: the `can_be_empty` flags. -/
def Ope.leftIds : Ope → List Nat → List Nat
  | .seq es _, s => Ope.leftIdsSeq es s
  | .cho es _ _, s => Ope.leftIdsAll es s
  | .rep e _ _ _, s => Ope.leftIds e s
  | .and_ e, s => Ope.leftIds e s
  | .not_ e, s => Ope.leftIds e s
  | .capScope e, s => Ope.leftIds e s
  | .cap _ e, s => Ope.leftIds e s
  | .tok e, s => Ope.leftIds e s
  | .ign e, s => Ope.leftIds e s
  | .ws e, s => Ope.leftIds e s
  | .prec a _ _ _, s => Ope.leftIds a s
  | .ref r _ _, s => go r s
  | .recov r _ _, s => go r s
  | .weak r, s => go r s
  | _, s => s

/-- peglib.h 4777-4784 `collect`. -/
def Ope.leftIdsSeq : List Ope → List Nat → List Nat
  | [], s => s
  | e :: es, s => if cbe tbl e then Ope.leftIdsSeq es (Ope.leftIds e s) else Ope.leftIds e s

/-- `TraversalVisitor::visit(PrioritizedChoice &)`, 2380-2384. -/
def Ope.leftIdsAll : List Ope → List Nat → List Nat
  | [], s => s
  | e :: es, s => Ope.leftIdsAll es (Ope.leftIds e s)
end
end

/-- peglib.h 4787-4805: a rule is looked into once.  `idOf`: `Definition::id`; `cnt`: `def_count`. -/
def leftRule (rules : List Def) (idOf : Nat → Nat) (cnt : Nat) (tbl : Nat → Bool) : Nat → Nat → List Nat → List Nat
  | 0, _, s => s
  | n + 1, r, s =>
    if idOf r < cnt ∧ idOf r ∉ s then
      match rules[r]? with
      | none => s
      | some d => Ope.leftIds (leftRule rules idOf cnt tbl n) tbl d.ope (idOf r :: s)
    else s

/-- peglib.h 4827-4832 `elements_of`. -/
def elementsOf : Ope → List Ope
  | .seq es _ => es
  | e => [e]

/-- peglib.h 4839-4870 `mark_aligned`: the numbers of the rules that two of the alternatives reach at element `k`, and the same for those of the alternatives
that agree on element `k`.  (`fuel`: at least the number of elements left.) -/
def markAligned (left : List Ope → List Nat) (cnt : Nat) (nameOf : Nat → List Byte) : Nat → List (List Ope) → List Nat
  | 0, _ => []
  | fuel + 1, group =>
    if group.length < 2 then []
    else
      let reach := group.map left
      let hits := (List.range cnt).filter fun id => decide (2 ≤ reach.countP fun a => decide (id ∈ a))
      let sigs := (group.filterMap fun s => s.head?.bind (Ope.sig nameOf)).eraseDups
      hits ++ sigs.flatMap fun g =>
        markAligned left cnt nameOf fuel ((group.filter fun s => decide (s.head?.bind (Ope.sig nameOf) = some g)).map List.tail)

section
variable (align : List (List Ope) → List Nat) (go : Nat → List Nat × List Nat → List Nat × List Nat)

mutual
/-- peglib.h 4812-4888 `FindBacktrackRules`; the state: rules looked into, rules kept (by number). -/
def Ope.backIds : Ope → List Nat × List Nat → List Nat × List Nat
  | .seq es _, s => Ope.backIdsL es s
  | .cho es _ _, s => Ope.backIdsL es (s.1, s.2 ++ align (es.map elementsOf))
  | .rep e _ _ _, s => Ope.backIds e s
  | .and_ e, s => Ope.backIds e s
  | .not_ e, s => Ope.backIds e s
  | .capScope e, s => Ope.backIds e s
  | .cap _ e, s => Ope.backIds e s
  | .tok e, s => Ope.backIds e s
  | .ign e, s => Ope.backIds e s
  | .ws e, s => Ope.backIds e s
  | .prec a _ _ _, s => Ope.backIds a s
  | .ref r _ _, s => go r s
  | .recov r _ _, s => go r s
  | .weak r, s => go r s
  | _, s => s

def Ope.backIdsL : List Ope → List Nat × List Nat → List Nat × List Nat
  | [], s => s
  | e :: es, s => Ope.backIdsL es (Ope.backIds e s)
end
end

/-- peglib.h 4885-4892. -/
def backRule (rules : List Def) (align : List (List Ope) → List Nat) (idOf : Nat → Nat) (cnt : Nat) : Nat → Nat → List Nat × List Nat → List Nat × List Nat
  | 0, _, s => s
  | n + 1, r, s =>
    if idOf r < cnt ∧ idOf r ∉ s.1 then
      match rules[r]? with
      | none => s
      | some d => Ope.backIds align (backRule rules align idOf cnt n) d.ope (idOf r :: s.1, s.2)
    else s

/-- The flags `can_be_empty` (6353-6367; the order of the rules does not matter, `C29_flags_are_least_fixed_point`). -/
def emptyFlags (rules : List Def) : Nat → Bool :=
  (cbeLoop rules (List.range rules.length) (rules.length + 1) fun _ => false).getD fun _ => false

/-- peglib.h 4753-4915 (model only: a bound): The longest alternative of any choice has no more elements than this. -/
def groupFuel (group : List (List Ope)) : Nat := (group.map List.length).foldl max 0 + 1

/-- peglib.h 4753-4908 `initialize_packrat_filter`: for every number, whether the rule with this number is kept.  `ids`: the current numbers of the rules
reachable from the start rule `a` (in the order in which they were found), as passed by `Shared.initFilt`. -/
def packratFilter (G : Parser) (ids : List Nat) (a : Nat) : List Bool :=
  let order := (initIds G.rules a (G.ws a) (G.word a)).order
  let idOf := fun r => ((order.zip ids).lookup r).getD ids.length
  let cnt := ids.length
  let n := G.rules.length + 1
  let tbl := emptyFlags G.rules
  let nameOf := fun r => ((G.rules[r]?).map Def.name).getD []
  let left := fun es => Ope.leftIdsSeq (leftRule G.rules idOf cnt tbl n) tbl es []
  let align := fun g => markAligned left cnt nameOf (groupFuel g) g
  let go := backRule G.rules align idOf cnt n
  let visit := fun (e : Option Ope) s => match e with | none => s | some e => Ope.backIds align go e s
  let s := visit (G.word a) (visit (G.ws a) (go a ([], [])))
  let lr := (order.filter fun r => ((G.rules[r]?).map fun d => d.isLR && !d.isMacro).getD false).map idOf
  (List.range cnt).map fun id => decide (id ∈ s.2 ∨ id ∈ lr)

end Verif
