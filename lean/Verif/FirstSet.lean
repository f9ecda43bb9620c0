import Verif.Engine
/-!
# First sets, span scans and keyword guards are computed when a grammar is loaded

`ComputeFirstSet` (peglib.h 2948-3057, 4580-4625), `SetupFirstSets` (peglib.h 3059-3093, 4627-4752).
-/

namespace Verif
open CharClass

/-- State of a `ComputeFirstSet` (peglib.h 3047-3056): the cache shared by all computations, the rules being entered, and the
number of cycles met. -/
structure FsSt where
  cache : List (Nat × FirstSet) := []
  refs : List Nat := []
  cycles : Nat := 0

/-- peglib.h 1565-1572 `FirstSet::merge`. -/
def FirstSet.merge (a b : FirstSet) : FirstSet :=
  { a with chars := a.chars ++ b.chars, canBeEmpty := a.canBeEmpty || b.canBeEmpty, anyChar := a.anyChar || b.anyChar }

/-- peglib.h 2990-2993, 3001-3005: a first byte, in both cases if `ic`. -/
def fsByte (b : Byte) (ic : Bool) : List Byte :=
  if ic then [b, UInt8.ofNat (toUpper b.toNat), UInt8.ofNat (toLower b.toNat)] else [b]

/-- peglib.h 2985-2997 `visit(Dictionary &)`.  The keys of the trie are the (lower-cased if `ic`) words and their prefixes. -/
def fsDict (ws : List (List Byte)) (ic : Bool) : List Byte :=
  (ws.map fun w => if ic then Trie.toLower w else w).flatMap fun w =>
    match w with
    | [] => []
    | b :: _ => fsByte b ic

/-- peglib.h 3010-3032 `visit(CharacterClass &)`: a range outside ASCII gives `any_char` (and ends the loop, which only
affects `chars`, then irrelevant); otherwise the bits of the bitset; negated classes are `any_char`. -/
def fsCls (c : Cls) : FirstSet :=
  if c.ranges.any fun r => decide (r.1 > 0x7F) || decide (r.2 > 0x7F) then { anyChar := true }
  else if c.negated then { anyChar := true }
  else { chars := ((List.range 256).map UInt8.ofNat).filter c.asciiBit }

mutual
/-- peglib.h 2948-3062: `op->accept(cfs)`.  `ref r` is what a visit of a reference to rule `r` does.  `result_` is a fresh `FirstSet` whenever a
visit starts (sequences, choices and references reset it before descending), so a visit returns a first set.  A `WeakHolder`
(never in a grammar given as text) is treated like a reference. -/
def fsOpe (ref : Nat → FsSt → FirstSet × FsSt) : Ope → FsSt → FirstSet × FsSt
  -- peglib.h 2951-2970
  | .seq es _, s => fsSeq ref es {} s
  -- peglib.h 2971-2979
  | .cho es _ _, s => fsCho ref es {} s
  -- peglib.h 2980-2983
  | .rep e mn _ _, s => let x := fsOpe ref e s; ({ x.1 with canBeEmpty := x.1.canBeEmpty || mn == 0 }, x.2)
  -- peglib.h 2984-2985
  | .and_ _, s => ({ canBeEmpty := true }, s)
  | .not_ _, s => ({ canBeEmpty := true }, s)
  | .dict ws ic, s => ({ chars := fsDict ws ic }, s)
  -- peglib.h 2998-3010
  | .lit [] _, s => ({ canBeEmpty := true }, s)
  | .lit (b :: t) ic, s => ({ chars := fsByte b ic, firstLit := some (b :: t) }, s)
  | .cls c, s => (fsCls c, s)
  -- peglib.h 3033-3039
  | .chr c, s => if c > 0x7F then ({ anyChar := true }, s) else ({ chars := [UInt8.ofNat c] }, s)
  -- peglib.h 3040-3044
  | .dot, s => ({ anyChar := true }, s)
  | .usr _, s => ({ anyChar := true }, s)
  | .bref _, s => ({ anyChar := true }, s)
  | .cut, s => ({ canBeEmpty := true }, s)
  -- the defaults of TraversalVisitor, peglib.h 2374-2401
  | .capScope e, s => fsOpe ref e s
  | .cap _ e, s => fsOpe ref e s
  | .tok e, s => fsOpe ref e s
  | .ign e, s => fsOpe ref e s
  | .ws e, s => fsOpe ref e s
  | .prec atom _ _ _, s => fsOpe ref atom s
  | .recov r _ _, s => ref r s
  | .weak r, s => ref r s
  | .ref r _ _, s => ref r s
  -- peglib.h 4583-4587: macro parameter
  | .param _ _, s => ({ anyChar := true }, s)
  | .null, s => ({}, s)

def fsSeq (ref : Nat → FsSt → FirstSet × FsSt) : List Ope → FirstSet → FsSt → FirstSet × FsSt
  | [], acc, s => ({ acc with canBeEmpty := true }, s)
  | e :: es, acc, s =>
    let x := fsOpe ref e s
    let acc := { acc with
      chars := acc.chars ++ x.1.chars, anyChar := acc.anyChar || x.1.anyChar
      firstLit := acc.firstLit.or x.1.firstLit, firstRule := acc.firstRule.or x.1.firstRule }
    if x.1.canBeEmpty then fsSeq ref es acc x.2 else (acc, x.2)

def fsCho (ref : Nat → FsSt → FirstSet × FsSt) : List Ope → FirstSet → FsSt → FirstSet × FsSt
  | [], acc, s => (acc, s)
  | e :: es, acc, s => let x := fsOpe ref e s; fsCho ref es (acc.merge x.1) x.2
end

/-- peglib.h 4615-4624: the contribution of a reference to rule `r` whose first set is `f`. -/
def fsUse (d : Def) (r : Nat) (f : FirstSet) : FirstSet :=
  { f with firstRule := f.firstRule.or (if d.isToken then some r else none) }

/-- peglib.h 4582-4625 `ComputeFirstSet::visit(Reference &)`.  `fuel` bounds the nesting of rules; the rules on the way are
distinct, so the number of rules plus one suffices. -/
def fsRule (rules : List Def) : Nat → Nat → FsSt → FirstSet × FsSt
  | 0, _, s => ({}, { s with cycles := s.cycles + 1 })
  | fuel + 1, r, s =>
    match rules[r]? with
    | none => ({ anyChar := true }, s)
    | some d =>
      match s.cache.lookup r with
      | some f => (fsUse d r f, s)
      | none =>
        if r ∈ s.refs then ({}, { s with cycles := s.cycles + 1 })
        else
          let x := fsOpe (fsRule rules fuel) d.ope { s with refs := r :: s.refs }
          let s' := { x.2 with refs := x.2.refs.erase r }
          if x.2.cycles = s.cycles then (fsUse d r x.1, { s' with cache := (r, x.1) :: s'.cache })
          else (fsUse d r x.1, s')

/-- peglib.h 3071-3075: the first set of one alternative, with the shared cache. -/
def fsAlt (rules : List Def) (e : Ope) (cache : List (Nat × FirstSet)) : FirstSet × List (Nat × FirstSet) :=
  let x := fsOpe (fsRule rules (rules.length + 1)) e { cache := cache }
  (x.1, x.2.cache)

/-- peglib.h 4694-4708: is the expression a literal ignoring case? -/
def litIc : Ope → Option (List Byte)
  | .lit t true => some t
  | _ => none

/-- peglib.h 4683-4715: the keywords of the alternatives: exact ones and first words of compound ones; `none`: bail out. -/
def kwWords : List Ope → Option (List (List Byte) × List (List Byte))
  | [] => some ([], [])
  | e :: es =>
    match e with
    | .lit t true => (kwWords es).map fun x => (Trie.toLower t :: x.1, x.2)
    | .seq (.lit t true :: ls) _ =>
      if ls.all fun l => (litIc l).isSome then (kwWords es).map fun x => (x.1, Trie.toLower t :: x.2) else none
    | _ => none

/-- peglib.h 4720-4736: the two classes of the identifier. -/
def kwClasses : Ope → Option (Cls × Cls)
  | .tok (.seq [.cls a, .rep (.cls b) _ _ _] _) => if a.isAsciiOnly && b.isAsciiOnly then some (a, b) else none
  | _ => none

/-- peglib.h 1902-1916: the bytes of `ascii_bitset_`. -/
def clsBytes (c : Cls) : List Byte := ((List.range 256).map UInt8.ofNat).filter c.asciiBit

/-- peglib.h 4660-4752 `setup_keyword_guarded_identifier`: for `!Keyword < [..] [..]* >` where the body of rule `Keyword` is
a choice of case-insensitive literals or sequences of such. -/
def kwSetup (rules : List Def) : List Ope → Option KwGuard
  | [.not_ (.ref r _ _), t] =>
    match (rules[r]?.map Def.ope : Option Ope) with
    | some (.cho alts _ _) =>
      match kwWords alts, kwClasses t with
      | some (ex, pre), some (a, b) =>
        if ex.isEmpty then none
        else
          let lens := (ex ++ pre).map List.length
          some { first := clsBytes a, rest := clsBytes b, exact := ex, pref := pre
                 minLen := lens.foldl min (lens.head?.getD 0), maxLen := lens.foldl max 0 }
      | _, _ => none
    | _ => none
  | _ => none

/-- State of `SetupFirstSets` (peglib.h 3090-3092) together with the rules it annotates. -/
structure SetupSt where
  rules : List Def
  cache : List (Nat × FirstSet) := []
  visited : List Nat := []

/-- peglib.h 3071-3075: the first sets of the alternatives. -/
def fsAlts (rules : List Def) : List Ope → List (Nat × FirstSet) → List FirstSet × List (Nat × FirstSet)
  | [], c => ([], c)
  | e :: es, c =>
    let x := fsAlt rules e c
    let y := fsAlts rules es x.2
    (x.1 :: y.1, y.2)

mutual
/-- peglib.h 3064-3095, 4627-4752: `op->accept(setup)`: returns the annotated expression.  `ref r` is the visit of rule `r`.  `src` are the rules as linked;
first sets and keywords do not depend on annotations, so they may be read off them. -/
def setupOpe (src : List Def) (ref : Nat → SetupSt → SetupSt) : Ope → SetupSt → Ope × SetupSt
  -- peglib.h 4652-4658
  | .seq es _, s => let x := setupList src ref es s; (.seq x.1 (kwSetup src es), x.2)
  -- peglib.h 3068-3079
  | .cho es l _, s =>
    let f := fsAlts src es s.cache
    let x := setupList src ref es { s with cache := f.2 }
    (.cho x.1 l f.1, x.2)
  -- peglib.h 3080-3085
  | .rep e mn mx _, s =>
    let x := setupOpe src ref e s
    (.rep x.1 mn mx (match e with
      | .cls c => if c.isAsciiOnly then some c else none
      | _ => none), x.2)
  -- the defaults of TraversalVisitor
  | .and_ e, s => let x := setupOpe src ref e s; (.and_ x.1, x.2)
  | .not_ e, s => let x := setupOpe src ref e s; (.not_ x.1, x.2)
  | .capScope e, s => let x := setupOpe src ref e s; (.capScope x.1, x.2)
  | .cap nm e, s => let x := setupOpe src ref e s; (.cap nm x.1, x.2)
  | .tok e, s => let x := setupOpe src ref e s; (.tok x.1, x.2)
  | .ign e, s => let x := setupOpe src ref e s; (.ign x.1, x.2)
  | .ws e, s => let x := setupOpe src ref e s; (.ws x.1, x.2)
  | .prec a b info r, s => let x := setupOpe src ref a s; (.prec x.1 b info r, x.2)
  -- peglib.h 4632-4635; the arguments are not visited
  | .ref r nm as, s => (.ref r nm as, ref r s)
  | .recov r nm as, s => (.recov r nm as, ref r s)
  | .weak r, s => (.weak r, ref r s)
  | e, s => (e, s)

def setupList (src : List Def) (ref : Nat → SetupSt → SetupSt) : List Ope → SetupSt → List Ope × SetupSt
  | [], s => ([], s)
  | e :: es, s =>
    let x := setupOpe src ref e s
    let y := setupList src ref es x.2
    (x.1 :: y.1, y.2)
end

/-- peglib.h 4646-4649 `SetupFirstSets::visit(Holder &)`.  `fuel` bounds the nesting of rules, which are distinct. -/
def setupRule (src : List Def) : Nat → Nat → SetupSt → SetupSt
  | 0, _, s => s
  | fuel + 1, r, s =>
    match src[r]? with
    | none => s
    | some d =>
      if r ∈ s.visited then s
      else
        let x := setupOpe src (setupRule src fuel) d.ope { s with visited := r :: s.visited }
        { x.2 with rules := x.2.rules.set r { d with ope := x.1 } }

/-- peglib.h 6449-6457: all rules, in the order in which `grammar` (an `unordered_map`) is iterated. -/
def setupAll (src : List Def) (order : List Nat) : List Def :=
  (order.foldl (fun s r => setupRule src (src.length + 1) r s) { rules := src }).rules

end Verif
