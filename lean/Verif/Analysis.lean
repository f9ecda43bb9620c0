import Verif.Ope
/-!
# Grammar checks: nullability, infinite loops, left recursion

Models of `ComputeCanBeEmpty` (peglib.h 2605-2637, 4389-4391) and its fixed-point loop (6353-6367),
`HasEmptyElement` and `DetectInfiniteLoop` (2739-2823, 4481-4558).
-/

namespace Verif

/-! ## ComputeCanBeEmpty -/

mutual
/-- peglib.h 2605-2637, 4389-4391 `ComputeCanBeEmpty`: `tbl r` is the `can_be_empty` flag of rule `r`.  Operators
without an own visit function go through `TraversalVisitor` (2374-2401).  A parameter reference has no rule, so the
result is false.  A null pointer (which the code would dereference) and a `WeakHolder` (never in a grammar text; the
code descends into the rule's body) are given the values false and `tbl r`. -/
def cbe (tbl : Nat → Bool) : Ope → Bool
  | .seq es _ => cbeAll tbl es
  | .cho es _ _ => cbeAny tbl es
  | .rep _ mn _ _ => mn == 0
  | .and_ _ => true
  | .not_ _ => true
  | .dict _ _ => false
  | .lit s _ => s.isEmpty
  | .cls _ => false
  | .chr _ => false
  | .dot => false
  | .capScope e => cbe tbl e
  | .cap _ e => cbe tbl e
  | .tok e => cbe tbl e
  | .ign e => cbe tbl e
  | .usr _ => false
  | .weak r => tbl r
  | .ref r _ _ => tbl r
  | .param _ _ => false
  | .ws e => cbe tbl e
  | .bref _ => false
  | .prec a _ _ _ => cbe tbl a
  | .recov r _ _ => tbl r
  | .cut => false
  | .null => false

/-- `std::all_of` of 2610-2616. -/
def cbeAll (tbl : Nat → Bool) : List Ope → Bool
  | [] => true
  | e :: es => cbe tbl e && cbeAll tbl es

/-- `std::any_of` of 2617-2623. -/
def cbeAny (tbl : Nat → Bool) : List Ope → Bool
  | [] => false
  | e :: es => cbe tbl e || cbeAny tbl es
end

/-- peglib.h 6353-6365: `rule.can_be_empty = vis.result`. -/
def setTbl (tbl : Nat → Bool) (r : Nat) (b : Bool) : Nat → Bool := fun q => if q = r then b else tbl q

/-- peglib.h 6358-6365 one rule of the inner loop; the state is the table and `changed`. -/
def cbeStep (rules : List Def) (s : (Nat → Bool) × Bool) (r : Nat) : (Nat → Bool) × Bool :=
  match rules[r]? with
  | none => s
  | some d => if cbe s.1 d.ope != s.1 r then (setTbl s.1 r (cbe s.1 d.ope), true) else s

/-- peglib.h 6357-6365 one pass over the rules in the order `ord` (the iteration order of the hash map). -/
def cbeRound (rules : List Def) (ord : List Nat) (tbl : Nat → Bool) : (Nat → Bool) × Bool :=
  ord.foldl (cbeStep rules) (tbl, false)

/-- peglib.h 6354-6367 `while (changed)`; `none` when `fuel` rounds are not enough. -/
def cbeLoop (rules : List Def) (ord : List Nat) : Nat → (Nat → Bool) → Option (Nat → Bool)
  | 0, _ => none
  | fuel + 1, tbl =>
    let s := cbeRound rules ord tbl
    if s.2 then cbeLoop rules ord fuel s.1 else some s.1

/-! ## HasEmptyElement and DetectInfiniteLoop

`refs_` is the parameter `path` (names of the rules being visited), `has_error_cache_` the association list `c` (latest entry
first).  Only the verdict is modelled, not the name and position for the message.  `is_empty` is false whenever a visit starts
(sequences reset it, choices stop when it is set), so a visit returns it; `has_error` is passed in and returned.  A call of another
rule goes through the record `LoopRec`, which is filled in by `loopRec`. -/

/-- peglib.h 2780-2846: `has_error_cache_`. -/
abbrev LoopCache := List (List Byte × Bool)

/-- peglib.h 2739-2846. -/
structure LoopRec where
  /-- `rule.accept(HasEmptyElement)` with `refs_ = path` -/
  he : List (List Byte) → Nat → LoopCache → Bool × LoopCache
  /-- `rule.accept(DetectInfiniteLoop)` -/
  dil : List (List Byte) → Nat → Bool → LoopCache → Bool × LoopCache

/-- peglib.h 4518-4530 `HasEmptyElement::visit(Reference &)`. -/
def heRef (R : LoopRec) (path : List (List Byte)) (r : Nat) (nm : List Byte) (c : LoopCache) : Bool × LoopCache :=
  if nm ∈ path then (false, c) else R.he (path ++ [nm]) r c

/-- peglib.h 4532-4551 `DetectInfiniteLoop::visit(Reference &)` without the arguments. -/
def dilRef (R : LoopRec) (path : List (List Byte)) (r : Nat) (nm : List Byte) (err : Bool) (c : LoopCache) : Bool × LoopCache :=
  match c.lookup nm with
  | some b => (b, c)
  | none =>
    let x := R.dil (path ++ [nm]) r err c
    (x.1, (nm, x.1) :: x.2)

mutual
/-- peglib.h 2739-2777, 4481-4530 `HasEmptyElement`. -/
def he (R : LoopRec) (path : List (List Byte)) : Ope → LoopCache → Bool × LoopCache
  | .seq es _, c => heSeq R path false es c
  | .cho es _ _, c => heCho R path es c
  | .rep e mn _ _, c => if mn = 0 then (true, c) else he R path e c
  | .and_ _, c => (true, c)
  | .not_ _, c => (true, c)
  | .lit s _, c => (s.isEmpty, c)
  | .capScope e, c => he R path e c
  | .cap _ e, c => he R path e c
  | .tok e, c => he R path e c
  | .ign e, c => he R path e c
  | .ws e, c => he R path e c
  | .weak r, c => R.he path r c
  | .ref r nm _, c => heRef R path r nm c
  | .prec a _ _ _, c => he R path a c
  | .recov r nm _, c => heRef R path r nm c
  | _, c => (false, c)

/-- peglib.h 4481-4516 the outer loop of `HasEmptyElement::visit(Sequence &)`; `save` is `save_is_empty`. -/
def heSeq (R : LoopRec) (path : List (List Byte)) (save : Bool) : List Ope → LoopCache → Bool × LoopCache
  | [], c => (save, c)
  | e :: es, c =>
    let x := he R path e c
    if x.1 then heSeq R path true es x.2 else dilRest R path es x.2

/-- peglib.h 2747-2752. -/
def heCho (R : LoopRec) (path : List (List Byte)) : List Ope → LoopCache → Bool × LoopCache
  | [], c => (false, c)
  | e :: es, c =>
    let x := he R path e c
    if x.1 then x else heCho R path es x.2

/-- peglib.h 4493-4502: the elements after the first one that is not empty. -/
def dilRest (R : LoopRec) (path : List (List Byte)) : List Ope → LoopCache → Bool × LoopCache
  | [], c => (false, c)
  | e :: es, c =>
    let x := dil R path false e c
    let y := dilRest R path es x.2
    (x.1 || y.1, y.2)

/-- peglib.h 2779-2823, 4532-4558 `DetectInfiniteLoop`. -/
def dil (R : LoopRec) (path : List (List Byte)) (err : Bool) : Ope → LoopCache → Bool × LoopCache
  | .seq es _, c => dilAll R path err es c
  | .cho es _ _, c => dilAll R path err es c
  | .rep e _ none _, c =>
    let x := he R path e c
    (err || x.1, x.2)
  | .rep e _ (some _) _, c => dil R path err e c
  | .and_ e, c => dil R path err e c
  | .not_ e, c => dil R path err e c
  | .capScope e, c => dil R path err e c
  | .cap _ e, c => dil R path err e c
  | .tok e, c => dil R path err e c
  | .ign e, c => dil R path err e c
  | .ws e, c => dil R path err e c
  | .weak r, c => R.dil path r err c
  | .ref r nm as, c =>
    if nm ∈ path then (err, c) else
      let x := dilRef R path r nm err c
      dilArgs R path x.1 as x.2
  | .prec a _ _ _, c => dil R path err a c
  | .recov r nm as, c =>
    if nm ∈ path then (err, c) else
      let x := dilRef R path r nm err c
      dilArgs R path x.1 as x.2
  | _, c => (err, c)

/-- peglib.h 2794-2805. -/
def dilAll (R : LoopRec) (path : List (List Byte)) (err : Bool) : List Ope → LoopCache → Bool × LoopCache
  | [], c => (err, c)
  | e :: es, c =>
    let x := dil R path err e c
    if x.1 then x else dilAll R path x.1 es x.2

/-- peglib.h 4553-4557. -/
def dilArgs (R : LoopRec) (path : List (List Byte)) (err : Bool) : List Ope → LoopCache → Bool × LoopCache
  | [], c => (err, c)
  | e :: es, c =>
    let x := dil R path err e c
    dilArgs R path x.1 es x.2
end

/-- peglib.h 2739-2846: Rules refer to each other at most `n` deep; beyond that (and for a rule that does not exist) an error is reported. -/
def loopRec (rules : List Def) : Nat → LoopRec
  | 0 => ⟨fun _ _ c => (true, c), fun _ _ _ c => (true, c)⟩
  | n + 1 =>
    { he := fun path r c =>
        match rules[r]? with
        | none => (true, c)
        | some d => he (loopRec rules n) path d.ope c
      dil := fun path r err c =>
        match rules[r]? with
        | none => (true, c)
        | some d => dil (loopRec rules n) path err d.ope c }

/-- peglib.h 6456-6471 `detect_infiniteLoop` for rule `r`; the recursion is at most as deep as there are rules (`path` has no
repetitions). -/
def infiniteLoop (rules : List Def) (n r : Nat) : Bool :=
  match rules[r]? with
  | none => true
  | some d => (dil (loopRec rules n) [d.name] false d.ope []).1

/-! ## DetectLeftRecursion -/

/-- peglib.h 2526-2600: The visitor's state: `refs_` (the rules visited), `done_`, `error_s != nullptr`. -/
structure LrSt where
  vis : List Nat := []
  done : Bool := false
  err : Bool := false

/-- peglib.h 4393-4436 `DetectLeftRecursion::visit(Reference &)` for rules that are not macros: the stack of macro arguments is
empty, so a parameter is not resolved. -/
def lrRef (visit : Nat → LrSt → LrSt) (cbeT : Nat → Bool) (name : List Byte) (r : Nat) (nm : List Byte) (s : LrSt) : LrSt :=
  if nm = name then { s with err := true, done := !cbeT r }
  else if r ∈ s.vis then { s with done := !cbeT r }
  else
    let s := visit r { s with vis := r :: s.vis }
    if s.done then { s with done := !cbeT r } else s

mutual
/-- peglib.h 2526-2575 `DetectLeftRecursion` looking for rule `name`; `cbeT` are the `can_be_empty` flags.  Macros (their
instantiations and argument stacks) are not modelled: a reference to a macro is treated like one to a rule, and a parameter as not
resolved.  `WeakHolder` (never in a grammar text) is treated as a reference without the name test. -/
def dlr (visit : Nat → LrSt → LrSt) (cbeT : Nat → Bool) (name : List Byte) : Ope → LrSt → LrSt
  | .seq es _, s => dlrSeq visit cbeT name es s
  | .cho es _ _, s => dlrCho visit cbeT name es s
  | .rep e mn _ _, s => { dlr visit cbeT name e s with done := decide (mn > 0) }
  | .and_ e, s => { dlr visit cbeT name e s with done := false }
  | .not_ e, s => { dlr visit cbeT name e s with done := false }
  | .dict _ _, s => { s with done := true }
  | .lit t _, s => { s with done := !t.isEmpty }
  | .cls _, s => { s with done := true }
  | .chr _, s => { s with done := true }
  | .dot, s => { s with done := true }
  | .capScope e, s => dlr visit cbeT name e s
  | .cap _ e, s => dlr visit cbeT name e s
  | .tok e, s => dlr visit cbeT name e s
  | .ign e, s => dlr visit cbeT name e s
  | .usr _, s => { s with done := true }
  | .weak r, s => visit r s
  | .ref r nm _, s => lrRef visit cbeT name r nm s
  | .param _ nm, s => if nm = name then { s with err := true, done := true } else { s with done := true }
  | .ws e, s => dlr visit cbeT name e s
  | .bref _, s => { s with done := true }
  | .prec a _ _ _, s => dlr visit cbeT name a s
  | .recov r nm _, s => lrRef visit cbeT name r nm s
  | .cut, s => { s with done := true }
  | .null, s => s

/-- peglib.h 2531-2541. -/
def dlrSeq (visit : Nat → LrSt → LrSt) (cbeT : Nat → Bool) (name : List Byte) : List Ope → LrSt → LrSt
  | [], s => s
  | e :: es, s =>
    let s := dlr visit cbeT name e s
    if s.done then s else if s.err then { s with done := true } else dlrSeq visit cbeT name es s

/-- peglib.h 2542-2550. -/
def dlrCho (visit : Nat → LrSt → LrSt) (cbeT : Nat → Bool) (name : List Byte) : List Ope → LrSt → LrSt
  | [], s => s
  | e :: es, s =>
    let s := dlr visit cbeT name e s
    if s.err then { s with done := true } else dlrCho visit cbeT name es s
end

/-- peglib.h 2526-2600, 4393-4436: `ope.rule_->accept(*this)`, at most `n` rules deep. -/
def lrVisit (rules : List Def) (cbeT : Nat → Bool) (name : List Byte) : Nat → Nat → LrSt → LrSt
  | 0, _, s => { s with err := true }
  | n + 1, r, s =>
    match rules[r]? with
    | none => { s with err := true }
    | some d => dlr (lrVisit rules cbeT name n) cbeT name d.ope s

/-- peglib.h 6370-6375: is rule `r` marked left-recursive? -/
def markedLR (rules : List Def) (cbeT : Nat → Bool) (n r : Nat) : Bool :=
  match rules[r]? with
  | none => true
  | some d => (dlr (lrVisit rules cbeT d.name n) cbeT d.name d.ope {}).err

end Verif
