import Verif.Session
/-!
# Histories of parses: C42

`Shared.parse F G n sh c` is one call of `parse` on the parser object in state `sh`; it returns the answer and the state it leaves.
`Shared.after F G m {} h` is the state after the calls `h` on a fresh object.  `F` is the packrat filter (any).
-/

namespace Verif.Props
open Verif Out

variable {V : Type}

/-- C42: without packrat parsing on the start rule, the answer (result, values, reports, final state) does not depend on the earlier
parses, whichever rules they started from. -/
theorem C42_no_packrat_partial (F : List Nat → Nat → List Bool) (G : Parser) (n m : Nat) (h : List (Call V)) (c : Call V)
    (hp : G.packrat c.start = false) :
    (Shared.parse F G n (Shared.after F G m {} h) c).1 = (Shared.parse F G n {} c).1 :=
  parse_after_plain F G n m h c hp

/-- C42: with or without packrat parsing, the answer does not depend on earlier parses from the same start rule, nor on parses
from other start rules done before the first of them.  Missing: parses from another start rule in between; there the property fails,
see `C42_other_start_rule_changes_result`. -/
theorem C42_same_start_partial (F : List Nat → Nat → List Bool) (G : Parser) (n m : Nat) (h h' : List (Call V)) (c : Call V)
    (ho : ∀ x ∈ h, x.start ≠ c.start) (hs : ∀ x ∈ h', x.start = c.start) :
    (Shared.parse F G n (Shared.after F G m {} (h ++ h')) c).1 = (Shared.parse F G n {} c).1 :=
  parse_after_first F G n m h h' c ho hs

/-- C42: whatever was parsed before, an initialised start rule keeps the numbering it got when first used: each of the rules it reaches,
once. -/
theorem C42_numbering_stable (F : List Nat → Nat → List Bool) (G : Parser) (m : Nat) (h : List (Call V)) (a : Nat) (s : IdSt)
    (hs : (Shared.after F G m {} h).ids a = some s) :
    s.order.Nodup ∧ ∀ r, r ∈ s.order ↔ Reaches G.rules (idRoots a (G.ws a) (G.word a)) r := by
  have := ((inv_fresh G).after F m h).ids a s hs
  subst this
  exact ⟨initIds_nodup .., initIds_mem _ _ _ _⟩

/-! ## Witnesses

`S <- A 'x' / A 'y' / B;  A <- 'a';  B <- D;  D <- 'ab'` with packrat parsing on `S`; the filter keeps `A` only (it is tried by two
alternatives). -/

def c42Gram : Parser where
  rules := [
    { name := "S".toUTF8.toList, ope := .cho [.seq [.ref 1 "A".toUTF8.toList [], .lit "x".toUTF8.toList false] none,
        .seq [.ref 1 "A".toUTF8.toList [], .lit "y".toUTF8.toList false] none, .ref 2 "B".toUTF8.toList []] false [] },
    { name := "A".toUTF8.toList, ope := .lit "a".toUTF8.toList false },
    { name := "B".toUTF8.toList, ope := .ref 3 "D".toUTF8.toList [] },
    { name := "D".toUTF8.toList, ope := .lit "ab".toUTF8.toList false }]
  packrat := fun r => r = 0

def c42Filter : List Nat → Nat → List Bool := fun _ a => if a = 0 then [false, true, false, false] else []

def c42Call (a : Nat) : Call Nat := { start := a, input := "ab".toUTF8.toList }

structure HistObs where
  ok : Bool
  len : Nat
  deriving DecidableEq

/-- Result and length of a parse. -/
def histObs : Out (Answer Nat) → Option HistObs
  | .ok x => some ⟨x.ok, x.res.len⟩
  | _ => none

/-- The numbering of the example from its start rule. -/
example : (initIds c42Gram.rules 0 none none).order = [0, 1, 2, 3] := by decide +kernel

/-- The first theorem applies to parses from `B`, the second to parses from `S` after parses from `B` and `S`. -/
example : c42Gram.packrat (c42Call 2).start = false := by decide
example : (∀ x ∈ [c42Call 2], x.start ≠ (c42Call 0).start) ∧ ∀ x ∈ [c42Call 0, c42Call 0], x.start = (c42Call 0).start := by
  decide

example : histObs (Shared.parse c42Filter c42Gram 20 (Shared.after c42Filter c42Gram 20 {} [c42Call 2, c42Call 0]) (c42Call 0)).1 =
    some ⟨true, 2⟩ := by decide +kernel

/-- C42 is false in general: `parse("ab")` succeeds; after one more `parse("ab")` and a parse from rule `B` in between (which gives
`B` the number of `S`, so that entering `B` inside `S` looks like re-entering `S`), the same call fails. -/
theorem C42_other_start_rule_changes_result :
    histObs (Shared.parse c42Filter c42Gram 20 {} (c42Call 0)).1 = some ⟨true, 2⟩ ∧
    histObs (Shared.parse c42Filter c42Gram 20 (Shared.after c42Filter c42Gram 20 {} [c42Call 0, c42Call 2]) (c42Call 0)).1 =
      some ⟨false, 0⟩ := by decide +kernel

/-- `S <- A;  A <- 'a';  T <- U U A;  U <- 'u'?`: `T` is a rule of its own, the grammar loads (with a warning). -/
def c42Gram2 : Parser where
  rules := [
    { name := "S".toUTF8.toList, ope := .ref 1 "A".toUTF8.toList [] },
    { name := "A".toUTF8.toList, ope := .lit "a".toUTF8.toList false },
    { name := "T".toUTF8.toList, ope := .seq [.ref 3 "U".toUTF8.toList [], .ref 3 "U".toUTF8.toList [], .ref 1 "A".toUTF8.toList []] none },
    { name := "U".toUTF8.toList, ope := .rep (.lit "u".toUTF8.toList false) 0 (some 1) none }]
  packrat := fun r => r = 0

def faults : Out (Answer Nat) → Bool
  | .ub _ => true
  | _ => false

/-- A parse from `T` gives `A` the number 2, which is outside the tables of a later parse from `S`. -/
theorem C42_other_start_rule_out_of_bounds :
    faults (Shared.parse (fun _ _ => [false, false]) c42Gram2 20 {} { start := 0, input := "a".toUTF8.toList }).1 = false ∧
    faults (Shared.parse (fun _ _ => [false, false]) c42Gram2 20
      (Shared.after (fun _ _ => [false, false]) c42Gram2 20 {}
        [({ start := 0, input := "a".toUTF8.toList } : Call Nat), { start := 2, input := "a".toUTF8.toList }])
      { start := 0, input := "a".toUTF8.toList }).1 = true := by decide +kernel

end Verif.Props
