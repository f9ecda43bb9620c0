import Verif.Utf8
/-!
# Character classes (peglib.h 381-416, 1823-1967)
-/

namespace Verif
namespace CharClass
open Utf8

/-- peglib.h 1884-1925: A range of code points, both ends included (`std::pair<char32_t, char32_t>`). -/
abbrev Range := Nat × Nat

/-- peglib.h 381-403 `predefined_character_class` (the `std::map` as a list). -/
def predefined : List (String × List Range) := [
  ("alnum", [(48, 57), (65, 90), (97, 122)]),
  ("alpha", [(65, 90), (97, 122)]),
  ("ascii", [(0x00, 0x7F)]),
  ("blank", [(9, 9), (32, 32)]),
  ("cntrl", [(0x00, 0x1F), (0x7F, 0x7F)]),
  ("digit", [(48, 57)]),
  ("graph", [(0x21, 0x7E)]),
  ("lower", [(97, 122)]),
  ("print", [(0x20, 0x7E)]),
  ("punct", [(0x21, 0x2F), (0x3A, 0x40), (0x5B, 0x60), (0x7B, 0x7E)]),
  ("space", [(9, 13), (32, 32)]),
  ("upper", [(65, 90)]),
  ("word", [(48, 57), (65, 90), (95, 95), (97, 122)]),
  ("xdigit", [(48, 57), (65, 70), (97, 102)])]

/-- peglib.h 408-413 the loop of `complement_character_ranges` (`next` is the loop variable). -/
def complementFrom : Nat → List Range → List Range
  | next, [] => if next ≤ 0x10FFFF then [(next, 0x10FFFF)] else []
  | next, (lo, hi) :: rs => (if next < lo then [(next, lo - 1)] else []) ++ complementFrom (hi + 1) rs

/-- peglib.h 406-416 `complement_character_ranges`. -/
def complement (rs : List Range) : List Range := complementFrom 0 rs

/-- `std::tolower` in the "C" locale on an `int`.  The C standard leaves it undefined above 255; glibc
returns the argument, which is what is modelled here (see `inRangeStrict` for the standard's view). -/
def toLower (c : Nat) : Nat := if 65 ≤ c ∧ c ≤ 90 then c + 32 else c

/-- peglib.h 1913: `std::toupper` in the "C" locale. -/
def toUpper (c : Nat) : Nat := if 97 ≤ c ∧ c ≤ 122 then c - 32 else c

/-- Fields of `CharacterClass` (peglib.h 1920-1924; the bitset is computed by `asciiBit`). -/
structure Cls where
  ranges : List Range
  negated : Bool := false
  ignoreCase : Bool := false
  deriving DecidableEq, Repr

/-- peglib.h 1826-1844 the constructor from a string: `a-z` triples become ranges. -/
def rangesOfChars : List Nat → List Range
  | a :: b :: c :: t => if b = 45 then (a, c) :: rangesOfChars t else (a, a) :: rangesOfChars (b :: c :: t)
  | a :: t => (a, a) :: rangesOfChars t
  | [] => []

/-- peglib.h 1892-1900 `in_range`. -/
def inRange (ic : Bool) (r : Range) (cp : Nat) : Bool :=
  if ic then toLower r.1 ≤ toLower cp && toLower cp ≤ toLower r.2
  else r.1 ≤ cp && cp ≤ r.2

/-- peglib.h 1892-1900: `in_range` with the C standard's precondition of `std::tolower` made explicit. -/
def inRangeStrict (ic : Bool) (r : Range) (cp : Nat) : Out Bool :=
  if ic then
    if cp ≤ 255 ∧ r.1 ≤ 255 ∧ r.2 ≤ 255 then .ok (inRange ic r cp)
    else .ub "std::tolower called with a value above 255"
  else .ok (inRange ic r cp)

/-- peglib.h 1853-1880 `CharacterClass::parse_core` on the remaining input; `none` is failure, the result is the
matched length. -/
def Cls.matchLen (c : Cls) (s : List Byte) : Option Nat :=
  match s with
  | [] => none
  | _ :: _ =>
    let (len, cp) := decodeLenCp s
    if c.ranges.any (inRange c.ignoreCase · cp) then
      if c.negated then none else some len
    else
      if c.negated then some len else none

/-- peglib.h 1903-1907: `is_ascii_only_`. -/
def Cls.isAsciiOnly (c : Cls) : Bool :=
  !c.negated && c.ranges.all fun r => r.1 ≤ 0x7F && r.2 ≤ 0x7F

/-- peglib.h 1902-1918 `setup_ascii_bitset`, as the membership test of the resulting bitset (meaningful when
`isAsciiOnly`). -/
def Cls.asciiBit (c : Cls) (b : Byte) : Bool :=
  c.isAsciiOnly && c.ranges.any fun r =>
    (List.range' r.1 (r.2 + 1 - r.1)).any fun cp =>
      b.toNat = cp || (c.ignoreCase && (b.toNat = toUpper cp || b.toNat = toLower cp))

/-- peglib.h 1931-1946 `Character::parse_core`. -/
def matchChar (ch : Nat) (s : List Byte) : Option Nat :=
  match s with
  | [] => none
  | _ :: _ =>
    let (len, cp) := decodeLenCp s
    if cp ≠ ch then none else some len

/-- peglib.h 1956-1964 `AnyCharacter::parse_core`. -/
def matchAny (s : List Byte) : Option Nat :=
  let len := codepointLength s
  if len < 1 then none else some len

/-- peglib.h 1670-1689 the span scan of `Repetition::parse_core` (`max = none` is `size_t` max). -/
def spanScan (bit : Byte → Bool) (min : Nat) (max : Option Nat) (s : List Byte) : Option Nat :=
  let i := match max with
    | none => (s.takeWhile bit).length
    | some m => ((s.take m).takeWhile bit).length
  if i < min then none else some i

/-- peglib.h 1691-1710 the general loops of `Repetition::parse_core`, specialised to a matcher that has no
effect but its length.  First the mandatory iterations, then the optional ones; `fuel` bounds the optional
loop (which may not terminate when the matcher accepts zero bytes): `none` = out of fuel. -/
def repMandatory (m : List Byte → Option Nat) : Nat → List Byte → Nat → Option Nat
  | 0, _, i => some i
  | k + 1, s, i =>
    match m s with
    | none => none
    | some len => repMandatory m k (s.drop len) (i + len)

/-- peglib.h 1701-1711: the second loop of `Repetition::parse_core`. -/
def repOptional (m : List Byte → Option Nat) (max : Option Nat) : Nat → Nat → List Byte → Nat → Out Nat
  | 0, _, _, _ => .oof
  | fuel + 1, count, s, i =>
    if max.all (count < ·) then
      match m s with
      | none => .ok i
      | some len => repOptional m max fuel (count + 1) (s.drop len) (i + len)
    else .ok i

/-- peglib.h 1665-1711: `Repetition::parse_core` over a length function. -/
def repLoop (m : List Byte → Option Nat) (min : Nat) (max : Option Nat) (fuel : Nat) (s : List Byte) :
    Out (Option Nat) :=
  match repMandatory m min s 0 with
  | none => .ok none
  | some i => (repOptional m max fuel min (s.drop i) i).bind fun e => .ok (some e)

/-! ## Lemmas -/

theorem decodeLenCp_ascii (b : Byte) (t : List Byte) (h : b.toNat < 0x80) :
    decodeLenCp (b :: t) = (1, b.toNat) := by
  unfold decodeLenCp; rw [decode_eq]; simp [h]

theorem mem_range_any (lo hi : Nat) (p : Nat → Bool) :
    (List.range' lo (hi + 1 - lo)).any p = true ↔ ∃ cp, lo ≤ cp ∧ cp ≤ hi ∧ p cp = true := by
  simp only [List.any_eq_true, List.mem_range'_1]
  constructor
  · rintro ⟨x, ⟨h1, h2⟩, h3⟩; exact ⟨x, h1, by omega, h3⟩
  · rintro ⟨x, h1, h2, h3⟩; exact ⟨x, ⟨h1, by omega⟩, h3⟩

end CharClass
end Verif
