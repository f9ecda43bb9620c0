import Verif.Utf8
/-!
# Escapes in grammar text (peglib.h 224-376)
-/

namespace Verif
namespace Escape
open Utf8

/-- peglib.h 232-239 one step of the `switch` in `escape_characters`.
Characters: `\f` 12, `\n` 10, `\r` 13, `\t` 9, `\v` 11, backslash 92. -/
def escapeByte (c : Byte) : List Byte :=
  if c = 12 then [92, 102] else if c = 10 then [92, 110] else if c = 13 then [92, 114]
  else if c = 9 then [92, 116] else if c = 11 then [92, 118] else [c]

/-- peglib.h 228-246 `escape_characters`. -/
def escapeCharacters (s : List Byte) : List Byte := s.flatMap escapeByte

/-- peglib.h 252-264 `is_hex`. -/
def isHex (c : Byte) : Option Nat :=
  if 48 ≤ c ∧ c ≤ 57 then some (c.toNat - 48)
  else if 97 ≤ c ∧ c ≤ 102 then some (c.toNat - 97 + 10)
  else if 65 ≤ c ∧ c ≤ 70 then some (c.toNat - 65 + 10)
  else none

/-- peglib.h 266-272 `is_digit` (note: accepts 8 and 9). -/
def isDigit (c : Byte) : Option Nat :=
  if 48 ≤ c ∧ c ≤ 57 then some (c.toNat - 48) else none

/-- peglib.h 249-293: `INT_MAX`: `ret` is an `int`, so exceeding it is undefined behaviour. -/
def intMax : Nat := 2147483647

/-- peglib.h 274-294 `parse_hex_number` / `parse_octal_number`: the loop with base `base` and digit test `dig`,
returning the value and the unread rest. -/
def parseNumber (base : Nat) (dig : Byte → Option Nat) : Nat → List Byte → Out (Nat × List Byte)
  | acc, [] => .ok (acc, [])
  | acc, c :: t =>
    match dig c with
    | some v =>
      if acc * base + v ≤ intMax then parseNumber base dig (acc * base + v) t
      else .ub "signed integer overflow in numeric escape"
    | none => .ok (acc, c :: t)

/-- peglib.h 274-283. -/
def parseHex := parseNumber 16 isHex
/-- peglib.h 285-294. -/
def parseOctal := parseNumber 8 isDigit

theorem parseNumber_length {base : Nat} {dig : Byte → Option Nat} (acc : Nat) (s : List Byte)
    (v : Nat) (t : List Byte) (h : parseNumber base dig acc s = .ok (v, t)) : t.length ≤ s.length := by
  induction s generalizing acc with
  | nil => simp [parseNumber] at h; simp [h]
  | cons c s ih =>
    simp only [parseNumber] at h
    split at h
    · split at h
      · have := ih _ h; simp; omega
      · simp at h
    · simp at h; simp [← h.2]

/-- The single-character escapes of the `switch` at peglib.h 307-355. -/
def simpleEscape (c : Byte) : Option Byte :=
  if c = 102 then some 12 else if c = 110 then some 10 else if c = 114 then some 13
  else if c = 116 then some 9 else if c = 118 then some 11 else if c = 39 then some 39
  else if c = 34 then some 34 else if c = 91 then some 91 else if c = 93 then some 93
  else if c = 94 then some 94 else if c = 45 then some 45 else if c = 92 then some 92 else none

/-- peglib.h 296-376 `resolve_escape_sequence`.  A trailing backslash makes the code read `s[n]`
(the `assert` is compiled out in release builds): undefined behaviour. -/
def resolve (s : List Byte) : Out (List Byte) :=
  match hs : s with
  | [] => .ok []
  | c :: t =>
    if c = 92 then
      match ht : t with
      | [] => .ub "backslash at end of literal"
      | e :: u =>
        match simpleEscape e with
        | some b => (resolve u).bind fun r => .ok (b :: r)
        | none =>
          if e = 120 ∨ e = 117 then
            match hp : parseHex 0 u with
            | .ok (cp, rest) => (resolve rest).bind fun r => .ok (encodeCodepoint cp ++ r)
            | .ub w => .ub w
            | .oof => .oof
          else
            match hp : parseOctal 0 (e :: u) with
            | .ok (cp, rest) => (resolve rest).bind fun r => .ok (encodeCodepoint cp ++ r)
            | .ub w => .ub w
            | .oof => .oof
    else (resolve t).bind fun r => .ok (c :: r)
termination_by s.length
decreasing_by
  all_goals subst hs
  · subst ht; simp; omega
  · subst ht; have := parseNumber_length _ _ _ _ hp; simp; omega
  · subst ht; have := parseNumber_length _ _ _ _ hp; simp at this ⊢; omega
  · simp

end Escape
end Verif
