import Verif.Escape
/-! # Properties of escaping and unescaping (C04, C05) -/
namespace Verif.Props
open Verif.Utf8 Verif.Escape

theorem resolve_nil : resolve [] = .ok [] := by rw [resolve.eq_def]

theorem resolve_plain (c : Byte) (t : List Byte) (h : c ≠ 92) :
    resolve (c :: t) = (resolve t).bind fun r => .ok (c :: r) := by
  rw [resolve.eq_def]; simp [h]

theorem resolve_simple (e : Byte) (b : Byte) (u : List Byte) (h : simpleEscape e = some b) :
    resolve (92 :: e :: u) = (resolve u).bind fun r => .ok (b :: r) := by
  rw [resolve]; simp [h]

theorem resolve_hex (e : Byte) (u rest : List Byte) (cp : Nat) (he : e = 120 ∨ e = 117)
    (hp : parseHex 0 u = .ok (cp, rest)) :
    resolve (92 :: e :: u) = (resolve rest).bind fun r => .ok (encodeCodepoint cp ++ r) := by
  rw [resolve]
  have hs : simpleEscape e = none := by rcases he with rfl | rfl <;> decide
  simp only [if_true, hs, he]
  split
  · rename_i a b hp'; rw [hp] at hp'; cases hp'; rfl
  · rename_i hp'; rw [hp] at hp'; cases hp'
  · rename_i hp'; rw [hp] at hp'; cases hp'

theorem resolve_octal (e : Byte) (u rest : List Byte) (cp : Nat) (hs : simpleEscape e = none)
    (he : ¬ (e = 120 ∨ e = 117)) (hp : parseOctal 0 (e :: u) = .ok (cp, rest)) :
    resolve (92 :: e :: u) = (resolve rest).bind fun r => .ok (encodeCodepoint cp ++ r) := by
  rw [resolve]
  simp only [if_true, hs, if_neg he]
  split
  · rename_i a b hp'; rw [hp] at hp'; cases hp'; rfl
  · rename_i hp'; rw [hp] at hp'; cases hp'
  · rename_i hp'; rw [hp] at hp'; cases hp'

/-- C04. Text without a backslash denotes itself. -/
theorem C04_resolve_id (s : List Byte) (h : (92 : Byte) ∉ s) : resolve s = .ok s := by
  induction s with
  | nil => exact resolve_nil
  | cons c t ih =>
    simp only [List.mem_cons, not_or] at h
    rw [resolve_plain c t (fun e => h.1 e.symm), ih h.2]; rfl

theorem escapeByte_cases (c : Byte) :
    (∃ e, escapeByte c = [92, e] ∧ simpleEscape e = some c) ∨ escapeByte c = [c] := by
  unfold escapeByte
  by_cases h1 : c = 12
  · exact Or.inl ⟨102, by rw [if_pos h1], by rw [h1]; decide⟩
  by_cases h2 : c = 10
  · exact Or.inl ⟨110, by rw [if_neg h1, if_pos h2], by rw [h2]; decide⟩
  by_cases h3 : c = 13
  · exact Or.inl ⟨114, by rw [if_neg h1, if_neg h2, if_pos h3], by rw [h3]; decide⟩
  by_cases h4 : c = 9
  · exact Or.inl ⟨116, by rw [if_neg h1, if_neg h2, if_neg h3, if_pos h4], by rw [h4]; decide⟩
  by_cases h5 : c = 11
  · exact Or.inl ⟨118, by rw [if_neg h1, if_neg h2, if_neg h3, if_neg h4, if_pos h5], by rw [h5]; decide⟩
  · exact Or.inr (by rw [if_neg h1, if_neg h2, if_neg h3, if_neg h4, if_neg h5])

/-- C04. Resolving the escapes undoes escaping for every string without a backslash. -/
theorem C04_roundtrip (s : List Byte) (h : (92 : Byte) ∉ s) : resolve (escapeCharacters s) = .ok s := by
  induction s with
  | nil => exact resolve_nil
  | cons c t ih =>
    simp only [List.mem_cons, not_or] at h
    have ih := ih h.2
    have hc : c ≠ 92 := fun e => h.1 e.symm
    unfold escapeCharacters at ih ⊢
    rw [List.flatMap_cons]
    rcases escapeByte_cases c with ⟨e, he, hs⟩ | he <;> rw [he]
    · rw [List.cons_append, List.cons_append, List.nil_append, resolve_simple e c _ hs, ih]; rfl
    · rw [List.cons_append, List.nil_append, resolve_plain c _ hc, ih]; rfl

example : (92 : Byte) ∉ [65, 10, 66] ∧ escapeCharacters [65, 10, 66] = [65, 92, 110, 66] := by decide

/-- C04, the full claim is false: a string containing a backslash does not survive (`a\n`, three
characters `a`, backslash, `n`, is shown unescaped and reads back as `a` + newline). -/
theorem C04_backslash_counterexample :
    ∃ s, resolve (escapeCharacters s) ≠ .ok s := ⟨[97, 92, 110], by decide +kernel⟩

/-- Value of a digit string in a base, most significant digit first. -/
def digitsValue (base : Nat) (vs : List Nat) : Nat := vs.foldl (fun a v => a * base + v) 0

theorem parseNumber_digits (base : Nat) (dig : Byte → Option Nat) (hb : 1 ≤ base) (ds : List Byte)
    (vs : List Nat) (rest : List Byte) (acc : Nat)
    (hd : ds.map dig = vs.map some)
    (hr : ∀ c, rest.head? = some c → dig c = none)
    (hv : vs.foldl (fun a v => a * base + v) acc ≤ intMax) :
    parseNumber base dig acc (ds ++ rest) = .ok (vs.foldl (fun a v => a * base + v) acc, rest) := by
  induction ds generalizing acc vs with
  | nil =>
    have : vs = [] := by cases vs <;> simp at hd ⊢
    subst this
    rcases rest with _ | ⟨c, t⟩
    · simp [parseNumber]
    · simp [parseNumber, hr c rfl]
  | cons d ds ih =>
    rcases vs with _ | ⟨v, vs⟩
    · simp at hd
    · simp only [List.map_cons, List.cons.injEq] at hd
      simp only [List.foldl_cons] at hv ⊢
      have hle : acc * base + v ≤ intMax := by
        refine Nat.le_trans ?_ hv
        have : ∀ (l : List Nat) (a : Nat), a ≤ l.foldl (fun a v => a * base + v) a := by
          intro l
          induction l with
          | nil => intro a; simp
          | cons x l ihl =>
            intro a
            simp only [List.foldl_cons]
            refine Nat.le_trans ?_ (ihl _)
            have := Nat.mul_le_mul_left a hb
            omega
        exact this _ _
      simp only [List.cons_append, parseNumber, hd.1, if_pos hle]
      exact ih vs _ hd.2 hv

/-- The hexadecimal digits as characters `0`..`9`, `a`..`f`, `A`..`F`, with their values. -/
def hexTable : List (Byte × Nat) :=
  ("0123456789abcdef".toUTF8.toList.zip (List.range 16)) ++ ("ABCDEF".toUTF8.toList.zip [10, 11, 12, 13, 14, 15])

/-- The decimal digits with their values. -/
def decTable : List (Byte × Nat) := "0123456789".toUTF8.toList.zip (List.range 10)

/-- The one-character escapes: letter after the backslash, denoted character. -/
def escTable : List (Byte × Byte) :=
  [(102, 0x0C), (110, 0x0A), (114, 0x0D), (116, 0x09), (118, 0x0B)] ++
    ("'\"[]^-\\".toUTF8.toList.map fun c => (c, c))

theorem byte_forall {p : Byte → Prop} (h : ∀ n : Fin 256, p (UInt8.ofNat n.val)) (b : Byte) : p b := by
  have := h ⟨b.toNat, b.toNat_lt⟩
  simpa using this

/-- C05: the digit test accepts exactly the hexadecimal digits, with their values. -/
theorem C05_hex_digits (b : Byte) : isHex b = hexTable.lookup b :=
  byte_forall (p := fun b => isHex b = hexTable.lookup b) (by decide +kernel) b

/-- C05: octal escapes are read with the decimal digits. -/
theorem C05_octal_digits (b : Byte) : isDigit b = decTable.lookup b :=
  byte_forall (p := fun b => isDigit b = decTable.lookup b) (by decide +kernel) b

/-- C04: the one-character escapes are those of the table. -/
theorem C04_escape_table (b : Byte) : simpleEscape b = escTable.lookup b :=
  byte_forall (p := fun b => simpleEscape b = escTable.lookup b) (by decide +kernel) b

/-- C05 (partial: the escape must not be followed by a further hex digit). `\x`/`\u` followed by hex digits with
value `cp` denotes the UTF-8 encoding of `cp`, followed by what the rest denotes. -/
theorem C05_hex_partial (e : Byte) (he : e = 120 ∨ e = 117) (ds : List Byte) (vs : List Nat)
    (rest : List Byte) (hd : ds.map (fun b => hexTable.lookup b) = vs.map some)
    (hr : ∀ c, rest.head? = some c → hexTable.lookup c = none) (hv : digitsValue 16 vs ≤ 2147483647)
    (r : List Byte) (hrest : resolve rest = .ok r) :
    resolve (92 :: e :: (ds ++ rest)) = .ok (encodeCodepoint (digitsValue 16 vs) ++ r) := by
  have hx : (fun b => hexTable.lookup b) = isHex := funext fun b => (C05_hex_digits b).symm

  rw [hx] at hd
  simp only [← C05_hex_digits] at hr
  rw [resolve_hex e _ rest (digitsValue 16 vs) he
    (parseNumber_digits 16 isHex (by decide) ds vs rest 0 hd hr hv), hrest]
  rfl

/-- C05 (partial: not followed by a further *decimal* digit). Octal escapes. -/
theorem C05_octal_partial (d : Byte) (ds : List Byte) (v : Nat) (vs : List Nat) (rest : List Byte)
    (h0 : decTable.lookup d = some v) (hd : ds.map (fun b => decTable.lookup b) = vs.map some)
    (hr : ∀ c, rest.head? = some c → decTable.lookup c = none) (hv : digitsValue 8 (v :: vs) ≤ 2147483647)
    (r : List Byte) (hrest : resolve rest = .ok r) :
    resolve (92 :: d :: (ds ++ rest)) = .ok (encodeCodepoint (digitsValue 8 (v :: vs)) ++ r) := by
  have hx : (fun b => decTable.lookup b) = isDigit := funext fun b => (C05_octal_digits b).symm

  rw [hx] at hd
  simp only [← C05_octal_digits] at hr h0
  have hdig : 48 ≤ d ∧ d ≤ 57 := by
    unfold isDigit at h0; split at h0
    · assumption
    · simp at h0
  have hdn : 48 ≤ d.toNat ∧ d.toNat ≤ 57 := by
    have := hdig; simpa [UInt8.le_iff_toNat_le] using this
  have hne : ∀ k : Byte, (k.toNat < 48 ∨ 57 < k.toNat) → d ≠ k := by
    intro k hk e; subst e; omega
  have hs : simpleEscape d = none := by
    simp only [simpleEscape]
    repeat rw [if_neg (hne _ (by decide))]
  have hx : ¬ (d = 120 ∨ d = 117) := by
    rintro (h | h)
    · exact hne 120 (by decide) h
    · exact hne 117 (by decide) h
  rw [resolve_octal d (ds ++ rest) rest (digitsValue 8 (v :: vs)) hs hx
    (parseNumber_digits 8 isDigit (by decide) (d :: ds) (v :: vs) rest 0 (by simp [h0, hd]) hr hv), hrest]
  rfl

/-- Hypotheses of `C05_hex_partial` are met by `\x41G`. -/
example : [52, 49].map (fun b => hexTable.lookup b) = [4, 1].map some ∧ hexTable.lookup 71 = none ∧ digitsValue 16 [4, 1] = 0x41 ∧
    resolve [92, 120, 52, 49, 71] = .ok [0x41, 71] := by decide +kernel

/-- C05, the unrestricted claim is false.  The grammar of grammars (peglib.h:5546-5556) reads `\x20` as one
character (at most two hex digits), but in the literal `'\x20abc'` the digits a, b, c are swallowed too: it denotes
U+20ABC, not a space followed by "abc". -/
theorem C05_following_text_counterexample :
    resolve [92, 120, 50, 48] = .ok [32] ∧ resolve [97, 98, 99] = .ok [97, 98, 99] ∧
    resolve ([92, 120, 50, 48] ++ [97, 98, 99]) = .ok (encodeCodepoint 0x20ABC) ∧
    resolve ([92, 120, 50, 48] ++ [97, 98, 99]) ≠ .ok ([32] ++ [97, 98, 99]) := by decide +kernel

/-- C05: a character after an octal escape that is a *decimal* digit is swallowed as well: the grammar reads
`\18` as `\1` followed by `8`; the literal denotes U+0010. -/
theorem C05_octal_counterexample :
    resolve [92, 49] = .ok [1] ∧ resolve [92, 49, 56] = .ok [16] := by decide +kernel

/-- C05: nine hex digits overflow `int` (undefined behaviour): `'\u00010FFFF' 'F'`-style runs. -/
theorem C05_overflow_ub : ∃ s w, resolve s = .ub w :=
  ⟨[92, 120, 102, 102, 102, 102, 102, 102, 102, 102], "signed integer overflow in numeric escape",
    by decide +kernel⟩

/-- C04/C05: the only ways to undefined behaviour are a trailing backslash and too long a number: if every
backslash is followed by a one-character escape, the result is defined. -/
theorem C04_simple_defined (s : List (Byte ⊕ Byte))
    (h : ∀ x ∈ s, match x with
      | .inl c => c ≠ 92
      | .inr e => (escTable.lookup e).isSome) :
    resolve (s.flatMap fun x => match x with | .inl c => [c] | .inr e => [92, e]) =
      .ok (s.map fun x => match x with | .inl c => c | .inr e => (escTable.lookup e).getD 0) := by
  simp only [← C04_escape_table] at h ⊢
  induction s with
  | nil => exact resolve_nil
  | cons x s ih =>
    have ih := ih (fun y hy => h y (by simp [hy]))
    have hx := h x (by simp)
    rcases x with c | e
    · simp only [List.flatMap_cons, List.cons_append, List.nil_append, List.map_cons] at hx ⊢
      rw [resolve_plain c _ hx, ih]; rfl
    · simp only [List.flatMap_cons, List.cons_append, List.nil_append, List.map_cons] at hx ⊢
      obtain ⟨b, hb⟩ := Option.isSome_iff_exists.mp hx
      rw [resolve_simple e b _ hb, ih, hb]; rfl

example : ∀ x ∈ ([.inl 97, .inr 110, .inr 92] : List (Byte ⊕ Byte)), match x with
      | .inl c => c ≠ 92
      | .inr e => (escTable.lookup e).isSome := by
  simp only [List.mem_cons, List.not_mem_nil, or_false, forall_eq_or_imp, forall_eq]; decide +kernel

end Verif.Props
