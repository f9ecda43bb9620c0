import Verif.Basic
/-!
# UTF-8 helpers of peglib.h (lines 91-218)

Code points (`char32_t`) are natural numbers.  All bit operations are kept as in the source.
A C string `(s8, l)` is the list of its `l` bytes, so "reading past `l`" is impossible by construction only
where the code guards the read by `l`; the guards are modelled as pattern matches on the list.
-/

namespace Verif
namespace Utf8

/-- peglib.h 91-105 `codepoint_length(s8, l)`. -/
def codepointLength (s : List Byte) : Nat :=
  match s with
  | [] => 0
  | c :: _ =>
    let b := c.toNat
    if b &&& 0x80 = 0 then 1
    else if b &&& 0xE0 = 0xC0 ∧ 2 ≤ s.length then 2
    else if b &&& 0xF0 = 0xE0 ∧ 3 ≤ s.length then 3
    else if b &&& 0xF8 = 0xF0 ∧ 4 ≤ s.length then 4
    else 0

/-- peglib.h 107-119 `codepoint_count`: the `for` loop (a zero length counts as one byte). -/
def codepointCount (s : List Byte) : Nat :=
  match h : s with
  | [] => 0
  | _ :: _ => 1 + codepointCount (s.drop (max 1 (codepointLength s)))
termination_by s.length
decreasing_by subst h; simp [List.length_drop]; omega

/-- peglib.h 129-155 (`static_cast<char>`): The low byte of a natural number (`static_cast<char>`). -/
def toByte (n : Nat) : Byte := UInt8.ofNat n

/-- peglib.h 121-156 `encode_codepoint`; the returned length is the length of the list. -/
def encodeCodepoint (cp : Nat) : List Byte :=
  if cp < 0x80 then [toByte (cp &&& 0x7F)]
  else if cp < 0x800 then
    [toByte (0xC0 ||| ((cp >>> 6) &&& 0x1F)), toByte (0x80 ||| (cp &&& 0x3F))]
  else if cp < 0xD800 then
    [toByte (0xE0 ||| ((cp >>> 12) &&& 0xF)), toByte (0x80 ||| ((cp >>> 6) &&& 0x3F)),
     toByte (0x80 ||| (cp &&& 0x3F))]
  else if cp < 0xE000 then []
  else if cp < 0x10000 then
    [toByte (0xE0 ||| ((cp >>> 12) &&& 0xF)), toByte (0x80 ||| ((cp >>> 6) &&& 0x3F)),
     toByte (0x80 ||| (cp &&& 0x3F))]
  else if cp < 0x110000 then
    [toByte (0xF0 ||| ((cp >>> 18) &&& 0x7)), toByte (0x80 ||| ((cp >>> 12) &&& 0x3F)),
     toByte (0x80 ||| ((cp >>> 6) &&& 0x3F)), toByte (0x80 ||| (cp &&& 0x3F))]
  else []

/-- peglib.h 158-193 `decode_codepoint(s8, l, bytes, cp)`; `none` is the `false` return.
`s8[i] & 0x1F` etc. act on a (possibly signed) `char`, but the mask makes the value non-negative. -/
def decodeCodepoint? (s : List Byte) : Option (Nat × Nat) :=
  match s with
  | [] => none
  | c :: t =>
    let b := c.toNat
    if b &&& 0x80 = 0 then some (1, b)
    else if b &&& 0xE0 = 0xC0 then
      match t with
      | c1 :: _ => some (2, ((b &&& 0x1F) <<< 6) ||| (c1.toNat &&& 0x3F))
      | _ => none
    else if b &&& 0xF0 = 0xE0 then
      match t with
      | c1 :: c2 :: _ =>
        some (3, ((b &&& 0x0F) <<< 12) ||| ((c1.toNat &&& 0x3F) <<< 6) ||| (c2.toNat &&& 0x3F))
      | _ => none
    else if b &&& 0xF8 = 0xF0 then
      match t with
      | c1 :: c2 :: c3 :: _ =>
        some (4, ((b &&& 0x07) <<< 18) ||| ((c1.toNat &&& 0x3F) <<< 12) |||
          ((c2.toNat &&& 0x3F) <<< 6) ||| (c3.toNat &&& 0x3F))
      | _ => none
    else none

/-- peglib.h 195-199 `size_t decode_codepoint(s8, l, cp)`: length (0 on failure) and the code point written.
Callers (1836, 1923, 207) initialise `cp` to 0, and it is left unchanged on failure. -/
def decodeLenCp (s : List Byte) : Nat × Nat :=
  match decodeCodepoint? s with
  | some r => r
  | none => (0, 0)

/-- peglib.h 201-205 `char32_t decode_codepoint(s8, l)`. -/
def decodeOr0 (s : List Byte) : Nat := (decodeLenCp s).2

/-- The inner `while` of peglib.h 212: bytes `10xxxxxx`. -/
def isCont (b : Byte) : Bool := b.toNat &&& 0xC0 = 0x80

/-- peglib.h 207-218 `decode(s8, l)`: split at non-continuation bytes and decode each piece. -/
def decode (s : List Byte) : List Nat :=
  match h : s with
  | [] => []
  | c :: t =>
    decodeOr0 (c :: t.takeWhile isCont) :: decode (t.dropWhile isCont)
termination_by s.length
decreasing_by
  subst h; simp
  have : (t.dropWhile isCont).length ≤ t.length := (List.dropWhile_sublist _).length_le
  omega

/-! ## Specification vocabulary -/

/-- Unicode scalar values. -/
def IsScalar (cp : Nat) : Prop := cp < 0x110000 ∧ ¬ (0xD800 ≤ cp ∧ cp < 0xE000)

instance (cp : Nat) : Decidable (IsScalar cp) := by unfold IsScalar; infer_instance

/-! ## Lemmas -/

theorem byte_lt (b : Byte) : b.toNat < 256 := b.toNat_lt

theorem toByte_toNat {n : Nat} (h : n < 256) : (toByte n).toNat = n := by
  simp [toByte, UInt8.toNat_ofNat']; omega

theorem byte_all {P : Nat → Prop} [DecidablePred P] (h : ∀ i : Fin 256, P i.val) (b : Byte) : P b.toNat :=
  h ⟨b.toNat, byte_lt b⟩

theorem and80 (b : Byte) : b.toNat &&& 0x80 = 0 ↔ b.toNat < 0x80 :=
  byte_all (P := fun n => n &&& 0x80 = 0 ↔ n < 0x80) (by decide +kernel) b
theorem andE0 (b : Byte) : b.toNat &&& 0xE0 = 0xC0 ↔ 0xC0 ≤ b.toNat ∧ b.toNat < 0xE0 :=
  byte_all (P := fun n => n &&& 0xE0 = 0xC0 ↔ 0xC0 ≤ n ∧ n < 0xE0) (by decide +kernel) b
theorem andF0 (b : Byte) : b.toNat &&& 0xF0 = 0xE0 ↔ 0xE0 ≤ b.toNat ∧ b.toNat < 0xF0 :=
  byte_all (P := fun n => n &&& 0xF0 = 0xE0 ↔ 0xE0 ≤ n ∧ n < 0xF0) (by decide +kernel) b
theorem andF8 (b : Byte) : b.toNat &&& 0xF8 = 0xF0 ↔ 0xF0 ≤ b.toNat ∧ b.toNat < 0xF8 :=
  byte_all (P := fun n => n &&& 0xF8 = 0xF0 ↔ 0xF0 ≤ n ∧ n < 0xF8) (by decide +kernel) b
theorem andC0 (b : Byte) : b.toNat &&& 0xC0 = 0x80 ↔ 0x80 ≤ b.toNat ∧ b.toNat < 0xC0 :=
  byte_all (P := fun n => n &&& 0xC0 = 0x80 ↔ 0x80 ≤ n ∧ n < 0xC0) (by decide +kernel) b

theorem and_mask (n k : Nat) : n &&& (2 ^ k - 1) = n % 2 ^ k := Nat.and_two_pow_sub_one_eq_mod n k
theorem and3F (n : Nat) : n &&& 0x3F = n % 64 := and_mask n 6
theorem and1F (n : Nat) : n &&& 0x1F = n % 32 := and_mask n 5
theorem and0F (n : Nat) : n &&& 0xF = n % 16 := and_mask n 4
theorem and07 (n : Nat) : n &&& 0x7 = n % 8 := and_mask n 3
theorem and7F (n : Nat) : n &&& 0x7F = n % 128 := and_mask n 7

theorem or80 {x : Nat} (h : x < 64) : 0x80 ||| x = 128 + x := by
  have := Nat.shiftLeft_add_eq_or_of_lt (b := x) (i := 6) h 2
  simpa [Nat.shiftLeft_eq] using this.symm
theorem orC0 {x : Nat} (h : x < 32) : 0xC0 ||| x = 192 + x := by
  have := Nat.shiftLeft_add_eq_or_of_lt (b := x) (i := 5) h 6
  simpa [Nat.shiftLeft_eq] using this.symm
theorem orE0 {x : Nat} (h : x < 16) : 0xE0 ||| x = 224 + x := by
  have := Nat.shiftLeft_add_eq_or_of_lt (b := x) (i := 4) h 14
  simpa [Nat.shiftLeft_eq] using this.symm
theorem orF0 {x : Nat} (h : x < 8) : 0xF0 ||| x = 240 + x := by
  have := Nat.shiftLeft_add_eq_or_of_lt (b := x) (i := 3) h 30
  simpa [Nat.shiftLeft_eq] using this.symm

theorem sh6or {a b : Nat} (h : b < 64) : (a <<< 6) ||| b = a * 64 + b := by
  have := Nat.shiftLeft_add_eq_or_of_lt (b := b) (i := 6) h a
  rw [← this, Nat.shiftLeft_eq]
theorem sh12or {a b : Nat} (h : b < 4096) : (a <<< 12) ||| b = a * 4096 + b := by
  have := Nat.shiftLeft_add_eq_or_of_lt (b := b) (i := 12) h a
  rw [← this, Nat.shiftLeft_eq]
theorem sh18or {a b : Nat} (h : b < 262144) : (a <<< 18) ||| b = a * 262144 + b := by
  have := Nat.shiftLeft_add_eq_or_of_lt (b := b) (i := 18) h a
  rw [← this, Nat.shiftLeft_eq]

/-- Arithmetic reading of `encodeCodepoint`. -/
theorem encode_eq (cp : Nat) : encodeCodepoint cp =
    if cp < 0x80 then [toByte cp]
    else if cp < 0x800 then [toByte (192 + cp / 64 % 32), toByte (128 + cp % 64)]
    else if cp < 0xD800 then
      [toByte (224 + cp / 4096 % 16), toByte (128 + cp / 64 % 64), toByte (128 + cp % 64)]
    else if cp < 0xE000 then []
    else if cp < 0x10000 then
      [toByte (224 + cp / 4096 % 16), toByte (128 + cp / 64 % 64), toByte (128 + cp % 64)]
    else if cp < 0x110000 then
      [toByte (240 + cp / 262144 % 8), toByte (128 + cp / 4096 % 64), toByte (128 + cp / 64 % 64),
       toByte (128 + cp % 64)]
    else [] := by
  unfold encodeCodepoint
  simp only [and3F, and1F, and0F, and07, and7F, Nat.shiftRight_eq_div_pow]
  rw [or80 (Nat.mod_lt _ (by decide)), or80 (Nat.mod_lt _ (by decide)), or80 (Nat.mod_lt _ (by decide)),
    orC0 (Nat.mod_lt _ (by decide)), orE0 (Nat.mod_lt _ (by decide)), orF0 (Nat.mod_lt _ (by decide))]
  split
  · rw [Nat.mod_eq_of_lt (by assumption)]
  · rfl

/-- Arithmetic reading of the decoder. -/
theorem decode_eq (s : List Byte) : decodeCodepoint? s =
    match s with
    | [] => none
    | c :: t =>
      if c.toNat < 0x80 then some (1, c.toNat)
      else if 0xC0 ≤ c.toNat ∧ c.toNat < 0xE0 then
        match t with
        | c1 :: _ => some (2, c.toNat % 32 * 64 + c1.toNat % 64)
        | _ => none
      else if 0xE0 ≤ c.toNat ∧ c.toNat < 0xF0 then
        match t with
        | c1 :: c2 :: _ => some (3, c.toNat % 16 * 4096 + (c1.toNat % 64 * 64 + c2.toNat % 64))
        | _ => none
      else if 0xF0 ≤ c.toNat ∧ c.toNat < 0xF8 then
        match t with
        | c1 :: c2 :: c3 :: _ =>
          some (4, c.toNat % 8 * 262144 + (c1.toNat % 64 * 4096 + (c2.toNat % 64 * 64 + c3.toNat % 64)))
        | _ => none
      else none := by
  unfold decodeCodepoint?
  simp only [and80, andE0, andF0, andF8, and3F, and1F, and0F, and07]
  rcases s with _ | ⟨c, t⟩
  · rfl
  simp only
  split
  · rfl
  split
  · rcases t with _ | ⟨c1, t⟩
    · rfl
    · simp only; rw [sh6or (Nat.mod_lt _ (by decide))]
  split
  · rcases t with _ | ⟨c1, _ | ⟨c2, t⟩⟩
    · rfl
    · rfl
    · simp only
      rw [Nat.or_assoc, sh6or (Nat.mod_lt _ (by decide)), sh12or]
      have := Nat.mod_lt c1.toNat (y := 64) (by decide)
      have := Nat.mod_lt c2.toNat (y := 64) (by decide)
      omega
  split
  · rcases t with _ | ⟨c1, _ | ⟨c2, _ | ⟨c3, t⟩⟩⟩
    · rfl
    · rfl
    · rfl
    · simp only
      have := Nat.mod_lt c1.toNat (y := 64) (by decide)
      have := Nat.mod_lt c2.toNat (y := 64) (by decide)
      have := Nat.mod_lt c3.toNat (y := 64) (by decide)
      rw [Nat.or_assoc, Nat.or_assoc, sh6or (by omega), sh12or (by omega), sh18or (by omega)]
  · rfl

theorem length_eq (s : List Byte) : codepointLength s =
    match s with
    | [] => 0
    | c :: _ =>
      if c.toNat < 0x80 then 1
      else if (0xC0 ≤ c.toNat ∧ c.toNat < 0xE0) ∧ 2 ≤ s.length then 2
      else if (0xE0 ≤ c.toNat ∧ c.toNat < 0xF0) ∧ 3 ≤ s.length then 3
      else if (0xF0 ≤ c.toNat ∧ c.toNat < 0xF8) ∧ 4 ≤ s.length then 4
      else 0 := by
  unfold codepointLength
  simp only [and80, andE0, andF0, andF8]

theorem codepointLength_le (s : List Byte) : codepointLength s ≤ s.length := by
  rw [length_eq]
  rcases s with _ | ⟨c, t⟩
  · simp
  · simp only [List.length_cons]
    repeat' split
    all_goals omega

theorem codepointLength_le4 (s : List Byte) : codepointLength s ≤ 4 := by
  rw [length_eq]
  rcases s with _ | ⟨c, t⟩
  · simp
  · simp only
    repeat' split
    all_goals omega

theorem decodeLen_eq_length (s : List Byte) : (decodeLenCp s).1 = codepointLength s := by
  unfold decodeLenCp
  rw [decode_eq, length_eq]
  rcases s with _ | ⟨c, t⟩
  · rfl
  · rcases t with _ | ⟨c1, _ | ⟨c2, _ | ⟨c3, t⟩⟩⟩ <;> simp only [List.length_cons, List.length_nil]
    all_goals
      by_cases h1 : c.toNat < 0x80
      · simp [h1]
      · by_cases h2 : 0xC0 ≤ c.toNat ∧ c.toNat < 0xE0
        · simp [h1, h2, show ¬ (c.toNat < 0xC0) by omega]
          try omega
        · by_cases h3 : 0xE0 ≤ c.toNat ∧ c.toNat < 0xF0
          · simp [h1, h2, h3]
            try omega
          · by_cases h4 : 0xF0 ≤ c.toNat ∧ c.toNat < 0xF8
            · simp [h1, h2, h3, h4]
              try omega
            · simp [h1, h2, h3, h4]

/-- The four byte shapes of an encoded scalar value. -/
theorem encode_cases {cp : Nat} (h : IsScalar cp) :
    (cp < 0x80 ∧ encodeCodepoint cp = [toByte cp]) ∨
    (0x80 ≤ cp ∧ cp < 0x800 ∧ encodeCodepoint cp = [toByte (192 + cp / 64 % 32), toByte (128 + cp % 64)]) ∨
    (0x800 ≤ cp ∧ cp < 0x10000 ∧ encodeCodepoint cp =
      [toByte (224 + cp / 4096 % 16), toByte (128 + cp / 64 % 64), toByte (128 + cp % 64)]) ∨
    (0x10000 ≤ cp ∧ cp < 0x110000 ∧ encodeCodepoint cp =
      [toByte (240 + cp / 262144 % 8), toByte (128 + cp / 4096 % 64), toByte (128 + cp / 64 % 64),
       toByte (128 + cp % 64)]) := by
  obtain ⟨h1, h2⟩ := h
  rw [encode_eq]
  by_cases a1 : cp < 0x80
  · exact Or.inl ⟨a1, by rw [if_pos a1]⟩
  by_cases a2 : cp < 0x800
  · exact Or.inr (Or.inl ⟨by omega, a2, by rw [if_neg a1, if_pos a2]⟩)
  by_cases a3 : cp < 0xD800
  · exact Or.inr (Or.inr (Or.inl ⟨by omega, by omega, by rw [if_neg a1, if_neg a2, if_pos a3]⟩))
  have a4 : ¬ cp < 0xE000 := by omega
  by_cases a5 : cp < 0x10000
  · exact Or.inr (Or.inr (Or.inl ⟨by omega, by omega,
      by rw [if_neg a1, if_neg a2, if_neg a3, if_neg a4, if_pos a5]⟩))
  · exact Or.inr (Or.inr (Or.inr ⟨by omega, by omega,
      by rw [if_neg a1, if_neg a2, if_neg a3, if_neg a4, if_neg a5, if_pos h1]⟩))

theorem decode_encode_append (cp : Nat) (h : IsScalar cp) (rest : List Byte) :
    decodeCodepoint? (encodeCodepoint cp ++ rest) = some ((encodeCodepoint cp).length, cp) := by
  rcases encode_cases h with ⟨h1, e⟩ | ⟨h0, h1, e⟩ | ⟨h0, h1, e⟩ | ⟨h0, h1, e⟩ <;> rw [e, decode_eq] <;>
    simp only [List.cons_append, List.length_cons, List.length_nil, List.nil_append]
  · rw [toByte_toNat (by omega), if_pos (by omega)]
  · rw [toByte_toNat (by omega), toByte_toNat (by omega)]
    rw [if_neg (by omega), if_pos (by omega)]
    simp; omega
  · rw [toByte_toNat (by omega), toByte_toNat (by omega), toByte_toNat (by omega)]
    rw [if_neg (by omega), if_neg (by omega), if_pos (by omega)]
    simp; omega
  · rw [toByte_toNat (by omega), toByte_toNat (by omega), toByte_toNat (by omega), toByte_toNat (by omega)]
    rw [if_neg (by omega), if_neg (by omega), if_neg (by omega), if_pos (by omega)]
    simp; omega

theorem encode_length_pos {cp : Nat} (h : IsScalar cp) : 0 < (encodeCodepoint cp).length := by
  obtain ⟨h1, h2⟩ := h
  rw [encode_eq]
  repeat' split
  all_goals first | omega | simp

theorem encode_length_le (cp : Nat) : (encodeCodepoint cp).length ≤ 4 := by
  rw [encode_eq]
  repeat' split
  all_goals simp

theorem codepointLength_encode (cp : Nat) (h : IsScalar cp) (rest : List Byte) :
    codepointLength (encodeCodepoint cp ++ rest) = (encodeCodepoint cp).length := by
  rw [← decodeLen_eq_length]
  simp [decodeLenCp, decode_encode_append cp h rest]

theorem codepointCount_nil : codepointCount [] = 0 := by rw [codepointCount]

theorem codepointCount_cons (c : Byte) (t : List Byte) :
    codepointCount (c :: t) = 1 + codepointCount ((c :: t).drop (max 1 (codepointLength (c :: t)))) := by
  rw [codepointCount]

/-- All bytes of an encoding after the first are continuation bytes, the first is not. -/
theorem encode_shape {cp : Nat} (h : IsScalar cp) :
    ∃ c t, encodeCodepoint cp = c :: t ∧ isCont c = false ∧ ∀ b ∈ t, isCont b = true := by
  have hc : ∀ b : Byte, isCont b = decide (0x80 ≤ b.toNat ∧ b.toNat < 0xC0) := by
    intro b; simp [isCont, andC0]
  rcases encode_cases h with ⟨h1, e⟩ | ⟨h0, h1, e⟩ | ⟨h0, h1, e⟩ | ⟨h0, h1, e⟩ <;>
    refine ⟨_, _, e, by rw [hc, toByte_toNat (by omega)]; simp <;> omega, ?_⟩ <;>
    simp only [List.mem_cons, List.not_mem_nil, or_false, forall_eq_or_imp, forall_eq, false_implies,
      implies_true] <;> (try simp only [hc]) 
  · rw [toByte_toNat (by omega)]; simp; omega
  · rw [toByte_toNat (by omega), toByte_toNat (by omega)]; simp; omega
  · rw [toByte_toNat (by omega), toByte_toNat (by omega), toByte_toNat (by omega)]
    simp; omega

end Utf8
end Verif
