import Verif.Utf8
/-! # Properties of the UTF-8 helpers (C01, C02, C03) -/
namespace Verif.Props
open Verif.Utf8

/-- C01. Decoding what was encoded (whatever follows in the buffer) gives back the code point and the number of
bytes written. -/
theorem C01_decode_encode (cp : Nat) (h : IsScalar cp) (rest : List Byte) :
    decodeCodepoint? (encodeCodepoint cp ++ rest) = some ((encodeCodepoint cp).length, cp) :=
  decode_encode_append cp h rest

/-- C01. Exactly the non-scalar values (surrogates, > U+10FFFF) are encoded as nothing. -/
theorem C01_encode_empty_iff (cp : Nat) : encodeCodepoint cp = [] ↔ ¬ IsScalar cp := by
  constructor
  · intro h hs
    have := encode_length_pos hs
    simp [h] at this
  · intro h
    unfold IsScalar at h
    rw [encode_eq]
    repeat' split
    all_goals first | rfl | omega

/-- C01. The encoding is injective on scalar values, even as a prefix code: no encoding is a proper prefix of
another (so text has one reading). -/
theorem C01_prefix_free (a b : Nat) (ha : IsScalar a) (hb : IsScalar b) (r r' : List Byte)
    (h : encodeCodepoint a ++ r = encodeCodepoint b ++ r') : a = b ∧ r = r' := by
  have h1 := decode_encode_append a ha r
  rw [h, decode_encode_append b hb r'] at h1
  simp at h1
  obtain ⟨_, rfl⟩ := h1
  exact ⟨rfl, List.append_cancel_left h⟩

example : IsScalar 0x20AC ∧ IsScalar 0x10FFFF ∧ ¬ IsScalar 0xD800 := by decide
example : encodeCodepoint 0x20AC = [0xE2, 0x82, 0xAC] := by decide +kernel

/-- C02. Neither function reports more bytes than the buffer holds. -/
theorem C02_length_le (s : List Byte) : codepointLength s ≤ s.length := codepointLength_le s

theorem C02_decode_length_le (s : List Byte) (k cp : Nat) (h : decodeCodepoint? s = some (k, cp)) :
    1 ≤ k ∧ k ≤ 4 ∧ k ≤ s.length := by
  have h1 : (decodeLenCp s).1 = k := by simp [decodeLenCp, h]
  rw [decodeLen_eq_length] at h1
  refine ⟨?_, h1 ▸ codepointLength_le4 s, h1 ▸ codepointLength_le s⟩
  rw [decode_eq] at h
  rcases s with _ | ⟨c, t⟩
  · simp at h
  · simp only at h
    repeat' split at h
    all_goals simp at h
    all_goals omega

/-- C02. The two functions agree on the length. -/
theorem C02_agree (s : List Byte) : (decodeLenCp s).1 = codepointLength s := decodeLen_eq_length s

/-- Bytes a UTF-8 lead byte asks for; 0 for a byte that is no lead byte (independent description). -/
def needs (b : Byte) : Nat :=
  if b.toNat < 0x80 then 1 else if b.toNat < 0xC0 then 0 else if b.toNat < 0xE0 then 2
  else if b.toNat < 0xF0 then 3 else if b.toNat < 0xF8 then 4 else 0

/-- C02. Length 0 is reported exactly for an empty buffer, a byte that cannot start a character, or a
truncated character; otherwise the length is what the lead byte asks for. -/
theorem C02_length_spec (s : List Byte) : codepointLength s =
    match s with
    | [] => 0
    | b :: _ => if needs b ≤ s.length then needs b else 0 := by
  rw [length_eq]
  rcases s with _ | ⟨c, t⟩
  · rfl
  · simp only [needs, List.length_cons]
    have := byte_lt c
    repeat' split
    all_goals omega

/-- C02 (consequence). A code point decoded from any bytes fits in 21 bits. -/
theorem C02_cp_bound (s : List Byte) : (decodeLenCp s).2 < 0x200000 := by
  unfold decodeLenCp
  rw [decode_eq]
  rcases s with _ | ⟨c, t⟩
  · simp
  · simp only
    by_cases h1 : c.toNat < 0x80
    · simp [h1]; omega
    by_cases h2 : 0xC0 ≤ c.toNat ∧ c.toNat < 0xE0
    · rcases t with _ | ⟨c1, t⟩ <;> simp [h1, h2]; omega
    by_cases h3 : 0xE0 ≤ c.toNat ∧ c.toNat < 0xF0
    · rcases t with _ | ⟨c1, _ | ⟨c2, t⟩⟩ <;> simp [h1, h2, h3]; omega
    by_cases h4 : 0xF0 ≤ c.toNat ∧ c.toNat < 0xF8
    · rcases t with _ | ⟨c1, _ | ⟨c2, _ | ⟨c3, t⟩⟩⟩ <;> simp [h1, h2, h3, h4]; omega
    simp [h1, h2, h3, h4]

example : codepointLength [0xE2, 0x82] = 0 ∧ codepointLength [0x80] = 0 ∧
    codepointLength [0xE2, 0x82, 0xAC, 0x41] = 3 := by decide +kernel

/-- C03. Counting code points of well-formed text gives the number of characters. -/
theorem C03_count_encoded (cps : List Nat) (h : ∀ cp ∈ cps, IsScalar cp) :
    codepointCount (cps.flatMap encodeCodepoint) = cps.length := by
  induction cps with
  | nil => simp [codepointCount_nil]
  | cons cp cps ih =>
    have hs := h cp (by simp)
    obtain ⟨c, t, he, -, -⟩ := encode_shape hs
    have hl := codepointLength_encode cp hs (cps.flatMap encodeCodepoint)
    have hp := encode_length_pos hs
    simp only [List.flatMap_cons, List.length_cons]
    rw [he] at hl hp ⊢
    simp only [List.cons_append] at hl ⊢
    rw [codepointCount_cons, hl, Nat.max_eq_right hp, ← List.cons_append, List.drop_left,
      ih (fun x hx => h x (by simp [hx]))]
    omega

/-- C03. On arbitrary bytes the count is at most the number of bytes and at least a quarter of it. -/
theorem C03_count_bounds (s : List Byte) : codepointCount s ≤ s.length ∧ s.length ≤ 4 * codepointCount s := by
  induction hn : s.length using Nat.strongRecOn generalizing s with
  | _ n ih =>
    rcases s with _ | ⟨c, t⟩
    · simp at hn; subst hn; simp [codepointCount_nil]
    · rw [codepointCount_cons]
      have h1 := codepointLength_le (c :: t)
      have h2 := codepointLength_le4 (c :: t)
      have hlen : ((c :: t).drop (max 1 (codepointLength (c :: t)))).length
          = n - max 1 (codepointLength (c :: t)) := by rw [List.length_drop, hn]
      simp only [List.length_cons] at hn h1
      have := ih _ (by omega) ((c :: t).drop (max 1 (codepointLength (c :: t)))) hlen
      omega

/-- C03. The column count never depends on how text is split at a character boundary. -/
theorem C03_count_append (cps : List Nat) (h : ∀ cp ∈ cps, IsScalar cp) (rest : List Byte) :
    codepointCount (cps.flatMap encodeCodepoint ++ rest) = cps.length + codepointCount rest := by
  induction cps with
  | nil => simp
  | cons cp cps ih =>
    have hs := h cp (by simp)
    obtain ⟨c, t, he, -, -⟩ := encode_shape hs
    have hl := codepointLength_encode cp hs (cps.flatMap encodeCodepoint ++ rest)
    have hp := encode_length_pos hs
    simp only [List.flatMap_cons, List.length_cons, List.append_assoc]
    rw [he] at hl hp ⊢
    simp only [List.cons_append] at hl ⊢
    rw [codepointCount_cons, hl, Nat.max_eq_right hp, ← List.cons_append, List.drop_left,
      ih (fun x hx => h x (by simp [hx]))]
    omega

/-- `decode` (used to read the characters of a class) returns the characters that were encoded. -/
theorem C01_decode_text (cps : List Nat) (h : ∀ cp ∈ cps, IsScalar cp) :
    decode (cps.flatMap encodeCodepoint) = cps := by
  induction cps with
  | nil => rw [List.flatMap_nil, decode]
  | cons cp cps ih =>
    have hs := h cp (by simp)
    have ih := ih (fun x hx => h x (by simp [hx]))
    obtain ⟨c, t, he, hc, ht⟩ := encode_shape hs
    have htail : ∀ x, (cps.flatMap encodeCodepoint).head? = some x → isCont x = false := by
      intro x hx
      rcases cps with _ | ⟨cp', cps⟩
      · simp at hx
      · obtain ⟨c', t', he', hc', -⟩ := encode_shape (h cp' (by simp))
        simp [List.flatMap_cons, he'] at hx
        rw [← hx]; exact hc'
    have htk : (t ++ cps.flatMap encodeCodepoint).takeWhile isCont = t := by
      rw [List.takeWhile_append_of_pos ht]
      rcases hh : cps.flatMap encodeCodepoint with _ | ⟨x, xs⟩
      · simp
      · have := htail x (by rw [hh]; rfl)
        simp [List.takeWhile_cons, this]
    have hdk : (t ++ cps.flatMap encodeCodepoint).dropWhile isCont = cps.flatMap encodeCodepoint := by
      rw [List.dropWhile_append_of_pos ht]
      rcases hh : cps.flatMap encodeCodepoint with _ | ⟨x, xs⟩
      · simp
      · have := htail x (by rw [hh]; rfl)
        simp [List.dropWhile_cons, this]
    simp only [List.flatMap_cons, he, List.cons_append]
    rw [decode, htk, hdk, ih]
    have hd := decode_encode_append cp hs []
    rw [List.append_nil, he] at hd
    simp [decodeOr0, decodeLenCp, hd]

example : decode [0x61, 0xE2, 0x82, 0xAC] = [0x61, 0x20AC] := by decide +kernel

end Verif.Props
