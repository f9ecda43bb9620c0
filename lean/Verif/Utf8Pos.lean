import Verif.Check
import Verif.Props.Text
import Verif.Props.Trie
import Verif.Props.CharClass
/-!
# Character boundaries of UTF-8 text

The positions of a well-formed UTF-8 input at which a character starts (and its end) form a position predicate in the sense of
`AlOk`: single characters, literals and dictionaries that are themselves UTF-8, and back references lead from boundary to
boundary.
-/

namespace Verif
open Utf8 CharClass Props

/-- Well-formed UTF-8: the encoding of a list of scalar values. -/
def Text (s : List Byte) : Prop := ∃ cs : List Nat, (∀ c ∈ cs, IsScalar c) ∧ s = cs.flatMap encodeCodepoint

/-- A character boundary of `input`. -/
def Bdry (input : List Byte) (i : Nat) : Prop := Text (input.drop i)

theorem Text.nil : Text [] := ⟨[], by simp, rfl⟩

theorem Text.cases {s : List Byte} (h : Text s) : s = [] ∨ ∃ c t, IsScalar c ∧ Text t ∧ s = encodeCodepoint c ++ t := by
  obtain ⟨cs, h1, h2⟩ := h
  cases cs with
  | nil => exact Or.inl (by simpa [Cfg.rest] using h2)
  | cons c cs => exact Or.inr ⟨c, cs.flatMap encodeCodepoint, h1 c (by simp), ⟨cs, fun x hx => h1 x (by simp [hx]), rfl⟩, by
      rw [h2, List.flatMap_cons]⟩

theorem Text.cons {c : Nat} {t : List Byte} (hc : IsScalar c) (ht : Text t) : Text (encodeCodepoint c ++ t) := by
  obtain ⟨cs, h1, h2⟩ := ht
  exact ⟨c :: cs, by simpa using ⟨hc, h1⟩, by rw [List.flatMap_cons, h2]⟩

theorem Text.proper {s : List Byte} (h : Text s) : Proper s := by
  obtain ⟨cs, h1, h2⟩ := h
  rw [h2]
  exact proper_encoded cs h1

theorem Text.drop_len {s : List Byte} (h : Text s) : Text (s.drop (decodeLenCp s).1) := by
  rcases h.cases with rfl | ⟨c, t, hc, ht, rfl⟩
  · exact Text.nil
  · simp only [decodeLenCp, decode_encode_append c hc t]
    simpa using ht

theorem Text.len_ne {s : List Byte} (h : Text s) (h0 : s ≠ []) : (decodeLenCp s).1 ≠ 0 := by
  rcases h.cases with rfl | ⟨c, t, hc, ht, rfl⟩
  · exact absurd rfl h0
  · simp only [decodeLenCp, decode_encode_append c hc t]
    have := encode_length_pos hc
    omega

theorem single_len {e : Ope} {f : List Byte → Option Nat} {s : List Byte} {k : Nat} (h : e.single = some f) (hk : f s = some k) :
    k = (decodeLenCp s).1 := by
  cases e <;> simp only [Ope.single, Option.some.injEq, reduceCtorEq] at h
  · subst h
    cases s with
    | nil => simp [Cls.matchLen] at hk
    | cons b t =>
      simp only [Cls.matchLen] at hk
      split at hk <;> split at hk <;> simp_all
  · subst h
    cases s with
    | nil => simp [matchChar] at hk
    | cons b t =>
      simp only [matchChar] at hk
      split at hk <;> simp_all
  · subst h
    simp only [matchAny] at hk
    split at hk
    · simp at hk
    · rw [decodeLen_eq_length]; simpa using hk.symm

/-! ## Lower-casing -/

def lowerCp (c : Nat) : Nat := if 65 ≤ c ∧ c ≤ 90 then c + 32 else c

theorem isScalar_lower {c : Nat} (h : IsScalar c) : IsScalar (lowerCp c) := by
  unfold IsScalar lowerCp at *
  split <;> omega

theorem lowerByte_high {b : Byte} (h : 0x80 ≤ b.toNat) : Trie.lowerByte b = b := by
  unfold Trie.lowerByte
  rw [if_neg]
  intro ⟨_, h2⟩
  have := UInt8.le_iff_toNat_le.mp h2
  simp at this
  omega

theorem lower_encode {c : Nat} (h : IsScalar c) : Trie.toLower (encodeCodepoint c) = encodeCodepoint (lowerCp c) := by
  rcases encode_cases h with ⟨h1, e⟩ | ⟨h0, h1, e⟩ | ⟨h0, h1, e⟩ | ⟨h0, h1, e⟩
  · have key : ∀ n : Fin 128, Trie.toLower [toByte n.val] = encodeCodepoint (lowerCp n.val) := by decide +kernel
    rw [e]
    exact key ⟨c, h1⟩
  all_goals
    have hl : lowerCp c = c := by unfold lowerCp; rw [if_neg (by omega)]
    rw [hl, e]
    simp only [Trie.toLower, List.map_cons, List.map_nil]
    congr
    all_goals
      refine lowerByte_high ?_
      rw [toByte_toNat (by omega)]
      omega

theorem toLower_append (a b : List Byte) : Trie.toLower (a ++ b) = Trie.toLower a ++ Trie.toLower b := by
  simp [Trie.toLower]

theorem encode_lower_length {c : Nat} (h : IsScalar c) : (encodeCodepoint (lowerCp c)).length = (encodeCodepoint c).length := by
  rw [← lower_encode h, Trie.toLower, List.length_map]

/-- A text that is a prefix of a text, up to case, ends at a character boundary. -/
theorem text_prefix_lower {t s : List Byte} (ht : Text t) (hs : Text s) (h : Trie.toLower t <+: Trie.toLower s) :
    Text (s.drop t.length) := by
  obtain ⟨cs, h1, rfl⟩ := ht
  induction cs generalizing s with
  | nil => simpa using hs
  | cons c cs ih =>
    have hc := h1 c (by simp)
    rcases hs.cases with rfl | ⟨d, s', hd, hs', rfl⟩
    · exfalso
      have := h.length_le
      rw [List.flatMap_cons] at this
      simp only [Trie.toLower, List.length_map, List.length_append, List.length_nil] at this
      have := encode_length_pos hc
      omega
    · rw [List.flatMap_cons, toLower_append, toLower_append, lower_encode hc, lower_encode hd] at h
      obtain ⟨r, hr⟩ := h
      rw [List.append_assoc] at hr
      obtain ⟨he, hr⟩ := C01_prefix_free _ _ (isScalar_lower hc) (isScalar_lower hd) _ _ hr
      have hl : (encodeCodepoint c).length = (encodeCodepoint d).length := by
        rw [← encode_lower_length hc, ← encode_lower_length hd, he]
      rw [List.flatMap_cons, List.length_append, hl, List.drop_append]
      simp only [List.drop_of_length_le (Nat.le_add_right _ _), List.nil_append]
      rw [Nat.add_sub_cancel_left]
      exact ih hs' (fun x hx => h1 x (by simp [hx])) ⟨r, hr⟩

theorem text_prefix {t s : List Byte} (ht : Text t) (hs : Text s) (h : t <+: s) : Text (s.drop t.length) := by
  refine text_prefix_lower ht hs ?_
  obtain ⟨r, rfl⟩ := h
  rw [toLower_append]
  exact List.prefix_append _ _

/-- The part of a text before a character boundary is a text. -/
theorem text_take {s : List Byte} {k : Nat} (hs : Text s) (hk : Text (s.drop k)) : Text (s.take k) := by
  obtain ⟨cs, h1, rfl⟩ := hs
  induction cs generalizing k with
  | nil => simpa using Text.nil
  | cons c cs ih =>
    have hc := h1 c (by simp)
    have h1' : ∀ x ∈ cs, IsScalar x := fun x hx => h1 x (by simp [hx])
    rw [List.flatMap_cons] at hk ⊢
    rcases Nat.eq_zero_or_pos k with rfl | hpos
    · simpa using Text.nil
    · by_cases hlt : k < (encodeCodepoint c).length
      · exfalso
        obtain ⟨b, t, e, hb, ht⟩ := encode_shape hc
        rw [e] at hlt hk
        simp only [List.length_cons] at hlt
        obtain ⟨k', rfl⟩ : ∃ k', k = k' + 1 := ⟨k - 1, by omega⟩
        simp only [List.cons_append, List.drop_succ_cons] at hk
        have hk' : k' < t.length := by omega
        rw [List.drop_append_of_le_length (by omega), List.drop_eq_getElem_cons hk'] at hk
        rcases hk.cases with h0 | ⟨d, s', hd, -, h0⟩
        · cases h0
        · obtain ⟨b', t', e', hb', -⟩ := encode_shape hd
          rw [e'] at h0
          simp only [List.cons_append, List.cons.injEq] at h0
          rw [← h0.1, ht _ (List.getElem_mem hk')] at hb'
          cases hb'
      · have hsplit : k = (encodeCodepoint c).length + (k - (encodeCodepoint c).length) := by omega
        rw [hsplit, List.drop_append, List.drop_of_length_le (Nat.le_add_right _ _), List.nil_append,
          Nat.add_sub_cancel_left] at hk
        rw [hsplit, List.take_append, List.take_of_length_le (Nat.le_add_right _ _), Nat.add_sub_cancel_left]
        exact Text.cons hc (ih h1' hk)

variable {V : Type} {cfg : Cfg V}

theorem bdry_lit {t : List Byte} (ht : Text t) (ic : Bool) (hw : WordAt cfg t 0) : TextOk cfg (Bdry cfg.input) t ic := by
  refine ⟨?_, hw⟩
  intro i hi _ hm
  unfold Bdry at hi ⊢
  rw [← List.drop_drop]
  unfold litMatch at hm
  cases ic with
  | true => exact text_prefix_lower ht hi (List.isPrefixOf_iff_prefix.mp (by simpa [Cfg.rest] using hm))
  | false => exact text_prefix ht hi (List.isPrefixOf_iff_prefix.mp (by simpa [Cfg.rest] using hm))

theorem bdry_dict {ws : List (List Byte)} (hw : ∀ w ∈ ws, Text w) (ic : Bool) {i : Nat} (hi : Bdry cfg.input i) :
    Bdry cfg.input (i + ((Trie.build ws ic).matchText (cfg.rest i)).1) := by
  by_cases h0 : ((Trie.build ws ic).matchText (cfg.rest i)).1 = 0
  · rw [h0]; exact hi
  · obtain ⟨k, id, hk⟩ : ∃ k id, (Trie.build ws ic).matchText (cfg.rest i) = (k, id) := ⟨_, _, rfl⟩
    rw [hk] at h0 ⊢
    obtain ⟨⟨w, h1, ⟨-, h2⟩, h3⟩, -, -⟩ := C09_longest ws ic (cfg.rest i) _ _ hk h0
    show Bdry cfg.input (i + k)
    rw [← h3]
    unfold Bdry at hi ⊢
    rw [← List.drop_drop]
    unfold norm at h2
    cases ic with
    | true => exact text_prefix_lower (hw w h1) hi (by simpa [Cfg.rest] using h2)
    | false => exact text_prefix (hw w h1) hi (by simpa [Cfg.rest] using h2)

theorem alOk_bdry (C : Cert) (hw : ∀ t, Text t → WordAt cfg t 0) : AlOk cfg C (Bdry cfg.input) where
  char := by
    intro e f i k h hi hk
    rw [single_len h hk]
    unfold Bdry at hi ⊢
    rw [← List.drop_drop]
    exact hi.drop_len
  slice := by
    intro i j hi hj hij
    have ht : Text ((cfg.rest i).take (j - i)) := text_take hi ?_
    · exact bdry_lit ht false (hw _ ht)
    show Text ((cfg.input.drop i).drop (j - i))
    rw [List.drop_drop]
    rwa [Nat.add_sub_cancel' hij]
  dec := by
    intro _ i hi hlt
    refine Text.len_ne hi ?_
    intro h
    have := congrArg List.length h
    simp only [Cfg.rest, List.length_drop, List.length_nil] at this
    omega

end Verif
