import Verif.MetaAct
import Verif.Utf8Pos
import Verif.Props.Escape
/-!
# Literals and escapes of the reader

In a UTF-8 text in which numeric escapes are not too long, resolving the escapes of a literal or character is defined.
-/

namespace Verif.Meta
open Verif CharClass Utf8

/-! ## Long numbers -/

/-- The text starts with `n` bytes that satisfy `p`. -/
def Starts (p : Byte → Bool) (n : Nat) (s : List Byte) : Prop := ∃ ds post, s = ds ++ post ∧ ds.length = n ∧ ∀ d ∈ ds, p d = true

def isHexB (b : Byte) : Bool := (48 ≤ b && b ≤ 57) || (97 ≤ b && b ≤ 102) || (65 ≤ b && b ≤ 70)
def isDecB (b : Byte) : Bool := 48 ≤ b && b ≤ 57

/-- No `\x` or `\u` is followed by eight or more hexadecimal digits, no `\` by eleven or more digits. -/
def ShortEscapes (s : List Byte) : Prop :=
  (∀ a u, s = a ++ 92 :: 120 :: u ∨ s = a ++ 92 :: 117 :: u → ¬ Starts isHexB 8 u) ∧ ∀ a u, s = a ++ 92 :: u → ¬ Starts isDecB 11 u

theorem Starts.append {p : Byte → Bool} {n : Nat} {s : List Byte} (h : Starts p n s) (t : List Byte) : Starts p n (s ++ t) := by
  obtain ⟨ds, post, rfl, h1, h2⟩ := h
  exact ⟨ds, post ++ t, by simp, h1, h2⟩

theorem ShortEscapes.infix {a s b : List Byte} (h : ShortEscapes (a ++ s ++ b)) : ShortEscapes s := by
  refine ⟨?_, ?_⟩
  · intro a' u e hs
    rcases e with rfl | rfl
    · exact h.1 (a ++ a') (u ++ b) (.inl (by simp)) (hs.append b)
    · exact h.1 (a ++ a') (u ++ b) (.inr (by simp)) (hs.append b)
  · intro a' u e hs
    subst e
    exact h.2 (a ++ a') (u ++ b) (by simp) (hs.append b)

theorem ShortEscapes.slice {text : List Byte} (h : ShortEscapes text) (p : Nat × Nat) : ShortEscapes (slice text p) := by
  have : text = text.take p.1 ++ Meta.slice text p ++ (text.drop p.1).drop p.2 := by
    unfold Meta.slice
    rw [List.append_assoc, List.take_append_drop, List.take_append_drop]
  rw [this] at h
  exact h.infix

/-- Numbers with fewer digits fit. -/
theorem parseNumber_short {base : Nat} {dig : Byte → Option Nat} {p : Byte → Bool} (hp : ∀ b v, dig b = some v → p b = true ∧ v + 2 ≤ 2 * base) (h1 : 1 ≤ base) :
    ∀ (k : Nat) (s : List Byte) (acc : Nat), ¬ Starts p (k + 1) s → (acc + 2) * base ^ k ≤ 2147483648 →
      ∃ v ds rest, Escape.parseNumber base dig acc s = .ok (v, rest) ∧ s = ds ++ rest ∧ ∀ d ∈ ds, (dig d).isSome = true
  | k, [], acc, _, _ => ⟨acc, [], [], rfl, rfl, by simp⟩
  | k, c :: t, acc, hs, hb => by
    simp only [Escape.parseNumber]
    cases hd : dig c with
    | none => exact ⟨acc, [], c :: t, rfl, rfl, by simp⟩
    | some v =>
      obtain ⟨h2, h3⟩ := hp c v hd
      simp only
      cases k with
      | zero => exact absurd ⟨[c], t, rfl, rfl, by simp [h2]⟩ hs
      | succ k =>
        have h4 : acc * base + v + 2 ≤ (acc + 2) * base := by
          have : (acc + 2) * base = acc * base + 2 * base := by rw [Nat.add_mul]
          omega
        have h5 : (acc * base + v + 2) * base ^ k ≤ 2147483648 := by
          refine Nat.le_trans (Nat.mul_le_mul_right _ h4) ?_
          rw [Nat.mul_assoc, ← Nat.pow_succ']
          exact hb
        have h6 : acc * base + v ≤ Escape.intMax := by
          have : 1 ≤ base ^ k := Nat.one_le_pow _ _ h1
          have h7 : acc * base + v + 2 ≤ (acc * base + v + 2) * base ^ k := Nat.le_mul_of_pos_right _ this
          unfold Escape.intMax
          omega
        rw [if_pos h6]
        obtain ⟨v', ds, rest, e1, e2, e3⟩ := parseNumber_short hp h1 k t (acc * base + v) (by
          rintro ⟨ds, post, e, h7, h8⟩
          exact hs ⟨c :: ds, post, by rw [e]; rfl, by simp [h7], by simp; exact ⟨h2, h8⟩⟩) h5
        exact ⟨v', c :: ds, rest, e1, by rw [e2]; rfl, by simp; exact ⟨by rw [hd]; rfl, e3⟩⟩

theorem isHex_hexB (b : Byte) (v : Nat) (h : Escape.isHex b = some v) : isHexB b = true ∧ v + 2 ≤ 2 * 16 := by
  unfold Escape.isHex at h
  unfold isHexB
  have := b.toNat_lt
  split at h
  · rename_i h'
    cases h
    refine ⟨by simp [h'.1, h'.2], ?_⟩
    have : b.toNat ≤ 57 := h'.2
    omega
  split at h
  · rename_i h'
    cases h
    refine ⟨by simp [h'.1, h'.2], ?_⟩
    have : b.toNat ≤ 102 := h'.2
    omega
  split at h
  · rename_i h'
    cases h
    refine ⟨by simp [h'.1, h'.2], ?_⟩
    have : b.toNat ≤ 70 := h'.2
    omega
  · cases h

theorem isDigit_decB (b : Byte) (v : Nat) (h : Escape.isDigit b = some v) : isDecB b = true ∧ v + 2 ≤ 2 * 8 := by
  unfold Escape.isDigit at h
  unfold isDecB
  split at h
  · rename_i h'
    cases h
    refine ⟨by simp [h'.1, h'.2], ?_⟩
    have : b.toNat ≤ 57 := h'.2
    omega
  · cases h

/-- Every backslash is followed by a byte that it escapes. -/
inductive Esc : List Byte → Prop where
  | nil : Esc []
  | plain {c s} : c ≠ 92 → Esc s → Esc (c :: s)
  | esc {e s} : Esc s → Esc (92 :: e :: s)

theorem Esc.append {s t : List Byte} (h : Esc s) (h' : Esc t) : Esc (s ++ t) := by
  induction h with
  | nil => exact h'
  | plain h1 _ ih => exact .plain h1 ih
  | esc _ ih => exact .esc ih

theorem Esc.of_not_mem {s : List Byte} (h : (92 : Byte) ∉ s) : Esc s := by
  induction s with
  | nil => exact .nil
  | cons c s ih =>
    simp only [List.mem_cons, not_or] at h
    exact .plain (fun e => h.1 e.symm) (ih h.2)

theorem Esc.strip {ds s : List Byte} (h : Esc (ds ++ s)) (hd : (92 : Byte) ∉ ds) : Esc s := by
  induction ds with
  | nil => exact h
  | cons d ds ih =>
    simp only [List.mem_cons, not_or] at hd
    have h' : Esc (d :: (ds ++ s)) := h
    generalize hx : d :: (ds ++ s) = x at h'
    cases h' with
    | nil => cases hx
    | plain h1 h2 => cases hx; exact ih h2 hd.2
    | esc h2 => exact absurd (List.cons.inj hx).1.symm hd.1

theorem resolve_ok : ∀ (n : Nat) (s : List Byte), s.length ≤ n → Esc s → ShortEscapes s → ∃ r, Escape.resolve s = .ok r
  | _, [], _, _, _ => ⟨[], Props.resolve_nil⟩
  | 0, c :: t, h, _, _ => by simp at h
  | n + 1, c :: t, h, he, hs => by
    simp only [List.length_cons] at h
    generalize hx : c :: t = x at he
    cases he with
    | nil => cases hx
    | plain h1 h2 =>
      cases hx
      obtain ⟨r, hr⟩ := resolve_ok n t (by omega) h2 (ShortEscapes.infix (a := [c]) (b := []) (by simpa using hs))
      exact ⟨_, by rw [Props.resolve_plain c t h1, hr]; rfl⟩
    | @esc e u h2 =>
      cases hx
      simp only [List.length_cons] at h
      have hsu : ∀ a s' , u = a ++ s' → ShortEscapes s' := fun a s' e' =>
        ShortEscapes.infix (a := 92 :: e :: a) (b := []) (by subst e'; simpa using hs)
      cases hse : Escape.simpleEscape e with
      | some b =>
        obtain ⟨r, hr⟩ := resolve_ok n u (by omega) h2 (hsu [] u rfl)
        exact ⟨_, by rw [Props.resolve_simple e b u hse, hr]; rfl⟩
      | none =>
        by_cases hx : e = 120 ∨ e = 117
        · obtain ⟨v, ds, rest, e1, e2, e3⟩ := parseNumber_short isHex_hexB (by decide) 7 u 0 (hs.1 [] u (by
            rcases hx with rfl | rfl
            · exact .inl rfl
            · exact .inr rfl)) (by decide)
          have hnd : (92 : Byte) ∉ ds := fun hm => by have := e3 92 hm; revert this; decide
          obtain ⟨r, hr⟩ := resolve_ok n rest (by have := congrArg List.length e2; simp at this; omega) (Esc.strip (e2 ▸ h2) hnd) (hsu ds rest e2)
          exact ⟨_, by rw [Props.resolve_hex e u rest v hx e1, hr]; rfl⟩
        · obtain ⟨v, ds, rest, e1, e2, e3⟩ := parseNumber_short isDigit_decB (by decide) 10 (e :: u) 0 (hs.2 [] (e :: u) rfl) (by decide)
          have hnd : (92 : Byte) ∉ ds := fun hm => by have := e3 92 hm; revert this; decide
          have he : e ≠ 92 := by intro h; subst h; revert hse; decide
          obtain ⟨r, hr⟩ := resolve_ok n rest (by have := congrArg List.length e2; simp at this; omega) (Esc.strip (e2 ▸ (Esc.plain he h2)) hnd)
            (ShortEscapes.infix (a := 92 :: ds) (b := []) (by have e2' := e2; rw [List.append_nil, List.cons_append, ← e2']; exact hs))
          exact ⟨_, by rw [Props.resolve_octal e u rest v hse hx e1, hr]; rfl⟩

theorem unescape_ok {s : List Byte} (h : Esc s) (hs : ShortEscapes s) : ∃ r, unescape s = .ok r := by
  obtain ⟨r, hr⟩ := resolve_ok _ s (Nat.le_refl _) h hs
  exact ⟨r, by unfold unescape; rw [hr]⟩

/-! ## UTF-8 -/

/-- In a UTF-8 text a decoded character is one byte below 128, or bytes from 128 on. -/
def Decodes (s : List Byte) : Prop :=
  ∀ l cp, decodeCodepoint? s = some (l, cp) → (l = 1 ∧ ∃ b t, s = b :: t ∧ b.toNat = cp ∧ cp < 128) ∨ 128 ≤ cp ∧ ∀ b ∈ s.take l, 128 ≤ b.toNat

theorem encode_highs {c : Nat} (h : IsScalar c) (h' : 128 ≤ c) : ∀ b ∈ encodeCodepoint c, 128 ≤ b.toNat := by
  rcases encode_cases h with ⟨h1, e⟩ | ⟨h0, h1, e⟩ | ⟨h0, h1, e⟩ | ⟨h0, h1, e⟩ <;> rw [e]
  · omega
  · intro b hb
    simp only [List.mem_cons, List.not_mem_nil, or_false] at hb
    rcases hb with rfl | rfl <;> rw [toByte_toNat (by omega)] <;> omega
  · intro b hb
    simp only [List.mem_cons, List.not_mem_nil, or_false] at hb
    rcases hb with rfl | rfl | rfl <;> rw [toByte_toNat (by omega)] <;> omega
  · intro b hb
    simp only [List.mem_cons, List.not_mem_nil, or_false] at hb
    rcases hb with rfl | rfl | rfl | rfl <;> rw [toByte_toNat (by omega)] <;> omega

theorem decodes_char {c : Nat} (h : IsScalar c) (t : List Byte) : Decodes (encodeCodepoint c ++ t) := by
  intro l cp hd
  rw [decode_encode_append c h] at hd
  cases hd
  by_cases h' : 128 ≤ c
  · right
    refine ⟨h', ?_⟩
    rw [List.take_left]
    exact encode_highs h h'
  · left
    rcases encode_cases h with ⟨h1, e⟩ | ⟨h0, h1, e⟩ | ⟨h0, h1, e⟩ | ⟨h0, h1, e⟩
    · rw [e]
      exact ⟨rfl, _, t, rfl, toByte_toNat (by omega), by omega⟩
    · omega
    · omega
    · omega

theorem decodes_cont {b : Byte} {t : List Byte} (h : isCont b = true) : Decodes (b :: t) := by
  intro l cp hd
  exfalso
  have h' : 0x80 ≤ b.toNat ∧ b.toNat < 0xC0 := by simpa [isCont, andC0] using h
  rw [decode_eq] at hd
  simp only at hd
  rw [if_neg (by omega), if_neg (by omega), if_neg (by omega), if_neg (by omega)] at hd
  cases hd

theorem Text.decodes {s : List Byte} (h : Text s) : ∀ i, Decodes (s.drop i) := by
  obtain ⟨cs, h1, rfl⟩ := h
  induction cs with
  | nil => intro i l cp hd; simp [decodeCodepoint?] at hd
  | cons c cs ih =>
    intro i
    have hc := h1 c (by simp)
    simp only [List.flatMap_cons]
    by_cases hi : (encodeCodepoint c).length ≤ i
    · rw [List.drop_append, List.drop_eq_nil_of_le hi, List.nil_append]
      exact ih (fun c hc => h1 c (by simp [hc])) _
    · obtain ⟨b, t, e, -, h3⟩ := encode_shape hc
      cases i with
      | zero => exact decodes_char hc _
      | succ i =>
        rw [e] at hi ⊢
        simp only [List.length_cons] at hi
        rw [List.cons_append, List.drop_succ_cons, List.drop_append_of_le_length (by omega)]
        cases ht : t.drop i with
        | nil => have := congrArg List.length ht; simp at this; omega
        | cons b' t' => exact decodes_cont (h3 b' (List.mem_of_mem_drop (by rw [ht]; simp)))

/-- What a character operator matches. -/
theorem single_bytes {s : List Byte} (hs : Decodes s) {e : Ope} {f : List Byte → Option Nat} (he : e.single = some f) {k : Nat} (hk : f s = some k)
    (h0 : 1 ≤ k) : ((∃ b, s.take k = [b] ∧ decodeCodepoint? s = some (1, b.toNat) ∧ k = 1) ∨ (∀ b ∈ s.take k, 128 ≤ b.toNat) ∧ ∃ cp, 128 ≤ cp ∧ decodeCodepoint? s = some (k, cp)) := by
  have hl := single_len he hk
  unfold decodeLenCp at hl
  cases hd : decodeCodepoint? s with
  | none => rw [hd] at hl; simp at hl; omega
  | some p =>
    obtain ⟨l, cp⟩ := p
    rw [hd] at hl
    simp only at hl
    subst hl
    rcases hs _ cp hd with ⟨rfl, b, t, rfl, h1, h2⟩ | ⟨h1, h2⟩
    · left
      exact ⟨b, rfl, by rw [h1], rfl⟩
    · right
      exact ⟨h2, cp, h1, rfl⟩

theorem chr_bytes {s : List Byte} (hs : Decodes s) {c k : Nat} (hk : matchChar c s = some k) (hc : c < 128) (h0 : c ≠ 0) : k = 1 ∧ ∃ b, s.take 1 = [b] ∧ b.toNat = c := by
  have h1 : 1 ≤ k := by have := single_minLen (e := .chr c) rfl hk; simpa [minLen, h0] using this
  have hcp : (decodeLenCp s).2 = c := by
    cases s with
    | nil => cases hk
    | cons b t =>
      simp only [matchChar] at hk
      split at hk
      · cases hk
      · rename_i h; simpa using h
  rcases single_bytes hs (e := .chr c) rfl hk h1 with ⟨b, h2, h3, rfl⟩ | ⟨-, cp, h2, h3⟩
  · refine ⟨rfl, b, h2, ?_⟩
    simp only [decodeLenCp, h3] at hcp
    exact hcp
  · simp only [decodeLenCp, h3] at hcp
    omega

/-- Classes of characters below 128 other than the backslash. -/
def tame (c : Cls) : Bool := !c.negated && !c.ignoreCase && c.ranges.all fun r => decide (1 ≤ r.1) && decide (r.2 < 128) && !(decide (r.1 ≤ 92) && decide (92 ≤ r.2))

theorem cls_cp {c : Cls} {s : List Byte} {k : Nat} (hk : c.matchLen s = some k) (hn : c.negated = false) : c.ranges.any (inRange c.ignoreCase · (decodeLenCp s).2) = true := by
  cases s with
  | nil => cases hk
  | cons b t =>
    simp only [Cls.matchLen, hn] at hk
    split at hk
    · assumption
    · cases hk

theorem cls_tame {s : List Byte} (hs : Decodes s) {c : Cls} (hc : tame c = true) {k : Nat} (hk : c.matchLen s = some k) : 1 ≤ k ∧ (92 : Byte) ∉ s.take k := by
  simp only [tame, Bool.and_eq_true, Bool.not_eq_true', List.all_eq_true, decide_eq_true_eq] at hc
  obtain ⟨⟨hn, hi⟩, hr⟩ := hc
  have hcp := cls_cp hk hn
  rw [hi] at hcp
  obtain ⟨r, hr1, hr2⟩ := List.any_eq_true.mp hcp
  obtain ⟨⟨h1, h2⟩, h3⟩ := hr r hr1
  have h4 : r.1 ≤ (decodeLenCp s).2 ∧ (decodeLenCp s).2 ≤ r.2 := by simpa [inRange] using hr2
  have hk1 : 1 ≤ k := by
    have := single_len (e := .cls c) rfl hk
    have h5 := decodeLenCp_zero (s := s)
    omega
  refine ⟨hk1, ?_⟩
  rcases single_bytes hs (e := .cls c) rfl hk hk1 with ⟨b, h5, h6, -⟩ | ⟨h5, -⟩
  · rw [h5]
    intro hm
    simp at hm
    subst hm
    simp only [decodeLenCp, h6] at h4
    have : (92 : Byte).toNat = 92 := rfl
    rw [this] at h4
    simp only [Bool.and_eq_false_iff, decide_eq_false_iff_not] at h3
    omega
  · intro hm
    have := h5 92 hm
    revert this
    decide

/-! ## Characters and literals -/

/-- Bytes `i` to `j`. -/
def sub (text : List Byte) (i j : Nat) : List Byte := slice text (i, j - i)

theorem sub_append (text : List Byte) {i k j : Nat} (h1 : i ≤ k) (h2 : k ≤ j) : sub text i j = sub text i k ++ sub text k j := by
  unfold sub slice
  have : text.drop k = (text.drop i).drop (k - i) := by rw [List.drop_drop, Nat.add_sub_cancel' h1]
  simp only
  rw [this, show j - i = (k - i) + (j - k) by omega, List.take_add]

theorem sub_self (text : List Byte) (i : Nat) : sub text i i = [] := by simp [sub, slice]

theorem Star.le {P : Nat → Nat → Prop} (hP : ∀ i j, P i j → i ≤ j) {i j : Nat} (h : Star P i j) : i ≤ j := by
  induction h with
  | nil => exact Nat.le_refl _
  | cons h1 _ ih => exact Nat.le_trans (hP _ _ h1) ih

mutual
theorem lg_le {text : List Byte} {R : Nat → Nat → Nat → Prop} (hR : ∀ r i j, R r i j → i ≤ j) : ∀ (e : Ope) (i j : Nat), Lg text R e i j → i ≤ j := by
  intro e i j h
  cases e with
  | seq es kw => exact lgL_le hR es i j h
  | cho es l fs => exact lgA_le hR es i j h
  | rep e mn mx sp => exact Star.le (fun i j => lg_le hR e i j) h
  | tok e => exact lg_le hR e i j h
  | ign e => exact lg_le hR e i j h
  | not_ e => exact Nat.le_of_eq h.1.symm
  | lit t ic => have := h.2; omega
  | ref r nm as => exact hR r i j h
  | chr c => obtain ⟨k, -, h⟩ := h; omega
  | cls c => obtain ⟨k, -, h⟩ := h; omega
  | dot => obtain ⟨k, -, h⟩ := h; omega
  | _ => cases h
theorem lgL_le {text : List Byte} {R : Nat → Nat → Nat → Prop} (hR : ∀ r i j, R r i j → i ≤ j) : ∀ (es : List Ope) (i j : Nat), LgL text R es i j → i ≤ j := by
  intro es i j h
  cases es with
  | nil => exact Nat.le_of_eq (show j = i from h).symm
  | cons e es =>
    obtain ⟨k, h1, h2⟩ := h
    exact Nat.le_trans (lg_le hR e i k h1) (lgL_le hR es k j h2)
theorem lgA_le {text : List Byte} {R : Nat → Nat → Nat → Prop} (hR : ∀ r i j, R r i j → i ≤ j) : ∀ (es : List Ope) (i j : Nat), LgA text R es i j → i ≤ j := by
  intro es i j h
  cases es with
  | nil => cases h
  | cons e es =>
    rcases h with h | h
    · exact lg_le hR e i j h
    · exact lgA_le hR es i j h
end

mutual
/-- Operators that match no backslash. -/
def no92 : Ope → Bool
  | .seq es _ => no92L es
  | .cho es _ _ => no92L es
  | .rep e _ _ _ => no92 e
  | .lit t ic => !ic && !(t.contains 92)
  | .chr c => decide (c < 128) && decide (c ≠ 0) && decide (c ≠ 92)
  | .cls c => tame c
  | _ => false
def no92L : List Ope → Bool
  | [] => true
  | e :: es => no92 e && no92L es
end

theorem lit_bytes {text t : List Byte} {i : Nat} (h : litMatch t false (text.drop i) = true) : sub text i (i + t.length) = t := by
  unfold litMatch at h
  simp only [Bool.false_eq_true, if_false, List.isPrefixOf_iff_prefix] at h
  obtain ⟨u, hu⟩ := h
  unfold sub slice
  simp only [Nat.add_sub_cancel_left]
  rw [← hu, List.take_left]

section
variable {text : List Byte} (ht : Text text) {R : Nat → Nat → Nat → Prop} (hR : ∀ r i j, R r i j → i ≤ j)
include ht hR

mutual
theorem lg_no92 : ∀ (e : Ope) (i j : Nat), no92 e = true → Lg text R e i j → (92 : Byte) ∉ sub text i j := by
  intro e i j hn h
  cases e with
  | seq es kw => exact lgL_no92 es i j hn h
  | cho es l fs => exact lgA_no92 es i j hn h
  | rep e mn mx sp =>
    replace h : Star (Lg text R e) i j := h
    induction h with
    | nil => rw [sub_self]; simp
    | @cons i k j h1 h2 ih =>
      rw [sub_append text (lg_le hR e _ _ h1) (Star.le (lg_le hR e) h2), List.mem_append, not_or]
      exact ⟨lg_no92 e _ _ hn h1, ih⟩
  | lit t ic =>
    simp only [no92, Bool.and_eq_true, Bool.not_eq_true'] at hn
    obtain ⟨h1, rfl⟩ := h
    rw [hn.1] at h1
    rw [lit_bytes h1]
    have := hn.2
    simpa using this
  | chr c =>
    simp only [no92, Bool.and_eq_true, decide_eq_true_eq] at hn
    obtain ⟨k, hk, rfl⟩ := h
    obtain ⟨rfl, b, hb, hc⟩ := chr_bytes (Text.decodes ht i) hk hn.1.1 hn.1.2
    show (92 : Byte) ∉ (text.drop i).take (i + 1 - i)
    rw [Nat.add_sub_cancel_left, hb]
    intro hm
    simp at hm
    subst hm
    exact hn.2 hc.symm
  | cls c =>
    obtain ⟨k, hk, rfl⟩ := h
    show (92 : Byte) ∉ (text.drop i).take (i + k - i)
    rw [Nat.add_sub_cancel_left]
    exact (cls_tame (Text.decodes ht i) hn hk).2
  | _ => cases hn
theorem lgL_no92 : ∀ (es : List Ope) (i j : Nat), no92L es = true → LgL text R es i j → (92 : Byte) ∉ sub text i j := by
  intro es i j hn h
  cases es with
  | nil => rw [show j = i from h, sub_self]; simp
  | cons e es =>
    simp only [no92L, Bool.and_eq_true] at hn
    obtain ⟨k, h1, h2⟩ := h
    rw [sub_append text (lg_le hR e _ _ h1) (lgL_le hR es _ _ h2), List.mem_append, not_or]
    exact ⟨lg_no92 e _ _ hn.1 h1, lgL_no92 es _ _ hn.2 h2⟩
theorem lgA_no92 : ∀ (es : List Ope) (i j : Nat), no92L es = true → LgA text R es i j → (92 : Byte) ∉ sub text i j := by
  intro es i j hn h
  cases es with
  | nil => cases h
  | cons e es =>
    simp only [no92L, Bool.and_eq_true] at hn
    rcases h with h | h
    · exact lg_no92 e _ _ hn.1 h
    · exact lgA_no92 es _ _ hn.2 h
end

/-- A backslash and something without backslash, at least one byte. -/
theorem esc_chr {e : Ope} {es : List Ope} {i j : Nat} (hc : ∃ c, e = .cls c ∧ tame c = true) (hn : no92L es = true) (h : LgL text R (.chr 92 :: e :: es) i j) :
    Esc (sub text i j) := by
  obtain ⟨k, ⟨l, hl, rfl⟩, m, h1, h2⟩ := h
  obtain ⟨rfl, b, hb, hb'⟩ := chr_bytes (Text.decodes ht i) hl (by decide) (by decide)
  obtain ⟨c, rfl, hc⟩ := hc
  obtain ⟨l, hl, rfl⟩ := h1
  have h3 := cls_tame (Text.decodes ht _) hc hl
  have h4 := lgL_no92 ht hR es _ _ hn h2
  have h5 := lgL_le hR es _ _ h2
  rw [sub_append text (Nat.le_add_right i 1) (by omega), sub_append text (Nat.le_add_right (i + 1) l) h5]
  have e1 : sub text i (i + 1) = [92] := by
    show (text.drop i).take (i + 1 - i) = _
    rw [Nat.add_sub_cancel_left, hb]
    have : b = 92 := UInt8.toNat_inj.mp hb'
    rw [this]
  have e2 : sub text (i + 1) (i + 1 + l) = (text.drop (i + 1)).take l := by
    show (text.drop (i + 1)).take (i + 1 + l - (i + 1)) = _
    rw [Nat.add_sub_cancel_left]
  rw [e1, e2]
  have h6 : (text.drop (i + 1)).take l ≠ [] := by
    intro h6
    have h7 := single_le (e := .cls c) rfl hl
    have := congrArg List.length h6
    simp at this h7
    omega
  cases hx : (text.drop (i + 1)).take l with
  | nil => exact absurd hx h6
  | cons a t =>
    rw [hx] at h3
    have h7 : (92 : Byte) ∉ t := fun hm => h3.2 (List.mem_cons_of_mem _ hm)
    exact .esc (Esc.append (Esc.of_not_mem h7) (Esc.of_not_mem h4))

/-- `\x` or `\u` and something without backslash. -/
theorem esc_lit {b : Byte} {es : List Ope} {i j : Nat} (hn : no92L es = true) (h : LgL text R (lit [92, b] :: es) i j) : Esc (sub text i j) := by
  obtain ⟨k, ⟨hl, rfl⟩, h2⟩ := h
  have h4 := lgL_no92 ht hR es _ _ hn h2
  have h5 := lgL_le hR es _ _ h2
  rw [sub_append text (Nat.le_add_right i _) h5, lit_bytes hl]
  exact .esc (Esc.of_not_mem h4)

theorem esc_simple {c : Cls} {i j : Nat} (hc : c.negated = false ∧ c.ignoreCase = false ∧ ∀ r ∈ c.ranges, 1 ≤ r.1 ∧ r.2 < 128)
    (h : LgL text R [.chr 92, .cls c] i j) : Esc (sub text i j) := by
  obtain ⟨k, ⟨l, hl, rfl⟩, m, ⟨l', hl', rfl⟩, h2⟩ := h
  cases (show j = _ from h2)
  obtain ⟨rfl, b, hb, hb'⟩ := chr_bytes (Text.decodes ht i) hl (by decide) (by decide)
  have hcp := cls_cp hl' hc.1
  rw [hc.2.1] at hcp
  obtain ⟨r, hr1, hr2⟩ := List.any_eq_true.mp hcp
  have h3 := hc.2.2 r hr1
  have h4 : r.1 ≤ (decodeLenCp (text.drop (i + 1))).2 ∧ (decodeLenCp (text.drop (i + 1))).2 ≤ r.2 := by simpa [inRange] using hr2
  have hk1 : 1 ≤ l' := by
    have := single_len (e := .cls c) rfl hl'
    have h5 := decodeLenCp_zero (s := text.drop (i + 1))
    omega
  rw [sub_append text (Nat.le_add_right i 1) (by omega)]
  have e1 : sub text i (i + 1) = [92] := by
    show (text.drop i).take (i + 1 - i) = _
    rw [Nat.add_sub_cancel_left, hb]
    have : b = 92 := UInt8.toNat_inj.mp hb'
    rw [this]
  have e2 : sub text (i + 1) (i + 1 + l') = (text.drop (i + 1)).take l' := by
    show (text.drop (i + 1)).take (i + 1 + l' - (i + 1)) = _
    rw [Nat.add_sub_cancel_left]
  rw [e1, e2]
  rcases single_bytes (Text.decodes ht (i + 1)) (e := .cls c) rfl hl' hk1 with ⟨b', h5, h6, -⟩ | ⟨-, cp, h5, h6⟩
  · rw [h5]; exact .esc .nil
  · exfalso
    simp only [decodeLenCp, h6] at h4
    omega

theorem esc_plain {i j : Nat} (h : LgL text R [npd (.chr 92), .dot] i j) : Esc (sub text i j) := by
  obtain ⟨k, ⟨hk, hn⟩, m, ⟨l, hl, hm⟩, h2⟩ := h
  have hk : k = i := hk
  subst hk hm
  cases (show j = _ from h2)
  rename' k => i
  have hk1 : 1 ≤ l := by
    unfold matchAny at hl
    simp only at hl
    split at hl
    · cases hl
    · cases hl; omega
  have e2 : sub text i (i + l) = (text.drop i).take l := by
    show (text.drop i).take (i + l - i) = _
    rw [Nat.add_sub_cancel_left]
  rw [e2]
  apply Esc.of_not_mem
  rcases single_bytes (Text.decodes ht i) (e := .dot) rfl hl hk1 with ⟨b', h5, h6, rfl⟩ | ⟨h5, -⟩
  · rw [h5]
    intro hm
    simp at hm
    subst hm
    have := hn _ rfl
    cases hx : text.drop i with
    | nil => rw [hx] at h5; cases h5
    | cons a t =>
      rw [hx] at this h6
      simp only [matchChar, decodeLenCp, h6] at this
      revert this
      decide
  · intro hm
    have := h5 92 hm
    revert this
    decide

theorem char_esc {i j : Nat} (h : Lg text R dChar.ope i j) : Esc (sub text i j) := by
  rcases h with h | h | h | h | h | h | h
  · exact esc_simple ht hR (by decide) h
  · exact esc_chr ht hR ⟨_, rfl, by decide⟩ (by decide) h
  · exact esc_chr ht hR ⟨_, rfl, by decide⟩ (by decide) h
  · exact esc_lit ht hR (by decide) h
  · exact esc_lit ht hR (by decide) h
  · exact esc_plain ht hR h
  · cases h

end

/-- What is known of the text of a rule. -/
def Known (text : List Byte) (r i j : Nat) : Prop := i ≤ j ∧ (r = rChar → Esc (sub text i j))

theorem known_rule {text : List Byte} (ht : Text text) (r : Nat) (d : Def) (i j : Nat) (hd : metaRules[r]? = some d) (h : Lg text (Known text) d.ope i j) :
    Known text r i j := by
  have hR : ∀ r i j, Known text r i j → i ≤ j := fun r i j h => h.1
  refine ⟨lg_le hR _ _ _ h, fun e => ?_⟩
  subst e
  cases hd
  exact char_esc ht hR h

theorem star_esc {text : List Byte} {q : Nat} {i j : Nat} (h : Lg text (Known text) (zom (seq [npd (cls [(q, q)]), gChar])) i j) : Esc (sub text i j) := by
  replace h : Star (Lg text (Known text) (seq [npd (cls [(q, q)]), gChar])) i j := h
  have hR : ∀ r i j, Known text r i j → i ≤ j := fun r i j h => h.1
  induction h with
  | nil => rw [sub_self]; exact .nil
  | @cons i k j h1 h2 ih =>
    rw [sub_append text (lg_le hR _ _ _ h1) (Star.le (lg_le hR _) h2)]
    refine Esc.append ?_ ih
    obtain ⟨m, ⟨rfl, -⟩, n, h3, h4⟩ := h1
    cases (show k = n from h4)
    exact h3.2 rfl

theorem literal_esc {text : List Byte} {p : Nat × Nat} {d : Def} (hd : d ∈ [dLiteral, dLiteralI, dLiteralD, dLiteralID])
    (h : TkIn text (Known text) d.ope p.1 p.2) : Esc (slice text p) := by
  have key : ∀ q : Nat, Lg text (Known text) (zom (seq [npd (cls [(q, q)]), gChar])) p.1 (p.1 + p.2) → Esc (slice text p) := by
    intro q h
    have := star_esc h
    unfold sub at this
    rwa [Nat.add_sub_cancel_left] at this
  have : Lg text (Known text) (zom (seq [npd (cls [(39, 39)]), gChar])) p.1 (p.1 + p.2) ∨ Lg text (Known text) (zom (seq [npd (cls [(34, 34)]), gChar])) p.1 (p.1 + p.2) := by
    simp only [List.mem_cons, List.not_mem_nil, or_false] at hd
    rcases hd with rfl | rfl | rfl | rfl <;>
      simpa only [dLiteral, dLiteralI, dLiteralD, dLiteralID, TkIn, TkInL, false_or, or_false] using h
  rcases this with h | h
  · exact key _ h
  · exact key _ h

/-- Reading a UTF-8 text with short escapes. -/
theorem typed_text {text : List Byte} (ht : Text text) : Typed text (Known text) (Has (¬ ShortEscapes text)) := by
  refine typed_has fun hU r d i j tk hd hij hl hk => ?_
  have hs : ShortEscapes text := Classical.not_not.mp hU
  refine ⟨fun e => ?_, fun hr t hm => ?_⟩
  · subst e
    exact unescape_ok ((known_rule ht _ d i j hd hl).2 rfl) (hs.slice _)
  · refine unescape_ok (literal_esc (d := d) ?_ (hk t hm)) (hs.slice _)
    simp only [List.mem_cons, List.not_mem_nil, or_false] at hr
    rcases hr with rfl | rfl | rfl | rfl <;> cases hd <;> simp

end Verif.Meta
