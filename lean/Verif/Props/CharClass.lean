import Verif.CharClass
/-! # Properties of character classes (C06, C07, C08) -/
namespace Verif.Props
open Verif.Utf8 Verif.CharClass

/-- A code point lies in one of the ranges (the meaning of `[...]`, case-sensitive). -/
def InRanges (rs : List Range) (cp : Nat) : Prop := ∃ r ∈ rs, r.1 ≤ cp ∧ cp ≤ r.2

/-- Sorted and non-overlapping from `next` on, the documented precondition ("Ranges must be sorted and
non-overlapping", peglib.h 405). -/
def SortedFrom : Nat → List Range → Prop
  | _, [] => True
  | next, (lo, hi) :: rs => next ≤ lo ∧ lo ≤ hi ∧ SortedFrom (hi + 1) rs

instance decSortedFrom : ∀ n rs, Decidable (SortedFrom n rs)
  | _, [] => isTrue trivial
  | next, (lo, hi) :: rs =>
    have := decSortedFrom (hi + 1) rs
    inferInstanceAs (Decidable (next ≤ lo ∧ lo ≤ hi ∧ SortedFrom (hi + 1) rs))

theorem sortedFrom_ge {next : Nat} {rs : List Range} (h : SortedFrom next rs) {cp : Nat}
    (hm : InRanges rs cp) : next ≤ cp := by
  induction rs generalizing next with
  | nil => obtain ⟨r, hr, _⟩ := hm; simp at hr
  | cons r rs ih =>
    obtain ⟨lo, hi⟩ := r
    obtain ⟨h1, h2, h3⟩ := h
    obtain ⟨r, hr, h4, h5⟩ := hm
    simp only [List.mem_cons] at hr
    rcases hr with rfl | hr
    · simp at h4; omega
    · have := ih h3 ⟨r, hr, h4, h5⟩; omega

theorem complementFrom_iff (next : Nat) (rs : List Range) (h : SortedFrom next rs) (cp : Nat)
    (hc : cp ≤ 0x10FFFF) :
    InRanges (complementFrom next rs) cp ↔ next ≤ cp ∧ ¬ InRanges rs cp := by
  induction rs generalizing next with
  | nil =>
    unfold complementFrom InRanges
    split
    · simp; omega
    · simp; omega
  | cons r rs ih =>
    obtain ⟨lo, hi⟩ := r
    obtain ⟨h1, h2, h3⟩ := h
    have ih := ih (hi + 1) h3
    have hsplit : InRanges (complementFrom next ((lo, hi) :: rs)) cp ↔
        (next < lo ∧ next ≤ cp ∧ cp ≤ lo - 1) ∨ InRanges (complementFrom (hi + 1) rs) cp := by
      unfold InRanges
      rw [show complementFrom next ((lo, hi) :: rs) =
        (if next < lo then [(next, lo - 1)] else []) ++ complementFrom (hi + 1) rs from rfl]
      constructor
      · rintro ⟨r, hr, h4, h5⟩
        rw [List.mem_append] at hr
        rcases hr with hr | hr
        · split at hr
          · simp at hr; subst hr; left; exact ⟨by assumption, h4, h5⟩
          · simp at hr
        · exact Or.inr ⟨r, hr, h4, h5⟩
      · rintro (⟨h4, h5, h6⟩ | ⟨r, hr, h4, h5⟩)
        · exact ⟨(next, lo - 1), by simp [h4], h5, h6⟩
        · exact ⟨r, by rw [List.mem_append]; exact Or.inr hr, h4, h5⟩
    have hcons : InRanges ((lo, hi) :: rs) cp ↔ (lo ≤ cp ∧ cp ≤ hi) ∨ InRanges rs cp := by
      unfold InRanges; simp
    rw [hsplit, hcons, ih]
    constructor
    · rintro (⟨h4, h5, h6⟩ | ⟨h4, h5⟩)
      · refine ⟨h5, ?_⟩
        rintro (⟨h7, h8⟩ | h7)
        · omega
        · have := sortedFrom_ge h3 h7; omega
      · refine ⟨by omega, ?_⟩
        rintro (⟨h7, h8⟩ | h7)
        · omega
        · exact h5 h7
    · rintro ⟨h4, h5⟩
      rw [not_or] at h5
      by_cases h6 : cp < lo
      · left; omega
      · right; exact ⟨by omega, h5.2⟩

/-- C06. For every sorted, non-overlapping range list, the complement contains exactly the code points the list
does not contain. -/
theorem C06_complement (rs : List Range) (h : SortedFrom 0 rs) (cp : Nat) (hc : cp ≤ 0x10FFFF) :
    InRanges (complement rs) cp ↔ ¬ InRanges rs cp := by
  unfold complement
  rw [complementFrom_iff 0 rs h cp hc]
  simp

/-- C06. The complement contains nothing beyond U+10FFFF, so no range is malformed. -/
theorem C06_complement_bounded (rs : List Range) (cp : Nat) (hm : InRanges (complement rs) cp)
    (hb : ∀ r ∈ rs, r.1 ≤ 0x110000) : cp ≤ 0x10FFFF := by
  suffices ∀ (rs : List Range) (next : Nat), (∀ r ∈ rs, r.1 ≤ 0x110000) →
      InRanges (complementFrom next rs) cp → cp ≤ 0x10FFFF from this rs 0 hb hm
  intro rs
  induction rs with
  | nil =>
    intro next _ h
    unfold complementFrom InRanges at h
    split at h <;> simp at h; omega
  | cons r rs ih =>
    intro next hb ⟨q, hq, h1, h2⟩
    obtain ⟨lo, hi⟩ := r
    have hlo : lo ≤ 0x110000 := hb (lo, hi) (by simp)
    unfold complementFrom at hq
    rw [List.mem_append] at hq
    rcases hq with hq | hq
    · split at hq
      · simp at hq; subst hq; simp at h2; omega
      · simp at hq
    · exact ih _ (fun r hr => hb r (by simp [hr])) ⟨q, hq, h1, h2⟩

/-- C06. Every predefined class satisfies the precondition (the whole table, so `\D`, `\W`, `\S`, `[:^name:]` are
exact complements). -/
theorem C06_predefined_sorted : ∀ e ∈ predefined, SortedFrom 0 e.2 ∧ ∀ r ∈ e.2, r.2 ≤ 0x7F := by decide

example : SortedFrom 0 [(48, 57), (65, 90), (97, 122)] ∧
    complement [(48, 57), (65, 90)] = [(0, 47), (58, 64), (91, 0x10FFFF)] := by decide

/-- Without the precondition the result is wrong: overlapping ranges. -/
theorem C06_unsorted_counterexample :
    ¬ ∀ rs cp, cp ≤ 0x10FFFF → (InRanges (complement rs) cp ↔ ¬ InRanges rs cp) := by
  intro h
  have := (h [(10, 20), (0, 5)] 15 (by decide)).mp ⟨(6, 0x10FFFF), by decide, by decide, by decide⟩
  exact this ⟨(10, 20), by simp, by decide, by decide⟩

/-! ## C07 -/

theorem any_inRange_iff (rs : List Range) (cp : Nat) :
    rs.any (inRange false · cp) = true ↔ InRanges rs cp := by
  simp [InRanges, inRange, List.any_eq_true]

/-- C07. On well-formed text, `[...]` matches one character iff it lies in a listed range, `[^...]` iff it does not,
and consumes exactly that character. -/
theorem C07_class_match (rs : List Range) (neg : Bool) (cp : Nat) (h : IsScalar cp) (rest : List Byte) :
    (InRanges rs cp → (Cls.mk rs neg false).matchLen (encodeCodepoint cp ++ rest) =
      if neg then none else some (encodeCodepoint cp).length) ∧
    (¬ InRanges rs cp → (Cls.mk rs neg false).matchLen (encodeCodepoint cp ++ rest) =
      if neg then some (encodeCodepoint cp).length else none) := by
  obtain ⟨c, t, he, -, -⟩ := encode_shape h
  have hd := decode_encode_append cp h rest
  have hm : (Cls.mk rs neg false).matchLen (encodeCodepoint cp ++ rest) =
      if rs.any (inRange false · cp) then
        if neg then none else some (encodeCodepoint cp).length
      else if neg then some (encodeCodepoint cp).length else none := by
    rw [he, List.cons_append] at hd ⊢
    have hd' : decodeLenCp (c :: (t ++ rest)) = ((c :: t).length, cp) := by simp [decodeLenCp, hd]
    simp only [Cls.matchLen, hd']
  rw [hm]
  constructor
  · intro hi; rw [if_pos ((any_inRange_iff rs cp).mpr hi)]
  · intro hi; rw [if_neg (fun h => hi ((any_inRange_iff rs cp).mp h))]

/-- C07. A class never matches at the end of input, and never reports more than what remains. -/
theorem C07_class_bounds (c : Cls) (s : List Byte) (k : Nat) (h : c.matchLen s = some k) :
    s ≠ [] ∧ k ≤ s.length := by
  rcases s with _ | ⟨b, t⟩
  · simp [Cls.matchLen] at h
  · refine ⟨by simp, ?_⟩
    have hk : k = (decodeLenCp (b :: t)).1 := by
      simp only [Cls.matchLen] at h
      repeat' split at h
      all_goals simp at h
      all_goals exact h.symm
    rw [hk, decodeLen_eq_length]; exact codepointLength_le _

/-- The meaning of a case-insensitive class: some character of a range equals `cp` up to ASCII case. -/
def InRangesI (rs : List Range) (cp : Nat) : Prop :=
  ∃ r ∈ rs, ∃ x, r.1 ≤ x ∧ x ≤ r.2 ∧ toLower x = toLower cp

/-- A range without mixed letter case: no upper-case letters at all, or only upper-case letters. -/
def CaseUniform (r : Range) : Prop := (∀ x, r.1 ≤ x → x ≤ r.2 → ¬ (65 ≤ x ∧ x ≤ 90)) ∨ (65 ≤ r.1 ∧ r.2 ≤ 90)

/-- C07 (partial: ranges of uniform case). `[...]i` accepts exactly the characters equal to a listed one up to
ASCII case. -/
theorem C07_ignore_case_partial (rs : List Range) (hu : ∀ r ∈ rs, CaseUniform r ∧ r.1 ≤ r.2) (cp : Nat) :
    rs.any (inRange true · cp) = true ↔ InRangesI rs cp := by
  simp only [List.any_eq_true, InRangesI]
  refine exists_congr fun r => and_congr_right fun hr => ?_
  obtain ⟨h, hle⟩ := hu r hr
  simp only [inRange, if_true, Bool.and_eq_true, decide_eq_true_eq]
  rcases h with h | ⟨h1, h2⟩
  · have e1 : toLower r.1 = r.1 := by unfold toLower; rw [if_neg (h _ (by omega) hle)]
    have e2 : toLower r.2 = r.2 := by unfold toLower; rw [if_neg (h _ hle (by omega))]
    rw [e1, e2]
    constructor
    · rintro ⟨h3, h4⟩
      exact ⟨toLower cp, h3, h4, by rw [toLower, if_neg (h _ h3 h4)]⟩
    · rintro ⟨x, h3, h4, h5⟩
      have : toLower x = x := by rw [toLower, if_neg (h _ h3 h4)]
      rw [← h5, this]; exact ⟨h3, h4⟩
  · have e1 : toLower r.1 = r.1 + 32 := by unfold toLower; rw [if_pos (by omega)]
    have e2 : toLower r.2 = r.2 + 32 := by unfold toLower; rw [if_pos (by omega)]
    rw [e1, e2]
    constructor
    · rintro ⟨h3, h4⟩
      refine ⟨toLower cp - 32, by omega, by omega, ?_⟩
      rw [toLower, if_pos (by omega)]; omega
    · rintro ⟨x, h3, h4, h5⟩
      rw [← h5, toLower, if_pos (by omega)]; omega

example : ∀ r ∈ [(97, 122), (65, 70), (48, 57)], CaseUniform r ∧ r.1 ≤ r.2 := by
  simp only [List.mem_cons, List.not_mem_nil, or_false, forall_eq_or_imp, forall_eq]
  refine ⟨⟨.inl ?_, by decide⟩, ⟨.inr (by decide), by decide⟩, ⟨.inl ?_, by decide⟩⟩ <;> intros <;> simp_all <;> omega

/-- C07, false in general: `[Z-a]i` contains `Z` and `a`, yet the class matches neither (nor anything). -/
theorem C07_ignore_case_counterexample :
    InRangesI [(90, 97)] 90 ∧ InRangesI [(90, 97)] 97 ∧ ∀ s, (Cls.mk [(90, 97)] false true).matchLen s = none := by
  refine ⟨⟨(90, 97), by simp, 90, by decide, by decide, rfl⟩, ⟨(90, 97), by simp, 97, by decide, by decide, rfl⟩, ?_⟩
  intro s
  rcases s with _ | ⟨b, t⟩
  · rfl
  · simp only [Cls.matchLen]
    have : ∀ cp, [(90, 97)].any (inRange true · cp) = false := by
      intro cp
      simp [inRange, toLower]
      intro h
      exact Nat.lt_of_lt_of_le (by decide) h
    rw [this]; rfl

/-- C07. With the C standard's contract of `tolower`, a case-insensitive class reaches undefined behaviour on the
ordinary input character U+20AC. -/
theorem C07_tolower_ub : ∃ cp w, IsScalar cp ∧ inRangeStrict true (97, 122) cp = .ub w :=
  ⟨0x20AC, "std::tolower called with a value above 255", by decide, by decide⟩

/-- ... and below 256 the modelled (glibc) behaviour is the standard's. -/
theorem C07_strict_agrees (ic : Bool) (r : Range) (cp : Nat) (b : Bool)
    (h : inRangeStrict ic r cp = .ok b) : inRange ic r cp = b := by
  unfold inRangeStrict at h; repeat' split at h
  all_goals simp at h
  all_goals exact h

/-! ## C07/C08: the ASCII bitset -/

/-- The first character of `s` is decoded to what a strict decoder would give: an ASCII byte, or a multi-byte
sequence for a code point that needs more than one byte (no overlong form, no stray or truncated byte). -/
def Proper (s : List Byte) : Prop :=
  ∀ b t, s = b :: t → b.toNat < 0x80 ∨ (0x80 ≤ (decodeLenCp s).2 ∧ 1 ≤ (decodeLenCp s).1)

theorem proper_encoded (cps : List Nat) (h : ∀ cp ∈ cps, IsScalar cp) : Proper (cps.flatMap encodeCodepoint) := by
  intro b t hs
  rcases cps with _ | ⟨cp, cps⟩
  · simp at hs
  · have hsc := h cp (by simp)
    have hd := decode_encode_append cp hsc (cps.flatMap encodeCodepoint)
    rw [List.flatMap_cons] at hs ⊢
    simp only [decodeLenCp, hd]
    rcases encode_cases hsc with ⟨h1, e⟩ | ⟨h0, h1, e⟩ | ⟨h0, h1, e⟩ | ⟨h0, h1, e⟩
    · left
      rw [e] at hs
      simp at hs
      rw [← hs.1, toByte_toNat (by omega)]; omega
    all_goals right; exact ⟨by omega, encode_length_pos hsc⟩

/-- C07. The bitset of an ASCII-only class agrees with the range scan on every properly encoded next character
(case-sensitive, or ranges of uniform case). -/
theorem C07_bitset_agrees (c : Cls) (ha : c.isAsciiOnly = true)
    (hu : c.ignoreCase = true → ∀ r ∈ c.ranges, CaseUniform r ∧ r.1 ≤ r.2)
    (b : Byte) (t : List Byte) (hp : Proper (b :: t)) :
    c.matchLen (b :: t) = if c.asciiBit b then some 1 else none := by
  have hneg : c.negated = false := by
    simp [Cls.isAsciiOnly] at ha; exact ha.1
  have hr : ∀ r ∈ c.ranges, r.1 ≤ 0x7F ∧ r.2 ≤ 0x7F := by
    simp [Cls.isAsciiOnly] at ha
    intro r hr; exact ha.2 r.1 r.2 hr
  have hbit : c.asciiBit b = true ↔ ∃ r ∈ c.ranges, ∃ cp, r.1 ≤ cp ∧ cp ≤ r.2 ∧
      (b.toNat = cp ∨ c.ignoreCase = true ∧ (b.toNat = toUpper cp ∨ b.toNat = toLower cp)) := by
    simp only [Cls.asciiBit, ha, Bool.true_and]
    rw [List.any_eq_true]
    simp only [mem_range_any, Bool.or_eq_true, Bool.and_eq_true, decide_eq_true_eq]
  rcases hp b t rfl with hb | ⟨hb1, hb2⟩
  · -- ASCII byte
    have hmatch : c.matchLen (b :: t) = if c.ranges.any (inRange c.ignoreCase · b.toNat) then some 1 else none := by
      simp only [Cls.matchLen, decodeLenCp_ascii b t hb, hneg]; rfl
    rw [hmatch]
    have : c.ranges.any (inRange c.ignoreCase · b.toNat) = c.asciiBit b := by
      rw [Bool.eq_iff_iff, hbit]
      rcases hic : c.ignoreCase with _ | _
      · rw [any_inRange_iff]
        unfold InRanges
        constructor
        · rintro ⟨r, h1, h2, h3⟩; exact ⟨r, h1, _, h2, h3, Or.inl rfl⟩
        · rintro ⟨r, h1, cp, h2, h3, h4 | h4⟩
          · subst h4; exact ⟨r, h1, h2, h3⟩
          · simp at h4
      · rw [C07_ignore_case_partial _ (hu hic)]
        unfold InRangesI
        refine exists_congr fun r => and_congr_right fun hr' => exists_congr fun x => and_congr_right fun h1 =>
          and_congr_right fun h2 => ?_
        have hx := hr r hr'
        simp only [true_and]
        unfold toLower toUpper
        repeat' split
        all_goals omega
    rw [this]
  · -- multi-byte character
    have hb0 : ¬ b.toNat < 0x80 := by
      intro h; rw [decodeLenCp_ascii b t h] at hb1; simp at hb1; omega
    have hf : c.asciiBit b = false := by
      rw [Bool.eq_false_iff]; intro h
      obtain ⟨r, h1, cp, h2, h3, h4⟩ := hbit.mp h
      have hx := hr r h1
      rcases h4 with h4 | ⟨-, h4 | h4⟩
      · omega
      · unfold toUpper at h4; split at h4 <;> omega
      · unfold toLower at h4; split at h4 <;> omega
    have hany : c.ranges.any (inRange c.ignoreCase · (decodeLenCp (b :: t)).2) = false := by
      rw [Bool.eq_false_iff]; intro h
      rw [List.any_eq_true] at h
      obtain ⟨r, h1, h2⟩ := h
      have hx := hr r h1
      unfold inRange at h2
      split at h2
      · simp only [Bool.and_eq_true, decide_eq_true_eq] at h2
        have h3 : toLower (decodeLenCp (b :: t)).2 = (decodeLenCp (b :: t)).2 := by
          unfold toLower; rw [if_neg (by omega)]
        have h4 : toLower r.2 ≤ 0x7F := by unfold toLower; split <;> omega
        omega
      · simp only [Bool.and_eq_true, decide_eq_true_eq] at h2; omega
    simp [Cls.matchLen, hany, hneg, hf]

/-- C07, false without the hypothesis on the ranges: `[0-Z]i` accepts `_` by the range scan and rejects it by the
bitset, so the answer depends on which path is taken. -/
theorem C07_bitset_counterexample :
    (Cls.mk [(48, 90)] false true).matchLen [95] = some 1 ∧ (Cls.mk [(48, 90)] false true).asciiBit 95 = false ∧
    Proper [95] := by
  refine ⟨by decide +kernel, by decide +kernel, ?_⟩
  intro b t h; left; simp at h; rw [← h.1]; decide

/-- C07, false on malformed text: the overlong two-byte form of `a` is matched by `[a]` but not by its bitset, and a
stray continuation byte is "matched" by `[^a]` with length zero. -/
theorem C07_malformed_counterexample :
    (Cls.mk [(97, 97)] false false).matchLen [0xC1, 0xA1] = some 2 ∧
    (Cls.mk [(97, 97)] false false).asciiBit 0xC1 = false ∧
    (Cls.mk [(97, 97)] true false).matchLen [0x80] = some 0 := by decide +kernel

/-! ## C08: bulk scan -/

/-- Every suffix of the text starts with a properly encoded character (true of UTF-8 text at character
boundaries; ASCII text is `ProperAll`). -/
def ProperAll (s : List Byte) : Prop := ∀ k, Proper (s.drop k)

theorem repMandatory_span (m : List Byte → Option Nat) (bit : Byte → Bool) (k : Nat) (s : List Byte) (i : Nat)
    (hm : ∀ j b t, s.drop j = b :: t → (∀ x ∈ s.take j, bit x = true) → m (b :: t) = if bit b then some 1 else none)
    (hn : m [] = none) :
    repMandatory m k s i = if ((s.take k).takeWhile bit).length < k then none else some (i + k) := by
  induction k generalizing s i with
  | zero => simp [repMandatory]
  | succ k ih =>
    rcases s with _ | ⟨b, t⟩
    · simp [repMandatory, hn]
    · have h0 := hm 0 b t rfl (by simp)
      simp only [repMandatory, h0]
      rcases hb : bit b with _ | _
      · simp [hb, List.takeWhile_cons]
      · simp only [if_true, List.drop_succ_cons, List.drop_zero]
        rw [ih t (i + 1) (fun j b' t' h hh => hm (j + 1) b' t' (by simpa using h) (by simp [hb]; exact hh))]
        simp [List.takeWhile_cons, hb]
        split <;> simp_all; omega

theorem repOptional_span (m : List Byte → Option Nat) (bit : Byte → Bool) (max : Option Nat) (fuel count : Nat)
    (s : List Byte) (i : Nat) (hf : s.length < fuel)
    (hm : ∀ j b t, s.drop j = b :: t → (∀ x ∈ s.take j, bit x = true) → m (b :: t) = if bit b then some 1 else none)
    (hn : m [] = none) :
    repOptional m max fuel count s i = .ok (i + match max with
      | none => (s.takeWhile bit).length
      | some mx => ((s.take (mx - count)).takeWhile bit).length) := by
  induction fuel generalizing s count i with
  | zero => omega
  | succ fuel ih =>
    rcases s with _ | ⟨b, t⟩
    · simp only [repOptional, hn]
      rcases max with _ | mx <;> simp
    · simp only [repOptional]
      have h0 := hm 0 b t rfl (by simp)
      rcases max with _ | mx
      · simp only [Option.all_none, if_true, h0]
        rcases hb : bit b with _ | _
        · simp [hb]
        · simp only [if_true, List.drop_succ_cons, List.drop_zero]
          rw [ih (count + 1) t (i + 1) (by simp at hf; omega)
            (fun j b' t' h hh => hm (j + 1) b' t' (by simpa using h) (by simp [hb]; exact hh))]
          simp [hb]; omega
      · simp only [Option.all_some, decide_eq_true_eq]
        by_cases hc : count < mx
        · simp only [hc, if_true, h0]
          obtain ⟨d, hd⟩ : ∃ d, mx - count = d + 1 := ⟨mx - count - 1, by omega⟩
          have hd' : mx - (count + 1) = d := by omega
          rcases hb : bit b with _ | _
          · simp [hb, hd]
          · simp only [if_true, List.drop_succ_cons, List.drop_zero]
            rw [ih (count + 1) t (i + 1) (by simp at hf; omega)
              (fun j b' t' h hh => hm (j + 1) b' t' (by simpa using h) (by simp [hb]; exact hh))]
            simp [hb, hd, hd']; omega
        · simp [hc, show mx - count = 0 by omega]

/-- C08. The bulk scan used for a repeated ASCII-only class gives, on properly encoded text, exactly the result of
the general repetition loops (for any sufficient number of loop steps), for every minimum and maximum with
`min ≤ max`. -/
theorem C08_span_eq_loop_partial (c : Cls) (ha : c.isAsciiOnly = true)
    (hu : c.ignoreCase = true → ∀ r ∈ c.ranges, CaseUniform r ∧ r.1 ≤ r.2)
    (min : Nat) (max : Option Nat) (hmm : ∀ m, max = some m → min ≤ m) (s : List Byte) (hp : ∀ j,
      (∀ x ∈ s.take j, x.toNat < 0x80) → Proper (s.drop j)) (fuel : Nat) (hf : s.length < fuel) :
    repLoop c.matchLen min max fuel s = .ok (spanScan c.asciiBit min max s) := by
  have hbit7 : ∀ x, c.asciiBit x = true → x.toNat < 0x80 := by
    intro x hx
    have hr : ∀ r ∈ c.ranges, r.1 ≤ 0x7F ∧ r.2 ≤ 0x7F := by
      simp [Cls.isAsciiOnly] at ha
      intro r hr; exact ha.2 r.1 r.2 hr
    simp only [Cls.asciiBit, ha, Bool.true_and] at hx
    rw [List.any_eq_true] at hx
    simp only [mem_range_any, Bool.or_eq_true, Bool.and_eq_true, decide_eq_true_eq] at hx
    obtain ⟨r, h1, cp, h2, h3, h4⟩ := hx
    have := hr r h1
    rcases h4 with h4 | ⟨-, h4 | h4⟩
    · omega
    · unfold toUpper at h4; split at h4 <;> omega
    · unfold toLower at h4; split at h4 <;> omega
  have hm : ∀ j b t, s.drop j = b :: t → (∀ x ∈ s.take j, c.asciiBit x = true) →
      c.matchLen (b :: t) = if c.asciiBit b then some 1 else none := by
    intro j b t h hh
    exact C07_bitset_agrees c ha hu b t (h ▸ hp j (fun x hx => hbit7 x (hh x hx)))
  have hn : c.matchLen [] = none := rfl
  unfold repLoop spanScan
  rw [repMandatory_span _ c.asciiBit min s 0 hm hn]
  by_cases hlt : ((s.take min).takeWhile c.asciiBit).length < min
  · rw [if_pos hlt]
    have htw : ∀ k, min ≤ k → ((s.take k).takeWhile c.asciiBit).length < min := by
      intro k hk
      have : ∀ (l : List Byte) (a b : Nat), a ≤ b → ((l.take a).takeWhile c.asciiBit).length < a →
          ((l.take b).takeWhile c.asciiBit).length < a := by
        intro l
        induction l with
        | nil => intro a b _ h; simp at h ⊢; exact h
        | cons x l ih =>
          intro a b hab h
          rcases a with _ | a
          · simp at h
          · rcases b with _ | b
            · omega
            · simp only [List.take_succ_cons, List.takeWhile_cons] at h ⊢
              rcases hx : c.asciiBit x with _ | _
              · simp
              · simp [hx] at h ⊢; exact ih a b (by omega) h
      exact this s min k hk hlt
    rcases max with _ | mx
    · simp only
      have := htw (min + s.length) (by omega)
      rw [List.take_of_length_le (by omega)] at this
      rw [if_pos this]
    · simp only
      rw [if_pos (htw mx (hmm mx rfl))]
  · rw [if_neg hlt]
    have hlen : ((s.take min).takeWhile c.asciiBit).length = min := by
      have h1 : ((s.take min).takeWhile c.asciiBit).length ≤ (s.take min).length :=
        (List.takeWhile_sublist _).length_le
      have h2 : (s.take min).length ≤ min := by simp; omega
      omega
    have hall : ∀ x ∈ s.take min, c.asciiBit x = true := by
      have hpre : (s.take min).takeWhile c.asciiBit = s.take min := by
        apply (List.takeWhile_prefix _).eq_of_length
        have h2 : (s.take min).length ≤ min := by simp; omega
        have h1 : ((s.take min).takeWhile c.asciiBit).length ≤ (s.take min).length :=
          (List.takeWhile_sublist _).length_le
        omega
      intro x hx
      rw [← hpre] at hx
      exact List.all_eq_true.mp (List.all_takeWhile) x hx
    have hlm : min ≤ s.length := by
      have h1 : ((s.take min).takeWhile c.asciiBit).length ≤ (s.take min).length :=
        (List.takeWhile_sublist _).length_le
      simp at h1; omega
    simp only [Nat.zero_add]
    rw [repOptional_span _ c.asciiBit max fuel min (s.drop min) min (by simp; omega)
      (fun j b t h hh => hm (min + j) b t (by simpa [List.drop_drop] using h) (by
        intro x hx
        rw [List.take_add, List.mem_append] at hx
        rcases hx with hx | hx
        · exact hall x hx
        · exact hh x hx)) hn]
    simp only [Out.ok_bind]
    have hsplit : ∀ k, ((s.take (min + k)).takeWhile c.asciiBit).length =
        min + (((s.drop min).take k).takeWhile c.asciiBit).length := by
      intro k
      rw [List.take_add, List.takeWhile_append_of_pos hall]
      simp; omega
    rcases max with _ | mx
    · have := hsplit s.length
      rw [List.take_of_length_le (by omega), List.take_of_length_le (l := s.drop min) (by simp)] at this
      simp only [this]
      rw [if_neg (by omega)]
    · have hmx := hmm mx rfl
      have := hsplit (mx - min)
      rw [show min + (mx - min) = mx by omega] at this
      simp only [this]
      rw [if_neg (by omega)]

/-- The hypotheses of `C08_span_eq_loop_partial` hold for `[a-z]{1,3}` on `"abcd€"`. -/
example : (Cls.mk [(97, 122)] false false).isAsciiOnly = true ∧
    spanScan (Cls.mk [(97, 122)] false false).asciiBit 1 (some 3) [97, 98, 99, 100, 0xE2, 0x82, 0xAC] = some 3 ∧
    (∀ j, (∀ x ∈ ([97, 98, 99, 100, 0xE2, 0x82, 0xAC] : List Byte).take j, x.toNat < 0x80) →
      Proper (([97, 98, 99, 100, 0xE2, 0x82, 0xAC] : List Byte).drop j)) := by
  refine ⟨by decide, by decide +kernel, ?_⟩
  intro j hj b t h
  rcases j with _ | _ | _ | _ | _ | j
  · left; simp at h; rw [← h.1]; decide
  · left; simp at h; rw [← h.1]; decide
  · left; simp at h; rw [← h.1]; decide
  · left; simp at h; rw [← h.1]; decide
  · right; rw [show ([97, 98, 99, 100, 0xE2, 0x82, 0xAC] : List Byte).drop 4 = [0xE2, 0x82, 0xAC] from rfl]
    decide +kernel
  · have := hj 0xE2 (by simp)
    exact absurd this (by decide)

/-- C08, false for mixed-case ranges: `[A-z]i+` over `"_"` matches in bulk and not one at a time. -/
theorem C08_counterexample :
    spanScan (Cls.mk [(90, 97)] false true).asciiBit 1 none [95] = some 1 ∧
    repLoop (Cls.mk [(90, 97)] false true).matchLen 1 none 5 [95] = .ok none := by decide +kernel

/-- C08, false for an inverted bound: `[a]{3,1}` matches three characters one at a time, none in bulk. -/
theorem C08_inverted_bounds_counterexample :
    spanScan (Cls.mk [(97, 97)] false false).asciiBit 3 (some 1) [97, 97, 97] = none ∧
    repLoop (Cls.mk [(97, 97)] false false).matchLen 3 (some 1) 5 [97, 97, 97] = .ok (some 3) := by decide +kernel

/-- C08/C22: on a stray continuation byte `[^a]*` makes no progress, for ever. -/
theorem C08_malformed_never_ends : ∀ fuel,
    repLoop (Cls.mk [(97, 97)] true false).matchLen 0 none fuel [0x80] = .oof := by
  have : ∀ fuel count i, repOptional (Cls.mk [(97, 97)] true false).matchLen none fuel count [0x80] i = .oof := by
    intro fuel
    induction fuel with
    | zero => intros; rfl
    | succ fuel ih =>
      intro count i
      have hm : (Cls.mk [(97, 97)] true false).matchLen [0x80] = some 0 := by decide +kernel
      simp only [repOptional, Option.all_none, if_true, hm, List.drop_zero]
      exact ih _ _
  intro fuel
  simp only [repLoop, repMandatory, List.drop_zero, this]
  rfl

end Verif.Props
