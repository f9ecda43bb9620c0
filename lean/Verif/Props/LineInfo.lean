import Verif.LineInfo
/-! # Properties of line/column computation (C11, C12) -/
namespace Verif.Props
open Verif.Utf8 Verif.LineInfo

/-- C11. Line = 1 + newlines before the position; column = 1 + characters since the last newline. -/
theorem C11_line_info (text : List Byte) (pos : Nat) (h : pos ≤ text.length) :
    lineInfo text pos = (1 + (text.take pos).count 10, codepointCount (lastLine (text.take pos)) + 1) := by
  unfold lineInfo
  have hsplit := split_last (text.take pos)
  rcases hsplit with hn | ⟨a, b, he, hb⟩
  · rw [scan_no_nl _ hn, lastLine_no_nl _ hn]
    have hc : (text.take pos).count 10 = 0 := List.count_eq_zero.mpr hn
    simp only [hc, Nat.zero_add, Nat.add_zero, List.drop_zero, Nat.sub_zero, List.length_take]
    rw [Nat.min_eq_left h]
  · rw [he, scan_append, lastLine_append_nl _ _ hb]
    have hcnt := scan_count a 1 0 0
    rcases hs : scan a (1, 0, 0) with ⟨no, c, p⟩
    rw [hs] at hcnt
    simp only at hcnt
    obtain ⟨rfl, rfl⟩ := hcnt
    simp only [scan, if_true]
    rw [scan_no_nl _ hb]
    have hcount : (a ++ 10 :: b).count 10 = a.count 10 + 1 := by
      rw [List.count_append, List.count_cons_self, List.count_eq_zero.mpr hb]
    have hdrop : (text.drop (0 + a.length + 1)).take (0 + a.length + 1 + b.length - (0 + a.length + 1)) = b := by
      have hlen : pos = a.length + 1 + b.length := by
        have := congrArg List.length he
        simp at this; omega
      have h2 : (text.take pos).drop (a.length + 1) = b := by
        rw [he]; simp [List.drop_append]
      rw [List.drop_take] at h2
      rw [show 0 + a.length + 1 = a.length + 1 by omega,
        show a.length + 1 + b.length - (a.length + 1) = pos - (a.length + 1) by omega]
      exact h2
    simp only [hdrop, hcount]
    exact Prod.ext (by simp only; omega) rfl

example : lineInfo [97, 10, 0xE2, 0x82, 0xAC, 98] 6 = (2, 3) := by decide +kernel

/-- What Context::line_info computes: the column is counted in bytes. -/
def lineColBytes (text : List Byte) (pos : Nat) : Nat × Nat :=
  ((text.take pos).count 10 + 1, (lastLine (text.take pos)).length + 1)

/-- C12. Whatever the hint left behind by earlier queries, the answer for any position of the input is the direct
one, and nothing is read out of range. -/
theorem C12_hint_irrelevant (text : List Byte) (hint pos : Nat) (h : pos ≤ text.length) :
    ∃ hint', ctxLineInfo text hint pos = .ok (lineColBytes text pos, hint') := by
  unfold ctxLineInfo
  have hid : (if hintOk (lineIndex text) hint pos then hint else lowerBound (lineIndex text) pos) =
      (text.take pos).count 10 := by
    split
    · rename_i hh
      rw [hintOk_eq _ (lineIndex_sorted text) hint pos hh, lowerBound_lineIndex text pos h]
    · exact lowerBound_lineIndex text pos h
  simp only [hid]
  refine ⟨(text.take pos).count 10, ?_⟩
  unfold lineColBytes
  rcases split_last (text.take pos) with hn | ⟨a, b, he, hb⟩
  · rw [List.count_eq_zero.mpr hn, lastLine_no_nl _ hn, if_pos rfl]
    simp [Nat.min_eq_left h]
  · have hcount : (text.take pos).count 10 = a.count 10 + 1 := by
      rw [he, List.count_append, List.count_cons_self, List.count_eq_zero.mpr hb]
    have hlen : pos = a.length + 1 + b.length := by
      have := congrArg List.length he
      simp at this; omega
    rw [hcount, if_neg (by omega), he, lastLine_append_nl _ _ hb]
    have hidx : (lineIndex text)[a.count 10]? = some a.length := by
      unfold lineIndex
      have : text = a ++ 10 :: (b ++ text.drop pos) := by
        have h2 := List.take_append_drop pos text
        rw [he, List.append_assoc] at h2; exact h2.symm
      rw [this, newlines_split]
      rw [List.append_assoc, List.getElem?_append_right (by rw [newlines_length]; exact Nat.le_refl _),
        newlines_length, Nat.sub_self]
      simp [newlines]
    simp only [Nat.add_sub_cancel, idx, hidx, Out.ok_bind]
    rw [if_pos (by omega)]
    simp; omega

/-- C12. For every text and every history of queries at positions of the input, each query gets the answer it would
get on its own. -/
theorem C12_history (text : List Byte) (ps : List Nat) (h : ∀ p ∈ ps, p ≤ text.length) (hint : Nat) :
    queries text hint ps = ps.map fun p => .ok (lineColBytes text p) := by
  induction ps generalizing hint with
  | nil => rfl
  | cons p ps ih =>
    obtain ⟨hint', he⟩ := C12_hint_irrelevant text hint p (h p (by simp))
    simp only [queries, he, List.map_cons]
    rw [ih (fun q hq => h q (by simp [hq])) hint']

example : queries [97, 10, 98, 99, 10, 100] 7 [3, 0, 6, 2] =
    [.ok (2, 2), .ok (1, 1), .ok (3, 2), .ok (2, 1)] := by decide +kernel

theorem codepointCount_ascii (s : List Byte) (h : ∀ b ∈ s, b.toNat < 0x80) : codepointCount s = s.length := by
  induction s with
  | nil => exact codepointCount_nil
  | cons c t ih =>
    have hl : codepointLength (c :: t) = 1 := by
      rw [length_eq]; simp [h c (by simp)]
    rw [codepointCount_cons, hl]
    simp [ih (fun b hb => h b (by simp [hb]))]; omega

/-- C12. On ASCII text the two line/column functions of the library agree. -/
theorem C12_agrees_ascii (text : List Byte) (ha : ∀ b ∈ text, b.toNat < 0x80) (hint pos : Nat)
    (h : pos ≤ text.length) : ∃ hint', ctxLineInfo text hint pos = .ok (lineInfo text pos, hint') := by
  obtain ⟨hint', he⟩ := C12_hint_irrelevant text hint pos h
  refine ⟨hint', ?_⟩
  rw [he, C11_line_info text pos h]
  unfold lineColBytes
  rw [codepointCount_ascii, Nat.add_comm]
  intro b hb
  apply ha
  unfold lastLine at hb
  rw [List.mem_reverse] at hb
  have := (List.takeWhile_sublist _).mem hb
  rw [List.mem_reverse] at this
  exact List.mem_of_mem_take this

/-- ... but not on other text: after one three-byte character the AST's column says 4, the log's says 2. -/
theorem C12_disagree_non_ascii :
    ctxLineInfo [0xE2, 0x82, 0xAC, 98] 0 3 = .ok ((1, 4), 0) ∧ lineInfo [0xE2, 0x82, 0xAC, 98] 3 = (1, 2) := by
  decide +kernel

end Verif.Props
