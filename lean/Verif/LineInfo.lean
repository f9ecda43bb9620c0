import Verif.Utf8
/-!
# Line and column computation (peglib.h 530-546 and Context::line_info, peglib.h 1400-1429)

Pointers into the input are offsets.
-/

namespace Verif
namespace LineInfo
open Utf8

/-- peglib.h 535-541 the `while (p < cur)` loop of the free function: state (no, col_ptr, p). -/
def scan : List Byte → Nat × Nat × Nat → Nat × Nat × Nat
  | [], st => st
  | b :: t, (no, colPtr, p) => if b = 10 then scan t (no + 1, p + 1, p + 1) else scan t (no, colPtr, p + 1)

/-- peglib.h 530-546 `line_info(start, cur)`, `cur` being the offset `pos`. -/
def lineInfo (text : List Byte) (pos : Nat) : Nat × Nat :=
  let (no, colPtr, p) := scan (text.take pos) (1, 0, 0)
  (no, codepointCount ((text.drop colPtr).take (p - colPtr)) + 1)

/-- peglib.h 1404-1406 positions of the newlines (`off` is the offset of the list in the input). -/
def newlines : Nat → List Byte → List Nat
  | _, [] => []
  | off, b :: t => if b = 10 then off :: newlines (off + 1) t else newlines (off + 1) t

/-- peglib.h 1403-1409 `source_line_index`. -/
def lineIndex (text : List Byte) : List Nat := newlines 0 text ++ [text.length]

/-- peglib.h 1420: `std::lower_bound`: first index whose element is not less than `pos` (the size if there is none). -/
def lowerBound (ix : List Nat) (pos : Nat) : Nat := ix.findIdx (fun e => !(e < pos))

/-- peglib.h 1414-1430: `source_line_index[i]` with the out-of-range read made explicit. -/
def idx (ix : List Nat) (i : Nat) : Out Nat :=
  match ix[i]? with
  | some v => .ok v
  | none => .ub "index out of range"

/-- peglib.h 1418-1419 is the hint still right for `pos`? -/
def hintOk (ix : List Nat) (hint pos : Nat) : Bool :=
  match ix[hint]? with
  | none => false
  | some e => pos ≤ e && (hint = 0 || (match ix[hint - 1]? with
      | some e' => e' < pos
      | none => false))

/-- peglib.h 1400-1429 `Context::line_info`: the answer and the new `line_info_hint_`.  `size_t` subtraction that
would wrap is reported as undefined (it never happens, see the theorems). -/
def ctxLineInfo (text : List Byte) (hint : Nat) (pos : Nat) : Out ((Nat × Nat) × Nat) :=
  let ix := lineIndex text
  let id := if hintOk ix hint pos then hint else lowerBound ix pos
  if id = 0 then .ok ((id + 1, pos + 1), id)
  else (idx ix (id - 1)).bind fun e =>
    if e + 1 ≤ pos then .ok ((id + 1, pos - (e + 1) + 1), id) else .ub "column underflow"

/-- A history of queries against one context. -/
def queries (text : List Byte) : Nat → List Nat → List (Out (Nat × Nat))
  | _, [] => []
  | hint, p :: ps =>
    match ctxLineInfo text hint p with
    | .ok (r, hint') => .ok r :: queries text hint' ps
    | .ub w => .ub w :: queries text hint ps
    | .oof => .oof :: queries text hint ps

/-! ## Lemmas -/

theorem newlines_ge (off : Nat) (t : List Byte) : ∀ e ∈ newlines off t, off ≤ e ∧ e < off + t.length := by
  induction t generalizing off with
  | nil => simp [newlines]
  | cons b t ih =>
    intro e he
    simp only [newlines] at he
    split at he
    · rw [List.mem_cons] at he
      rcases he with rfl | he
      · simp
      · have := ih _ e he; simp; omega
    · have := ih _ e he; simp; omega

theorem newlines_sorted (off : Nat) (t : List Byte) : (newlines off t).Pairwise (· < ·) := by
  induction t generalizing off with
  | nil => simp [newlines]
  | cons b t ih =>
    simp only [newlines]
    split
    · rw [List.pairwise_cons]
      exact ⟨fun e he => by have := (newlines_ge _ _ e he).1; omega, ih _⟩
    · exact ih _

theorem lineIndex_sorted (text : List Byte) : (lineIndex text).Pairwise (· < ·) := by
  unfold lineIndex
  rw [List.pairwise_append]
  refine ⟨newlines_sorted 0 text, by simp, ?_⟩
  intro a ha b hb
  rw [List.mem_singleton] at hb
  have := (newlines_ge 0 text a ha).2
  omega

theorem lowerBound_lt {text : List Byte} {pos : Nat} (h : pos ≤ text.length) :
    lowerBound (lineIndex text) pos < (lineIndex text).length := by
  unfold lowerBound
  rw [List.findIdx_lt_length]
  exact ⟨text.length, by simp [lineIndex], by simp; omega⟩

theorem sorted_getElem_lt {l : List Nat} (h : l.Pairwise (· < ·)) {i j : Nat} (hj : j < l.length) (hij : i < j) :
    l[i]'(by omega) < l[j] := (List.pairwise_iff_getElem.mp h) i j (by omega) hj hij

/-- A valid hint is what the binary search would find. -/
theorem hintOk_eq (ix : List Nat) (hs : ix.Pairwise (· < ·)) (hint pos : Nat) (h : hintOk ix hint pos = true) :
    hint = lowerBound ix pos := by
  unfold hintOk at h
  split at h
  · simp at h
  · rename_i e he
    obtain ⟨hlt, he'⟩ := List.getElem?_eq_some_iff.mp he
    simp only [Bool.and_eq_true, decide_eq_true_eq, Bool.or_eq_true] at h
    obtain ⟨h1, h2⟩ := h
    unfold lowerBound
    symm
    rw [List.findIdx_eq hlt]
    refine ⟨by simp; omega, ?_⟩
    intro j hj
    simp only [Bool.not_eq_false', decide_eq_true_eq]
    rcases h2 with h2 | h2
    · omega
    · split at h2
      · rename_i e' he''
        obtain ⟨hlt2, he3⟩ := List.getElem?_eq_some_iff.mp he''
        simp at h2
        rcases Nat.lt_or_eq_of_le (show j ≤ hint - 1 by omega) with hjl | hjl
        · have := sorted_getElem_lt hs hlt2 hjl; omega
        · subst hjl; omega
      · simp at h2

theorem findIdx_append_last (l : List Nat) (x : Nat) (pos : Nat) (hx : pos ≤ x) (hs : l.Pairwise (· < ·)) :
    (l ++ [x]).findIdx (fun e => !(e < pos)) = l.countP (· < pos) := by
  induction l with
  | nil =>
    have hx' : ¬ x < pos := by omega
    simp [List.findIdx_cons, hx']
  | cons a l ih =>
    rw [List.pairwise_cons] at hs
    rw [List.cons_append, List.findIdx_cons, List.countP_cons]
    by_cases h : a < pos
    · simp [h, ih hs.2]
    · simp only [h, decide_false, Bool.not_false, cond_true]
      have : l.countP (· < pos) = 0 := by
        rw [List.countP_eq_zero]
        intro b hb; have := hs.1 b hb; simp; omega
      rw [this]; simp

theorem countP_newlines (off pos : Nat) (t : List Byte) :
    (newlines off t).countP (· < off + pos) = (t.take pos).count 10 := by
  induction t generalizing off pos with
  | nil => simp [newlines]
  | cons b t ih =>
    simp only [newlines]
    rcases pos with _ | pos
    · simp only [List.take_zero, List.count_nil, Nat.add_zero]
      rw [List.countP_eq_zero]
      intro e he
      have := newlines_ge off (b :: t) e (by simpa [newlines] using he)
      simp; omega
    · have := ih (off + 1) pos
      rw [show off + 1 + pos = off + (pos + 1) by omega] at this
      split
      · rename_i hb
        subst hb
        rw [List.countP_cons, this]; simp
      · rename_i hb
        rw [this, List.take_succ_cons, List.count_cons]; simp [hb]

theorem lowerBound_lineIndex (text : List Byte) (pos : Nat) (h : pos ≤ text.length) :
    lowerBound (lineIndex text) pos = (text.take pos).count 10 := by
  unfold lowerBound lineIndex
  rw [findIdx_append_last _ _ _ h (newlines_sorted 0 text)]
  have := countP_newlines 0 pos text
  simpa using this

/-- Text after the last newline. -/
def lastLine (t : List Byte) : List Byte := (t.reverse.takeWhile (· ≠ 10)).reverse

theorem lastLine_append_nl (a b : List Byte) (h : (10 : Byte) ∉ b) : lastLine (a ++ 10 :: b) = b := by
  unfold lastLine
  rw [List.reverse_append, List.reverse_cons, List.append_assoc,
    List.takeWhile_append_of_pos (by intro x hx; simp at hx ⊢; intro e; exact h (e ▸ hx))]
  simp

theorem lastLine_no_nl (b : List Byte) (h : (10 : Byte) ∉ b) : lastLine b = b := by
  unfold lastLine
  have := List.takeWhile_append_of_pos (p := fun x : Byte => decide (x ≠ 10)) (l₁ := b.reverse) (l₂ := [])
    (by intro x hx; simp at hx ⊢; intro e; exact h (e ▸ hx))
  simp only [List.append_nil, List.takeWhile_nil] at this
  rw [this]; simp

/-- Split a text at its last newline. -/
theorem split_last (t : List Byte) :
    ((10 : Byte) ∉ t) ∨ ∃ a b, t = a ++ 10 :: b ∧ (10 : Byte) ∉ b := by
  induction t with
  | nil => left; simp
  | cons x t ih =>
    rcases ih with h | ⟨a, b, rfl, hb⟩
    · by_cases hx : x = 10
      · right; exact ⟨[], t, by rw [hx]; rfl, h⟩
      · left; simp [h]; exact fun e => hx e.symm
    · right; exact ⟨x :: a, b, rfl, hb⟩

theorem scan_append (a b : List Byte) (st : Nat × Nat × Nat) : scan (a ++ b) st = scan b (scan a st) := by
  induction a generalizing st with
  | nil => rfl
  | cons x a ih =>
    obtain ⟨no, c, p⟩ := st
    simp only [List.cons_append, scan]
    split <;> exact ih _

theorem scan_no_nl (b : List Byte) (h : (10 : Byte) ∉ b) (no c p : Nat) : scan b (no, c, p) = (no, c, p + b.length) := by
  induction b generalizing p with
  | nil => rfl
  | cons x b ih =>
    simp only [List.mem_cons, not_or] at h
    have hx : x ≠ 10 := fun e => h.1 e.symm
    simp only [scan, if_neg hx]
    rw [ih h.2, List.length_cons]
    rw [show p + 1 + b.length = p + (b.length + 1) by omega]

theorem scan_count (b : List Byte) (no c p : Nat) :
    (scan b (no, c, p)).1 = no + b.count 10 ∧ (scan b (no, c, p)).2.2 = p + b.length := by
  induction b generalizing no c p with
  | nil => simp [scan]
  | cons x b ih =>
    simp only [scan]
    split
    · rename_i hx; subst hx
      have := ih (no + 1) (p + 1) (p + 1)
      simp; omega
    · rename_i hx
      have := ih no c (p + 1)
      rw [List.count_cons]
      simp [hx]; omega

/-- The newline before `pos`, seen from the index. -/
theorem newlines_split (a b : List Byte) (off : Nat) :
    newlines off (a ++ b) = newlines off a ++ newlines (off + a.length) b := by
  induction a generalizing off with
  | nil => simp [newlines]
  | cons x a ih =>
    simp only [List.cons_append, newlines, List.length_cons]
    rw [ih (off + 1), show off + 1 + a.length = off + (a.length + 1) by omega]
    split <;> simp

theorem newlines_length (off : Nat) (a : List Byte) : (newlines off a).length = a.count 10 := by
  induction a generalizing off with
  | nil => simp [newlines]
  | cons x a ih =>
    simp only [newlines]
    split
    · rename_i h; subst h; simp [ih]
    · rename_i h; rw [ih, List.count_cons]; simp [h]

end LineInfo
end Verif
