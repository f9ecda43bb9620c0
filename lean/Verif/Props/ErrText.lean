import Verif.ErrText
import Verif.Props.Errors
import Verif.Props.Escape
import Verif.Props.LineInfo
/-!
# What an error message says: C56
-/

namespace Verif.Props
open Verif Out Utf8 ErrText

variable {V : Type}

/-! ## The unexpected token -/

/-- The ASCII punctuation and white space characters (as code points). -/
def sepTable : List Nat :=
  ("!\"#$%&'()*+,-./:;<=>?@[\\]^_`{|}~ \t\n".toList.map Char.toNat) ++ [11, 12, 13]

/-- The character is punctuation or white space. -/
def Sep (c : Nat) : Bool := c ∈ sepTable

/-- What is called the unexpected token in front of the text `cs` (code points): one separator, or the word up to the next
separator, cut after 32 characters. -/
def tokenOf (cs : List Nat) : List Nat :=
  match cs with
  | [] => []
  | c :: _ => if Sep c then [c] else (cs.takeWhile fun c => !Sep c).take 32

theorem isSep_small (n : Fin 128) : isSep (UInt8.ofNat n.val) = Sep n.val := by
  revert n; decide +kernel

theorem isSep_large (n : Fin 128) : isSep (UInt8.ofNat (n.val + 128)) = false := by
  revert n; decide +kernel

theorem sep_lt {c : Nat} (h : Sep c = true) : c < 128 := by
  simp only [Sep, decide_eq_true_eq] at h
  have : ∀ c ∈ sepTable, c < 128 := by decide +kernel
  exact this c h

theorem isSep_high {b : Byte} (h : 128 ≤ b.toNat) : isSep b = false := by
  have h2 := byte_lt b
  have := isSep_large ⟨b.toNat - 128, by omega⟩
  simpa [show b.toNat - 128 + 128 = b.toNat by omega] using this

theorem isSep_low {b : Byte} (h : b.toNat < 128) : isSep b = Sep b.toNat := by
  simpa using isSep_small ⟨b.toNat, h⟩

/-- A scalar value is one byte, or bytes of 128 and more. -/
theorem enc_bytes {c : Nat} (h : IsScalar c) :
    (c < 128 ∧ encodeCodepoint c = [toByte c]) ∨ (128 ≤ c ∧ encodeCodepoint c ≠ [] ∧ ∀ b ∈ encodeCodepoint c, 128 ≤ b.toNat) := by
  have key : ∀ n, 128 ≤ n → n < 256 → 128 ≤ (toByte n).toNat := fun n h1 h2 => by rw [toByte_toNat h2]; exact h1
  rcases encode_cases h with ⟨h1, e⟩ | ⟨h0, h1, e⟩ | ⟨h0, h1, e⟩ | ⟨h0, h1, e⟩
  · exact .inl ⟨h1, e⟩
  all_goals
    refine .inr ⟨by omega, by rw [e]; simp, ?_⟩
    rw [e]
    simp only [List.mem_cons, List.not_mem_nil, or_false, forall_eq_or_imp, forall_eq]
  · exact ⟨key _ (by omega) (by omega), key _ (by omega) (by omega)⟩
  · exact ⟨key _ (by omega) (by omega), key _ (by omega) (by omega), key _ (by omega) (by omega)⟩
  · exact ⟨key _ (by omega) (by omega), key _ (by omega) (by omega), key _ (by omega) (by omega), key _ (by omega) (by omega)⟩

theorem isSep_toByte {c : Nat} (h : c < 128) : isSep (toByte c) = Sep c := isSep_small ⟨c, h⟩

theorem enc_sep {c : Nat} (h : IsScalar c) (hs : Sep c = true) : encodeCodepoint c = [toByte c] ∧ isSep (toByte c) = true := by
  have h1 := sep_lt hs
  rcases enc_bytes h with ⟨_, e⟩ | ⟨h2, _⟩
  · exact ⟨e, by rw [isSep_toByte h1, hs]⟩
  · omega

theorem enc_nosep {c : Nat} (h : IsScalar c) (hs : Sep c = false) : ∀ b ∈ encodeCodepoint c, isSep b = false := by
  rcases enc_bytes h with ⟨h1, e⟩ | ⟨_, _, h2⟩
  · rw [e]; simp [isSep_toByte h1, hs]
  · exact fun b hb => isSep_high (h2 b hb)

theorem takeWhile_enc (cs : List Nat) (h : ∀ c ∈ cs, IsScalar c) :
    (cs.flatMap encodeCodepoint).takeWhile (fun b => !isSep b) = (cs.takeWhile fun c => !Sep c).flatMap encodeCodepoint := by
  induction cs with
  | nil => rfl
  | cons c cs ih =>
    have hc := h c (by simp)
    have ih := ih fun c hc => h c (by simp [hc])
    cases hs : Sep c with
    | true =>
      obtain ⟨e, h1⟩ := enc_sep hc hs
      simp [hs, e, h1]
    | false =>
      have h1 := enc_nosep hc hs
      rw [List.flatMap_cons, List.takeWhile_append_of_pos (fun b hb => by simp [h1 b hb]), ih, List.takeWhile_cons]
      simp [hs]

theorem runLen_enc (cs : List Nat) (h : ∀ c ∈ cs, IsScalar c) :
    ∃ w, w <+: cs ∧ (cs.flatMap encodeCodepoint).take (runLen (cs.flatMap encodeCodepoint)) = w.flatMap encodeCodepoint ∧
      tokenOf cs = w.take 32 := by
  cases cs with
  | nil => exact ⟨[], by simp, rfl, rfl⟩
  | cons c cs =>
    have hc := h c (by simp)
    cases hs : Sep c with
    | true =>
      obtain ⟨e, h1⟩ := enc_sep hc hs
      exact ⟨[c], by simp, by simp [e, runLen, h1], by simp [tokenOf, hs]⟩
    | false =>
      refine ⟨(c :: cs).takeWhile fun c => !Sep c, List.takeWhile_prefix _, ?_, by simp [tokenOf, hs]⟩
      rw [← takeWhile_enc _ h]
      generalize hx : (c :: cs).flatMap encodeCodepoint = x
      cases x with
      | nil => rfl
      | cons b t =>
        have hb : isSep b = false := by
          refine enc_nosep hc hs b ?_
          rw [List.flatMap_cons] at hx
          have h2 := encode_length_pos hc
          cases he : encodeCodepoint c with
          | nil => rw [he] at h2; simp at h2
          | cons b' t' => rw [he] at hx; simp at hx; simp [hx.1]
        have : ∀ l : List Byte, l.take (l.takeWhile fun c => !isSep c).length = l.takeWhile fun c => !isSep c := by
          intro l
          exact (List.prefix_iff_eq_take.1 (List.takeWhile_prefix _)).symm
        simp only [runLen, hb, Bool.false_eq_true, if_false, List.takeWhile_cons, Bool.not_false, if_true]
        rw [Nat.add_comm, List.take_succ_cons, this]

theorem advance_enc (n : Nat) (w : List Nat) (h : ∀ c ∈ w, IsScalar c) :
    advance n (w.flatMap encodeCodepoint) = ((w.take n).flatMap encodeCodepoint).length := by
  induction n generalizing w with
  | zero => simp [advance]
  | succ n ih =>
    cases w with
    | nil => simp [advance]
    | cons c w =>
      have hc := h c (by simp)
      have h2 := encode_length_pos hc
      have h3 := codepointLength_encode c hc (w.flatMap encodeCodepoint)
      rw [List.flatMap_cons]
      cases hx : encodeCodepoint c ++ w.flatMap encodeCodepoint with
      | nil => simp at hx; rw [hx.1] at h2; simp at h2
      | cons b t =>
        rw [hx] at h3
        simp only [advance]
        rw [h3, ← hx, List.drop_left, ih _ fun c hc => h c (by simp [hc])]
        simp

/-- **The unexpected token.**  If the text from the error position on is the UTF-8 encoding of `cs`, the unexpected token is the
separator it starts with, or its first word (cut after 32 characters), with control characters shown as escapes. -/
theorem C56_unexpected_token (before : List Byte) (cs : List Nat) (h : ∀ c ∈ cs, IsScalar c) :
    heuristicToken (before ++ cs.flatMap encodeCodepoint) before.length =
      .ok (Escape.escapeCharacters ((tokenOf cs).flatMap encodeCodepoint)) := by
  obtain ⟨w, hw, h1, h2⟩ := runLen_enc cs h
  have hw' : ∀ c ∈ w, IsScalar c := fun c hc => h c (hw.subset hc)
  unfold heuristicToken
  rw [if_neg (by simp)]
  simp only [List.drop_left]
  rw [h1, advance_enc _ _ hw']
  congr 2
  have : (w.take 32).flatMap encodeCodepoint <+: cs.flatMap encodeCodepoint := by
    obtain ⟨t, rfl⟩ := hw
    rw [List.flatMap_append]
    refine List.IsPrefix.trans ?_ (List.prefix_append _ _)
    conv => rhs; rw [← List.take_append_drop 32 w, List.flatMap_append]
    exact List.prefix_append _ _
  rw [h2, show maxCharCount = 32 from rfl]
  exact (List.prefix_iff_eq_take.1 this).symm

theorem advance_le (n : Nat) (w : List Byte) : advance n w ≤ w.length ∧ advance n w ≤ 4 * n := by
  induction n generalizing w with
  | zero => simp [advance]
  | succ n ih =>
    cases w with
    | nil => simp [advance]
    | cons b w =>
      simp only [advance]
      have h1 := codepointLength_le (b :: w)
      have h2 := codepointLength_le4 (b :: w)
      have h3 := ih ((b :: w).drop (codepointLength (b :: w)))
      rw [List.length_drop] at h3
      omega

/-- Whatever the input bytes, the unexpected token is read inside the input: it shows a stretch of at most 128 bytes that begins
at the error position. -/
theorem C56_token_inside (text : List Byte) (pos : Nat) (h : pos ≤ text.length) :
    ∃ k ≤ 128, pos + k ≤ text.length ∧ heuristicToken text pos = .ok (Escape.escapeCharacters ((text.drop pos).take k)) := by
  have h1 := advance_le maxCharCount ((text.drop pos).take (runLen (text.drop pos)))
  rw [List.length_take, List.length_drop] at h1
  refine ⟨_, h1.2, by omega, ?_⟩
  unfold heuristicToken
  rw [if_neg (by omega)]

/-- The token shows no line break, tab or other control character of the white space range as such. -/
theorem C56_token_printable (text : List Byte) (pos : Nat) (t : List Byte) (h : heuristicToken text pos = .ok t) :
    ∀ b ∈ t, b < 9 ∨ 13 < b := by
  unfold heuristicToken at h
  split at h
  · cases h
  · simp only [Out.ok.injEq] at h
    subst h
    intro b hb
    simp only [Escape.escapeCharacters, List.mem_flatMap] at hb
    obtain ⟨c, _, hb⟩ := hb
    revert hb
    have : ∀ c b : Byte, b ∈ Escape.escapeByte c → b < 9 ∨ 13 < b := by
      intro c
      refine byte_forall (p := fun c => ∀ b ∈ Escape.escapeByte c, b < 9 ∨ 13 < b) ?_ c
      decide +kernel
    exact this c b

/-- For UTF-8 text the token is empty only at the end of the input. -/
theorem C56_token_empty (before : List Byte) (cs : List Nat) (h : ∀ c ∈ cs, IsScalar c) :
    heuristicToken (before ++ cs.flatMap encodeCodepoint) before.length = .ok [] ↔ cs = [] := by
  rw [C56_unexpected_token before cs h]
  constructor
  · intro e
    cases cs with
    | nil => rfl
    | cons c cs =>
      exfalso
      simp only [Out.ok.injEq] at e
      have h1 : ∀ (l : List Byte), Escape.escapeCharacters l = [] → l = [] := by
        intro l hl
        cases l with
        | nil => rfl
        | cons b l =>
          simp only [Escape.escapeCharacters, List.flatMap_cons, List.append_eq_nil_iff] at hl
          exact absurd hl.1 (by
            refine byte_forall (p := fun c => Escape.escapeByte c ≠ []) ?_ b
            decide +kernel)
      have h2 := h1 _ e
      have h3 : c ∈ tokenOf (c :: cs) := by
        unfold tokenOf
        cases hs : Sep c <;> simp [hs]
      have h4 : encodeCodepoint c = [] := by
        have := List.flatMap_eq_nil_iff.1 h2 c h3
        exact this
      have := encode_length_pos (h c (by simp))
      rw [h4] at this; simp at this
  · rintro rfl; rfl

/-- Two tokens: a word of three characters (one of two bytes) in the middle of a text, and a line break. -/
example : heuristicToken [97, 32, 98, 195, 169, 99, 43, 49] 2 = .ok [98, 195, 169, 99] ∧ heuristicToken [97, 10, 98] 1 = .ok [92, 110] := by
  constructor <;> decide +kernel

/-! ## Placeholders -/

theorem findAt_skip (pat str : List Byte) (m k pos : Nat) (hm : m ≤ k) (h : ∀ i < m, pat.isPrefixOf (str.drop (pos + i)) = false) :
    findAt pat str k pos = findAt pat str (k - m) (pos + m) := by
  induction m generalizing k pos with
  | zero => simp
  | succ m ih =>
    cases k with
    | zero => omega
    | succ k =>
      rw [findAt, show pat.isPrefixOf (str.drop pos) = false from h 0 (by omega)]
      simp only [Bool.false_eq_true, if_false]
      rw [ih k (pos + 1) (by omega) fun i hi => by
        have := h (i + 1) (by omega)
        rwa [show pos + (i + 1) = pos + 1 + i by omega] at this]
      rw [show pos + 1 + m = pos + (m + 1) by omega, show k + 1 - (m + 1) = k - m by omega]

theorem pat_prefix (x : Byte) (s : List Byte) : ([37, x] : List Byte).isPrefixOf s = true ↔ ∃ t, s = 37 :: x :: t := by
  rw [List.isPrefixOf_iff_prefix]
  constructor
  · rintro ⟨t, rfl⟩; exact ⟨t, rfl⟩
  · rintro ⟨t, rfl⟩; exact ⟨t, rfl⟩

/-- No marker inside a piece, even when the marker follows. -/
theorem no_marker {x : Byte} (hx : x ≠ 37) {p : List Byte} (hp : ¬ [37, x] <:+: p) (q : List Byte) (hq : q = [] ∨ ∃ t, q = 37 :: t)
    (i : Nat) (hi : i < p.length) : ([37, x] : List Byte).isPrefixOf (p.drop i ++ q) = false := by
  rw [Bool.eq_false_iff]
  intro h
  obtain ⟨t, ht⟩ := (pat_prefix x _).1 h
  cases hd : p.drop i with
  | nil => have := List.drop_eq_nil_iff.1 hd; omega
  | cons a r =>
    rw [hd] at ht
    simp only [List.cons_append, List.cons.injEq] at ht
    obtain ⟨rfl, ht⟩ := ht
    cases r with
    | nil =>
      simp only [List.nil_append] at ht
      rcases hq with rfl | ⟨u, rfl⟩
      · cases ht
      · simp only [List.cons.injEq] at ht; exact hx ht.1.symm
    | cons b r =>
      simp only [List.cons_append, List.cons.injEq] at ht
      obtain ⟨rfl, _⟩ := ht
      exact hp ⟨p.take i, r, by rw [List.append_assoc]; exact (congrArg _ hd.symm).trans (List.take_append_drop i p)⟩

theorem find_piece {x : Byte} (hx : x ≠ 37) {p : List Byte} (hp : ¬ [37, x] <:+: p) (done rest : List Byte) :
    find [37, x] (done ++ (p ++ ([37, x] ++ rest))) done.length = some (done.length + p.length) := by
  unfold find
  rw [findAt_skip _ _ p.length _ _ (by simp; omega)]
  · generalize hk : (done ++ (p ++ ([37, x] ++ rest))).length + 1 - done.length - p.length = k
    cases k with
    | zero => simp at hk; omega
    | succ k =>
      rw [findAt, if_pos]
      rw [pat_prefix]
      exact ⟨rest, by rw [← List.drop_drop, List.drop_left, List.drop_left]; rfl⟩
  · intro i hi
    have := no_marker hx hp ([37, x] ++ rest) (.inr ⟨_, rfl⟩) i hi
    rwa [← List.drop_drop, List.drop_left, List.drop_append_of_le_length (by omega)]

theorem find_none {x : Byte} (hx : x ≠ 37) {p : List Byte} (hp : ¬ [37, x] <:+: p) (done : List Byte) :
    find [37, x] (done ++ p) done.length = none := by
  unfold find
  rw [findAt_skip _ _ p.length _ _ (by simp; omega)]
  · have : (done ++ p).length + 1 - done.length - p.length = 1 := by simp; omega
    rw [this, findAt, if_neg]
    · rfl
    · rw [pat_prefix]
      rintro ⟨t, ht⟩
      rw [← List.drop_drop, List.drop_left, List.drop_length] at ht
      cases ht
  · intro i hi
    have := no_marker hx hp [] (.inl rfl) i hi
    rw [List.append_nil] at this
    rwa [← List.drop_drop, List.drop_left]

theorem inter_one (sep p : List Byte) : sep.intercalate [p] = p := by simp [List.intercalate]
theorem inter_cons (sep p q : List Byte) (ps : List (List Byte)) :
    sep.intercalate (p :: q :: ps) = p ++ (sep ++ sep.intercalate (q :: ps)) := by
  simp [List.intercalate]

theorem replaceLoop_pieces {x : Byte} (hx : x ≠ 37) (new : List Byte) (ps : List (List Byte)) :
    ∀ (p done : List Byte) (fuel : Nat), ps.length < fuel → (∀ q ∈ p :: ps, ¬ [37, x] <:+: q) →
      replaceLoop [37, x] new fuel (done ++ [37, x].intercalate (p :: ps)) done.length =
        .ok (done ++ new.intercalate (p :: ps)) := by
  induction ps with
  | nil =>
    intro p done fuel hf hp
    cases fuel with
    | zero => simp at hf
    | succ fuel =>
      rw [inter_one, inter_one, replaceLoop, find_none hx (hp p (by simp))]
  | cons q ps ih =>
    intro p done fuel hf hp
    cases fuel with
    | zero => simp at hf
    | succ fuel =>
      rw [inter_cons, inter_cons, replaceLoop, find_piece hx (hp p (by simp))]
      simp only
      have h1 : (done ++ (p ++ ([37, x] ++ [37, x].intercalate (q :: ps)))).take (done.length + p.length) = done ++ p := by
        rw [← List.append_assoc, show done.length + p.length = (done ++ p).length by simp, List.take_left]
      have h2 : (done ++ (p ++ ([37, x] ++ [37, x].intercalate (q :: ps)))).drop (done.length + p.length + [37, x].length) =
          [37, x].intercalate (q :: ps) := by
        rw [← List.append_assoc, ← List.append_assoc,
          show done.length + p.length + [37, x].length = ((done ++ p) ++ [37, x]).length by simp; omega, List.drop_left]
      rw [h1, h2, show done.length + p.length + new.length = (done ++ p ++ new).length by simp; omega,
        ih q (done ++ p ++ new) fuel (by simp at hf; omega) fun r hr => hp r (List.mem_cons_of_mem _ hr)]
      simp

/-- **Replacing a placeholder.**  A text made of pieces without the marker `%x`, joined by the marker: every marker is replaced by the
new text, whatever that text contains, and the replacement ends. -/
theorem C56_replace_all {x : Byte} (hx : x ≠ 37) (new : List Byte) (pieces : List (List Byte)) (hn : pieces ≠ [])
    (hp : ∀ p ∈ pieces, ¬ [37, x] <:+: p) (fuel : Nat) (hf : ([37, x].intercalate pieces).length < fuel) :
    replaceAll fuel ([37, x].intercalate pieces) [37, x] new = .ok (new.intercalate pieces) := by
  cases pieces with
  | nil => exact absurd rfl hn
  | cons p ps =>
    have hl : ∀ (ps : List (List Byte)) (p : List Byte), ps.length ≤ ([37, x].intercalate (p :: ps)).length := by
      intro ps
      induction ps with
      | nil => intro p; simp
      | cons q ps ih => intro p; rw [inter_cons]; have := ih q; simp at this ⊢; omega
    have := replaceLoop_pieces hx new ps p [] fuel (by have := hl ps p; omega) hp
    simpa [replaceAll] using this

/-- Every text is made of such pieces. -/
theorem C56_pieces (x : Byte) (str : List Byte) :
    ∃ pieces : List (List Byte), pieces ≠ [] ∧ (∀ p ∈ pieces, ¬ [37, x] <:+: p) ∧ str = [37, x].intercalate pieces := by
  induction str with
  | nil => exact ⟨[[]], by simp, by simp, by rw [inter_one]⟩
  | cons b t ih =>
    obtain ⟨pieces, hn, hp, rfl⟩ := ih
    cases pieces with
    | nil => exact absurd rfl hn
    | cons p ps =>
      by_cases hb : b = 37 ∧ ∃ p', p = x :: p'
      · obtain ⟨rfl, p', rfl⟩ := hb
        refine ⟨[] :: p' :: ps, by simp, ?_, ?_⟩
        · intro q hq
          simp only [List.mem_cons] at hq
          rcases hq with rfl | rfl | hq
          · simp
          · intro h; exact hp (x :: q) (by simp) (h.trans (List.infix_cons (List.infix_refl _)))
          · exact hp q (by simp [hq])
        · rw [inter_cons]
          cases ps with
          | nil => simp
          | cons q ps => simp
      · refine ⟨(b :: p) :: ps, by simp, ?_, ?_⟩
        · intro q hq
          simp only [List.mem_cons] at hq
          rcases hq with rfl | hq
          · intro h
            rcases List.infix_cons_iff.1 h with h | h
            · obtain ⟨u, hu⟩ := h
              simp only [List.cons_append, List.nil_append, List.cons.injEq] at hu
              exact hb ⟨hu.1.symm, u, hu.2.symm⟩
            · exact hp p (by simp) h
          · exact hp q (by simp [hq])
        · cases ps with
          | nil => simp
          | cons q ps => simp

/-- The parts of a message. -/
inductive Part where
  /-- plain text -/
  | text (s : List Byte)
  /-- `%t` -/
  | token
  /-- `%c` -/
  | char

/-- How the message is written in the grammar. -/
def Part.source : Part → List Byte
  | .text s => s
  | .token => [37, 116]
  | .char => [37, 99]

/-- What is to be shown for a part, the unexpected token being `t` and its first character `c`. -/
def Part.shown (t c : List Byte) : Part → List Byte
  | .text s => s
  | .token => t
  | .char => c

/-- one pass of `replace_all`, as a function. -/
def substMark (x : Byte) (new : List Byte) : List Byte → List Byte
  | [] => []
  | [b] => [b]
  | b :: y :: t => if b = 37 ∧ y = x then new ++ substMark x new t else b :: substMark x new (y :: t)

theorem substMark_mark (x : Byte) (new t : List Byte) : substMark x new (37 :: x :: t) = new ++ substMark x new t := by
  rw [substMark]; simp

theorem substMark_skip (x : Byte) (new t : List Byte) (b : Byte) (h : ¬ (b = 37 ∧ ∃ u, t = x :: u)) :
    substMark x new (b :: t) = b :: substMark x new t := by
  cases t with
  | nil => simp [substMark]
  | cons y t =>
    rw [substMark, if_neg]
    rintro ⟨h1, rfl⟩
    exact h ⟨h1, t, rfl⟩

theorem substMark_piece {x : Byte} (hx : x ≠ 37) (new : List Byte) (p q : List Byte) (hp : ¬ [37, x] <:+: p)
    (hq : q = [] ∨ ∃ t, q = 37 :: t) : substMark x new (p ++ q) = p ++ substMark x new q := by
  induction p with
  | nil => rfl
  | cons b p ih =>
    have h1 : ¬ [37, x] <:+: p := fun h => hp (h.trans (List.infix_cons (List.infix_refl _)))
    rw [List.cons_append, substMark_skip, ih h1]; rfl
    rintro ⟨rfl, u, hu⟩
    cases p with
    | nil =>
      rcases hq with rfl | ⟨t, rfl⟩
      · cases hu
      · simp only [List.nil_append, List.cons.injEq] at hu; exact hx hu.1.symm
    | cons y p =>
      simp only [List.cons_append, List.cons.injEq] at hu
      obtain ⟨rfl, _⟩ := hu
      exact hp ⟨[], p, by simp⟩

theorem substMark_inter {x : Byte} (hx : x ≠ 37) (new : List Byte) (ps : List (List Byte)) :
    ∀ p, (∀ q ∈ p :: ps, ¬ [37, x] <:+: q) → substMark x new ([37, x].intercalate (p :: ps)) = new.intercalate (p :: ps) := by
  induction ps with
  | nil =>
    intro p hp
    rw [inter_one, inter_one]
    have := substMark_piece hx new p [] (hp p (by simp)) (.inl rfl)
    simpa [substMark] using this
  | cons q ps ih =>
    intro p hp
    rw [inter_cons, inter_cons, substMark_piece hx new p ([37, x] ++ _) (hp p (by simp)) (.inr ⟨_, rfl⟩)]
    simp only [List.cons_append, List.nil_append]
    rw [substMark_mark, ih q fun r hr => hp r (List.mem_cons_of_mem _ hr)]

theorem replaceAll_eq {x : Byte} (hx : x ≠ 37) (new str : List Byte) (fuel : Nat) (hf : str.length < fuel) :
    replaceAll fuel str [37, x] new = .ok (substMark x new str) := by
  obtain ⟨pieces, hn, hp, rfl⟩ := C56_pieces x str
  rw [C56_replace_all hx new pieces hn hp fuel hf]
  cases pieces with
  | nil => exact absurd rfl hn
  | cons p ps => rw [substMark_inter hx new ps p hp]

theorem substMark_plain {x : Byte} (new p q : List Byte) (hp : (37 : Byte) ∉ p) :
    substMark x new (p ++ q) = p ++ substMark x new q := by
  induction p with
  | nil => rfl
  | cons b p ih =>
    simp only [List.mem_cons, not_or] at hp
    rw [List.cons_append, substMark_skip, ih hp.2]; rfl
    rintro ⟨rfl, _⟩
    exact hp.1 rfl

/-- The custom message, for any token without `%` in it. -/
theorem custom_parts (parts : List Part) (ht : ∀ s, Part.text s ∈ parts → (37 : Byte) ∉ s) (token : List Byte) (h0 : token ≠ [])
    (h37 : (37 : Byte) ∉ token) :
    ∃ N, ∀ fuel ≥ N, customMessage fuel (parts.flatMap Part.source) token =
      .ok (parts.flatMap (Part.shown token (token.take (codepointLength token)))) := by
  have h1 : ∀ parts : List Part, (∀ s, Part.text s ∈ parts → (37 : Byte) ∉ s) →
      substMark 116 token (parts.flatMap Part.source) = parts.flatMap (Part.shown token [37, 99]) := by
    intro parts ht
    induction parts with
    | nil => rfl
    | cons p parts ih =>
      have ih := ih fun s hs => ht s (List.mem_cons_of_mem _ hs)
      rw [List.flatMap_cons, List.flatMap_cons, ← ih]
      cases p with
      | text s => exact substMark_plain _ _ _ (ht s (by simp))
      | token => exact substMark_mark _ _ _
      | char =>
        simp only [Part.source, Part.shown, List.cons_append, List.nil_append]
        rw [substMark_skip _ _ _ _ (by rintro ⟨_, u, hu⟩; simp at hu), substMark_skip _ _ _ _ (by rintro ⟨h, _⟩; revert h; decide)]
  have h2 : ∀ (new : List Byte) (parts : List Part), (∀ s, Part.text s ∈ parts → (37 : Byte) ∉ s) →
      substMark 99 new (parts.flatMap (Part.shown token [37, 99])) = parts.flatMap (Part.shown token new) := by
    intro new parts ht
    induction parts with
    | nil => rfl
    | cons p parts ih =>
      have ih := ih fun s hs => ht s (List.mem_cons_of_mem _ hs)
      rw [List.flatMap_cons, List.flatMap_cons, ← ih]
      cases p with
      | text s => exact substMark_plain _ _ _ (ht s (by simp))
      | token => exact substMark_plain _ _ _ h37
      | char => exact substMark_mark _ _ _
  refine ⟨(parts.flatMap Part.source).length + (parts.flatMap (Part.shown token [37, 99])).length + 1, fun fuel hf => ?_⟩
  unfold customMessage
  rw [if_pos h0, replaceAll_eq (by decide) _ _ _ (by omega), h1 parts ht]
  simp only [Out.bind]
  rw [replaceAll_eq (by decide) _ _ _ (by omega), h2 _ parts ht]

theorem escape_plain (s : List Byte) (h : ∀ b ∈ s, b < 9 ∨ 13 < b) : Escape.escapeCharacters s = s := by
  induction s with
  | nil => rfl
  | cons b s ih =>
    have hb : Escape.escapeByte b = [b] := by
      have h1 := h b (by simp)
      revert h1
      refine byte_forall (p := fun b => (b < 9 ∨ 13 < b) → Escape.escapeByte b = [b]) ?_ b
      decide +kernel
    have ih := ih fun c hc => h c (by simp [hc])
    unfold Escape.escapeCharacters at ih ⊢
    rw [List.flatMap_cons, hb, ih]; rfl

/-- The bytes of a token that starts with a character other than a control one: no control characters; and no `%` unless it is one. -/
theorem token_bytes (c : Nat) (cs : List Nat) (h : ∀ x ∈ c :: cs, IsScalar x) (hc : c < 9 ∨ 13 < c) (h37 : c ≠ 37) :
    ∀ b ∈ (tokenOf (c :: cs)).flatMap encodeCodepoint, (b < 9 ∨ 13 < b) ∧ b ≠ 37 := by
  have hsub : ∀ x ∈ tokenOf (c :: cs), x ∈ c :: cs ∧ (x = c ∨ Sep x = false) := by
    intro x hx
    unfold tokenOf at hx
    simp only at hx
    split at hx
    · simp only [List.mem_singleton] at hx; subst hx; exact ⟨by simp, .inl rfl⟩
    · have := List.mem_of_mem_take hx
      exact ⟨(List.takeWhile_prefix _).subset this, .inr (by
        have hall : ∀ (l : List Nat) y, y ∈ (l.takeWhile fun c => !Sep c) → Sep y = false := by
          intro l
          induction l with
          | nil => simp
          | cons a l ih =>
            intro y hy
            rw [List.takeWhile_cons] at hy
            split at hy
            · rename_i ha
              rcases List.mem_cons.1 hy with rfl | hy
              · simpa using ha
              · exact ih y hy
            · cases hy
        exact hall _ x this)⟩
  intro b hb
  obtain ⟨x, hx, hb⟩ := List.mem_flatMap.1 hb
  obtain ⟨hm, hx⟩ := hsub x hx
  have hx' : (x < 9 ∨ 13 < x) ∧ x ≠ 37 := by
    rcases hx with rfl | hs
    · exact ⟨hc, h37⟩
    · constructor
      · by_cases h1 : x < 9 ∨ 13 < x
        · exact h1
        · exfalso
          have : ∀ n : Fin 14, 9 ≤ n.val → Sep n.val = true := by decide +kernel
          have := this ⟨x, by omega⟩ (by simp; omega)
          simp [hs] at this
      · rintro rfl
        have : Sep 37 = true := by decide +kernel
        rw [this] at hs; cases hs
  have key : ∀ b : Byte, 128 ≤ b.toNat → (b < 9 ∨ 13 < b) ∧ b ≠ 37 := by
    intro b
    refine byte_forall (p := fun b => 128 ≤ b.toNat → (b < 9 ∨ 13 < b) ∧ b ≠ 37) ?_ b
    decide +kernel
  rcases enc_bytes (h x hm) with ⟨h1, e⟩ | ⟨_, _, h2⟩
  · rw [e] at hb
    simp only [List.mem_singleton] at hb
    subst hb
    have : ∀ n : Fin 128, (n.val < 9 ∨ 13 < n.val) ∧ n.val ≠ 37 → (toByte n.val < 9 ∨ 13 < toByte n.val) ∧ toByte n.val ≠ 37 := by decide +kernel
    exact this ⟨x, h1⟩ hx'
  · exact key b (h2 b hb)

/-- **A message written in the grammar** (`error_message "…"`), its text parts being free of `%`: at a character that is neither `%` nor a
control character, `%t` shows the unexpected token and `%c` its first character.  (Partial: see the four counterexamples below for
`%`, control characters, and the end of the input.) -/
theorem C56_custom_message_partial (parts : List Part) (ht : ∀ s, Part.text s ∈ parts → (37 : Byte) ∉ s) (before : List Byte) (c : Nat)
    (cs : List Nat) (h : ∀ x ∈ c :: cs, IsScalar x) (hc : c < 9 ∨ 13 < c) (h37 : c ≠ 37) :
    ∃ N, ∀ fuel ≥ N,
      ((heuristicToken (before ++ (c :: cs).flatMap encodeCodepoint) before.length).bind fun token =>
        customMessage fuel (parts.flatMap Part.source) token) =
      .ok (parts.flatMap (Part.shown ((tokenOf (c :: cs)).flatMap encodeCodepoint) (encodeCodepoint c))) := by
  rw [C56_unexpected_token before (c :: cs) h]
  have hb := token_bytes c cs h hc h37
  rw [escape_plain _ fun b hb' => (hb b hb').1]
  simp only [Out.bind]
  obtain ⟨w, hw⟩ : ∃ w, tokenOf (c :: cs) = c :: w := by
    unfold tokenOf
    simp only
    split
    · exact ⟨[], rfl⟩
    · rename_i hs; exact ⟨_, by rw [List.takeWhile_cons, if_pos (by simpa using hs), List.take_succ_cons]⟩
  have hc' := h c (by simp)
  have hpos := encode_length_pos hc'
  have hl : ((tokenOf (c :: cs)).flatMap encodeCodepoint).take (codepointLength ((tokenOf (c :: cs)).flatMap encodeCodepoint)) =
      encodeCodepoint c := by
    rw [hw, List.flatMap_cons, codepointLength_encode c hc', List.take_left]
  have := custom_parts parts ht ((tokenOf (c :: cs)).flatMap encodeCodepoint)
    (by rw [hw, List.flatMap_cons]; intro e; have := (List.append_eq_nil_iff.1 e).1; rw [this] at hpos; simp at hpos)
    (fun hm => (hb 37 hm).2 rfl)
  rwa [hl] at this

/-- "bad %t (%c)" at "été+1". -/
example : ∃ N, ∀ fuel ≥ N, ((heuristicToken [120, 195, 169, 116, 195, 169, 43, 49] 1).bind fun t =>
    customMessage fuel [98, 97, 100, 32, 37, 116, 32, 40, 37, 99, 41] t) =
    .ok [98, 97, 100, 32, 195, 169, 116, 195, 169, 32, 40, 195, 169, 41] := by
  have := C56_custom_message_partial [.text [98, 97, 100, 32], .token, .text [32, 40], .char, .text [41]]
    (by intro s hs; simp at hs; rcases hs with rfl | rfl | rfl <;> decide) [120] 233 [116, 233, 43, 49] (by decide) (by decide) (by decide)
  have e1 : ([120] : List Byte) ++ [233, 116, 233, 43, 49].flatMap encodeCodepoint = [120, 195, 169, 116, 195, 169, 43, 49] := by decide +kernel
  have e2 : ([.text [98, 97, 100, 32], .token, .text [32, 40], .char, .text [41]] : List Part).flatMap Part.source =
    [98, 97, 100, 32, 37, 116, 32, 40, 37, 99, 41] := by decide +kernel
  have e3 : ([.text [98, 97, 100, 32], .token, .text [32, 40], .char, .text [41]] : List Part).flatMap
      (Part.shown ((tokenOf [233, 116, 233, 43, 49]).flatMap encodeCodepoint) (encodeCodepoint 233)) =
    [98, 97, 100, 32, 195, 169, 116, 195, 169, 32, 40, 195, 169, 41] := by decide +kernel
  rwa [e1, e2, e3] at this

/-- `%c` in front of a line break shows a lone backslash (the first character of the escape `\n`). -/
theorem C56_counterexample_newline : ((heuristicToken [10] 0).bind fun t => customMessage 10 [37, 99] t) = .ok [92] := by decide +kernel

/-- At the end of the input the placeholder itself is shown. -/
theorem C56_counterexample_end : ((heuristicToken [97] 1).bind fun t => customMessage 10 [37, 116] t) = .ok [37, 116] := by decide +kernel

/-- In front of a `%`, the text `c` after a `%t` is taken for a `%c`: the message "%tc" shows "%" instead of "%c". -/
theorem C56_counterexample_percent : ((heuristicToken [37] 0).bind fun t => customMessage 10 [37, 116, 99] t) = .ok [37] := by decide +kernel

/-! ## Syntax errors -/

/-- The bytes of a string. -/
def utf8 (s : String) : List Byte := s.toUTF8.toList

/-- How one expectation is shown: not at all if its rule starts with `_`; otherwise a literal in quotes (up to its first NUL byte), or the
name of the rule in angle brackets. -/
def shownItem (rules : List Def) : Option ErrLit × Option Nat → Option (List Byte)
  | (el, er) =>
    if er.isSome && ((er.map (ruleName rules)).getD []).head? = some 95 then none
    else match el with
      | some (.lit l) => some (utf8 "'" ++ cstr l ++ utf8 "'")
      | some (.cap _) => none
      | none => some (utf8 "<" ++ (er.map (ruleName rules)).getD [] ++ utf8 ">")

theorem listExpected_eq (rules : List Def) (ts : List (Option ErrLit × Option Nat)) :
    ∀ (first : Bool) (msg m : List Byte), listExpected rules ts first msg = .ok m →
      m = msg ++ (if ts.filterMap (shownItem rules) = [] then [] else
        (if first then utf8 ", expecting " else utf8 ", ") ++ (utf8 ", ").intercalate (ts.filterMap (shownItem rules))) := by
  have e1 : utf8 ", expecting " = [44, 32, 101, 120, 112, 101, 99, 116, 105, 110, 103, 32] := by decide +kernel
  have e2 : utf8 ", " = [44, 32] := by decide +kernel
  have e3 : utf8 "'" = [39] := by decide +kernel
  have e4 : utf8 "<" = [60] := by decide +kernel
  have e5 : utf8 ">" = [62] := by decide +kernel
  induction ts with
  | nil => intro first msg m h; cases h; simp
  | cons t ts ih =>
    intro first msg m h
    obtain ⟨el, er⟩ := t
    unfold listExpected at h
    by_cases hh : (er.isSome && decide (((er.map (ruleName rules)).getD []).head? = some 95)) = true
    · rw [if_pos hh] at h
      rw [ih _ _ _ h, List.filterMap_cons]
      simp only [shownItem, if_pos hh]
    · rw [if_neg hh] at h
      simp only at h
      have step : ∀ (w m : List Byte), listExpected rules ts false (msg ++ (if first then utf8 ", expecting " else utf8 ", ") ++ w) = .ok m →
          m = msg ++ ((if first then utf8 ", expecting " else utf8 ", ") ++ (utf8 ", ").intercalate (w :: ts.filterMap (shownItem rules))) := by
        intro w m h
        rw [ih _ _ _ h]
        cases hf : ts.filterMap (shownItem rules) with
        | nil => rw [inter_one]; simp
        | cons q qs => rw [inter_cons]; simp
      rw [← e1, ← e2] at h
      cases el with
      | none =>
        have hi : shownItem rules (none, er) = some (utf8 "<" ++ (er.map (ruleName rules)).getD [] ++ utf8 ">") := by
          simp only [shownItem, if_neg hh]
        rw [List.filterMap_cons, hi]
        simp only
        rw [if_neg (by simp)]
        refine step _ m ?_
        rw [e4, e5]
        simpa only [List.append_assoc] using h
      | some w =>
        cases w with
        | cap s => cases h
        | lit s =>
          have hi : shownItem rules (some (.lit s), er) = some (utf8 "'" ++ cstr s ++ utf8 "'") := by
            simp only [shownItem, if_neg hh]
          rw [List.filterMap_cons, hi]
          simp only
          rw [if_neg (by simp)]
          refine step _ m ?_
          rw [e3]
          simpa only [List.append_assoc] using h

/-- **The text of a syntax error**: "syntax error", the unexpected token unless the input ended there, the expected items in order, a full
stop.  With nothing expected on record, not even the unexpected token is told. -/
theorem syntaxMessage_eq (rules : List Def) (toks : List (Option ErrLit × Option Nat)) (token m u : List Byte)
    (h : syntaxMessage rules toks token = .ok (m, u)) :
    if toks = [] then m = utf8 "syntax error." ∧ u = []
    else u = token ∧ m = utf8 "syntax error" ++ (if token = [] then [] else utf8 ", unexpected '" ++ token ++ utf8 "'") ++
      (if toks.filterMap (shownItem rules) = [] then [] else
        utf8 ", expecting " ++ (utf8 ", ").intercalate (toks.filterMap (shownItem rules))) ++ utf8 "." := by
  have e1 : utf8 "syntax error." = [115, 121, 110, 116, 97, 120, 32, 101, 114, 114, 111, 114, 46] := by decide +kernel
  have e2 : utf8 "syntax error" = [115, 121, 110, 116, 97, 120, 32, 101, 114, 114, 111, 114] := by decide +kernel
  have e3 : utf8 ", unexpected '" = [44, 32, 117, 110, 101, 120, 112, 101, 99, 116, 101, 100, 32, 39] := by decide +kernel
  have e4 : utf8 "'" = [39] := by decide +kernel
  have e5 : utf8 "." = [46] := by decide +kernel
  unfold syntaxMessage at h
  by_cases ht : toks = []
  · rw [if_pos ht] at h
    simp only [Out.ok.injEq, Prod.mk.injEq] at h
    rw [if_pos ht, e1]
    exact ⟨h.1.symm, h.2.symm⟩
  · rw [if_neg ht] at h
    rw [if_neg ht]
    simp only at h
    obtain ⟨x, hx, e⟩ := Out.bind_eq_ok.1 h
    simp only [Out.ok.injEq, Prod.mk.injEq] at e
    refine ⟨e.2.symm, ?_⟩
    rw [← e.1, listExpected_eq _ _ _ _ _ hx, e5]
    congr 1
    simp only [if_true]
    congr 1
    rw [e2, e3, e4]
    by_cases h0 : token = []
    · simp [h0]
    · simp [h0]

/-- The literals listed in a report. -/
def shownLit (rules : List Def) : Option ErrLit × Option Nat → Option (List Byte)
  | (some (.lit l), er) => if er.isSome && ((er.map (ruleName rules)).getD []).head? = some 95 then none else some (cstr l)
  | _ => none

/-- The rule names listed in a report. -/
def shownRule (rules : List Def) : Option ErrLit × Option Nat → Option (List Byte)
  | (none, some r) => if (ruleName rules r).head? = some 95 then none else some (ruleName rules r)
  | _ => none

theorem ruleName_eq (rules : List Def) (er : Option Nat) :
    (er.bind fun r => rules[r]?.map (·.name)).getD [] = (er.map (ruleName rules)).getD [] := by
  cases er <;> rfl

/-- The lists of a report, and the message can be made. -/
theorem expected_lists (rules : List Def) (ts : List (Option ErrLit × Option Nat)) :
    ∀ (label : List Byte) (x : List (List Byte) × List Nat × List Byte), expected rules ts label = .ok x →
      x.1 = ts.filterMap (shownLit rules) ∧ x.2.1.map (ruleName rules) = ts.filterMap (shownRule rules) ∧
      (∀ first msg, ∃ m, listExpected rules ts first msg = .ok m) := by
  induction ts with
  | nil => intro label x h; cases h; exact ⟨rfl, rfl, fun _ msg => ⟨msg, rfl⟩⟩
  | cons t ts ih =>
    intro label x h
    obtain ⟨el, er⟩ := t
    unfold expected at h
    simp only at h
    rw [ruleName_eq] at h
    by_cases hh : (er.isSome && decide (((er.map (ruleName rules)).getD []).head? = some 95)) = true
    · rw [if_pos hh] at h
      obtain ⟨h1, h2, h3⟩ := ih _ _ h
      refine ⟨?_, ?_, fun first msg => ?_⟩
      · rw [h1, List.filterMap_cons]
        have : shownLit rules (el, er) = none := by
          unfold shownLit; split
          · rename_i hq; simp only [Prod.mk.injEq] at hq; obtain ⟨_, rfl⟩ := hq; rw [if_pos hh]
          · rfl
        rw [this]
      · rw [h2, List.filterMap_cons]
        have : shownRule rules (el, er) = none := by
          unfold shownRule; split
          · rename_i hq
            simp only [Prod.mk.injEq] at hq; obtain ⟨_, rfl⟩ := hq
            simp only [Option.isSome_some, Option.map_some, Option.getD_some, Bool.true_and, decide_eq_true_eq] at hh
            rw [if_pos hh]
          · rfl
        rw [this]
      · unfold listExpected
        rw [if_pos hh]; exact h3 _ _
    · rw [if_neg hh] at h
      cases el with
      | none =>
        simp only at h
        obtain ⟨y, hy, e⟩ := Out.bind_eq_ok.1 h
        cases e
        obtain ⟨h1, h2, h3⟩ := ih _ _ hy
        refine ⟨by rw [List.filterMap_cons]; exact h1, ?_, fun first msg => ?_⟩
        · simp only [List.map_append, h2]
          rw [List.filterMap_cons]
          cases er with
          | none => rfl
          | some r =>
            simp only [Option.isSome_some, Option.map_some, Option.getD_some, Bool.true_and, decide_eq_true_eq] at hh
            simp only [shownRule, if_neg hh]
            rfl
        · unfold listExpected
          rw [if_neg hh]; exact h3 _ _
      | some w =>
        cases w with
        | cap s => cases h
        | lit l =>
          simp only at h
          obtain ⟨y, hy, e⟩ := Out.bind_eq_ok.1 h
          cases e
          obtain ⟨h1, h2, h3⟩ := ih _ _ hy
          refine ⟨?_, by rw [List.filterMap_cons]; exact h2, fun first msg => ?_⟩
          · rw [List.filterMap_cons]
            simp only [shownLit, if_neg hh, h1]
          · unfold listExpected
            rw [if_neg hh]; exact h3 _ _

theorem output_syntax {rules : List Def} {e e' : Err} {rep : Report} (h : e.output rules = .ok (some rep, e')) (hm : rep.msg = none) :
    ∃ label, expected rules rep.toks label = .ok (rep.lits, rep.rules, rep.label) := by
  unfold Err.output at h
  cases hp : e.msgPos with
  | some p =>
    simp only [hp] at h
    split at h
    · simp only [Out.ok.injEq, Prod.mk.injEq, Option.some.injEq] at h
      rw [← h.1] at hm; cases hm
    · cases h
  | none =>
    simp only [hp] at h
    cases hq : e.pos with
    | none => simp only [hq] at h; cases h
    | some p =>
      simp only [hq] at h
      split at h
      · obtain ⟨x, hx, e⟩ := Out.bind_eq_ok.1 h
        simp only [Out.ok.injEq, Prod.mk.injEq, Option.some.injEq] at e
        rw [← e.1]
        exact ⟨_, hx⟩
      · cases h

/-- **C56**: every syntax-error report of a parse can be shown (nothing is read outside of the input), at the line and column of its
position; the message names the unexpected token and lists the expected items in the order of the report's lists, which hold the same
literals and rules. -/
theorem C56_syntax_error_text {cfg : Cfg V} {r : Nat} {eoi log : Bool} {dt : Option V} {a : Answer V} (h : Answers cfg r eoi log dt a)
    {rep : Report} (hm : rep ∈ a.logs) (hp : rep.msg = none) :
    ∃ s token, heuristicToken cfg.input rep.pos = .ok token ∧ (∀ fuel, render fuel cfg.rules cfg.input rep = .ok s) ∧
      s.position = rep.pos ∧ s.line = 1 + (cfg.input.take rep.pos).count 10 ∧
      s.col = codepointCount (LineInfo.lastLine (cfg.input.take rep.pos)) + 1 ∧
      s.literals = rep.toks.filterMap (shownLit cfg.rules) ∧ s.ruleNames = rep.toks.filterMap (shownRule cfg.rules) ∧
      s.label = rep.label ∧ s.message = [] ∧
      (rep.toks = [] → s.unexpected = [] ∧ s.logMsg = utf8 "syntax error.") ∧
      (rep.toks ≠ [] → s.unexpected = token ∧
        s.logMsg = utf8 "syntax error" ++ (if token = [] then [] else utf8 ", unexpected '" ++ token ++ utf8 "'") ++
          (if rep.toks.filterMap (shownItem cfg.rules) = [] then [] else
            utf8 ", expecting " ++ (utf8 ", ").intercalate (rep.toks.filterMap (shownItem cfg.rules))) ++ utf8 ".") := by
  have hin := C50_reports_inside h hm
  obtain ⟨e, e', he⟩ := made_end h rep hm
  obtain ⟨label, hx⟩ := output_syntax he hp
  obtain ⟨h1, h2, h3⟩ := expected_lists _ _ _ _ hx
  obtain ⟨k, _, _, ht⟩ := C56_token_inside cfg.input rep.pos hin
  generalize Escape.escapeCharacters ((cfg.input.drop rep.pos).take k) = token at ht
  have hl := C11_line_info cfg.input rep.pos hin
  obtain ⟨m, u, hs⟩ : ∃ m u, syntaxMessage cfg.rules rep.toks token = .ok (m, u) := by
    unfold syntaxMessage
    split
    · exact ⟨_, _, rfl⟩
    · simp only
      obtain ⟨m, hm⟩ := h3 true (if token ≠ [] then
        [115, 121, 110, 116, 97, 120, 32, 101, 114, 114, 111, 114] ++
          [44, 32, 117, 110, 101, 120, 112, 101, 99, 116, 101, 100, 32, 39] ++ token ++ [39]
        else [115, 121, 110, 116, 97, 120, 32, 101, 114, 114, 111, 114])
      rw [hm]
      exact ⟨_, _, rfl⟩
  have heq := syntaxMessage_eq _ _ _ _ _ hs
  refine ⟨⟨(LineInfo.lineInfo cfg.input rep.pos).1, (LineInfo.lineInfo cfg.input rep.pos).2, rep.pos, u, rep.lits,
      rep.rules.map (ruleName cfg.rules), rep.label, [], m⟩, token, ht, fun fuel => ?_, ?_⟩
  · unfold render
    rw [ht]
    simp only [Out.bind, hp, hs]
  · refine ⟨rfl, by rw [hl], by rw [hl], h1, h2, rfl, rfl, fun h0 => ?_, fun h0 => ?_⟩
    · rw [if_pos h0] at heq; exact ⟨heq.2, heq.1⟩
    · rw [if_neg h0] at heq; exact heq

/-- **C56**: a report with a message of the grammar can be shown as well, at the line and column of its position, with the placeholders
of the message replaced (`C56_custom_message_partial` says by what). -/
theorem C56_custom_report {cfg : Cfg V} {r : Nat} {eoi log : Bool} {dt : Option V} {a : Answer V} (h : Answers cfg r eoi log dt a)
    {rep : Report} (hm : rep ∈ a.logs) {msg : List Byte} (hp : rep.msg = some msg) :
    ∃ s token N, heuristicToken cfg.input rep.pos = .ok token ∧ (∀ fuel ≥ N, render fuel cfg.rules cfg.input rep = .ok s ∧
        customMessage fuel msg token = .ok s.message) ∧
      s.position = rep.pos ∧ s.line = 1 + (cfg.input.take rep.pos).count 10 ∧
      s.col = codepointCount (LineInfo.lastLine (cfg.input.take rep.pos)) + 1 ∧
      s.unexpected = token ∧ s.label = rep.label ∧ s.logMsg = s.message ∧ s.literals = [] ∧ s.ruleNames = [] := by
  have hin := C50_reports_inside h hm
  obtain ⟨k, _, _, ht⟩ := C56_token_inside cfg.input rep.pos hin
  generalize Escape.escapeCharacters ((cfg.input.drop rep.pos).take k) = token at ht
  have hl := C11_line_info cfg.input rep.pos hin
  obtain ⟨m, N, hs⟩ : ∃ m N, ∀ fuel ≥ N, customMessage fuel msg token = .ok m := by
    unfold customMessage
    split
    · refine ⟨substMark 99 (token.take (codepointLength token)) (substMark 116 token msg), msg.length + (substMark 116 token msg).length + 1,
        fun fuel hf => ?_⟩
      rw [replaceAll_eq (by decide) _ _ _ (by omega)]
      simp only [Out.bind]
      rw [replaceAll_eq (by decide) _ _ _ (by omega)]
    · exact ⟨msg, 0, fun _ _ => rfl⟩
  refine ⟨⟨(LineInfo.lineInfo cfg.input rep.pos).1, (LineInfo.lineInfo cfg.input rep.pos).2, rep.pos, token, [], [], rep.label, m, m⟩,
    token, N, ht, fun fuel hf => ⟨?_, hs fuel hf⟩, rfl, by rw [hl], by rw [hl], rfl, rfl, rfl, rfl, rfl⟩
  unfold render
  rw [ht]
  simp only [Out.bind, hp, hs fuel hf]

/-! ## Concrete messages -/

/-- The reports of a parse as they are shown: line, column, message. -/
def messages (n : Nat) (cfg : Cfg Nat) : Option (List (Nat × Nat × List Byte)) :=
  match parserParse n cfg 0 true true none with
  | .ok a => a.logs.mapM fun rep => match render n cfg.rules cfg.input rep with
    | .ok s => some (s.line, s.col, s.logMsg)
    | _ => none
  | _ => none

/-- `S <- 'a' ('b' / 'c' / [x] 'y')` on "ade+". -/
example : messages 20 (erCfg [97, 100, 101, 43]) = some [(1, 2, utf8 "syntax error, unexpected 'de', expecting 'b', 'c', <S>.")] := by
  decide +kernel

/-- A grammar of one rule `S`, a literal. -/
def litCfg (l inp : List Byte) : Cfg Nat := { input := inp, needsRuleStack := true, rules := [{ name := [83], ope := .lit l false }] }

/-- The expected literals are not escaped, unlike the unexpected token: the message for `S <- 'a\nb'` runs over two lines. -/
theorem C56_counterexample_raw_literal :
    messages 20 (litCfg [97, 10, 98] [120]) = some [(1, 1, utf8 "syntax error, unexpected 'x', expecting 'a\nb'.")] := by decide +kernel

/-- A literal is shown up to its first NUL byte: `S <- 'a\0b'`, which "a" does not match, is told to expect 'a' where 'a' is. -/
theorem C56_counterexample_nul : messages 20 (litCfg [97, 0, 98] [97]) = some [(1, 1, utf8 "syntax error, unexpected 'a', expecting 'a'.")] := by
  decide +kernel

end Verif.Props
