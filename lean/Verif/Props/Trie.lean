import Verif.Trie
/-! # Properties of the dictionary operator's matcher (C09, C10) -/
namespace Verif.Props
open Verif.Trie

/-- Equality of texts as the dictionary sees it. -/
def norm (ic : Bool) (s : List Byte) : List Byte := if ic then toLower s else s

/-- Word `w` is a non-empty prefix of `text`, up to ASCII case if `ic`. -/
def WordAt (ic : Bool) (w text : List Byte) : Prop := w ≠ [] ∧ norm ic w <+: norm ic text

theorem toLower_length (s : List Byte) : (toLower s).length = s.length := by simp [toLower]
theorem norm_length (ic : Bool) (s : List Byte) : (norm ic s).length = s.length := by
  unfold norm; split <;> simp [toLower]
theorem norm_take (ic : Bool) (s : List Byte) (k : Nat) : norm ic (s.take k) = (norm ic s).take k := by
  unfold norm; split <;> simp [toLower, List.map_take]

theorem foldMax_ge (items : List (List Byte)) (m : Nat) :
    m ≤ items.foldl (fun m s => if m < s.length then s.length else m) m ∧
    ∀ w ∈ items, w.length ≤ items.foldl (fun m s => if m < s.length then s.length else m) m := by
  induction items generalizing m with
  | nil => simp
  | cons s items ih =>
    simp only [List.foldl_cons, List.mem_cons, forall_eq_or_imp]
    have := ih (if m < s.length then s.length else m)
    refine ⟨?_, ?_, this.2⟩
    · split at this <;> split <;> omega
    · split at this <;> split <;> omega

/-- The combined statement about `match`. -/
theorem matchText_spec (items : List (List Byte)) (ic : Bool) (text : List Byte) :
    let r := (build items ic).matchText text
    (∀ w ∈ items, norm ic w <+: norm ic text → w.length ≤ r.1) ∧
    (r.1 ≠ 0 → r.1 ≤ text.length ∧ (∃ w ∈ items, norm ic w = (norm ic text).take r.1) ∧
      items.findIdx? (fun w => ((norm ic text).take r.1).isPrefixOf (norm ic w)) = some r.2) := by
  intro r
  let L := items.map (norm ic)
  let limit := min text.length (build items ic).maxLen
  let t := if ic then toLower (text.take limit) else text
  have hinv : Inv L (build items ic).dic := inv_build L
  have hmax : ∀ w ∈ items, w.length ≤ (build items ic).maxLen := (foldMax_ge items 0).2
  have ht : ∀ k, k ≤ limit → t.take k = (norm ic text).take k := by
    intro k hk
    show (if ic then toLower (text.take limit) else text).take k = _
    unfold norm
    split
    · simp [toLower, List.map_take, List.take_take, Nat.min_eq_left hk]
    · rfl
  have htl : limit ≤ t.length := by
    show limit ≤ (if ic then toLower (text.take limit) else text).length
    split
    · simp only [toLower, List.length_map, List.length_take]; have : limit ≤ text.length := Nat.min_le_left _ _; omega
    · exact Nat.min_le_left _ _
  have hpre : ∀ w, w ∈ items → (norm ic w <+: t ↔ norm ic w <+: norm ic text) := by
    intro w hw
    have h1 := hmax w hw
    constructor
    · intro h
      have hl := h.length_le
      rw [norm_length] at hl
      have e := List.prefix_iff_eq_take.mp h
      by_cases hwl : w.length ≤ limit
      · rw [norm_length, ht _ hwl] at e
        rw [e]; exact List.take_prefix _ _
      · -- then limit = text.length, and t has length ≤ text.length
        have : t.length ≤ text.length := by
          show (if ic then toLower (text.take limit) else text).length ≤ _
          split
          · simp [toLower]; omega
          · exact Nat.le_refl _
        have : limit = text.length := by
          show min text.length _ = _
          have : ¬ w.length ≤ min text.length (build items ic).maxLen := hwl
          omega
        omega
    · intro h
      have hl := h.length_le
      rw [norm_length, norm_length] at hl
      have hwl : w.length ≤ limit := by show _ ≤ min _ _; omega
      have e := List.prefix_iff_eq_take.mp h
      rw [norm_length, ← ht _ hwl] at e
      rw [e]; exact List.take_prefix _ _
  have key := matchLoop_spec L (build items ic).dic hinv t limit 1 (0, 0) (by omega) (by omega)
    (by
      intro w hw hp
      obtain ⟨w', hw', rfl⟩ := List.mem_map.mp hw
      have hl := ((hpre w' hw').mp hp).length_le
      rw [norm_length, norm_length] at hl
      rw [norm_length]
      have := hmax w' hw'
      show w'.length < 1 + min _ _
      omega)
    (by simp) (by intro w _ _ h; simp only; omega) (by simp)
  simp only at key
  have hr : r = matchLoop (build items ic).dic t limit 1 (0, 0) := rfl
  rw [← hr] at key
  obtain ⟨k1, k2⟩ := key
  refine ⟨?_, ?_⟩
  · intro w hw hp
    have := k1 (norm ic w) (List.mem_map_of_mem hw) ((hpre w hw).mpr hp)
    rwa [norm_length] at this
  · intro h0
    obtain ⟨h1, h2, h3⟩ := k2 h0
    obtain ⟨w, hw, he⟩ := List.mem_map.mp h1
    have hwl : w.length = r.1 := by
      have := congrArg List.length he
      rw [norm_length] at this
      simp at this; omega
    have hlim : r.1 ≤ limit := by
      have hp : norm ic w <+: t := by rw [he]; exact List.take_prefix _ _
      have hl := ((hpre w hw).mp hp).length_le
      rw [norm_length, norm_length] at hl
      have := hmax w hw
      show _ ≤ min _ _
      omega
    have hlt : r.1 ≤ text.length := Nat.le_trans hlim (Nat.min_le_left _ _)
    rw [ht _ hlim] at he h3
    refine ⟨hlt, ⟨w, hw, he⟩, ?_⟩
    have : (items.map (norm ic)).findIdx? (fun x => ((norm ic text).take r.1).isPrefixOf x) = some r.2 := h3
    rw [List.findIdx?_map] at this
    exact this

/-- C09. The dictionary matches nothing exactly when no (non-empty) word is a prefix of the text. -/
theorem C09_match_iff (items : List (List Byte)) (ic : Bool) (text : List Byte) :
    ((build items ic).matchText text).1 = 0 ↔ ∀ w ∈ items, ¬ WordAt ic w text := by
  obtain ⟨h1, h2⟩ := matchText_spec items ic text
  constructor
  · rintro h0 w hw ⟨hne, hp⟩
    have := h1 w hw hp
    rw [h0] at this
    exact hne (List.length_eq_zero_iff.mp (by omega))
  · intro h
    rcases Nat.eq_zero_or_pos ((build items ic).matchText text).1 with h0 | h0
    · exact h0
    · exfalso
      obtain ⟨h3, ⟨w, hw, he⟩, -⟩ := h2 (by omega)
      refine h w hw ⟨?_, by rw [he]; exact List.take_prefix _ _⟩
      intro e
      have := congrArg List.length he
      rw [norm_length, e] at this
      simp [norm_length] at this
      omega

/-- C09. When it matches, the length is that of some word which is a prefix of the text, and no word that is a prefix
is longer. -/
theorem C09_longest (items : List (List Byte)) (ic : Bool) (text : List Byte) (k id : Nat)
    (h : (build items ic).matchText text = (k, id)) (h0 : k ≠ 0) :
    (∃ w ∈ items, WordAt ic w text ∧ w.length = k) ∧ (∀ w ∈ items, WordAt ic w text → w.length ≤ k) ∧
    k ≤ text.length := by
  obtain ⟨h1, h2⟩ := matchText_spec items ic text
  rw [h] at h1 h2
  obtain ⟨h3, ⟨w, hw, he⟩, -⟩ := h2 h0
  have hl : w.length = k := by
    have := congrArg List.length he
    rw [norm_length] at this
    simp [norm_length] at this; omega
  refine ⟨⟨w, hw, ⟨?_, by rw [he]; exact List.take_prefix _ _⟩, hl⟩, fun w hw hwa => h1 w hw hwa.2, h3⟩
  intro e; rw [e] at hl; simp at hl; exact h0 hl.symm

example : (build [[97, 98], [97], [97, 98, 99, 100]] false).matchText [97, 98, 99] = (2, 0) := by decide +kernel
example : (build [[65, 98], [97]] true).matchText [97, 66, 99] = (2, 0) := by decide +kernel

/-- C10 (partial: no word is a proper prefix of an earlier word). `choice()` is the index of the first occurrence of
the word that matched. -/
theorem C10_choice_index_partial (items : List (List Byte)) (ic : Bool) (text : List Byte) (k id : Nat)
    (h : (build items ic).matchText text = (k, id)) (h0 : k ≠ 0)
    (horder : ∀ i j : Nat, ∀ wi wj, items[i]? = some wi → items[j]? = some wj → i < j →
      norm ic wj <+: norm ic wi → norm ic wi = norm ic wj) :
    items.findIdx? (fun w => norm ic w == (norm ic text).take k) = some id := by
  obtain ⟨-, h2⟩ := matchText_spec items ic text
  rw [h] at h2
  obtain ⟨h3, ⟨w, hw, he⟩, h5⟩ := h2 h0
  simp only at h5 he
  rw [List.findIdx?_eq_some_iff_getElem] at h5 ⊢
  obtain ⟨hlt, h6, h7⟩ := h5
  obtain ⟨j, hj, hjw⟩ := List.mem_iff_getElem.mp hw
  have hij : id ≤ j := by
    rcases Nat.lt_or_ge j id with hlt' | hge
    · exfalso
      have := h7 j hlt'
      rw [hjw, he] at this
      simp [List.isPrefixOf_iff_prefix] at this
    · exact hge
  have heq : norm ic items[id] = (norm ic text).take k := by
    rcases Nat.lt_or_eq_of_le hij with hl | hl
    · have := horder id j items[id] w (List.getElem?_eq_getElem hlt) (by rw [List.getElem?_eq_getElem hj, hjw]) hl
        (by rw [he]; exact List.isPrefixOf_iff_prefix.mp h6)
      rw [this, he]
    · subst hl; rw [hjw, he]
  refine ⟨hlt, by simp [heq], ?_⟩
  intro j' hj'
  have := h7 j' hj'
  intro e
  apply this
  rw [beq_iff_eq] at e
  rw [e]
  exact List.isPrefixOf_iff_prefix.mpr List.prefix_rfl

example : ∀ i j : Nat, ∀ wi wj, ([[97], [97, 98], [99]] : List (List Byte))[i]? = some wi →
    ([[97], [97, 98], [99]] : List (List Byte))[j]? = some wj → i < j →
      norm false wj <+: norm false wi → norm false wi = norm false wj := by
  intro i j wi wj h1 h2 hij hp
  rcases i with _ | _ | _ | i <;> rcases j with _ | _ | _ | j <;> simp at h1 h2 hij <;> subst h1 <;> subst h2 <;>
    simp [norm] at hp ⊢

/-- C10, the general claim is false: in `'ab' | 'a'`, matching "a" reports choice 0 (the index of `'ab'`), not 1. -/
theorem C10_choice_counterexample :
    (build [[97, 98], [97]] false).matchText [97] = (1, 0) ∧
    ([[97, 98], [97]] : List (List Byte)).findIdx? (· == [97]) = some 1 := by decide +kernel

/-- C10 (what holds always). The reported index is that of the first word having the matched text as a prefix. -/
theorem C10_choice_prefix (items : List (List Byte)) (ic : Bool) (text : List Byte) (k id : Nat)
    (h : (build items ic).matchText text = (k, id)) (h0 : k ≠ 0) :
    items.findIdx? (fun w => ((norm ic text).take k).isPrefixOf (norm ic w)) = some id ∧ id < items.length := by
  obtain ⟨-, h2⟩ := matchText_spec items ic text
  rw [h] at h2
  have h5 := (h2 h0).2.2
  simp only at h5
  refine ⟨h5, ?_⟩
  rw [List.findIdx?_eq_some_iff_getElem] at h5
  exact h5.1

end Verif.Props
