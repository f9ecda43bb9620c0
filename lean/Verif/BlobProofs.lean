import Verif.Blob
import Verif.Props.Trie
/-!
# Facts about grammar blobs
-/

namespace Verif
namespace Blob
open Trie

/-! ## Sorting -/

theorem insertBy_perm (f : α → List Byte) (x : α) (l : List α) : (insertBy f x l).Perm (x :: l) := by
  induction l with
  | nil => exact List.Perm.refl _
  | cons y l ih =>
    unfold insertBy
    split
    · exact List.Perm.refl _
    · exact (List.Perm.cons y ih).trans (List.Perm.swap x y l)

theorem sortBy_perm (f : α → List Byte) (l : List α) : (sortBy f l).Perm l := by
  induction l with
  | nil => exact List.Perm.refl _
  | cons x l ih => exact (insertBy_perm f x _).trans (List.Perm.cons x ih)

theorem lexLe_total (a b : List Byte) : lexLe a b = true ∨ lexLe b a = true := by
  induction a generalizing b with
  | nil => left; simp [lexLe]
  | cons x a ih =>
    cases b with
    | nil => right; simp [lexLe]
    | cons y b =>
      simp only [lexLe]
      by_cases h : x = y
      · subst h; simpa using ih b
      · rw [if_neg h, if_neg (fun e => h e.symm)]
        simp only [decide_eq_true_eq]
        rcases UInt8.lt_or_lt_of_ne h with h1 | h1
        · exact Or.inl h1
        · exact Or.inr h1

theorem lexLe_trans {a b c : List Byte} (h1 : lexLe a b = true) (h2 : lexLe b c = true) : lexLe a c = true := by
  induction a generalizing b c with
  | nil => simp [lexLe]
  | cons x a ih =>
    cases b with
    | nil => simp [lexLe] at h1
    | cons y b =>
      cases c with
      | nil => simp [lexLe] at h2
      | cons z c =>
        simp only [lexLe] at h1 h2 ⊢
        by_cases hxy : x = y
        · subst hxy
          rw [if_pos rfl] at h1
          by_cases hxz : x = z
          · subst hxz
            rw [if_pos rfl] at h2 ⊢
            exact ih h1 h2
          · rw [if_neg hxz] at h2 ⊢; exact h2
        · rw [if_neg hxy] at h1
          by_cases hyz : y = z
          · subst hyz
            rw [if_neg hxy]; exact h1
          · rw [if_neg hyz] at h2
            simp only [decide_eq_true_eq] at h1 h2
            have h3 : x < z := UInt8.lt_trans h1 h2
            rw [if_neg (UInt8.ne_of_lt h3)]
            simpa using h3

theorem insertBy_sorted (f : α → List Byte) (x : α) (l : List α)
    (h : l.Pairwise fun a b => lexLe (f a) (f b) = true) :
    (insertBy f x l).Pairwise fun a b => lexLe (f a) (f b) = true := by
  induction l with
  | nil => simp [insertBy]
  | cons y l ih =>
    unfold insertBy
    rw [List.pairwise_cons] at h
    split
    · rename_i hxy
      rw [List.pairwise_cons, List.pairwise_cons]
      refine ⟨?_, h⟩
      intro z hz
      rcases List.mem_cons.mp hz with hz | hz
      · subst hz; exact hxy
      · exact lexLe_trans hxy (h.1 z hz)
    · rename_i hxy
      rw [List.pairwise_cons]
      refine ⟨?_, ih h.2⟩
      intro z hz
      rcases List.mem_cons.mp ((insertBy_perm f x l).mem_iff.mp hz) with hz | hz
      · subst hz
        exact (lexLe_total (f y) (f z)).resolve_right hxy
      · exact h.1 z hz

theorem sortBy_sorted (f : α → List Byte) (l : List α) :
    (sortBy f l).Pairwise fun a b => lexLe (f a) (f b) = true := by
  induction l with
  | nil => simp [sortBy]
  | cons x l ih => exact insertBy_sorted f x _ ih

/-- A string never sorts after (or equal to) a proper prefix of itself the wrong way round. -/
theorem lexLe_prefix {a b : List Byte} (h : a <+: b) (hne : a ≠ b) : lexLe b a = false := by
  induction a generalizing b with
  | nil =>
    cases b with
    | nil => exact absurd rfl hne
    | cons y b => simp [lexLe]
  | cons x a ih =>
    obtain ⟨t, rfl⟩ := h
    simp only [List.cons_append, lexLe, if_true]
    exact ih (List.prefix_append a t) (by
      intro e; apply hne; simp only [List.cons_append]; rw [← e])

/-! ## The keys of a trie are distinct -/

def KeysNodup (d : Dic) : Prop := (d.map (·.1)).Nodup

theorem mem_of_look {d : Dic} {k : List Byte} {i : Info} (h : look d k = some i) : (k, i) ∈ d := by
  induction d with
  | nil => simp [look] at h
  | cons e d ih =>
    obtain ⟨q, j⟩ := e
    simp only [look, List.lookup] at h ih
    by_cases hk : k = q
    · subst hk; simp at h; subst h; simp
    · have : (k == q) = false := by simp [hk]
      rw [this] at h
      exact List.mem_cons_of_mem _ (ih h)

theorem look_none_iff {d : Dic} {k : List Byte} : look d k = none ↔ k ∉ d.map (·.1) := by
  induction d with
  | nil => simp [look]
  | cons e d ih =>
    obtain ⟨q, j⟩ := e
    simp only [look, List.lookup] at ih ⊢
    by_cases hk : k = q
    · subst hk; simp
    · have : (k == q) = false := by simp [hk]
      rw [this]
      simp only [List.map_cons, List.mem_cons, hk, false_or]
      exact ih

theorem look_of_mem {d : Dic} (hd : KeysNodup d) {k : List Byte} {i : Info} (h : (k, i) ∈ d) :
    look d k = some i := by
  induction d with
  | nil => simp at h
  | cons e d ih =>
    obtain ⟨q, j⟩ := e
    simp only [KeysNodup, List.map_cons, List.nodup_cons] at hd
    simp only [look, List.lookup] at ih ⊢
    rcases List.mem_cons.mp h with h | h
    · cases h; simp
    · have hk : k ≠ q := by
        rintro rfl
        exact hd.1 (List.mem_map.mpr ⟨(k, i), by assumption, rfl⟩)
      have : (k == q) = false := by simp [hk]
      rw [this]
      exact ih hd.2 h

theorem keys_modify (d : Dic) (k : List Byte) (f : Info → Info) : (Trie.modify d k f).map (·.1) = d.map (·.1) := by
  unfold Trie.modify
  rw [List.map_map]
  apply List.map_congr_left
  intro e _
  simp only [Function.comp]
  split <;> rfl

theorem addPrefix_nodup (s : List Byte) (id : Nat) (d : Dic) (len : Nat) (h : KeysNodup d) :
    KeysNodup (addPrefix s id d len) := by
  unfold addPrefix
  simp only
  cases hl : look d (s.take len) with
  | none =>
    simp only [KeysNodup, List.map_append, List.map_cons, List.map_nil]
    rw [List.nodup_append]
    refine ⟨h, by simp, ?_⟩
    intro a ha b hb
    simp only [List.mem_singleton] at hb
    subst hb
    rintro rfl
    exact look_none_iff.mp hl ha
  | some i =>
    simp only
    split <;> (unfold KeysNodup; rw [keys_modify]; exact h)

theorem foldl_inv {P : β → Prop} (f : β → α → β) (l : List α) (b : β) (h : P b) (hf : ∀ b a, P b → P (f b a)) :
    P (l.foldl f b) := by
  induction l generalizing b with
  | nil => exact h
  | cons a l ih => exact ih _ (hf b a h)

theorem addItem_nodup (d : Dic) (s : List Byte) (id : Nat) (h : KeysNodup d) : KeysNodup (addItem d s id) :=
  foldl_inv _ _ _ h fun d len hd => addPrefix_nodup s id d len hd

theorem addItems_nodup (d : Dic) (id : Nat) (ws : List (List Byte)) (h : KeysNodup d) :
    KeysNodup (addItems d id ws) := by
  induction ws generalizing d id with
  | nil => exact h
  | cons s ws ih => exact ih _ _ (addItem_nodup d s id h)

theorem modify_self {d : Dic} (hd : KeysNodup d) {k : List Byte} {i : Info} (hl : look d k = some i)
    (f : Info → Info) (hf : f i = i) : Trie.modify d k f = d := by
  unfold Trie.modify
  conv => rhs; rw [← List.map_id d]
  apply List.map_congr_left
  intro e he
  split
  · rename_i hk
    obtain ⟨q, j⟩ := e
    simp only at hk
    subst hk
    have := look_of_mem hd he
    rw [hl] at this
    cases this
    simp [hf]
  · rfl

/-- Inserting a word a second time changes nothing. -/
theorem addItem_again {ws : List (List Byte)} {d : Dic} (hi : Inv ws d) (hd : KeysNodup d) {s : List Byte}
    (hs : s ∈ ws) (id : Nat) : addItem d s id = d := by
  unfold addItem
  have key : ∀ len ∈ List.range' 1 s.length, addPrefix s id d len = d := by
    intro len hlen
    rw [List.mem_range'_1] at hlen
    have hne : s.take len ≠ [] := by
      intro h
      have := congrArg List.length h
      simp only [List.length_take, List.length_nil] at this; omega
    have hp : s.take len <+: s := List.take_prefix _ _
    have := hi (s.take len)
    unfold addPrefix
    simp only
    cases hl : look d (s.take len) with
    | none =>
      rw [hl] at this
      rcases this with h | h
      · exact absurd h hne
      · exact absurd hp (h s hs)
    | some i =>
      rw [hl] at this
      obtain ⟨-, -, h3, h4, -⟩ := this
      have htk := take_eq_self_iff s len (by omega)
      by_cases hlast : len = s.length
      · simp only [hlast, decide_true, if_true]
        rw [← hlast]
        apply modify_self hd hl
        have : i.isMatch = true := h3.mpr (by rw [htk.mpr hlast]; exact hs)
        cases i; simp_all
      · simp only [hlast, decide_false, Bool.false_eq_true, if_false]
        apply modify_self hd hl
        have : i.done = false := by
          cases hdn : i.done with
          | false => rfl
          | true => exact absurd (htk.mp (h4.mp hdn s hs hp).symm) hlast
        cases i; simp_all
  generalize List.range' 1 s.length = l at key
  induction l with
  | nil => rfl
  | cons a l ih =>
    rw [List.foldl_cons, key a (by simp)]
    exact ih fun len hl => key len (by simp [hl])

/-! ## Recovering the words of a dictionary -/

/-- one step of `trieWords` -/
def placeWord (ws : List (List Byte)) (kv : List Byte × Info) : List (List Byte) :=
  if kv.2.isMatch && decide (kv.2.id < ws.length) then ws.set kv.2.id kv.1 else ws

theorem place_length (l : List (List Byte × Info)) (ws : List (List Byte)) :
    (l.foldl placeWord ws).length = ws.length := by
  induction l generalizing ws with
  | nil => rfl
  | cons e l ih =>
    rw [List.foldl_cons, ih]
    unfold placeWord
    split <;> simp

/-- The slot `i` is untouched, or holds the key of a matching entry with id `i`. -/
theorem place_slot (l : List (List Byte × Info)) (ws : List (List Byte)) (i : Nat) (hi : i < ws.length) :
    ((∀ e ∈ l, ¬ (e.2.isMatch = true ∧ e.2.id = i)) ∧ (l.foldl placeWord ws)[i]? = ws[i]?) ∨
    ∃ e ∈ l, e.2.isMatch = true ∧ e.2.id = i ∧ (l.foldl placeWord ws)[i]? = some e.1 := by
  induction l generalizing ws with
  | nil => left; simp
  | cons e l ih =>
    rw [List.foldl_cons]
    have hlen : (placeWord ws e).length = ws.length := place_length [e] ws
    rcases ih (placeWord ws e) (by rw [hlen]; exact hi) with ⟨h1, h2⟩ | ⟨e', he', h3⟩
    · by_cases hc : e.2.isMatch = true ∧ e.2.id = i
      · right
        refine ⟨e, by simp, hc.1, hc.2, ?_⟩
        rw [h2]
        unfold placeWord
        rw [hc.1, hc.2]
        simp [hi]
      · left
        refine ⟨?_, ?_⟩
        · intro e' he'
          rcases List.mem_cons.mp he' with rfl | h
          · exact hc
          · exact h1 e' h
        · rw [h2]
          unfold placeWord
          split
          · rename_i hh
            simp only [Bool.and_eq_true, decide_eq_true_eq] at hh
            rw [List.getElem?_set_ne]
            intro h; exact hc ⟨hh.1, h⟩
          · rfl
    · right
      exact ⟨e', by simp [he'], h3⟩

theorem trieWords_eq (t : T) :
    trieWords t = (sortBy (·.1) t.dic).foldl placeWord (List.replicate t.itemsCount []) := rfl

/-- No word is a proper prefix of an earlier one, except repetitions of a word that came before both. (Stated on the
words as stored: lower-cased when case is ignored.) -/
def Faithful (ws : List (List Byte)) : Prop :=
  ∀ (i j : Nat) (wi wj : List Byte), ws[i]? = some wi → ws[j]? = some wj → i < j → wj <+: wi → wj ≠ [] → wj ≠ wi →
    ∃ k : Nat, k < i ∧ ws[k]? = some wj

/-- What the slot of word number `i` holds. -/
def slotWord (ws : List (List Byte)) (i : Nat) (w : List Byte) : List Byte :=
  if ws.findIdx? (w.isPrefixOf ·) = some i then w else []

theorem findIdx_self {ws : List (List Byte)} {i : Nat} {w : List Byte} (h : ws[i]? = some w) :
    ∃ k, k ≤ i ∧ ws.findIdx? (w.isPrefixOf ·) = some k := by
  cases hf : ws.findIdx? (w.isPrefixOf ·) with
  | none =>
    rw [List.findIdx?_eq_none_iff] at hf
    have := hf w (List.mem_of_getElem? h)
    rw [← Bool.not_eq_true, List.isPrefixOf_iff_prefix] at this
    exact absurd List.prefix_rfl this
  | some k =>
    refine ⟨k, ?_, rfl⟩
    rw [List.findIdx?_eq_some_iff_getElem] at hf
    obtain ⟨hk, h1, h2⟩ := hf
    by_cases hki : k ≤ i
    · exact hki
    · obtain ⟨hil, he⟩ := List.getElem?_eq_some_iff.mp h
      have := h2 i (by omega)
      rw [he, List.isPrefixOf_iff_prefix] at this
      exact absurd List.prefix_rfl this

theorem Faithful.first {ws : List (List Byte)} (hf : Faithful ws) {i : Nat} {w : List Byte} (hw : w ∈ ws)
    (hne : w ≠ []) (h : ws.findIdx? (w.isPrefixOf ·) = some i) : ws[i]? = some w := by
  obtain ⟨j, hj⟩ := List.getElem?_of_mem hw
  rw [List.findIdx?_eq_some_iff_getElem] at h
  obtain ⟨hi, h1, h2⟩ := h
  rw [List.isPrefixOf_iff_prefix] at h1
  have hwi : ws[i]? = some ws[i] := List.getElem?_eq_getElem hi
  by_cases he : w = ws[i]
  · rw [hwi, ← he]
  · exfalso
    have hlt : i < j := by
      rcases Nat.lt_trichotomy i j with h | h | h
      · exact h
      · subst h
        rw [hwi] at hj
        simp only [Option.some.injEq] at hj
        exact absurd hj.symm he
      · obtain ⟨hjl, hej⟩ := List.getElem?_eq_some_iff.mp hj
        have := h2 j h
        rw [hej, List.isPrefixOf_iff_prefix] at this
        exact absurd List.prefix_rfl this
    obtain ⟨k, hk, hkw⟩ := hf i j ws[i] w hwi hj hlt h1 hne he
    obtain ⟨hkl, hek⟩ := List.getElem?_eq_some_iff.mp hkw
    have := h2 k hk
    rw [hek, List.isPrefixOf_iff_prefix] at this
    exact absurd List.prefix_rfl this

/-- The words recovered from the trie of a faithful word list: repetitions become empty, the rest is in place. -/
theorem trieWords_faithful (ws : List (List Byte)) (ic : Bool) (m : Nat) (hf : Faithful ws) :
    trieWords ⟨addItems [] 0 ws, ic, ws.length, m⟩ = ws.mapIdx (fun i w => slotWord ws i w) := by
  have hinv := inv_build ws
  have hnd : KeysNodup (addItems [] 0 ws) := addItems_nodup [] 0 ws (by simp [KeysNodup])
  apply List.ext_getElem?
  intro i
  rw [List.getElem?_mapIdx]
  rw [trieWords_eq]
  simp only
  by_cases hi : i < ws.length
  · rw [List.getElem?_eq_getElem hi, Option.map_some]
    have hwi : ws[i]? = some ws[i] := List.getElem?_eq_getElem hi
    rcases place_slot (sortBy (·.1) (addItems [] 0 ws)) (List.replicate ws.length []) i (by simpa using hi) with
      ⟨h1, h2⟩ | ⟨⟨k, e⟩, he, h1, h2, h3⟩
    · rw [h2]
      simp only [List.getElem?_replicate, hi, if_true, Option.some.injEq]
      unfold slotWord
      split
      · rename_i hfi
        cases hw : ws[i] with
        | nil => rfl
        | cons a b =>
          exfalso
          have := hinv ws[i]
          cases hl : look (addItems [] 0 ws) ws[i] with
          | none =>
            rw [hl] at this
            rcases this with h | h
            · rw [hw] at h; exact absurd h (by simp)
            · exact h ws[i] (List.getElem_mem hi) List.prefix_rfl
          | some e =>
            rw [hl] at this
            obtain ⟨-, -, h5, -, h6⟩ := this
            rw [hfi] at h6
            refine h1 (ws[i], e) ((sortBy_perm _ _).mem_iff.mpr (mem_of_look hl)) ⟨?_, ?_⟩
            · exact h5.mpr (List.getElem_mem hi)
            · exact (Option.some.inj h6).symm
      · rfl
    · have hl := look_of_mem hnd ((sortBy_perm _ _).mem_iff.mp he)
      have := hinv k
      rw [hl] at this
      obtain ⟨h4, -, h5, -, h6⟩ := this
      simp only at h1 h2 h3
      have hk := h5.mp h1
      rw [h2] at h6
      have := hf.first hk h4 h6
      rw [hwi] at this
      simp only [Option.some.injEq] at this
      rw [h3, this]
      unfold slotWord
      rw [if_pos h6]
  · rw [List.getElem?_eq_none (l := ws) (by omega), Option.map_none]
    apply List.getElem?_eq_none
    rw [place_length]
    simpa using hi

/-- Rebuilding from the slots gives the same map. -/
theorem addItems_slots (pre items ws : List (List Byte)) (hw : ws = pre ++ items) (hf : Faithful ws) (d : Dic)
    (hi : Inv pre d) (hd : KeysNodup d) :
    addItems d pre.length (items.mapIdx fun i w => slotWord ws (pre.length + i) w) = addItems d pre.length items := by
  induction items generalizing pre d with
  | nil => rfl
  | cons s items ih =>
    rw [List.mapIdx_cons]
    simp only [addItems, Nat.add_zero]
    have step : addItem d (slotWord ws pre.length s) pre.length = addItem d s pre.length := by
      unfold slotWord
      split
      · rfl
      · rename_i hn
        have hs : ws[pre.length]? = some s := by rw [hw]; simp
        obtain ⟨k, hk, hfi⟩ := findIdx_self hs
        have hkl : k < pre.length := by
          rcases Nat.lt_or_eq_of_le hk with h | h
          · exact h
          · rw [h] at hfi; exact absurd hfi hn
        by_cases hse : s = []
        · rw [hse]
        · have := hf.first (List.mem_of_getElem? hs) hse hfi
          rw [hw, List.getElem?_append_left hkl] at this
          rw [addItem_again hi hd (List.mem_of_getElem? this)]
          rfl
    rw [step]
    have := ih (pre ++ [s]) (by rw [hw]; simp) (addItem d s pre.length) (inv_addItem pre d hi s)
      (addItem_nodup d s _ hd)
    simp only [List.length_append, List.length_singleton] at this
    have e : (fun i w => slotWord ws (pre.length + (i + 1)) w) = fun i w => slotWord ws (pre.length + 1 + i) w := by
      funext i w; rw [Nat.add_assoc, Nat.add_comm 1 i]
    rw [e]
    exact this

/-- maximum length, as the constructor computes it -/
def maxOf (items : List (List Byte)) : Nat := items.foldl (fun m s => if m < s.length then s.length else m) 0

theorem foldMax_spec (items : List (List Byte)) (m n : Nat) :
    items.foldl (fun m s => if m < s.length then s.length else m) m ≤ n ↔ m ≤ n ∧ ∀ w ∈ items, w.length ≤ n := by
  induction items generalizing m with
  | nil => simp
  | cons s items ih =>
    rw [List.foldl_cons, ih]
    simp only [List.mem_cons, forall_eq_or_imp]
    split <;> constructor <;> rintro ⟨h1, h2⟩ <;> (try obtain ⟨h2, h3⟩ := h2) <;>
      first | exact ⟨by omega, by omega, by assumption⟩ | exact ⟨by omega, by assumption⟩

theorem maxOf_slots (ws : List (List Byte)) (hf : Faithful ws) :
    maxOf (ws.mapIdx fun i w => slotWord ws i w) = maxOf ws := by
  have key : ∀ n, maxOf (ws.mapIdx fun i w => slotWord ws i w) ≤ n ↔ maxOf ws ≤ n := by
    intro n
    unfold maxOf
    rw [foldMax_spec, foldMax_spec]
    refine and_congr_right fun _ => ⟨fun h w hw => ?_, fun h w hw => ?_⟩
    · by_cases hne : w = []
      · simp [hne]
      obtain ⟨j, hj⟩ := List.getElem?_of_mem hw
      obtain ⟨k, hk, hfi⟩ := findIdx_self hj
      have hk' := hf.first hw hne hfi
      apply h
      rw [List.mem_mapIdx]
      obtain ⟨hkl, he⟩ := List.getElem?_eq_some_iff.mp hk'
      refine ⟨k, hkl, ?_⟩
      rw [he]; unfold slotWord; rw [if_pos hfi]
    · rw [List.mem_mapIdx] at hw
      obtain ⟨i, hi, rfl⟩ := hw
      unfold slotWord
      split
      · exact h _ (List.getElem_mem hi)
      · simp
  exact Nat.le_antisymm ((key _).mpr (Nat.le_refl _)) ((key _).mp (Nat.le_refl _))

theorem lowerByte_idem (b : Byte) : lowerByte (lowerByte b) = lowerByte b := by
  unfold lowerByte
  split
  · rename_i h
    rw [if_neg]
    rintro ⟨h1, h2⟩
    simp only [UInt8.le_iff_toNat_le, UInt8.toNat_add, UInt8.reduceToNat] at *
    omega
  · rfl

theorem toLower_idem (s : List Byte) : toLower (toLower s) = toLower s := by
  simp [toLower, List.map_map, Function.comp_def, lowerByte_idem]

/-- the words as stored -/
def stored (words : List (List Byte)) (ic : Bool) : List (List Byte) :=
  words.map fun s => if ic then toLower s else s

theorem stored_length (words : List (List Byte)) (ic : Bool) : (stored words ic).length = words.length := by
  simp [stored]

theorem maxOf_stored (words : List (List Byte)) (ic : Bool) : maxOf (stored words ic) = maxOf words := by
  unfold maxOf stored
  rw [List.foldl_map]
  congr
  funext m s
  cases ic <;> simp [toLower]

theorem build_eq (words : List (List Byte)) (ic : Bool) :
    build words ic = ⟨addItems [] 0 (stored words ic), ic, (stored words ic).length, maxOf (stored words ic)⟩ := by
  rw [maxOf_stored, stored_length]; rfl

theorem stored_slots (words : List (List Byte)) (ic : Bool) :
    stored ((stored words ic).mapIdx fun i w => slotWord (stored words ic) i w) ic =
      (stored words ic).mapIdx fun i w => slotWord (stored words ic) i w := by
  cases ic with
  | false => simp [stored]
  | true =>
    have hlow : ∀ w ∈ stored words true, toLower w = w := by
      intro w hw
      unfold stored at hw
      simp only [if_true, List.mem_map] at hw
      obtain ⟨s, -, rfl⟩ := hw
      exact toLower_idem s
    generalize stored words true = W at hlow
    unfold stored
    apply List.ext_getElem?
    intro i
    rw [List.getElem?_map, List.getElem?_mapIdx]
    cases h : W[i]? with
    | none => rfl
    | some w =>
      simp only [Option.map_some, if_true, Option.some.injEq]
      have := hlow w (List.mem_of_getElem? h)
      unfold slotWord
      split
      · exact this
      · rfl

/-- The dictionary survives serialisation when its stored words are faithful. -/
theorem rebuild_faithful (words : List (List Byte)) (ic : Bool) (hf : Faithful (stored words ic)) :
    build (trieWords (build words ic)) ic = build words ic := by
  rw [build_eq words ic, trieWords_faithful _ ic _ hf, build_eq, stored_slots]
  have h1 := addItems_slots [] (stored words ic) (stored words ic) rfl hf [] (by intro p; simp [look])
    (by simp [KeysNodup])
  simp only [List.length_nil, Nat.zero_add] at h1
  rw [h1, maxOf_slots _ hf, List.length_mapIdx]

/-- A word hidden behind an earlier longer word is not recovered. -/
theorem trieWords_lost (ws : List (List Byte)) (ic : Bool) (m i : Nat) (w : List Byte) (hw : w ∈ ws) (hne : w ≠ [])
    (hfi : ws.findIdx? (w.isPrefixOf ·) = some i) (hd : ws[i]? ≠ some w) :
    w ∉ trieWords ⟨addItems [] 0 ws, ic, ws.length, m⟩ := by
  have hinv := inv_build ws
  have hnd : KeysNodup (addItems [] 0 ws) := addItems_nodup [] 0 ws (by simp [KeysNodup])
  have hfi' := hfi
  rw [List.findIdx?_eq_some_iff_getElem] at hfi'
  obtain ⟨hi, hp, hmin⟩ := hfi'
  rw [List.isPrefixOf_iff_prefix] at hp
  have hwi : ws[i]? = some ws[i] := List.getElem?_eq_getElem hi
  have hv : w ≠ ws[i] := by intro e; apply hd; rw [hwi, ← e]
  have hvne : ws[i] ≠ [] := by
    intro e; rw [e] at hp; exact hne (List.prefix_nil.mp hp)
  -- the node of the longer word has the same id
  have hvi : ws.findIdx? (ws[i].isPrefixOf ·) = some i := by
    obtain ⟨k, hk, hfk⟩ := findIdx_self hwi
    rcases Nat.lt_or_eq_of_le hk with h | h
    · rw [List.findIdx?_eq_some_iff_getElem] at hfk
      obtain ⟨hkl, h1, -⟩ := hfk
      rw [List.isPrefixOf_iff_prefix] at h1
      have := hmin k h
      rw [List.isPrefixOf_iff_prefix] at this
      exact absurd (hp.trans h1) this
    · rw [hfk, h]
  obtain ⟨ev, hev⟩ : ∃ e, look (addItems [] 0 ws) ws[i] = some e := by
    have := hinv ws[i]
    cases hl : look (addItems [] 0 ws) ws[i] with
    | none =>
      rw [hl] at this
      rcases this with h | h
      · exact absurd h hvne
      · exact absurd List.prefix_rfl (h _ (List.getElem_mem hi))
    | some e => exact ⟨e, rfl⟩
  have hv2 := hinv ws[i]
  rw [hev] at hv2
  have hvm : ev.isMatch = true := hv2.2.2.1.mpr (List.getElem_mem hi)
  have hvid : ev.id = i := by
    have := hv2.2.2.2.2
    rw [hvi] at this
    exact (Option.some.inj this).symm
  intro hmem
  rw [trieWords_eq] at hmem
  simp only at hmem
  obtain ⟨i', hi'⟩ := List.getElem?_of_mem hmem
  have hil' : i' < ws.length := by
    have := (List.getElem?_eq_some_iff.mp hi').1
    rw [place_length] at this
    simpa using this
  have hnds : ((sortBy (·.1) (addItems [] 0 ws)).map (·.1)).Nodup :=
    ((sortBy_perm _ _).map _).nodup_iff.mpr hnd
  have hsort := sortBy_sorted (·.1) (addItems [] 0 ws)
  have hmemv : (ws[i], ev) ∈ sortBy (·.1) (addItems [] 0 ws) := (sortBy_perm _ _).mem_iff.mpr (mem_of_look hev)
  have hsub : ∀ e ∈ sortBy (·.1) (addItems [] 0 ws), look (addItems [] 0 ws) e.1 = some e.2 :=
    fun e he => look_of_mem hnd ((sortBy_perm _ _).mem_iff.mp he)
  generalize sortBy (·.1) (addItems [] 0 ws) = l at hi' hnds hsort hmemv hsub
  -- the slot holding `w` is `i`
  rcases place_slot l (List.replicate ws.length []) i' (by simpa using hil') with ⟨-, h2⟩ | ⟨⟨k, e⟩, he, h1, h2, h3⟩
  · rw [hi'] at h2
    simp only [List.getElem?_replicate, hil', if_true, Option.some.injEq] at h2
    exact hne h2
  rw [hi'] at h3
  simp only [Option.some.injEq] at h1 h2 h3
  subst h3
  have := hinv w
  rw [hsub _ he] at this
  have hid := this.2.2.2.2
  rw [hfi] at hid
  have hii : i' = i := by
    have := Option.some.inj hid
    simp only at this
    rw [← h2, ← this]
  subst hii
  -- split at the entry of `w`
  obtain ⟨l1, l2, hl⟩ := List.append_of_mem he
  rw [hl] at hmemv hsort hnds hi'
  have hv2 : (ws[i'], ev) ∈ l2 := by
    rcases List.mem_append.mp hmemv with h | h
    · exfalso
      have := (List.pairwise_append.mp hsort).2.2 _ h _ (List.mem_cons_self ..)
      simp only at this
      rw [lexLe_prefix hp hv] at this
      cases this
    · rcases List.mem_cons.mp h with h | h
      · cases h; exact absurd rfl hv
      · exact h
  have hw2 : ∀ e' ∈ l2, e'.1 ≠ w := by
    intro e' he' hh
    simp only [List.map_append, List.map_cons] at hnds
    have := (List.nodup_append.mp hnds).2.1
    rw [List.nodup_cons] at this
    exact this.1 (List.mem_map.mpr ⟨e', he', hh⟩)
  rw [List.foldl_append, List.foldl_cons] at hi'
  rcases place_slot l2 (placeWord (l1.foldl placeWord (List.replicate ws.length [])) (w, e)) i' (by
      have := place_length [(w, e)] (l1.foldl placeWord (List.replicate ws.length []))
      rw [List.foldl_cons, List.foldl_nil] at this
      rw [this, place_length]; simpa using hil') with ⟨h5, -⟩ | ⟨e', he', -, -, h6⟩
  · exact h5 _ hv2 ⟨hvm, hvid⟩
  · rw [hi'] at h6
    exact hw2 e' he' (Option.some.inj h6).symm

/-- The dictionary survives exactly when its stored words are faithful. -/
theorem rebuild_iff (words : List (List Byte)) (ic : Bool) :
    build (trieWords (build words ic)) ic = build words ic ↔ Faithful (stored words ic) := by
  refine ⟨fun h => ?_, rebuild_faithful words ic⟩
  intro i j wi wj hi hj hij hp hne hd
  refine Classical.byContradiction fun hno => ?_
  have hmem : wj ∈ stored words ic := List.mem_of_getElem? hj
  obtain ⟨k, hk, hfk⟩ := findIdx_self hj
  have hki : k ≤ i := by
    have := hfk
    rw [List.findIdx?_eq_some_iff_getElem] at this
    obtain ⟨hkl, h1, h2⟩ := this
    by_cases hh : k ≤ i
    · exact hh
    · obtain ⟨hil, he⟩ := List.getElem?_eq_some_iff.mp hi
      have := h2 i (by omega)
      rw [he, List.isPrefixOf_iff_prefix] at this
      exact absurd hp this
  have hkne : (stored words ic)[k]? ≠ some wj := by
    intro e
    rcases Nat.lt_or_eq_of_le hki with h | h
    · exact hno ⟨k, h, e⟩
    · rw [h, hi] at e
      exact hd (Option.some.inj e).symm
  have hlost := trieWords_lost (stored words ic) ic (maxOf (stored words ic)) k wj hmem hne hfk hkne
  rw [← build_eq] at hlost
  -- in the rebuilt trie `wj` is not a match
  have h1 := inv_build (stored words ic) wj
  have h2 := inv_build (stored (trieWords (build words ic)) ic) wj
  have hdic : addItems [] 0 (stored (trieWords (build words ic)) ic) = addItems [] 0 (stored words ic) := by
    have := congrArg T.dic h
    exact this
  rw [hdic] at h2
  have hns : wj ∉ stored (trieWords (build words ic)) ic := by
    cases ic with
    | false => simpa [stored] using hlost
    | true =>
      -- every recovered word is already lower case
      intro hh
      unfold stored at hh
      simp only [if_true, List.mem_map] at hh
      obtain ⟨s, hs, rfl⟩ := hh
      have hsl : toLower s = s := by
        rw [build_eq, trieWords_eq] at hs
        simp only at hs
        obtain ⟨n, hn⟩ := List.getElem?_of_mem hs
        have hnl : n < (stored words true).length := by
          have := (List.getElem?_eq_some_iff.mp hn).1
          rw [place_length] at this
          simpa using this
        rcases place_slot (sortBy (·.1) (addItems [] 0 (stored words true)))
          (List.replicate (stored words true).length []) n (by simpa using hnl) with ⟨-, h5⟩ | ⟨⟨q, e⟩, he, h5, -, h6⟩
        · rw [hn] at h5
          simp only [List.getElem?_replicate, hnl, if_true, Option.some.injEq] at h5
          rw [h5]; rfl
        · rw [hn] at h6
          simp only [Option.some.injEq] at h5 h6
          subst h6
          have hnd : KeysNodup (addItems [] 0 (stored words true)) :=
            addItems_nodup [] 0 _ (by simp [KeysNodup])
          have hl := look_of_mem hnd ((sortBy_perm _ _).mem_iff.mp he)
          have := inv_build (stored words true) s
          rw [hl] at this
          have := this.2.2.1.mp h5
          unfold stored at this
          simp only [if_true, List.mem_map] at this
          obtain ⟨r, -, rfl⟩ := this
          exact toLower_idem r
      rw [hsl] at hlost
      exact hlost hs
  cases hl : look (addItems [] 0 (stored words ic)) wj with
  | none =>
    rw [hl] at h1
    rcases h1 with h | h
    · exact hne h
    · exact h wj hmem List.prefix_rfl
  | some e =>
    rw [hl] at h1 h2
    exact hns (h2.2.2.1.mp (h1.2.2.1.mpr hmem))

end Blob
end Verif
