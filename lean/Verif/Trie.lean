import Verif.Basic
/-!
# The dictionary trie (peglib.h 438-521)
-/

namespace Verif
namespace Trie

/-- peglib.h 440: `std::tolower` on one byte in the "C" locale. -/
def lowerByte (b : Byte) : Byte := if 65 ≤ b ∧ b ≤ 90 then b + 32 else b

/-- peglib.h 438-443 `to_lower`. -/
def toLower (s : List Byte) : List Byte := s.map lowerByte

/-- peglib.h 508-512 `Trie::Info`. -/
structure Info where
  done : Bool
  isMatch : Bool
  id : Nat
  deriving DecidableEq, Repr

/-- peglib.h 516 `std::map<std::string, Info> dic_` as an association list (each key once). -/
abbrev Dic := List (List Byte × Info)

/-- peglib.h 460, 486: `dic_.find`. -/
def look (d : Dic) (k : List Byte) : Option Info := d.lookup k

/-- peglib.h 460-473: update the entry of an existing key. -/
def modify (d : Dic) (k : List Byte) (f : Info → Info) : Dic :=
  d.map fun e => if e.1 = k then (e.1, f e.2) else e

/-- peglib.h 458-467 the body of the inner loop of the constructor, for the prefix of length `len` of the
(possibly lower-cased) word `s`. -/
def addPrefix (s : List Byte) (id : Nat) (d : Dic) (len : Nat) : Dic :=
  let last := decide (len = s.length)
  let sv := s.take len
  match look d sv with
  | none => d ++ [(sv, ⟨last, last, id⟩)]
  | some _ =>
    if last then modify d sv (fun i => { i with isMatch := true })
    else modify d sv (fun i => { i with done := false })

/-- peglib.h 457-468 the inner loop: `len` from 1 to `item.size()`. -/
def addItem (d : Dic) (s : List Byte) (id : Nat) : Dic :=
  (List.range' 1 s.length).foldl (addPrefix s id) d

/-- peglib.h 454-470 the outer loop; `id` counts the items. -/
def addItems : Dic → Nat → List (List Byte) → Dic
  | d, _, [] => d
  | d, id, s :: items => addItems (addItem d s id) (id + 1) items

/-- The members of `Trie` (peglib.h 516-520). -/
structure T where
  dic : Dic
  ignoreCase : Bool
  itemsCount : Nat
  maxLen : Nat
  deriving Repr, DecidableEq

/-- peglib.h 451-471 the constructor. -/
def build (items : List (List Byte)) (ignoreCase : Bool) : T where
  dic := addItems [] 0 (items.map fun s => if ignoreCase then toLower s else s)
  ignoreCase := ignoreCase
  itemsCount := items.length
  maxLen := items.foldl (fun m s => if m < s.length then s.length else m) 0

/-- peglib.h 481-497 the loop of `match`; `k` is the number of lengths still allowed (`limit + 1 - len`), `best` the
pair (match_len, id).  `id` is left unset by the code when nothing matches; it is 0 here and never read then. -/
def matchLoop (d : Dic) (t : List Byte) : Nat → Nat → Nat × Nat → Nat × Nat
  | 0, _, best => best
  | k + 1, len, best =>
    match look d (t.take len) with
    | none => best
    | some i =>
      let best := if i.isMatch then (len, i.id) else best
      if i.done then best else matchLoop d t k (len + 1) best

/-- peglib.h 473-499 `Trie::match` on the remaining input: (match length, id). -/
def T.matchText (tr : T) (text : List Byte) : Nat × Nat :=
  let limit := min text.length tr.maxLen
  let t := if tr.ignoreCase then toLower (text.take limit) else text
  matchLoop tr.dic t limit 1 (0, 0)

/-! ## Lemmas -/

theorem look_modify (d : Dic) (k p : List Byte) (f : Info → Info) :
    look (modify d k f) p = if p = k then (look d p).map f else look d p := by
  induction d with
  | nil => simp [look, modify]
  | cons e d ih =>
    obtain ⟨q, i⟩ := e
    simp only [look, modify, List.map_cons, List.lookup] at ih ⊢
    by_cases hq : q = k
    · subst hq
      simp only [if_true]
      by_cases hp : p = q
      · subst hp; simp
      · have : (p == q) = false := by simp [hp]
        simp only [this, if_neg hp]
        rw [ih, if_neg hp]
    · simp only [if_neg hq]
      by_cases hp : p = q
      · subst hp; simp [hq]
      · have : (p == q) = false := by simp [hp]
        simp only [this]
        exact ih

theorem look_append (d : Dic) (k p : List Byte) (i : Info) :
    look (d ++ [(k, i)]) p = match look d p with
      | some j => some j
      | none => if p = k then some i else none := by
  induction d with
  | nil =>
    simp only [look, List.nil_append, List.lookup]
    by_cases hp : p = k
    · simp [hp]
    · have : (p == k) = false := by simp [hp]
      simp [this, hp]
  | cons e d ih =>
    obtain ⟨q, j⟩ := e
    simp only [look, List.cons_append, List.lookup] at ih ⊢
    by_cases hp : p = q
    · simp [hp]
    · have : (p == q) = false := by simp [hp]
      simp only [this]
      exact ih

/-- What a new or an existing node becomes when word `s` with index `id` passes through prefix `p`. -/
def upd (s : List Byte) (id : Nat) (p : List Byte) (o : Option Info) : Info :=
  match o with
  | none => ⟨p = s, p = s, id⟩
  | some i => if p = s then { i with isMatch := true } else { i with done := false }

theorem take_eq_self_iff (s : List Byte) (len : Nat) (h : len ≤ s.length) : s.take len = s ↔ len = s.length := by
  constructor
  · intro e
    have := congrArg List.length e
    simp at this; omega
  · rintro rfl; simp

theorem look_addPrefix (s : List Byte) (id : Nat) (d : Dic) (len : Nat) (h : len ≤ s.length) (p : List Byte) :
    look (addPrefix s id d len) p = if p = s.take len then some (upd s id p (look d p)) else look d p := by
  unfold addPrefix
  have hl := take_eq_self_iff s len h
  simp only
  split
  · rename_i hn
    rw [look_append]
    by_cases hp : p = s.take len
    · rw [hp, hn, if_pos rfl]
      simp [upd, hl]
    · rw [if_neg hp]
      cases look d p <;> simp [hp]
  · rename_i i hi
    split
    · rename_i hlast
      rw [look_modify]
      by_cases hp : p = s.take len
      · rw [if_pos hp, if_pos hp, hp, hi]
        simp at hlast
        simp [upd, hlast]
      · rw [if_neg hp, if_neg hp]
    · rename_i hlast
      rw [look_modify]
      by_cases hp : p = s.take len
      · rw [if_pos hp, if_pos hp, hp, hi]
        simp at hlast
        simp only [Option.map_some, upd, if_neg (fun e => hlast (hl.mp e))]
      · rw [if_neg hp, if_neg hp]

theorem look_addLens (s : List Byte) (id : Nat) (k : Nat) (h : k ≤ s.length) (d : Dic) (p : List Byte) :
    look ((List.range' 1 k).foldl (addPrefix s id) d) p =
      if p ≠ [] ∧ p <+: s ∧ p.length ≤ k then some (upd s id p (look d p)) else look d p := by
  induction k with
  | zero =>
    simp only [List.range'_zero, List.foldl_nil]
    rw [if_neg]
    rintro ⟨h1, -, h3⟩
    exact h1 (List.length_eq_zero_iff.mp (by omega))
  | succ k ih =>
    rw [List.range'_concat, List.foldl_append, List.foldl_cons, List.foldl_nil]
    rw [look_addPrefix s id _ _ (by omega), ih (by omega)]
    have e : 1 + 1 * k = k + 1 := by omega
    rw [e]
    by_cases hp : p = s.take (k + 1)
    · have hlen : p.length = k + 1 := by rw [hp]; simp; omega
      have hne : p ≠ [] := by intro hh; rw [hh] at hlen; simp at hlen
      have hpre : p <+: s := by rw [hp]; exact List.take_prefix _ _
      rw [if_pos hp, if_neg (by omega), if_pos ⟨hne, hpre, by omega⟩]
    · rw [if_neg hp]
      have : (p ≠ [] ∧ p <+: s ∧ p.length ≤ k) ↔ (p ≠ [] ∧ p <+: s ∧ p.length ≤ k + 1) := by
        refine and_congr_right fun _ => and_congr_right fun h2 => ⟨by omega, fun h3 => ?_⟩
        by_cases h4 : p.length = k + 1
        · exact absurd (by rw [← h4]; exact List.prefix_iff_eq_take.mp h2) hp
        · omega
      simp only [this]

theorem look_addItem (d : Dic) (s : List Byte) (id : Nat) (p : List Byte) :
    look (addItem d s id) p =
      if p ≠ [] ∧ p <+: s then some (upd s id p (look d p)) else look d p := by
  unfold addItem
  rw [look_addLens s id s.length (Nat.le_refl _)]
  have : (p ≠ [] ∧ p <+: s ∧ p.length ≤ s.length) ↔ (p ≠ [] ∧ p <+: s) :=
    ⟨fun h => ⟨h.1, h.2.1⟩, fun h => ⟨h.1, h.2, h.2.length_le⟩⟩
  simp only [this]

/-- The state of the map after inserting words `ws` (indices from `0`): for every non-empty string, whether it is a
key, and the three fields. -/
def Inv (ws : List (List Byte)) (d : Dic) : Prop :=
  ∀ p, match look d p with
    | none => p = [] ∨ ∀ w ∈ ws, ¬ p <+: w
    | some i => p ≠ [] ∧ (∃ w ∈ ws, p <+: w) ∧ (i.isMatch = true ↔ p ∈ ws) ∧
        (i.done = true ↔ ∀ w ∈ ws, p <+: w → w = p) ∧ (ws.findIdx? (p.isPrefixOf ·)) = some i.id

theorem inv_addItem (ws : List (List Byte)) (d : Dic) (h : Inv ws d) (s : List Byte) :
    Inv (ws ++ [s]) (addItem d s ws.length) := by
  intro p
  rw [look_addItem]
  have hp := h p
  by_cases hc : p ≠ [] ∧ p <+: s
  · rw [if_pos hc]
    simp only
    rcases hl : look d p with _ | i
    · rw [hl] at hp
      simp only at hp
      have hno : ∀ w ∈ ws, ¬ p <+: w := by
        rcases hp with hp | hp
        · exact absurd hp hc.1
        · exact hp
      refine ⟨hc.1, ⟨s, by simp, hc.2⟩, ?_, ?_, ?_⟩
      · simp only [upd, decide_eq_true_eq, List.mem_append, List.mem_singleton]
        constructor
        · intro e; exact Or.inr e
        · rintro (h1 | h1)
          · exact absurd (List.prefix_rfl) (hno p h1)
          · exact h1
      · simp only [upd, decide_eq_true_eq, List.mem_append, List.mem_singleton]
        constructor
        · rintro e w (h1 | h1) h2
          · exact absurd h2 (hno w h1)
          · rw [h1, e]
        · intro hh; exact (hh s (Or.inr rfl) hc.2).symm
      · rw [List.findIdx?_append]
        have h1 : ws.findIdx? (p.isPrefixOf ·) = none := by
          rw [List.findIdx?_eq_none_iff]
          intro w hw
          have := hno w hw
          simpa [List.isPrefixOf_iff_prefix, Bool.eq_false_iff] using this
        have h2 : [s].findIdx? (p.isPrefixOf ·) = some 0 := by
          simp [List.findIdx?_cons, List.isPrefixOf_iff_prefix.mpr hc.2]
        rw [h1, h2]; simp [upd]
    · rw [hl] at hp
      simp only at hp
      obtain ⟨h1, h2, h3, h4, h5⟩ := hp
      refine ⟨h1, ?_, ?_, ?_, ?_⟩
      · obtain ⟨w, hw, hpw⟩ := h2; exact ⟨w, by simp [hw], hpw⟩
      · simp only [upd, List.mem_append, List.mem_singleton]
        split
        · rename_i e; simp [e]
        · rename_i e; simp only; rw [h3]; simp [e]
      · simp only [upd, List.mem_append, List.mem_singleton]
        split
        · rename_i e
          simp only
          rw [h4]
          constructor
          · rintro hh w (hw | hw) hpw
            · exact hh w hw hpw
            · rw [hw, e]
          · intro hh w hw hpw; exact hh w (Or.inl hw) hpw
        · rename_i e
          simp only [Bool.false_eq_true, false_iff]
          intro hh
          exact e (hh s (Or.inr rfl) hc.2).symm
      · rw [List.findIdx?_append, h5]
        simp only [upd]
        split <;> rfl
  · rw [if_neg hc]
    rcases hl : look d p with _ | i
    · rw [hl] at hp
      simp only at hp ⊢
      rcases hp with hp | hp
      · exact Or.inl hp
      · by_cases hpn : p = []
        · exact Or.inl hpn
        · refine Or.inr ?_
          intro w hw hpw
          rw [List.mem_append, List.mem_singleton] at hw
          rcases hw with hw | hw
          · exact hp w hw hpw
          · subst hw; exact hc ⟨hpn, hpw⟩
    · rw [hl] at hp
      simp only at hp ⊢
      obtain ⟨h1, ⟨w, hw, hpw⟩, h3, h4, h5⟩ := hp
      have hns : ¬ p <+: s := fun hh => hc ⟨h1, hh⟩
      refine ⟨h1, ⟨w, by simp [hw], hpw⟩, ?_, ?_, ?_⟩
      · rw [h3]; simp only [List.mem_append, List.mem_singleton]
        constructor
        · exact Or.inl
        · rintro (h | h)
          · exact h
          · subst h; exact absurd List.prefix_rfl hns
      · rw [h4]; simp only [List.mem_append, List.mem_singleton]
        constructor
        · rintro hh w (hw | hw) hpw
          · exact hh w hw hpw
          · subst hw; exact absurd hpw hns
        · intro hh w hw; exact hh w (Or.inl hw)
      · rw [List.findIdx?_append, h5]; rfl

theorem inv_addItems (ws items : List (List Byte)) (d : Dic) (h : Inv ws d) :
    Inv (ws ++ items) (addItems d ws.length items) := by
  induction items generalizing ws d with
  | nil => simpa [addItems] using h
  | cons s items ih =>
    have := ih (ws ++ [s]) _ (inv_addItem ws d h s)
    simpa [addItems] using this

theorem inv_build (ws : List (List Byte)) : Inv ws (addItems [] 0 ws) := by
  have : Inv [] [] := by intro p; simp [look]
  simpa using inv_addItems [] ws [] this

/-- Invariant of the matching loop. -/
theorem matchLoop_spec (ws : List (List Byte)) (d : Dic) (h : Inv ws d) (t : List Byte) (k len : Nat)
    (best : Nat × Nat) (hlen : 1 ≤ len) (hkt : len + k ≤ t.length + 1)
    (hk : ∀ w ∈ ws, w <+: t → w.length < len + k)
    (hb1 : best.1 < len)
    (hb2 : ∀ w ∈ ws, w <+: t → w.length < len → w.length ≤ best.1)
    (hb3 : best.1 ≠ 0 → t.take best.1 ∈ ws ∧ best.1 ≤ t.length ∧
      ws.findIdx? ((t.take best.1).isPrefixOf ·) = some best.2) :
    let r := matchLoop d t k len best
    (∀ w ∈ ws, w <+: t → w.length ≤ r.1) ∧
    (r.1 ≠ 0 → t.take r.1 ∈ ws ∧ r.1 ≤ t.length ∧ ws.findIdx? ((t.take r.1).isPrefixOf ·) = some r.2) := by
  induction k generalizing len best with
  | zero =>
    simp only [matchLoop]
    exact ⟨fun w hw hp => hb2 w hw hp (by have := hk w hw hp; omega), hb3⟩
  | succ k ih =>
    simp only [matchLoop]
    have hq := h (t.take len)
    rcases hl : look d (t.take len) with _ | i
    · rw [hl] at hq
      simp only at hq ⊢
      refine ⟨fun w hw hp => ?_, hb3⟩
      by_cases hwl : w.length < len
      · exact hb2 w hw hp hwl
      · exfalso
        rcases hq with hq | hq
        · -- t.take len = [] : t is empty, so w is empty
          have : t = [] := by
            rcases t with _ | ⟨x, t⟩
            · rfl
            · rcases len with _ | len
              · omega
              · simp at hq
          subst this
          have := hp.length_le
          simp at this; rw [this] at hwl; simp at hwl; omega
        · refine hq w hw ?_
          have e : t.take len = w.take len := by
            have := List.prefix_iff_eq_take.mp hp
            rw [this, List.take_take]
            congr 1; omega
          rw [e]; exact List.take_prefix _ _
    · rw [hl] at hq
      simp only at hq ⊢
      obtain ⟨h1, ⟨w0, hw0, hpw0⟩, h3, h4, h5⟩ := hq
      -- the new best
      have hbest : ∀ b, b = (if i.isMatch = true then (len, i.id) else best) →
          b.1 < len + 1 ∧ (∀ w ∈ ws, w <+: t → w.length < len + 1 → w.length ≤ b.1) ∧
          (b.1 ≠ 0 → t.take b.1 ∈ ws ∧ b.1 ≤ t.length ∧ ws.findIdx? ((t.take b.1).isPrefixOf ·) = some b.2) := by
        intro b hb
        by_cases hm : i.isMatch = true
        · rw [if_pos hm] at hb
          subst hb
          exact ⟨by simp, fun w _ _ h => by simp only; omega, fun _ => ⟨h3.mp hm, by simp only; omega, h5⟩⟩
        · rw [if_neg hm] at hb
          subst hb
          refine ⟨by omega, fun w hw hp hwl => ?_, hb3⟩
          by_cases hwl' : w.length < len
          · exact hb2 w hw hp hwl'
          · exfalso
            have e : t.take len = w := by
              have := List.prefix_iff_eq_take.mp hp
              have e2 : w.length = len := by omega
              rw [e2] at this; exact this.symm
            rw [e] at h3
            exact hm (h3.mpr hw)
      obtain ⟨g1, g2, g3⟩ := hbest _ rfl
      split
      · rename_i hd
        refine ⟨fun w hw hp => ?_, g3⟩
        by_cases hwl : w.length < len + 1
        · exact g2 w hw hp hwl
        · exfalso
          have e : t.take len = w.take len := by
            have := List.prefix_iff_eq_take.mp hp
            rw [this, List.take_take]
            congr 1; omega
          have hpre : t.take len <+: w := by rw [e]; exact List.take_prefix _ _
          have := h4.mp hd w hw hpre
          have h6 := congrArg List.length this
          simp at h6; omega
      · exact ih (len + 1) _ (by omega) (by omega) (fun w hw hp => by have := hk w hw hp; omega) g1 g2 g3

end Trie
end Verif
