import Verif.PackratCache
import Mathlib.Data.Nat.Find
/-! # Invariant of the packrat value table and the refinement to a finite map -/
namespace Verif.Packrat
variable {V : Type}

def Valid (k : Nat) : Prop := k < kTombstone

theorem Valid.ne_empty {k : Nat} (h : Valid k) : k ≠ kEmpty := by unfold Valid kTombstone at h; unfold kEmpty; omega
theorem Valid.ne_tomb {k : Nat} (h : Valid k) : k ≠ kTombstone := Nat.ne_of_lt h
theorem kEmpty_ne_kTombstone : kEmpty ≠ kTombstone := by decide
attribute [local irreducible] kEmpty kTombstone mix

/-- The `d`-th slot probed for `k`. -/
def slot (cap k d : Nat) : Nat := (mix k + d) % cap

theorem and_mask (k n : Nat) : n &&& (2 ^ k - 1) = n % 2 ^ k := Nat.and_two_pow_sub_one_eq_mod n k

theorem slot_zero {cap : Nat} (hc : ∃ e, cap = 2 ^ e) (k : Nat) : mix k &&& (cap - 1) = slot cap k 0 := by
  obtain ⟨e, rfl⟩ := hc
  rw [and_mask]; unfold slot; rw [Nat.add_zero]

theorem slot_succ {cap : Nat} (hc : ∃ e, cap = 2 ^ e) (k d : Nat) :
    (slot cap k d + 1) &&& (cap - 1) = slot cap k (d + 1) := by
  obtain ⟨e, rfl⟩ := hc
  rw [and_mask]; unfold slot
  rw [Nat.add_mod, Nat.mod_mod, ← Nat.add_mod, Nat.add_assoc]

theorem slot_lt {cap : Nat} (hc : 0 < cap) (k d : Nat) : slot cap k d < cap := Nat.mod_lt _ hc

/-- Every slot is probed within `cap` steps. -/
theorem slot_surj {cap : Nat} (hc : 0 < cap) (k i : Nat) (hi : i < cap) : ∃ d, d < cap ∧ slot cap k d = i := by
  refine ⟨(i + (cap - mix k % cap)) % cap, Nat.mod_lt _ hc, ?_⟩
  unfold slot
  rw [Nat.add_mod, Nat.mod_mod, ← Nat.add_mod]
  have h1 := Nat.mod_lt (mix k) hc
  have h2 := Nat.div_add_mod (mix k) cap
  rw [show mix k + (i + (cap - mix k % cap)) = i + cap * (mix k / cap + 1) by rw [Nat.mul_add]; omega]
  rw [Nat.add_mul_mod_self_left, Nat.mod_eq_of_lt hi]

/-- Number of non-empty slots among the first `n`. -/
def occ (keys : Nat → Nat) (n : Nat) : Nat := (List.range n).countP fun i => keys i ≠ kEmpty

theorem occ_succ (keys : Nat → Nat) (n : Nat) :
    occ keys (n + 1) = occ keys n + (if keys n ≠ kEmpty then 1 else 0) := by
  unfold occ
  rw [List.range_succ, List.countP_append, List.countP_singleton]
  simp

theorem occ_le (keys : Nat → Nat) (n : Nat) : occ keys n ≤ n := by
  induction n with
  | zero => simp [occ]
  | succ n ih => rw [occ_succ]; split <;> omega

theorem exists_empty (keys : Nat → Nat) (n : Nat) (h : occ keys n < n) : ∃ i, i < n ∧ keys i = kEmpty := by
  induction n with
  | zero => omega
  | succ n ih =>
    rw [occ_succ] at h
    by_cases hk : keys n = kEmpty
    · exact ⟨n, by omega, hk⟩
    · rw [if_pos hk] at h
      obtain ⟨i, hi, he⟩ := ih (by omega)
      exact ⟨i, by omega, he⟩

theorem occ_upd_full (keys : Nat → Nat) (n i x : Nat) (hx : x ≠ kEmpty) (hi : keys i ≠ kEmpty) :
    occ (upd keys i x) n = occ keys n := by
  induction n with
  | zero => simp [occ]
  | succ n ih =>
    rw [occ_succ, occ_succ, ih]
    congr 1
    unfold upd
    by_cases h : n = i
    · subst h; simp [hx, hi]
    · simp [h]

theorem occ_upd_empty (keys : Nat → Nat) (n i x : Nat) (hx : x ≠ kEmpty) (hi : keys i = kEmpty) :
    occ (upd keys i x) n = occ keys n + (if i < n then 1 else 0) := by
  induction n with
  | zero => simp [occ]
  | succ n ih =>
    rw [occ_succ, occ_succ, ih]
    unfold upd
    by_cases h : n = i
    · subst h; simp [hx, hi]
    · by_cases h2 : i < n
      · simp [h, h2, show i < n + 1 by omega]; omega
      · simp [h, h2, show ¬ i < n + 1 by omega]

theorem occ_const (n : Nat) : occ (fun _ => kEmpty) n = 0 := by
  induction n with
  | zero => simp [occ]
  | succ n ih => rw [occ_succ, ih]; simp

/-- The table without the load factor: stored keys can be found by probing, none is stored twice. -/
structure Core (c : Cache V) : Prop where
  pow : ∃ e, c.cap = 2 ^ e
  cap4 : 4 ≤ c.cap
  used : c.used = occ c.keys c.cap
  cls : ∀ i, i < c.cap → Valid (c.keys i) ∨ c.keys i = kEmpty ∨ c.keys i = kTombstone
  path : ∀ i, i < c.cap → Valid (c.keys i) →
    ∃ d, d < c.cap ∧ slot c.cap (c.keys i) d = i ∧ ∀ e, e < d → c.keys (slot c.cap (c.keys i) e) ≠ kEmpty
  uniq : ∀ i j, i < c.cap → j < c.cap → Valid (c.keys i) → c.keys i = c.keys j → i = j

/-- The abstract content. -/
def Repr (c : Cache V) (m : Nat → Option (Option V)) : Prop :=
  ∀ k v, Valid k → (m k = some v ↔ ∃ i, i < c.cap ∧ c.keys i = k ∧ c.vals i = v)

structure Inv (c : Cache V) (m : Nat → Option (Option V)) : Prop where
  init : ∃ e, c.initCap = 2 ^ e
  init4 : 4 ≤ c.initCap
  ok : c.cap = 0 ∨ (Core c ∧ c.used * 4 ≤ c.cap * 3)
  repr : Repr c m

theorem Core.lt_cap {c : Cache V} (h : Core c) : 0 < c.cap := by have := h.cap4; omega

/-- Distance to the first empty slot on the probe path of `k`. -/
theorem first_empty {c : Cache V} (h : Core c) (hu : c.used < c.cap) (k : Nat) :
    ∃ d, d < c.cap ∧ c.keys (slot c.cap k d) = kEmpty ∧ ∀ e, e < d → c.keys (slot c.cap k e) ≠ kEmpty := by
  obtain ⟨i, hi, he⟩ := exists_empty c.keys c.cap (by rw [← h.used]; exact hu)
  obtain ⟨d, hd, hs⟩ := slot_surj h.lt_cap k i hi
  have hex : ∃ d, c.keys (slot c.cap k d) = kEmpty := ⟨d, by rw [hs]; exact he⟩
  classical
  refine ⟨Nat.find hex, ?_, Nat.find_spec hex, fun e he => Nat.find_min hex he⟩
  exact Nat.lt_of_le_of_lt (Nat.find_min' hex (by rw [hs]; exact he)) hd

/-- Either `k` is stored, at some probe distance with no empty slot before, or an empty slot is reached first. -/
theorem lookup_cases {c : Cache V} (h : Core c) (hu : c.used < c.cap) (k : Nat) (hk : Valid k) :
    (∃ d, d < c.cap ∧ c.keys (slot c.cap k d) = k ∧
      ∀ e, e < d → c.keys (slot c.cap k e) ≠ kEmpty ∧ c.keys (slot c.cap k e) ≠ k) ∨
    (∃ d, d < c.cap ∧ c.keys (slot c.cap k d) = kEmpty ∧
      (∀ e, e < d → c.keys (slot c.cap k e) ≠ kEmpty) ∧ ∀ i, i < c.cap → c.keys i ≠ k) := by
  by_cases hex : ∃ i, i < c.cap ∧ c.keys i = k
  · left
    obtain ⟨i, hi, he⟩ := hex
    obtain ⟨d, hd, hs, hp⟩ := h.path i hi (by rw [he]; exact hk)
    rw [he] at hs hp
    -- take the least distance at which `k` is met
    have hex2 : ∃ d, c.keys (slot c.cap k d) = k := ⟨d, by rw [hs]; exact he⟩
    classical
    have hle : Nat.find hex2 ≤ d := Nat.find_min' hex2 (by rw [hs]; exact he)
    refine ⟨Nat.find hex2, by omega, Nat.find_spec hex2, fun e hlt => ⟨hp e (by omega), Nat.find_min hex2 hlt⟩⟩
  · right
    obtain ⟨d, hd, he, hp⟩ := first_empty h hu k
    exact ⟨d, hd, he, hp, fun i hi heq => hex ⟨i, hi, heq⟩⟩

theorem findLoop_hit {c : Cache V} (hc : ∃ e, c.cap = 2 ^ e) (k d : Nat)
    (hd : c.keys (slot c.cap k d) = k)
    (hp : ∀ e, e < d → c.keys (slot c.cap k e) ≠ kEmpty ∧ c.keys (slot c.cap k e) ≠ k) :
    ∀ f j, j ≤ d → d < f + j → findLoop c k f (slot c.cap k j) = .ok (some (c.vals (slot c.cap k d))) := by
  intro f
  induction f with
  | zero => intro j h1 h2; omega
  | succ f ih =>
    intro j h1 h2
    unfold findLoop
    rcases Nat.lt_or_eq_of_le h1 with hj | hj
    · obtain ⟨ha, hb⟩ := hp j hj
      rw [if_neg hb, if_neg ha, slot_succ hc]
      exact ih (j + 1) (by omega) (by omega)
    · subst hj; rw [if_pos hd]

theorem findLoop_miss {c : Cache V} (hc : ∃ e, c.cap = 2 ^ e) (k d : Nat) (hk : Valid k)
    (hd : c.keys (slot c.cap k d) = kEmpty) (hlt : 0 < c.cap)
    (hp : ∀ e, e < d → c.keys (slot c.cap k e) ≠ kEmpty) (hn : ∀ i, i < c.cap → c.keys i ≠ k) :
    ∀ f j, j ≤ d → d < f + j → findLoop c k f (slot c.cap k j) = .ok none := by
  intro f
  induction f with
  | zero => intro j h1 h2; omega
  | succ f ih =>
    intro j h1 h2
    unfold findLoop
    rw [if_neg (hn _ (slot_lt hlt k j))]
    rcases Nat.lt_or_eq_of_le h1 with hj | hj
    · rw [if_neg (hp j hj), slot_succ hc]
      exact ih (j + 1) (by omega) (by omega)
    · subst hj; rw [if_pos hd]

theorem Inv.find {c : Cache V} {m} (h : Inv c m) (k : Nat) (hk : Valid k) : c.find k = .ok (m k) := by
  unfold Cache.find
  rcases h.ok with h0 | ⟨hc, hu⟩
  · rw [if_pos h0]
    congr 1
    rcases hm : m k with _ | v
    · rfl
    · obtain ⟨i, hi, -⟩ := (h.repr k v hk).mp hm
      omega
  · have hlt := hc.lt_cap
    rw [if_neg (by omega), slot_zero hc.pow]
    rcases lookup_cases hc (by omega) k hk with ⟨d, hd, he, hp⟩ | ⟨d, hd, he, hp, hn⟩
    · rw [findLoop_hit hc.pow k d he hp c.cap 0 (by omega) (by omega)]
      congr 1
      exact ((h.repr k _ hk).mpr ⟨_, slot_lt hlt k d, he, rfl⟩).symm
    · rw [findLoop_miss hc.pow k d hk he hlt hp hn c.cap 0 (by omega) (by omega)]
      congr 1
      rcases hm : m k with _ | v
      · rfl
      · obtain ⟨i, hi, hki, -⟩ := (h.repr k v hk).mp hm
        exact absurd hki (hn i hi)

/-! ## Writing into a slot -/

/-- Storing a new key in an empty or tombstone slot on its probe path keeps the table well formed. -/
theorem Core.put {c : Cache V} (h : Core c) (k d : Nat) (v : Option V) (u : Nat) (hk : Valid k) (hd : d < c.cap)
    (hfree : ¬ Valid (c.keys (slot c.cap k d)))
    (hp : ∀ e, e < d → c.keys (slot c.cap k e) ≠ kEmpty) (hn : ∀ i, i < c.cap → c.keys i ≠ k)
    (hu : u = c.used + if c.keys (slot c.cap k d) = kEmpty then 1 else 0) :
    Core { c with keys := upd c.keys (slot c.cap k d) k, vals := upd c.vals (slot c.cap k d) v, used := u } := by
  have hlt := h.lt_cap
  have hsl := slot_lt hlt k d
  refine ⟨h.pow, h.cap4, ?_, ?_, ?_, ?_⟩
  · show u = occ (upd c.keys (slot c.cap k d) k) c.cap
    rw [hu]
    by_cases he : c.keys (slot c.cap k d) = kEmpty
    · rw [occ_upd_empty _ _ _ _ hk.ne_empty he, if_pos he, if_pos hsl, h.used]
    · rw [occ_upd_full _ _ _ _ hk.ne_empty he, if_neg he, h.used]; omega
  · intro i hi
    simp only [upd]
    split
    · exact Or.inl hk
    · exact h.cls i hi
  · intro i hi hv
    simp only [upd] at hv ⊢
    by_cases he : i = slot c.cap k d
    · simp only [if_pos he]
      refine ⟨d, hd, he.symm, ?_⟩
      intro e hlt'
      split
      · exact hk.ne_empty
      · exact hp e hlt'
    · simp only [if_neg he] at hv ⊢
      obtain ⟨d', hd', hs', hp'⟩ := h.path i hi hv
      refine ⟨d', hd', hs', ?_⟩
      intro e hlt'
      split
      · exact hk.ne_empty
      · exact hp' e hlt'
  · intro i j hi hj hv heq
    simp only [upd] at hv heq
    by_cases h1 : i = slot c.cap k d <;> by_cases h2 : j = slot c.cap k d
    · rw [h1, h2]
    · rw [if_pos h1, if_neg h2] at heq; exact absurd heq.symm (hn j hj)
    · rw [if_neg h1, if_pos h2] at heq; exact absurd heq (hn i hi)
    · rw [if_neg h1] at hv heq; rw [if_neg h2] at heq; exact h.uniq i j hi hj hv heq

/-- Function update on the abstract map. -/
def mset (m : Nat → Option (Option V)) (k : Nat) (v : Option (Option V)) : Nat → Option (Option V) :=
  fun j => if j = k then v else m j

theorem Repr.put {c : Cache V} {m} (h : Repr c m) (i0 k : Nat) (v : Option V) (u : Nat)
    (hi0 : i0 < c.cap) (hfree : ¬ Valid (c.keys i0) ∨ c.keys i0 = k)
    (hn : ∀ i, i < c.cap → i ≠ i0 → c.keys i ≠ k) :
    Repr { c with keys := upd c.keys i0 k, vals := upd c.vals i0 v, used := u } (mset m k (some v)) := by
  intro k' v' hk'
  unfold mset upd
  simp only
  by_cases hkk : k' = k
  · subst hkk
    rw [if_pos rfl]
    constructor
    · intro he; cases he
      exact ⟨i0, hi0, by simp, by simp⟩
    · rintro ⟨i, hi, h1, h2⟩
      by_cases he : i = i0
      · rw [if_pos he] at h2; rw [h2]
      · rw [if_neg he] at h1; exact absurd h1 (hn i hi he)
  · rw [if_neg hkk, h k' v' hk']
    constructor
    · rintro ⟨i, hi, h1, h2⟩
      have hne : i ≠ i0 := by
        intro he; subst he
        rcases hfree with hf | hf
        · exact hf (h1 ▸ hk')
        · exact hkk (h1.symm.trans hf)
      exact ⟨i, hi, by rw [if_neg hne]; exact h1, by rw [if_neg hne]; exact h2⟩
    · rintro ⟨i, hi, h1, h2⟩
      have hne : i ≠ i0 := by
        intro he; rw [if_pos he] at h1; exact hkk h1.symm
      rw [if_neg hne] at h1 h2
      exact ⟨i, hi, h1, h2⟩

/-! ## Growing -/

theorem growProbe_ok {c : Cache V} (hc : ∃ e, c.cap = 2 ^ e) (k d : Nat)
    (hd : c.keys (slot c.cap k d) = kEmpty) (hp : ∀ e, e < d → c.keys (slot c.cap k e) ≠ kEmpty) :
    ∀ f j, j ≤ d → d < f + j → growProbe c f (slot c.cap k j) = .ok (slot c.cap k d) := by
  intro f
  induction f with
  | zero => intro j h1 h2; omega
  | succ f ih =>
    intro j h1 h2
    unfold growProbe
    rcases Nat.lt_or_eq_of_le h1 with hj | hj
    · rw [if_pos (hp j hj), slot_succ hc]
      exact ih (j + 1) (by omega) (by omega)
    · subst hj; rw [if_neg (by rw [hd]; exact fun h => h rfl)]

/-- Rehashing: after processing old slots `0..j`, the new table holds exactly the live entries among them. -/
theorem growLoop_ok (okeys : Nat → Nat) (ovals : Nat → Option V) (ocap : Nat)
    (hou : ∀ i j, i < ocap → j < ocap → Valid (okeys i) → okeys i = okeys j → i = j)
    (hov : ∀ i, i < ocap → Valid (okeys i) ∨ okeys i = kEmpty ∨ okeys i = kTombstone) :
    ∀ n j (c : Cache V), n + j = ocap → Core c → occ okeys ocap < c.cap →
      c.used ≤ occ okeys j →
      (∀ k v, Valid k → ((∃ i, i < c.cap ∧ c.keys i = k ∧ c.vals i = v) ↔ ∃ i, i < j ∧ okeys i = k ∧ ovals i = v)) →
      ∃ c', growLoop okeys ovals n j c = .ok c' ∧ Core c' ∧ c'.cap = c.cap ∧ c'.initCap = c.initCap ∧
        c'.used ≤ occ okeys ocap ∧
        (∀ k v, Valid k → ((∃ i, i < c'.cap ∧ c'.keys i = k ∧ c'.vals i = v) ↔
          ∃ i, i < ocap ∧ okeys i = k ∧ ovals i = v)) := by
  intro n
  induction n with
  | zero =>
    intro j c hj hc _ hu hr
    have : j = ocap := by omega
    subst this
    exact ⟨c, rfl, hc, rfl, rfl, hu, hr⟩
  | succ n ih =>
    intro j c hj hc hlt hu hr
    have hjlt : j < ocap := by omega
    have hmono : occ okeys (j + 1) ≤ occ okeys ocap := by
      have : ∀ a b, a ≤ b → occ okeys a ≤ occ okeys b := by
        intro a b hab
        induction hab with
        | refl => exact Nat.le_refl _
        | step _ ih => rw [occ_succ]; omega
      exact this _ _ hjlt
    unfold growLoop
    by_cases hdead : okeys j = kEmpty ∨ okeys j = kTombstone
    · rw [if_pos hdead]
      refine ih (j + 1) c (by omega) hc hlt (by rw [occ_succ]; omega) ?_
      intro k v hk
      rw [hr k v hk]
      constructor
      · rintro ⟨i, hi, h⟩; exact ⟨i, by omega, h⟩
      · rintro ⟨i, hi, h1, h2⟩
        have : i ≠ j := by
          intro he; subst he
          rcases hdead with hd | hd
          · exact hk.ne_empty (h1.symm.trans hd)
          · exact hk.ne_tomb (h1.symm.trans hd)
        exact ⟨i, by omega, h1, h2⟩
    · rw [if_neg hdead]
      have hv : Valid (okeys j) := by
        rcases hov j hjlt with h | h
        · exact h
        · exact absurd h hdead
      have hocc : occ okeys (j + 1) = occ okeys j + 1 := by
        rw [occ_succ, if_pos hv.ne_empty]
      obtain ⟨d, hd, hde, hdp⟩ := first_empty hc (by omega) (okeys j)
      rw [slot_zero hc.pow, growProbe_ok hc.pow _ d hde hdp c.cap 0 (by omega) (by omega)]
      simp only [Out.ok_bind]
      have hnew : ∀ i, i < c.cap → c.keys i ≠ okeys j := by
        intro i hi he
        obtain ⟨i', hi', h1, -⟩ := (hr (okeys j) (c.vals i) hv).mp ⟨i, hi, he, rfl⟩
        have := hou i' j (by omega) hjlt (by rw [h1]; exact hv) h1
        omega
      have hsl := slot_lt hc.lt_cap (okeys j) d
      have hfree : ¬ Valid (c.keys (slot c.cap (okeys j) d)) := by
        rw [hde]; intro h; exact h.ne_empty rfl
      have hput := hc.put (okeys j) d (ovals j) (c.used + 1) hv hd hfree hdp hnew (by rw [if_pos hde])
      obtain ⟨c', e1, e2, e3, e4, e5, e6⟩ := ih (j + 1) _ (by omega) hput hlt (by rw [hocc]; simpa using hu)
        (by
          intro k v hk
          have hrepr : Repr c (fun k => open Classical in
              if h : ∃ i, i < c.cap ∧ c.keys i = k then some (c.vals h.choose) else none) := by
            intro k v hk
            simp only
            constructor
            · intro h
              split at h
              · rename_i hex
                cases h
                exact ⟨_, hex.choose_spec.1, hex.choose_spec.2, rfl⟩
              · cases h
            · rintro ⟨i, hi, h1, h2⟩
              have hex : ∃ i, i < c.cap ∧ c.keys i = k := ⟨i, hi, h1⟩
              rw [dif_pos hex]
              have := hc.uniq i hex.choose hi hex.choose_spec.1 (by rw [h1]; exact hk)
                (h1.trans hex.choose_spec.2.symm)
              rw [← this, h2]
          have hput2 := hrepr.put (slot c.cap (okeys j) d) (okeys j) (ovals j) (c.used + 1) hsl (Or.inl hfree)
            (fun i hi _ => hnew i hi)
          rw [← hput2 k v hk]
          unfold mset
          by_cases hkj : k = okeys j
          · subst hkj
            rw [if_pos rfl]
            constructor
            · intro h; cases h; exact ⟨j, by omega, rfl, rfl⟩
            · rintro ⟨i, hi, h1, h2⟩
              have := hou i j (by omega) hjlt (by rw [h1]; exact hv) h1
              subst this; rw [h2]
          · rw [if_neg hkj, hrepr k v hk, hr k v hk]
            constructor
            · rintro ⟨i, hi, h⟩; exact ⟨i, by omega, h⟩
            · rintro ⟨i, hi, h1, h2⟩
              have : i ≠ j := by intro he; subst he; exact hkj h1.symm
              exact ⟨i, by omega, h1, h2⟩)
      exact ⟨c', e1, e2, e3, e4, e5, e6⟩

theorem pow_pos_of {n : Nat} (h : ∃ e, n = 2 ^ e) : 0 < n := by
  obtain ⟨e, rfl⟩ := h; exact Nat.two_pow_pos e

theorem Core.fresh (c : Cache V) (cap : Nat) (hp : ∃ e, cap = 2 ^ e) (h4 : 4 ≤ cap) :
    Core ({ c with cap := cap, keys := fun _ => kEmpty, vals := fun _ => none, used := 0 } : Cache V) := by
  refine ⟨hp, h4, (occ_const cap).symm, fun _ _ => Or.inr (Or.inl rfl), ?_, ?_⟩
  · intro i hi hv; exact absurd rfl hv.ne_empty
  · intro i j hi hj hv; exact absurd rfl hv.ne_empty

theorem Inv.grow {c : Cache V} {m} (h : Inv c m) :
    ∃ c', c.grow = .ok c' ∧ Core c' ∧ (c'.used + 1) * 4 ≤ c'.cap * 3 ∧ Repr c' m ∧ c'.initCap = c.initCap ∧
      c'.used ≤ c.used ∧ c'.cap = if c.cap = 0 then c.initCap else c.cap * 2 := by
  unfold Cache.grow
  rcases h.ok with h0 | ⟨hc, hu⟩
  · simp only [h0, if_true]
    unfold growLoop
    refine ⟨_, rfl, Core.fresh c c.initCap h.init h.init4, ?_, ?_, rfl, Nat.zero_le _, rfl⟩
    · have := h.init4; simp only; omega
    · intro k v hk
      rw [h.repr k v hk]
      constructor
      · rintro ⟨i, hi, -⟩; omega
      · rintro ⟨i, hi, h1, -⟩; exact absurd h1.symm hk.ne_empty
  · have hlt := hc.lt_cap
    have h4 := hc.cap4
    simp only [if_neg (show ¬ c.cap = 0 by omega)]
    have hpow2 : ∃ e, c.cap * 2 = 2 ^ e := by
      obtain ⟨e, he⟩ := hc.pow; exact ⟨e + 1, by rw [he, Nat.pow_succ]⟩
    have hu' := hc.used
    obtain ⟨c', e1, e2, e3, e4, e5, e6⟩ := growLoop_ok c.keys c.vals c.cap hc.uniq hc.cls c.cap 0
      { c with cap := c.cap * 2, keys := fun _ => kEmpty, vals := fun _ => none, used := 0 } (by omega)
      (Core.fresh c (c.cap * 2) hpow2 (by omega)) (by simp only; have := occ_le c.keys c.cap; omega) (by simp [occ])
      (by
        intro k v hk
        constructor
        · rintro ⟨i, hi, h1, -⟩; exact absurd h1.symm hk.ne_empty
        · rintro ⟨i, hi, -⟩; omega)
    refine ⟨c', e1, e2, ?_, ?_, e4, by rw [hu']; exact e5, e3⟩
    · simp only at e3; omega
    · intro k v hk
      rw [h.repr k v hk, e6 k v hk]

/-! ## Inserting -/

theorem insLoop_hit {c : Cache V} (hc : ∃ e, c.cap = 2 ^ e) (k d : Nat)
    (hd : c.keys (slot c.cap k d) = k)
    (hp : ∀ e, e < d → c.keys (slot c.cap k e) ≠ kEmpty ∧ c.keys (slot c.cap k e) ≠ k) :
    ∀ f j ip, j ≤ d → d < f + j → insLoop c k f (slot c.cap k j) ip = .ok (slot c.cap k d, c.used) := by
  intro f
  induction f with
  | zero => intro j ip h1 h2; omega
  | succ f ih =>
    intro j ip h1 h2
    unfold insLoop
    rcases Nat.lt_or_eq_of_le h1 with hj | hj
    · obtain ⟨ha, hb⟩ := hp j hj
      rw [if_neg hb, slot_succ hc]
      by_cases ht : c.keys (slot c.cap k j) = kTombstone
      · rw [if_pos ht]; exact ih (j + 1) _ (by omega) (by omega)
      · rw [if_neg ht, if_neg ha]; exact ih (j + 1) _ (by omega) (by omega)
    · subst hj; rw [if_pos hd]

/-- On a miss the slot chosen is a tombstone or the empty slot, at or before the first empty slot. -/
theorem insLoop_miss {c : Cache V} (hc : ∃ e, c.cap = 2 ^ e) (hcap : c.cap ≤ kEmpty) (k d : Nat)
    (hlt : 0 < c.cap) (hd : c.keys (slot c.cap k d) = kEmpty)
    (hp : ∀ e, e < d → c.keys (slot c.cap k e) ≠ kEmpty) (hn : ∀ i, i < c.cap → c.keys i ≠ k) :
    ∀ f j ip, j ≤ d → d < f + j →
      (ip = kEmpty ∨ ∃ e, e < j ∧ ip = slot c.cap k e ∧ c.keys ip = kTombstone) →
      ∃ e, e ≤ d ∧ (c.keys (slot c.cap k e) = kTombstone ∨ c.keys (slot c.cap k e) = kEmpty) ∧
        insLoop c k f (slot c.cap k j) ip =
          .ok (slot c.cap k e, if c.keys (slot c.cap k e) = kEmpty then c.used + 1 else c.used) := by
  intro f
  induction f with
  | zero => intro j ip h1 h2; omega
  | succ f ih =>
    intro j ip h1 h2 hip
    have hne : ∀ e, slot c.cap k e ≠ kEmpty := by
      intro e; have := slot_lt hlt k e; omega
    unfold insLoop
    rw [if_neg (hn _ (slot_lt hlt k j)), slot_succ hc]
    rcases Nat.lt_or_eq_of_le h1 with hj | hj
    · by_cases ht : c.keys (slot c.cap k j) = kTombstone
      · rw [if_pos ht]
        refine ih (j + 1) _ (by omega) (by omega) (Or.inr ?_)
        rcases hip with hip | ⟨e, he, h3, h4⟩
        · rw [if_pos hip]; exact ⟨j, by omega, rfl, ht⟩
        · rw [if_neg (by rw [h3]; exact hne e)]; exact ⟨e, by omega, h3, h4⟩
      · rw [if_neg ht, if_neg (hp j hj)]
        refine ih (j + 1) _ (by omega) (by omega) ?_
        rcases hip with hip | ⟨e, he, h3⟩
        · exact Or.inl hip
        · exact Or.inr ⟨e, by omega, h3⟩
    · subst hj
      have hte : kEmpty ≠ kTombstone := kEmpty_ne_kTombstone
      rw [if_neg (by rw [hd]; exact hte), if_pos hd]
      rcases hip with hip | ⟨e, he, h3, h4⟩
      · refine ⟨j, Nat.le_refl _, Or.inr hd, ?_⟩
        simp only [if_pos hip]
      · refine ⟨e, by omega, Or.inl (h3 ▸ h4), ?_⟩
        subst h3
        simp only [if_neg (hne e)]

theorem Core.assign {c : Cache V} (h : Core c) (k i0 : Nat) (v : Option V) (hk : c.keys i0 = k) :
    Core { c with keys := upd c.keys i0 k, vals := upd c.vals i0 v } := by
  have : upd c.keys i0 k = c.keys := by
    funext j; unfold upd; split
    · rename_i he; rw [he, hk]
    · rfl
  rw [this]
  exact ⟨h.pow, h.cap4, h.used, h.cls, h.path, h.uniq⟩

/-- Capacity never gets near 2^64 (it is bounded by memory in the program). -/
def Small (c : Cache V) : Prop := c.cap * 2 ≤ kEmpty ∧ c.initCap ≤ kEmpty

theorem Inv.insert {c : Cache V} {m} (h : Inv c m) (hs : Small c) (k : Nat) (hk : Valid k) (v : Option V) :
    ∃ c', c.insertOrAssign k v = .ok c' ∧ Inv c' (mset m k (some v)) ∧ c'.used ≤ c.used + 1 ∧
      c'.initCap = c.initCap ∧ (c'.cap ≤ c.cap ∨ c'.cap ≤ c.initCap ∨ c'.cap * 3 ≤ 8 * (c.used + 1)) := by
  unfold Cache.insertOrAssign
  have hstep : ∃ c1, (if c.cap = 0 ∨ (c.used + 1) * 4 > c.cap * 3 then c.grow else .ok c) = .ok c1 ∧
      Core c1 ∧ (c1.used + 1) * 4 ≤ c1.cap * 3 ∧ Repr c1 m ∧ c1.initCap = c.initCap ∧ c1.cap ≤ kEmpty ∧ c1.used ≤ c.used ∧
      (c1.cap ≤ c.cap ∨ c1.cap ≤ c.initCap ∨ c1.cap * 3 ≤ 8 * (c.used + 1)) := by
    by_cases hg : c.cap = 0 ∨ (c.used + 1) * 4 > c.cap * 3
    · rw [if_pos hg]
      obtain ⟨c', e1, e2, e3, e4, e5, e6, hcap⟩ := h.grow
      refine ⟨c', e1, e2, e3, e4, e5, ?_, e6, ?_⟩
      · rw [hcap]; have := hs.1; have := hs.2; split <;> omega
      · rw [hcap]; split <;> omega
    · rw [if_neg hg]
      rcases h.ok with h0 | ⟨hc, hu⟩
      · exact absurd (Or.inl h0) hg
      · exact ⟨c, rfl, hc, by omega, h.repr, rfl, by have := hs.1; omega, Nat.le_refl _, Or.inl (Nat.le_refl _)⟩
  obtain ⟨c1, e1, hc, hu, hr, hi, hcap, hule, hgrow⟩ := hstep
  rw [e1]
  simp only [Out.ok_bind]
  have hlt := hc.lt_cap
  rw [slot_zero hc.pow]
  rcases lookup_cases hc (by omega) k hk with ⟨d, hd, he, hp⟩ | ⟨d, hd, he, hp, hn⟩
  · rw [insLoop_hit hc.pow k d he hp c1.cap 0 kEmpty (by omega) (by omega)]
    refine ⟨_, rfl, ⟨?_, ?_, Or.inr ⟨?_, by simp only; omega⟩, ?_⟩, by simp only; omega, hi, hgrow⟩
    · simp only [hi]; exact h.init
    · simp only [hi]; exact h.init4
    · exact hc.assign k _ v he
    · refine hr.put _ k v _ (slot_lt hlt k d) (Or.inr he) ?_
      intro i hi' hne heq
      exact hne (hc.uniq i _ hi' (slot_lt hlt k d) (by rw [heq]; exact hk) (heq.trans he.symm))
  · obtain ⟨e, hed, hcls, hres⟩ := insLoop_miss hc.pow hcap k d hlt he hp hn c1.cap 0 kEmpty (by omega) (by omega)
      (Or.inl rfl)
    rw [hres]
    have hfree : ¬ Valid (c1.keys (slot c1.cap k e)) := by
      intro hv
      rcases hcls with hc' | hc' <;> rw [hc'] at hv
      · exact hv.ne_tomb rfl
      · exact hv.ne_empty rfl
    refine ⟨_, rfl, ⟨?_, ?_, Or.inr ⟨?_, ?_⟩, ?_⟩, by simp only; split <;> omega, hi, hgrow⟩
    · simp only [hi]; exact h.init
    · simp only [hi]; exact h.init4
    · exact hc.put k e v _ hk (by omega) hfree (fun e' he' => hp e' (by omega)) hn (by split <;> rfl)
    · simp only; split <;> omega
    · exact hr.put _ k v _ (slot_lt hlt k e) (Or.inl hfree) (fun i hi' _ => hn i hi')

/-! ## Erasing -/

theorem eraseLoop_hit {c : Cache V} (hc : ∃ e, c.cap = 2 ^ e) (k d : Nat)
    (hd : c.keys (slot c.cap k d) = k)
    (hp : ∀ e, e < d → c.keys (slot c.cap k e) ≠ kEmpty ∧ c.keys (slot c.cap k e) ≠ k) :
    ∀ f j, j ≤ d → d < f + j → eraseLoop c k f (slot c.cap k j) =
      .ok { c with keys := upd c.keys (slot c.cap k d) kTombstone, vals := upd c.vals (slot c.cap k d) none } := by
  intro f
  induction f with
  | zero => intro j h1 h2; omega
  | succ f ih =>
    intro j h1 h2
    unfold eraseLoop
    rcases Nat.lt_or_eq_of_le h1 with hj | hj
    · obtain ⟨ha, hb⟩ := hp j hj
      rw [if_neg hb, if_neg ha, slot_succ hc]
      exact ih (j + 1) (by omega) (by omega)
    · subst hj; rw [if_pos hd]

theorem eraseLoop_miss {c : Cache V} (hc : ∃ e, c.cap = 2 ^ e) (k d : Nat)
    (hd : c.keys (slot c.cap k d) = kEmpty) (hlt : 0 < c.cap)
    (hp : ∀ e, e < d → c.keys (slot c.cap k e) ≠ kEmpty) (hn : ∀ i, i < c.cap → c.keys i ≠ k) :
    ∀ f j, j ≤ d → d < f + j → eraseLoop c k f (slot c.cap k j) = .ok c := by
  intro f
  induction f with
  | zero => intro j h1 h2; omega
  | succ f ih =>
    intro j h1 h2
    unfold eraseLoop
    rw [if_neg (hn _ (slot_lt hlt k j))]
    rcases Nat.lt_or_eq_of_le h1 with hj | hj
    · rw [if_neg (hp j hj), slot_succ hc]
      exact ih (j + 1) (by omega) (by omega)
    · subst hj; rw [if_pos hd]

theorem Core.kill {c : Cache V} (h : Core c) (i0 : Nat) (hv : Valid (c.keys i0)) :
    Core { c with keys := upd c.keys i0 kTombstone, vals := upd c.vals i0 none } := by
  have hte : kTombstone ≠ kEmpty := kEmpty_ne_kTombstone.symm
  have hnv : ¬ Valid kTombstone := fun h => h.ne_tomb rfl
  refine ⟨h.pow, h.cap4, ?_, ?_, ?_, ?_⟩
  · show c.used = occ (upd c.keys i0 kTombstone) c.cap
    rw [occ_upd_full _ _ _ _ hte hv.ne_empty, h.used]
  · intro i hi
    simp only [upd]
    split
    · exact Or.inr (Or.inr rfl)
    · exact h.cls i hi
  · intro i hi hvi
    simp only [upd] at hvi ⊢
    by_cases he : i = i0
    · rw [if_pos he] at hvi; exact absurd hvi hnv
    · simp only [if_neg he] at hvi ⊢
      obtain ⟨d', hd', hs', hp'⟩ := h.path i hi hvi
      refine ⟨d', hd', hs', ?_⟩
      intro e hlt'
      split
      · exact hte
      · exact hp' e hlt'
  · intro i j hi hj hvi heq
    simp only [upd] at hvi heq
    by_cases h1 : i = i0
    · rw [if_pos h1] at hvi; exact absurd hvi hnv
    · rw [if_neg h1] at hvi heq
      by_cases h2 : j = i0
      · rw [if_pos h2] at heq; rw [heq] at hvi; exact absurd hvi hnv
      · rw [if_neg h2] at heq; exact h.uniq i j hi hj hvi heq

theorem Inv.erase {c : Cache V} {m} (h : Inv c m) (k : Nat) (hk : Valid k) :
    ∃ c', c.erase k = .ok c' ∧ Inv c' (mset m k none) ∧ c'.cap = c.cap ∧ c'.initCap = c.initCap ∧ c'.used = c.used := by
  unfold Cache.erase
  rcases h.ok with h0 | ⟨hc, hu⟩
  · rw [if_pos h0]
    refine ⟨c, rfl, ⟨h.init, h.init4, Or.inl h0, ?_⟩, rfl, rfl, rfl⟩
    intro k' v hk'
    unfold mset
    constructor
    · intro he
      split at he
      · cases he
      · exact (h.repr k' v hk').mp he
    · rintro ⟨i, hi, -⟩; omega
  · have hlt := hc.lt_cap
    rw [if_neg (by omega), slot_zero hc.pow]
    rcases lookup_cases hc (by omega) k hk with ⟨d, hd, he, hp⟩ | ⟨d, hd, he, hp, hn⟩
    · rw [eraseLoop_hit hc.pow k d he hp c.cap 0 (by omega) (by omega)]
      refine ⟨_, rfl, ⟨h.init, h.init4, Or.inr ⟨hc.kill _ (by rw [he]; exact hk), hu⟩, ?_⟩, rfl, rfl, rfl⟩
      intro k' v hk'
      unfold mset upd
      simp only
      by_cases hkk : k' = k
      · subst hkk
        rw [if_pos rfl]
        constructor
        · intro h; cases h
        · rintro ⟨i, hi, h1, h2⟩
          by_cases hi2 : i = slot c.cap k' d
          · rw [if_pos hi2] at h1; exact absurd h1.symm hk.ne_tomb
          · rw [if_neg hi2] at h1
            exact absurd (hc.uniq i _ hi (slot_lt hlt k' d) (by rw [h1]; exact hk) (h1.trans he.symm)) hi2
      · rw [if_neg hkk, h.repr k' v hk']
        constructor
        · rintro ⟨i, hi, h1, h2⟩
          have hne : i ≠ slot c.cap k d := by
            intro hc'; rw [hc', he] at h1; exact hkk h1.symm
          exact ⟨i, hi, by rw [if_neg hne]; exact h1, by rw [if_neg hne]; exact h2⟩
        · rintro ⟨i, hi, h1, h2⟩
          have hne : i ≠ slot c.cap k d := by
            intro hc'; rw [if_pos hc'] at h1; exact hk'.ne_tomb h1.symm
          rw [if_neg hne] at h1 h2
          exact ⟨i, hi, h1, h2⟩
    · rw [eraseLoop_miss hc.pow k d he hlt hp hn c.cap 0 (by omega) (by omega)]
      refine ⟨c, rfl, ⟨h.init, h.init4, Or.inr ⟨hc, hu⟩, ?_⟩, rfl, rfl, rfl⟩
      intro k' v hk'
      unfold mset
      by_cases hkk : k' = k
      · subst hkk
        rw [if_pos rfl]
        constructor
        · intro h; cases h
        · rintro ⟨i, hi, h1, -⟩; exact absurd h1 (hn i hi)
      · rw [if_neg hkk]; exact h.repr k' v hk'

theorem initCapLoop_pow (f c e : Nat) (h : ∃ k, c = 2 ^ k) (h4 : 4 ≤ c) :
    (∃ k, initCapLoop f c e = 2 ^ k) ∧ 4 ≤ initCapLoop f c e := by
  induction f generalizing c with
  | zero => exact ⟨h, h4⟩
  | succ f ih =>
    unfold initCapLoop
    split
    · obtain ⟨k, rfl⟩ := h
      exact ih _ ⟨k + 1, by rw [Nat.pow_succ]⟩ (by omega)
    · exact ⟨h, h4⟩

theorem Inv.new (expected : Nat) : Inv (Cache.new expected : Cache V) (fun _ => none) := by
  obtain ⟨h1, h2⟩ := initCapLoop_pow expected 1024 expected ⟨10, rfl⟩ (by omega)
  refine ⟨h1, h2, Or.inl rfl, ?_⟩
  intro k v _
  constructor
  · intro h; cases h
  · rintro ⟨i, hi, -⟩; exact absurd hi (Nat.not_lt_zero _)

end Verif.Packrat
