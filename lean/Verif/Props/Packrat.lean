import Verif.PackratCacheProofs
/-! # C14: the packrat memo is a map from (rule, position) to results -/
namespace Verif.Props
open Verif.Packrat
variable {V : Type}

/-! ## Specification: a memo is a function of (position, rule) -/

/-- Content of an ideal memo: not stored / stored failure / stored length and value. -/
abbrev Memo (V : Type) := Nat → Nat → Option (Option (Nat × Option V))

/-- The ideal effect of one operation.  A match longer than 2^32 - 1 bytes is simply forgotten. -/
def memoStep (m : Memo V) : Op V → Memo V
  | .begin c r => fun c' r' => if c' = c ∧ r' = r then some none else m c' r'
  | .write c r l v => fun c' r' =>
      if c' = c ∧ r' = r then (if l > 2 ^ 32 - 1 then none else some (some (l, v))) else m c' r'
  | .clear c r => fun c' r' => if c' = c ∧ r' = r then none else m c' r'

def memo (ops : List (Op V)) : Memo V := ops.foldl memoStep (fun _ _ => none)

/-- Operations the parser issues: a position of the input and a memoised rule. -/
def OpOk (count l : Nat) : Op V → Prop
  | .begin c r | .write c r _ _ | .clear c r => c ≤ l ∧ r < count

/-! ## Proof -/

theorem idx_inj {count c r c' r' : Nat} (h : r < count) (h' : r' < count) :
    count * c + r = count * c' + r' ↔ c' = c ∧ r' = r := by
  constructor
  · intro he
    have h1 : (count * c + r) / count = c := by
      rw [Nat.add_comm, Nat.add_mul_div_left _ _ (by omega), Nat.div_eq_of_lt h]; omega
    have h2 : (count * c' + r') / count = c' := by
      rw [Nat.add_comm, Nat.add_mul_div_left _ _ (by omega), Nat.div_eq_of_lt h']; omega
    have hc : c' = c := by rw [← h1, ← h2, he]
    subst hc
    exact ⟨rfl, by omega⟩
  · rintro ⟨rfl, rfl⟩; rfl

theorem idx_lt {count c r l : Nat} (hc : c ≤ l) (hr : r < count) : count * c + r < count * (l + 1) := by
  have := Nat.mul_le_mul_left count hc
  rw [Nat.mul_succ]; omega

/-- The memo tables represent an ideal memo. -/
structure StoreInv (count l n : Nat) (s : Store V) (m : Memo V) : Prop where
  hcount : s.count = count
  hsize : s.size = count * (l + 1)
  hcache : ∃ mv, Inv s.values mv ∧ s.values.used ≤ n ∧ s.values.initCap ≤ 2 ^ 62 ∧
    (s.values.cap ≤ s.values.initCap ∨ s.values.cap ≤ 3 * (n + 1)) ∧
    ∀ c r, c ≤ l → r < count → m c r =
      if s.registered (s.idx c r) then
        (if s.success (s.idx c r) then some (some (s.len (s.idx c r), (mv (s.idx c r)).join)) else some none)
      else none

theorem small_of {n : Nat} (c : Cache V) (hn : n < 2 ^ 60) (hi : c.initCap ≤ 2 ^ 62)
    (h : c.cap ≤ c.initCap ∨ c.cap ≤ 3 * (n + 1)) : Small c := by
  constructor
  · show c.cap * 2 ≤ 2 ^ 64 - 1; omega
  · show c.initCap ≤ 2 ^ 64 - 1; omega

theorem step_ok {count l n : Nat} {s : Store V} {m : Memo V} (h : StoreInv count l n s m)
    (hsz : count * (l + 1) < 2 ^ 64 - 2) (hn : n < 2 ^ 60) (op : Op V) (hop : OpOk count l op) :
    ∃ s', s.run [op] = .ok s' ∧ StoreInv count l (n + 1) s' (memoStep m op) := by
  obtain ⟨hcnt, hsize, mv, hinv, hused, hinit, hcap, habs⟩ := h
  have hval : ∀ c r, c ≤ l → r < count → Valid (count * c + r) := by
    intro c r hc hr
    have := idx_lt hc hr
    show _ < 2 ^ 64 - 2; omega
  have hidx : ∀ c r, s.idx c r = count * c + r := by intro c r; unfold Store.idx; rw [hcnt]
  have hsmall := small_of s.values hn hinit hcap
  cases op with
  | begin c r =>
    obtain ⟨hc, hr⟩ := hop
    have hlt := idx_lt hc hr
    simp only [Store.run, Store.begin, hidx, hsize, if_pos hlt, Out.ok_bind]
    refine ⟨_, rfl, hcnt, by simp [hsize], mv, hinv, by simp only; omega, hinit, by simp only; omega, ?_⟩
    intro c' r' hc' hr'
    simp only [memoStep, Store.idx, hcnt, upd]
    by_cases he : c' = c ∧ r' = r
    · obtain ⟨rfl, rfl⟩ := he; simp
    · have hne : ¬ (count * c' + r' = count * c + r) := by
        rw [eq_comm, idx_inj hr hr']; exact he
      rw [if_neg he, if_neg hne, if_neg hne, habs c' r' hc' hr', hidx]
  | write c r len val =>
    obtain ⟨hc, hr⟩ := hop
    have hlt := idx_lt hc hr
    have hv := hval c r hc hr
    simp only [Store.run, Store.write, hidx, hsize, if_neg (show ¬ count * c + r ≥ count * (l + 1) by omega)]
    by_cases hlen : len > 2 ^ 32 - 1
    · rw [if_pos hlen]
      refine ⟨_, rfl, hcnt, by simp [hsize], mv, hinv, by simp only; omega, hinit, by simp only; omega, ?_⟩
      intro c' r' hc' hr'
      simp only [memoStep, Store.idx, hcnt, upd]
      by_cases he : c' = c ∧ r' = r
      · obtain ⟨rfl, rfl⟩ := he; rw [if_pos ⟨rfl, rfl⟩, if_pos hlen]; simp
      · have hne : ¬ (count * c' + r' = count * c + r) := by
          rw [eq_comm, idx_inj hr hr']; exact he
        rw [if_neg he, if_neg hne, habs c' r' hc' hr', hidx]
    · rw [if_neg hlen]
      cases val with
      | some v =>
        obtain ⟨c1, e1, e2, e3, e4, e5⟩ := hinv.insert hsmall _ hv (some v)
        simp only [e1, Out.ok_bind]
        refine ⟨_, rfl, hcnt, by simp [hsize], _, e2, by simp only; omega, by simp only [e4]; exact hinit,
          by simp only [e4]; omega, ?_⟩
        intro c' r' hc' hr'
        simp only [memoStep, Store.idx, hcnt, upd, mset]
        by_cases he : c' = c ∧ r' = r
        · obtain ⟨rfl, rfl⟩ := he; rw [if_pos ⟨rfl, rfl⟩, if_neg hlen]; simp
        · have hne : ¬ (count * c' + r' = count * c + r) := by
            rw [eq_comm, idx_inj hr hr']; exact he
          simp only [if_neg he, if_neg hne]
          rw [habs c' r' hc' hr', hidx]
      | none =>
        obtain ⟨c1, e1, e2, e3, e4, e5⟩ := hinv.erase _ hv
        simp only [e1, Out.ok_bind]
        refine ⟨_, rfl, hcnt, by simp [hsize], _, e2, by simp only [e5]; omega, by simp only [e4]; exact hinit,
          by simp only [e3, e4]; omega, ?_⟩
        intro c' r' hc' hr'
        simp only [memoStep, Store.idx, hcnt, upd, mset]
        by_cases he : c' = c ∧ r' = r
        · obtain ⟨rfl, rfl⟩ := he; rw [if_pos ⟨rfl, rfl⟩, if_neg hlen]; simp
        · have hne : ¬ (count * c' + r' = count * c + r) := by
            rw [eq_comm, idx_inj hr hr']; exact he
          simp only [if_neg he, if_neg hne]
          rw [habs c' r' hc' hr', hidx]
  | clear c r =>
    obtain ⟨hc, hr⟩ := hop
    have hlt := idx_lt hc hr
    have hv := hval c r hc hr
    obtain ⟨c1, e1, e2, e3, e4, e5⟩ := hinv.erase _ hv
    simp only [Store.run, Store.clear, hidx, hsize, if_pos hlt, e1, Out.ok_bind]
    refine ⟨_, rfl, hcnt, by simp [hsize], _, e2, by simp only [e5]; omega, by simp only [e4]; exact hinit,
      by simp only [e3, e4]; omega, ?_⟩
    intro c' r' hc' hr'
    simp only [memoStep, Store.idx, hcnt, upd, mset]
    by_cases he : c' = c ∧ r' = r
    · obtain ⟨rfl, rfl⟩ := he; simp
    · have hne : ¬ (count * c' + r' = count * c + r) := by
        rw [eq_comm, idx_inj hr hr']; exact he
      simp only [if_neg he, if_neg hne]
      rw [habs c' r' hc' hr', hidx]

theorem run_cons (s : Store V) (op : Op V) (t : List (Op V)) : s.run (op :: t) = (s.run [op]).bind fun s => s.run t := by
  cases op <;> simp only [Store.run]
  · cases s.begin _ _ <;> rfl
  · cases s.write _ _ _ _ <;> rfl
  · cases s.clear _ _ <;> rfl

theorem run_ok {count l : Nat} (hsz : count * (l + 1) < 2 ^ 64 - 2) (ops : List (Op V)) :
    ∀ {n : Nat} {s : Store V} {m : Memo V}, StoreInv count l n s m → n + ops.length < 2 ^ 60 →
      (∀ op ∈ ops, OpOk count l op) →
      ∃ s', s.run ops = .ok s' ∧ StoreInv count l (n + ops.length) s' (ops.foldl memoStep m) := by
  induction ops with
  | nil => intro n s m h _ _; exact ⟨s, rfl, h⟩
  | cons op t ih =>
    intro n s m h hn hop
    simp only [List.length_cons] at hn ⊢
    obtain ⟨s1, e1, h1⟩ := step_ok h hsz (by omega) op (hop op (by simp))
    obtain ⟨s2, e2, h2⟩ := ih h1 (by omega) (fun o ho => hop o (by simp [ho]))
    refine ⟨s2, ?_, ?_⟩
    · rw [run_cons, e1]; exact e2
    · rw [List.foldl_cons, show n + (t.length + 1) = n + 1 + t.length by omega]; exact h2

theorem initCapLoop_le (f c e : Nat) (h : c ≤ 2 * e ∨ c ≤ 1024) : initCapLoop f c e ≤ max (2 * e) 1024 := by
  induction f generalizing c with
  | zero => unfold initCapLoop; omega
  | succ f ih =>
    unfold initCapLoop
    split
    · exact ih _ (by omega)
    · omega

/-- **C14.** For every grammar size, input length and history of operations the parser can issue on the memo (through
any number of collisions, tombstones and growths of the hash table), nothing is undefined, every probe ends, and a
lookup of (position, rule) returns exactly what an ideal memo holds there.  The numeric bounds say that indices and
operation counts fit a 64-bit machine. -/
theorem C14_memo_is_map (count l expected : Nat) (hsz : count * (l + 1) < 2 ^ 64 - 2) (hexp : expected ≤ 2 ^ 61)
    (ops : List (Op V)) (hlen : ops.length < 2 ^ 60) (hops : ∀ op ∈ ops, OpOk count l op)
    (c r : Nat) (hc : c ≤ l) (hr : r < count) :
    ∃ s, (Store.new count l expected : Store V).run ops = .ok s ∧ s.lookup c r = .ok (memo ops c r) := by
  have h0 : StoreInv count l 0 (Store.new count l expected : Store V) (fun _ _ => none) := by
    refine ⟨rfl, rfl, fun _ => none, Inv.new expected, Nat.zero_le _, ?_, Or.inl (Nat.zero_le _), ?_⟩
    · show initCapLoop expected 1024 expected ≤ 2 ^ 62
      have := initCapLoop_le expected 1024 expected (by omega); omega
    · intro c r _ _; simp [Store.new]
  obtain ⟨s, e1, hs⟩ := run_ok hsz ops h0 (by omega) hops
  refine ⟨s, e1, ?_⟩
  obtain ⟨hcnt, hsize, mv, hinv, -, -, -, habs⟩ := hs
  have hlt := idx_lt hc hr
  have hidx : s.idx c r = count * c + r := by unfold Store.idx; rw [hcnt]
  have hv : Valid (s.idx c r) := by rw [hidx]; show _ < 2 ^ 64 - 2; omega
  unfold Store.lookup
  simp only [hinv.find _ hv]
  have hm : memo ops c r = _ := habs c r hc hr
  rw [hm]
  simp only [Out.ok_bind]
  rw [if_pos (by rw [hidx, hsize]; exact hlt)]
  by_cases h1 : s.registered (s.idx c r) = true
  · by_cases h2 : s.success (s.idx c r) = true
    · simp [h1, h2]
    · simp [h1, h2]
  · simp [h1]

/-- Non-vacuity: two rules on a three byte input, with an overwrite and a clear. -/
example : (∀ op ∈ ([.begin 0 1, .write 0 1 2 (some 7), .write 3 0 1 none, .clear 0 1, .write 0 1 3 (some 8)] :
      List (Op Nat)), OpOk 2 3 op) ∧
    memo ([.begin 0 1, .write 0 1 2 (some 7), .write 3 0 1 none, .clear 0 1, .write 0 1 3 (some 8)] :
      List (Op Nat)) 0 1 = some (some (3, some 8)) := by
  constructor
  · simp [OpOk]
  · rfl

/-- The hash table alone, for any well-formed state (`Inv`), any hash collisions: a probe for a storable key ends and
returns what the map holds. -/
theorem C14_table_find (c : Cache V) (m : Nat → Option (Option V)) (h : Inv c m) (k : Nat) (hk : k < 2 ^ 64 - 2) :
    c.find k = .ok (m k) := h.find k hk

/-- A freshly created table is well formed and empty. -/
example : Inv (Cache.new 5000 : Cache Nat) (fun _ => none) := Inv.new 5000

end Verif.Props
