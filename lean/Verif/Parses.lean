import Verif.EngineFrame
/-!
# Finished parses

`Parses cfg e i st r st'`: executing operator `e` at offset `i` in context `st` finishes with result `r` (`some j`: success
ending at `j`; `none`: failure) and context `st'`.
-/

namespace Verif
open Out CharClass

variable {V : Type}

/-- Executing `e` at `i` in context `st` finishes with result `r` and context `st'`. -/
def Parses (cfg : Cfg V) (e : Ope) (i : Nat) (st : St V) (r : Option Nat) (st' : St V) : Prop :=
  ∃ n, run n cfg (.ope e) i st = .ok (r, st')

theorem run_mono {n m : Nat} {cfg : Cfg V} {t : Task V} {i : Nat} {st : St V} {r : Res V} (h : run n cfg t i st = .ok r)
    (hm : n ≤ m) : run m cfg t i st = .ok r := (run_le hm cfg t i st).eq_ok h

theorem Parses.unique {cfg : Cfg V} {e : Ope} {i : Nat} {st : St V} {r r' : Option Nat} {s s' : St V}
    (h : Parses cfg e i st r s) (h' : Parses cfg e i st r' s') : r = r' ∧ s = s' := by
  obtain ⟨n, h⟩ := h
  obtain ⟨m, h'⟩ := h'
  have := run_unique (n := n) (m := m) (cfg := cfg) (t := .ope e) (i := i) (st := st) (by rw [h]; simp) (by rw [h']; simp)
  rw [h, h'] at this
  cases this; exact ⟨rfl, rfl⟩

/-- The context a parse starts with: nothing memoised, no left recursion under way, no macro arguments. -/
structure Fresh (st : St V) : Prop where
  memo : st.memo = fun _ => none
  lrMemo : st.lrMemo = []
  lrActive : st.lrActive = []
  args : st.args = [([], 0)]

theorem Fresh.ready {cfg : Cfg V} {st : St V} (h : Fresh st) (hs : SlotsOk cfg) {i : Nat} (hi : i ≤ cfg.input.length) :
    Pre cfg i st := by
  refine ⟨hs, ⟨?_, ?_, ?_⟩, hi, ?_⟩
  · intro idx len v hm; rw [h.memo] at hm; cases hm
  · intro r inst p j v hm; rw [h.lrMemo] at hm; cases hm
  · intro k hk; rw [h.lrActive] at hk; cases hk
  · intro f hf e he; rw [h.args] at hf; simp at hf; subst hf; cases he

/-- Every finished parse from a sane context. -/
theorem Parses.P {cfg : Cfg V} {e : Ope} {i : Nat} {st : St V} {r : Option Nat} {st' : St V} (hp : Pre cfg i st)
    (h : Parses cfg e i st r st') : P cfg i st (r, st') := by
  obtain ⟨n, h⟩ := h
  exact (run_good n).ope hp.slots hp.ok hp.le h

theorem Parses.ext {cfg : Cfg V} {e : Ope} {i : Nat} {st : St V} {r : Option Nat} {st' : St V} (hk : FrameOk cfg)
    (hp : Pre cfg i st) (he : e.noPrec = true) (h : Parses cfg e i st r st') : Ext st st' := by
  obtain ⟨n, h⟩ := h
  exact run_goodF n cfg (.ope e) i st _ hk hp trivial he h

/-- Sane contexts lead to sane contexts. -/
theorem Parses.pre {cfg : Cfg V} {e : Ope} {i j : Nat} {st st' : St V} (hp : Pre cfg i st)
    (h : Parses cfg e i st (some j) st') : Pre cfg j st' := hp.step (h.P hp)

theorem parses_iff {cfg : Cfg V} {e : Ope} {i : Nat} {st : St V} {r : Option Nat} {st' : St V} :
    Parses cfg e i st r st' ↔ ∃ n, parseOpe (run n) cfg e i st = .ok (r, st') := by
  constructor
  · rintro ⟨n, h⟩
    cases n with
    | zero => cases h
    | succ n => exact ⟨n, h⟩
  · rintro ⟨n, h⟩; exact ⟨n + 1, h⟩

theorem parses_le {cfg : Cfg V} {e : Ope} {i : Nat} {st : St V} {r : Option Nat} {st' : St V}
    (h : Parses cfg e i st r st') : i ≤ cfg.input.length := by
  obtain ⟨n, h⟩ := parses_iff.mp h
  unfold parseOpe at h
  split at h
  · cases h
  · omega

/-- The elements of a sequence one after the other. -/
inductive SeqRun (cfg : Cfg V) : List Ope → Nat → St V → Nat → St V → Prop where
  | nil {i st} : SeqRun cfg [] i st i st
  | cons {e es i st k s j st'} : Parses cfg e i st (some k) s → SeqRun cfg es k s j st' → SeqRun cfg (e :: es) i st j st'

/-- `k` successive matches of `e`. -/
inductive IterRun (cfg : Cfg V) (e : Ope) : Nat → Nat → St V → Nat → St V → Prop where
  | zero {i st} : IterRun cfg e 0 i st i st
  | succ {n i st k s j st'} : Parses cfg e i st (some k) s → IterRun cfg e n k s j st' → IterRun cfg e (n + 1) i st j st'

theorem andThen_mono {n m : Nat} (hnm : n ≤ m) {cfg : Cfg V} {e : Ope} {i : Nat} {st : St V}
    {f g : Nat → St V → Out (Res V)} (hf : ∀ j s, Le (f j s) (g j s)) :
    Le (andThen (run n cfg (.ope e) i st) f) (andThen (run m cfg (.ope e) i st) g) := by
  unfold andThen
  refine Le.bind (run_le hnm _ _ _ _) fun r => ?_
  rcases r with ⟨_ | j, s⟩
  · exact Le.refl _
  · exact hf j s

theorem seqLoop_mono {n m : Nat} (hnm : n ≤ m) (cfg : Cfg V) (es : List Ope) (i : Nat) (st : St V) :
    Le (seqLoop (run n) cfg es i st) (seqLoop (run m) cfg es i st) := by
  induction es generalizing i st with
  | nil => exact Le.refl _
  | cons e es ih => exact andThen_mono hnm fun j s => ih j s

theorem seqLoop_some {cfg : Cfg V} {es : List Ope} {i : Nat} {st : St V} {j : Nat} {st' : St V} :
    (∃ n, seqLoop (run n) cfg es i st = .ok (some j, st')) ↔ SeqRun cfg es i st j st' := by
  constructor
  · rintro ⟨n, h⟩
    induction es generalizing i st with
    | nil => cases h; exact .nil
    | cons e es ih =>
      unfold seqLoop at h
      rw [andThen_ok] at h
      rcases h with ⟨s, h, he⟩ | ⟨k, s, h, h2⟩
      · cases he
      · exact .cons ⟨n, h⟩ (ih h2)
  · intro h
    induction h with
    | nil => exact ⟨0, rfl⟩
    | @cons e es i st k s j st' h1 _ ih =>
      obtain ⟨n, h1⟩ := h1
      obtain ⟨m, h2⟩ := ih
      refine ⟨max n m, ?_⟩
      unfold seqLoop
      rw [andThen_ok]
      exact Or.inr ⟨k, s, run_mono h1 (Nat.le_max_left _ _), (seqLoop_mono (Nat.le_max_right _ _) _ _ _ _).eq_ok h2⟩

theorem seqLoop_none {cfg : Cfg V} {es : List Ope} {i : Nat} {st : St V} {st' : St V} :
    (∃ n, seqLoop (run n) cfg es i st = .ok (none, st')) ↔
      ∃ front e back k s, es = front ++ e :: back ∧ SeqRun cfg front i st k s ∧ Parses cfg e k s none st' := by
  constructor
  · rintro ⟨n, h⟩
    induction es generalizing i st with
    | nil => cases h
    | cons e es ih =>
      unfold seqLoop at h
      rw [andThen_ok] at h
      rcases h with ⟨s, h, he⟩ | ⟨k, s, h, h2⟩
      · cases he; exact ⟨[], e, es, i, st, rfl, .nil, n, h⟩
      · obtain ⟨f, e', b, k', s', rfl, h3, h4⟩ := ih h2
        exact ⟨e :: f, e', b, k', s', rfl, .cons ⟨n, h⟩ h3, h4⟩
  · rintro ⟨f, e, b, k, s, rfl, h1, h2⟩
    induction h1 with
    | nil =>
      obtain ⟨n, h2⟩ := h2
      refine ⟨n, ?_⟩
      show andThen _ _ = _
      rw [andThen_ok]; exact Or.inl ⟨_, h2, rfl⟩
    | @cons e' es i st k s j s' h1 _ ih =>
      obtain ⟨n, h1⟩ := h1
      obtain ⟨m, h3⟩ := ih h2
      refine ⟨max n m, ?_⟩
      show andThen _ _ = _
      rw [andThen_ok]
      exact Or.inr ⟨k, s, run_mono h1 (Nat.le_max_left _ _), (seqLoop_mono (Nat.le_max_right _ _) _ _ _ _).eq_ok h3⟩

theorem repMin_some {cfg : Cfg V} {e : Ope} {c : Nat} {i : Nat} {st : St V} {j : Nat} {st' : St V} {n : Nat}
    (h : repMin (run n) cfg e c i st = .ok (some j, st')) : IterRun cfg e c i st j st' := by
  induction c generalizing i st with
  | zero => cases h; exact .zero
  | succ c ih =>
    unfold repMin at h
    rw [andThen_ok] at h
    rcases h with ⟨s, h, he⟩ | ⟨k, s, h, h2⟩
    · cases he
    · exact .succ ⟨n, h⟩ (ih h2)

theorem repMin_none {cfg : Cfg V} {e : Ope} {c : Nat} {i : Nat} {st : St V} {st' : St V} {n : Nat}
    (h : repMin (run n) cfg e c i st = .ok (none, st')) :
    ∃ c' k s, c' < c ∧ IterRun cfg e c' i st k s ∧ Parses cfg e k s none st' := by
  induction c generalizing i st with
  | zero => cases h
  | succ c ih =>
    unfold repMin at h
    rw [andThen_ok] at h
    rcases h with ⟨s, h, he⟩ | ⟨k, s, h, h2⟩
    · cases he; exact ⟨0, i, st, by omega, .zero, n, h⟩
    · obtain ⟨c', k', s', h3, h4, h5⟩ := ih h2
      exact ⟨c' + 1, k', s', by omega, .succ ⟨n, h⟩ h4, h5⟩

theorem IterRun.append {cfg : Cfg V} {e : Ope} {a b : Nat} {i k j : Nat} {st s st' : St V}
    (h1 : IterRun cfg e a i st k s) (h2 : IterRun cfg e b k s j st') : IterRun cfg e (a + b) i st j st' := by
  induction h1 with
  | zero => simpa using h2
  | @succ n i st k s j st' h1 _ ih =>
    rw [show n + 1 + b = (n + b) + 1 by omega]
    exact .succ h1 (ih h2)

theorem IterRun.pre {cfg : Cfg V} {e : Ope} {a : Nat} {i k : Nat} {st s : St V}
    (h1 : IterRun cfg e a i st k s) (hp : Pre cfg i st) : Pre cfg k s ∧ Verif.P cfg i st (some k, s) := by
  induction h1 with
  | zero => exact ⟨hp, P.stay hp.ok hp.le⟩
  | succ h1 _ ih =>
    obtain ⟨a, b⟩ := ih (h1.pre hp)
    exact ⟨a, (h1.P hp).seq b⟩

theorem IterRun.ext {cfg : Cfg V} {e : Ope} {a : Nat} {i k : Nat} {st s : St V}
    (h1 : IterRun cfg e a i st k s) (hk : FrameOk cfg) (hp : Pre cfg i st) (he : e.noPrec = true) : Ext st s := by
  induction h1 with
  | zero => exact Ext.refl _
  | succ h1 _ ih => exact (h1.ext hk hp he).trans (ih (h1.pre hp))

theorem SeqRun.pre {cfg : Cfg V} {es : List Ope} {i k : Nat} {st s : St V}
    (h1 : SeqRun cfg es i st k s) (hp : Pre cfg i st) : Pre cfg k s ∧ Verif.P cfg i st (some k, s) := by
  induction h1 with
  | nil => exact ⟨hp, P.stay hp.ok hp.le⟩
  | cons h1 _ ih =>
    obtain ⟨a, b⟩ := ih (h1.pre hp)
    exact ⟨a, (h1.P hp).seq b⟩

theorem SeqRun.ext {cfg : Cfg V} {es : List Ope} {i k : Nat} {st s : St V}
    (h1 : SeqRun cfg es i st k s) (hk : FrameOk cfg) (hp : Pre cfg i st) (he : ∀ e ∈ es, e.noPrec = true) : Ext st s := by
  induction h1 with
  | nil => exact Ext.refl _
  | cons h1 _ ih =>
    exact (h1.ext hk hp (he _ List.mem_cons_self)).trans (ih (h1.pre hp) fun e h => he e (List.mem_cons_of_mem _ h))

/-- The second loop of a repetition that has done `c` iterations: `k` more, then stopped by the maximum or by a
failing iteration, which leaves nothing behind. -/
theorem rep_run {cfg : Cfg V} {e : Ope} {mx : Option Nat} {n : Nat} :
    ∀ {c i : Nat} {st : St V} {r : Option Nat} {st' : St V}, run n cfg (.rep e mx c) i st = .ok (r, st') →
    ∃ k j s, r = some j ∧ IterRun cfg e k i st j s ∧ (∀ m, mx = some m → c ≤ m → c + k ≤ m) ∧
      (((∃ m, mx = some m ∧ m ≤ c + k) ∧ st' = s) ∨
       ∃ s1, Parses cfg e j s none s1 ∧ st' = s1.rollback s.snapshot) := by
  induction n with
  | zero => intro c i st r st' h; cases h
  | succ n ih =>
    intro c i st r st' h
    change repRound (run n) cfg e mx c i st = _ at h
    unfold repRound at h
    by_cases hm : mx.all (c < ·) = true
    · rw [if_pos hm] at h
      rw [bind_eq_ok] at h
      obtain ⟨⟨a, s1⟩, h1, h⟩ := h
      cases a with
      | none =>
        cases h
        exact ⟨0, i, st, rfl, .zero, by intro m _ h; omega, Or.inr ⟨s1, ⟨n, h1⟩, rfl⟩⟩
      | some j =>
        obtain ⟨k, j', s, rfl, h2, h3, h4⟩ := ih h
        refine ⟨k + 1, j', s, rfl, .succ ⟨n, h1⟩ h2, ?_, ?_⟩
        · intro m hmx hle
          subst hmx
          have : c < m := by simpa using hm
          have := h3 m rfl (by omega)
          omega
        · rcases h4 with ⟨⟨m, hmx, hle⟩, e⟩ | h4
          · exact Or.inl ⟨⟨m, hmx, by omega⟩, e⟩
          · exact Or.inr h4
    · rw [if_neg hm] at h
      cases h
      refine ⟨0, i, st, rfl, .zero, by intro m _ h; omega, Or.inl ⟨?_, rfl⟩⟩
      cases mx with
      | none => simp at hm
      | some m => exact ⟨m, rfl, by simpa using hm⟩

end Verif
