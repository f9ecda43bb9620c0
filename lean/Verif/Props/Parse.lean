import Verif.Props.Engine
/-!
# Whole parses and left recursion: C33, C37, C38
-/

namespace Verif.Props
open Verif Out CharClass

variable {V : Type}

/-! ## C33: growing a left-recursive rule -/

/-- The body of rule `r` (definition `d`) finishes at `i` with result `a`, value `v` and context `s'`. -/
def BodyRun (cfg : Cfg V) (r : Nat) (d : Def) (i : Nat) (s : St V) (a : Option Nat) (v : Option V) (s' : St V) : Prop :=
  ∃ n, doParse (run n) cfg r d i s = .ok (a, v, s')

/-- The context in which the next growing round evaluates the body: the packrat entry of the rule and the seeds of the
other rules of the cycle at this position are forgotten. -/
def nextRound (cfg : Cfg V) (r inst : Nat) (d : Def) (cyc : List (Nat × Nat)) (i : Nat) (st : St V) : St V :=
  { (if d.isMacro then st else clearMemo cfg r i st) with
    lrMemo := (if d.isMacro then st else clearMemo cfg r i st).lrMemo.filter fun e =>
      !(e.1.2.2 = i && (e.1.1, e.1.2.1) ≠ (r, inst) && (e.1.1, e.1.2.1) ∈ cyc &&
        e.1 ∉ (if d.isMacro then st else clearMemo cfg r i st).lrActive) }

/-- Growing a seed that ends at `j`: each round evaluates the body with the current seed remembered; a longer match
becomes the next seed, anything else ends the growing.  The list has the ends of the successive seeds. -/
inductive Growth (cfg : Cfg V) (r inst : Nat) (d : Def) (cyc : List (Nat × Nat)) (i : Nat) :
    Nat → Option V → St V → List Nat → Nat → St V → Prop where
  | stop {j v st a w s} : BodyRun cfg r d i (nextRound cfg r inst d cyc i st) a w s → (∀ j', a = some j' → j' ≤ j) →
      Growth cfg r inst d cyc i j v st [] j (growDone cfg r inst d i j v s).2
  | more {j v st j' w s js k st'} : BodyRun cfg r d i (nextRound cfg r inst d cyc i st) (some j') w s → j < j' →
      Growth cfg r inst d cyc i j' w { s with lrMemo := lrSet (r, inst, i) (some (j', w)) s.lrMemo } js k st' →
      Growth cfg r inst d cyc i j v st (j' :: js) k st'

theorem grow_growth {cfg : Cfg V} {r inst : Nat} {d : Def} {cyc : List (Nat × Nat)} {i : Nat} (hd : cfg.rules[r]? = some d)
    {n : Nat} : ∀ {j : Nat} {v : Option V} {st : St V} {a : Option Nat} {st' : St V},
      run n cfg (.grow r inst cyc j v) i st = .ok (a, st') →
      ∃ js k, a = some k ∧ Growth cfg r inst d cyc i j v st js k st' := by
  induction n with
  | zero => intro j v st a st' h; cases h
  | succ n ih =>
    intro j v st a st' h
    change growRound (run n) cfg r inst cyc j v i st = _ at h
    unfold growRound at h
    simp only [hd] at h
    rw [bind_eq_ok] at h
    obtain ⟨⟨x, w, s⟩, hx, h⟩ := h
    have hb : BodyRun cfg r d i (nextRound cfg r inst d cyc i st) x w s := ⟨n, hx⟩
    cases x with
    | none =>
      cases h
      exact ⟨[], j, rfl, .stop hb (by intro j' h; cases h)⟩
    | some j' =>
      dsimp only at h
      by_cases hle : j' ≤ j
      · rw [if_pos hle] at h
        cases h
        exact ⟨[], j, rfl, .stop hb (by intro j'' h; cases h; exact hle)⟩
      · rw [if_neg hle] at h
        obtain ⟨js, k, rfl, hg⟩ := ih h
        exact ⟨j' :: js, k, rfl, .more hb (by omega) hg⟩

theorem keep_nextRound (cfg : Cfg V) (r inst : Nat) (d : Def) (cyc : List (Nat × Nat)) (i : Nat) (st : St V) :
    Keep st (nextRound cfg r inst d cyc i st) ∧ (nextRound cfg r inst d cyc i st).lrActive = st.lrActive ∧
      (StOk cfg st → StOk cfg (nextRound cfg r inst d cyc i st)) ∧
      (nextRound cfg r inst d cyc i st).lrMemo.lookup (r, inst, i) = st.lrMemo.lookup (r, inst, i) := by
  have hc : Keep st (if d.isMacro = true then st else clearMemo cfg r i st) ∧
      (if d.isMacro = true then st else clearMemo cfg r i st).lrActive = st.lrActive ∧
      (if d.isMacro = true then st else clearMemo cfg r i st).lrMemo = st.lrMemo ∧
      (StOk cfg st → StOk cfg (if d.isMacro = true then st else clearMemo cfg r i st)) := by
    split
    · exact ⟨Keep.refl _, rfl, rfl, id⟩
    · obtain ⟨a, b, c⟩ := keep_clearMemo cfg r i st
      refine ⟨a, b, ?_, c⟩
      unfold clearMemo
      split
      · split <;> rfl
      · rfl
  unfold nextRound
  generalize (if d.isMacro = true then st else clearMemo cfg r i st) = st0 at *
  obtain ⟨k, a, l, o⟩ := hc
  refine ⟨⟨k.cutLen, k.cutTail, k.args, k.ruleStack, k.tokCount, k.inWs, k.logOn, k.active, k.precToks, k.caps, k.logs,
    k.insts, k.recovered⟩, a, fun h => (o h).lrFilter _ (by intro e he; simp [he]), ?_⟩
  rw [← l]
  exact lookup_filter_ne _ _ _ (by intro e _ he; rw [he]; simp)

theorem body_P {cfg : Cfg V} {r : Nat} {d : Def} {i : Nat} {s s' : St V} {a : Option Nat} {v : Option V}
    (hs : SlotsOk cfg) (ho : StOk cfg s) (hi : i ≤ cfg.input.length) (h : BodyRun cfg r d i s a v s') :
    P cfg i s (a, s') := by
  obtain ⟨n, h⟩ := h
  exact doParse_P (run_good n) hs ho hi h

/-- Growing only grows: the successive seeds end at strictly increasing offsets inside the input, so there are at most as
many growing rounds as bytes after the first seed, and the rule's match is the last (longest) seed. -/
theorem C33_growing_strictly_increases {cfg : Cfg V} {r inst : Nat} {d : Def} {cyc : List (Nat × Nat)} {i j k : Nat}
    {v : Option V} {st st' : St V} {js : List Nat} (hs : SlotsOk cfg) (ho : StOk cfg st) (hi : i ≤ cfg.input.length)
    (hj : j ≤ cfg.input.length) (h : Growth cfg r inst d cyc i j v st js k st') :
    (j :: js).Pairwise (· < ·) ∧ (∀ x ∈ js, x ≤ cfg.input.length) ∧ js.length ≤ cfg.input.length - j ∧
      k = (j :: js).getLast (by simp) := by
  induction h with
  | stop hb ha => simp
  | @more j v st j' w s js k st' hb hlt _ ih =>
    have hn := keep_nextRound cfg r inst d cyc i st
    have p := body_P hs (hn.2.2.1 ho) hi hb
    have b := p.bounds j' rfl
    obtain ⟨h1, h2, h3, h4⟩ := ih (p.ok.lrSet r inst i (some (j', w)) (by intro j v e; cases e; exact b)) b.2
    refine ⟨?_, ?_, ?_, ?_⟩
    · rw [List.pairwise_cons]
      refine ⟨?_, h1⟩
      intro x hx
      rcases List.mem_cons.mp hx with rfl | hx
      · exact hlt
      · exact Nat.lt_trans hlt ((List.pairwise_cons.mp h1).1 x hx)
    · intro x hx
      rcases List.mem_cons.mp hx with rfl | hx
      · exact b.2
      · exact h2 x hx
    · simp only [List.length_cons]; omega
    · rw [h4]; simp

/-- What evaluating a left-recursive rule that is not under evaluation at this position does: the body is evaluated once with
the rule itself failing at this position; if that succeeds the match is grown, and the result is the last seed. -/
theorem C33_left_recursive_rule {cfg : Cfg V} {r : Nat} {d : Def} {i : Nat} {st st' : St V} {a : Option Nat}
    {top : List Ope} {inst : Nat} {rest : List (List Ope × Nat)}
    (hd : cfg.rules[r]? = some d) (hlr : d.isLR = true) (hargs : st.args = (top, inst) :: rest)
    (hm : st.lrMemo.lookup (r, inst, i) = none) (h : Parses cfg (.weak r) i st a st') :
    ∃ a0 v0 s0, BodyRun cfg r d i
        { st with lrMemo := lrSet (r, inst, i) none st.lrMemo, lrActive := setInsert (r, inst, i) st.lrActive, lrRefs := [] }
        a0 v0 s0 ∧
      match a0 with
      | none => a = none
      | some j0 => ∃ cyc s1 js k, s1.lrMemo = lrSet (r, inst, i) (some (j0, v0)) s0.lrMemo ∧
          a = some k ∧ Growth cfg r inst d cyc i j0 v0 s1 js k st' := by
  have hi := parses_le h
  obtain ⟨n, h⟩ := Parses.inv h
  open_ope h, hi
  cases n with
  | zero => cases h
  | succ n =>
    change holder (run n) cfg r i st = _ at h
    unfold holder at h
    simp only [hd, hlr, Bool.not_true, Bool.and_false, Bool.false_eq_true, if_false, if_true] at h
    unfold lrHold at h
    split at h
    · rename_i ha; rw [hargs] at ha; cases ha
    rename_i top' inst' rest' ha
    rw [hargs] at ha
    cases ha
    simp only [hm] at h
    rw [bind_eq_ok] at h
    obtain ⟨⟨a0, v0, s0⟩, hb, h⟩ := h
    refine ⟨a0, v0, s0, ⟨n, hb⟩, ?_⟩
    cases a0 with
    | none => cases h; rfl
    | some j0 =>
      dsimp only at h ⊢
      obtain ⟨js, k, rfl, hg⟩ := grow_growth hd h
      exact ⟨_, _, js, k, rfl, rfl, hg⟩

/-- Growing terminates: if, with a seed in place, the body always finishes within `B` nested calls, then growing finishes
within `B` plus the number of bytes after the first seed. -/
theorem C33_growing_terminates {cfg : Cfg V} {r inst : Nat} {d : Def} {cyc : List (Nat × Nat)} {i : Nat} {B : Nat}
    (hd : cfg.rules[r]? = some d) (hs : SlotsOk cfg) (hi : i ≤ cfg.input.length) (st0 : St V)
    (hB : ∀ s : St V, StOk cfg s → Keep st0 s → (∃ j v, s.lrMemo.lookup (r, inst, i) = some (some (j, v))) →
      doParse (run B) cfg r d i s ≠ .oof) :
    ∀ (m j : Nat) (v : Option V) (st : St V), cfg.input.length - j ≤ m → j ≤ cfg.input.length → StOk cfg st → Keep st0 st →
      (∃ j v, st.lrMemo.lookup (r, inst, i) = some (some (j, v))) →
      run (B + m + 1) cfg (.grow r inst cyc j v) i st ≠ .oof := by
  intro m
  induction m with
  | zero =>
    intro j v st hm hj ho hk hl
    have hn := keep_nextRound cfg r inst d cyc i st
    have hb := hB _ (hn.2.2.1 ho) (hk.trans hn.1) (by rw [hn.2.2.2]; exact hl)
    change growRound (run B) cfg r inst cyc j v i st ≠ _
    unfold growRound
    simp only [hd]
    have e : doParse (run B) cfg r d i (nextRound cfg r inst d cyc i st) = doParse (run B) cfg r d i
      { (if d.isMacro then st else clearMemo cfg r i st) with
        lrMemo := (if d.isMacro then st else clearMemo cfg r i st).lrMemo.filter fun e =>
          !(e.1.2.2 = i && (e.1.1, e.1.2.1) ≠ (r, inst) && (e.1.1, e.1.2.1) ∈ cyc &&
            e.1 ∉ (if d.isMacro then st else clearMemo cfg r i st).lrActive) } := rfl
    rw [← e]
    cases hx : doParse (run B) cfg r d i (nextRound cfg r inst d cyc i st) with
    | oof => exact absurd hx hb
    | ub w => simp
    | ok x =>
      obtain ⟨a, w, s⟩ := x
      rw [ok_bind]
      cases a with
      | none => simp
      | some j' =>
        have p := body_P hs (hn.2.2.1 ho) hi ⟨B, hx⟩
        have b := p.bounds j' rfl
        dsimp only
        rw [if_pos (by omega)]
        simp
  | succ m ih =>
    intro j v st hm hj ho hk hl
    have hn := keep_nextRound cfg r inst d cyc i st
    have hb := hB _ (hn.2.2.1 ho) (hk.trans hn.1) (by rw [hn.2.2.2]; exact hl)
    have hlift : doParse (run (B + (m + 1))) cfg r d i (nextRound cfg r inst d cyc i st) =
        doParse (run B) cfg r d i (nextRound cfg r inst d cyc i st) := by
      rcases doParse_le (run_le (show B ≤ B + (m + 1) by omega)) cfg r d i (nextRound cfg r inst d cyc i st) with h | h
      · exact absurd h hb
      · exact h.symm
    change growRound (run (B + (m + 1))) cfg r inst cyc j v i st ≠ _
    unfold growRound
    simp only [hd]
    have e : doParse (run (B + (m + 1))) cfg r d i (nextRound cfg r inst d cyc i st) = doParse (run (B + (m + 1))) cfg r d i
      { (if d.isMacro then st else clearMemo cfg r i st) with
        lrMemo := (if d.isMacro then st else clearMemo cfg r i st).lrMemo.filter fun e =>
          !(e.1.2.2 = i && (e.1.1, e.1.2.1) ≠ (r, inst) && (e.1.1, e.1.2.1) ∈ cyc &&
            e.1 ∉ (if d.isMacro then st else clearMemo cfg r i st).lrActive) } := rfl
    rw [← e, hlift]
    cases hx : doParse (run B) cfg r d i (nextRound cfg r inst d cyc i st) with
    | oof => exact absurd hx hb
    | ub w => simp
    | ok x =>
      obtain ⟨a, w, s⟩ := x
      rw [ok_bind]
      cases a with
      | none => simp
      | some j' =>
        have p := body_P hs (hn.2.2.1 ho) hi ⟨B, hx⟩
        have b := p.bounds j' rfl
        dsimp only
        split
        · simp
        · refine ih j' w _ (by omega) b.2
            (p.ok.lrSet r inst i (some (j', w)) (by intro j v e; cases e; exact b)) ?_ ?_
          · have k := hk.trans (hn.1.trans p.keep)
            exact ⟨k.cutLen, k.cutTail, k.args, k.ruleStack, k.tokCount, k.inWs, k.logOn, k.active, k.precToks, k.caps,
              k.logs, k.insts, k.recovered⟩
          · refine ⟨j', w, ?_⟩
            show (lrSet (r, inst, i) (some (j', w)) s.lrMemo).lookup (r, inst, i) = _
            rw [lrSet_lookup]; simp

/-! ## C37: recovered errors are reported -/

/-- Once an error was recovered the context remembers it through everything that follows. -/
theorem C37_recovered_sticks {cfg : Cfg V} {e : Ope} {i : Nat} {st : St V} {r : Option Nat} {st' : St V} (hp : Pre cfg i st)
    (h : Parses cfg e i st r st') (hr : st.recovered = true) : st'.recovered = true :=
  (h.P hp).keep.recovered hr

/-- A successful `%recover(...)` marks the parse as recovered. -/
theorem C37_recovery_marks {cfg : Cfg V} {r : Nat} {nm : List Byte} {args : List Ope} {i j : Nat} {st st' : St V}
    (h : Parses cfg (.recov r nm args) i st (some j) st') : st'.recovered = true := by
  have hi := parses_le h
  obtain ⟨n, h⟩ := Parses.inv h
  open_ope h, hi
  unfold parseRecov at h
  dsimp only at h
  rw [bind_eq_ok] at h
  obtain ⟨s0, -, h⟩ := h
  rw [bind_eq_ok] at h
  obtain ⟨⟨x, s1⟩, -, h⟩ := h
  rw [bind_eq_ok] at h
  obtain ⟨s2, h2, h⟩ := h
  injection h with h
  injection h with hx hst
  subst hx; subst hst
  have hset : ∀ s : St V, (s.setCut true).recovered = s.recovered := by intro s; unfold St.setCut; split <;> rfl
  rw [hset]
  simp only [Option.isSome_some, if_true] at h2
  split at h2
  · rw [bind_eq_ok] at h2
    obtain ⟨o, -, h2⟩ := h2
    cases h2; rfl
  · cases h2; rfl

/-- `parse` answers true iff the parse matched and no error was recovered; so if an error was recovered (the final context
remembers one) it answers false. -/
theorem C37_parse_reports_recovery {cfg : Cfg V} {r : Nat} {eoi log : Bool} {dt : Option V} {a : Answer V}
    (h : Answers cfg r eoi log dt a) :
    (a.ok = true ↔ a.res.ret = true ∧ a.res.st.recovered = false) ∧ a.val = deliver a.res := by
  obtain ⟨n, h, h1, h2⟩ := h.core
  refine ⟨?_, h2⟩
  have key : a.res.recovered = a.res.st.recovered := by
    unfold parseCore at h
    dsimp only at h
    rw [bind_eq_ok] at h
    obtain ⟨⟨x, s⟩, -, h⟩ := h
    cases x with
    | none => injection h with h; rw [← h]
    | some i =>
      dsimp only at h
      rw [bind_eq_ok] at h
      obtain ⟨⟨b, s2⟩, -, h⟩ := h
      cases b with
      | none => injection h with h; rw [← h]
      | some j =>
        injection h with h
        rw [← h]
        unfold eoiCheck
        split
        · dsimp only
        · dsimp only
  rw [h1, key]
  simp

/-- Nothing is recovered in a grammar run that ends unrecovered: every (sub)parse from a context leads to a context with the
mark only if it had it or a recovery succeeded; in particular a parse that answers true recovered nothing. -/
theorem C37_true_means_nothing_recovered {cfg : Cfg V} {r : Nat} {eoi log : Bool} {dt : Option V} {a : Answer V}
    (h : Answers cfg r eoi log dt a) (hok : a.ok = true) : a.res.st.recovered = false :=
  ((C37_parse_reports_recovery h).1.mp hok).2

/-! ## C38: parse() means whole-input match -/

/-- The white space before the start rule: offset and context where the start rule begins. -/
def LeadingSpace (cfg : Cfg V) (st : St V) (i : Nat) (s : St V) : Prop :=
  match cfg.ws with
  | none => i = 0 ∧ s = st
  | some w => Parses cfg w 0 st (some i) s

/-- `parse` answers true iff the start rule, after leading white space, matches up to the end of the input (any prefix if the
end-of-input check is disabled) and no error was recovered on the way. -/
theorem C38_parse_true_iff {cfg : Cfg V} {r : Nat} {eoi log : Bool} {dt : Option V} (hs : SlotsOk cfg) :
    (∃ a, Answers cfg r eoi log dt a ∧ a.ok = true) ↔
      ∃ i s j s', LeadingSpace cfg { dt := dt, logOn := log } i s ∧ Parses cfg (.weak r) i s (some j) s' ∧
        (eoi = true → j = cfg.input.length) ∧ s'.recovered = false := by
  constructor
  · rintro ⟨a, h, hok⟩
    have hrec := C37_true_means_nothing_recovered h hok
    have hret := ((C37_parse_reports_recovery h).1.mp hok).1
    obtain ⟨n, h, -⟩ := h.core
    have hp : Pre cfg 0 ({ dt := dt, logOn := log } : St V) := start_ready hs dt log
    have hb := (parseCore_bounds hp h).1
    unfold parseCore at h
    dsimp only at h
    rw [bind_eq_ok] at h
    obtain ⟨⟨x, s⟩, h1, h⟩ := h
    have p1 : P cfg 0 ({ dt := dt, logOn := log } : St V) (x, s) := by
      split at h1
      · cases h1; exact P.stay hp.ok hp.le
      · exact (run_good n).ope hp.slots hp.ok hp.le h1
    cases x with
    | none => injection h with h; rw [← h] at hret; cases hret
    | some i =>
      dsimp only at h
      rw [bind_eq_ok] at h
      obtain ⟨⟨b, s2⟩, h2, h⟩ := h
      have hp2 := hp.step p1
      cases b with
      | none => injection h with h; rw [← h] at hret; cases hret
      | some j =>
        refine ⟨i, s, j, s2, ?_, ?_, ?_, ?_⟩
        · unfold LeadingSpace
          split
          · rename_i hw; rw [hw] at h1; cases h1; exact ⟨rfl, rfl⟩
          · rename_i w hw; rw [hw] at h1; exact ⟨n, h1⟩
        · refine parses_iff.mpr ⟨n, ?_⟩
          unfold parseOpe
          rw [if_neg (Nat.not_lt.mpr hp2.le)]
          exact h2
        · intro he
          injection h with h
          rw [← h] at hret hb
          unfold eoiCheck at hret hb
          by_cases hj : j < cfg.input.length
          · simp [he, hj] at hret
          · simp [hj] at hb
            omega
        · injection h with h
          rw [← h] at hrec
          unfold eoiCheck at hrec
          split at hrec
          · dsimp only at hrec
            split at hrec
            · exact hrec
            · exact hrec
          · exact hrec
  · rintro ⟨i, s, j, s', hl, hp, he, hr⟩
    have hi := parses_le hp
    obtain ⟨n, hp⟩ := parses_iff.mp hp
    open_ope hp, hi
    have hfin : eoiCheck cfg eoi j s' = ⟨true, s'.recovered, j, s'⟩ := by
      unfold eoiCheck
      rw [if_neg]
      rw [Bool.and_eq_true, not_and]
      intro h1
      have := he h1
      simp [this]
    have hcore : ∃ k, parseCore k cfg r eoi { dt := dt, logOn := log } = .ok ⟨true, s'.recovered, j, s'⟩ := by
      unfold LeadingSpace at hl
      cases hw : cfg.ws with
      | none =>
        rw [hw] at hl
        obtain ⟨rfl, rfl⟩ := hl
        refine ⟨n, ?_⟩
        simp only [parseCore, hw, ok_bind, hp, hfin]
      | some w =>
        rw [hw] at hl
        obtain ⟨m, hl⟩ := hl
        refine ⟨max m n, ?_⟩
        simp only [parseCore, hw, run_mono hl (Nat.le_max_left m n), ok_bind, run_mono hp (Nat.le_max_right m n), hfin]
    obtain ⟨k, hcore⟩ := hcore
    refine ⟨⟨true && !s'.recovered, deliver ⟨true, s'.recovered, j, s'⟩, s'.logs, ⟨true, s'.recovered, j, s'⟩⟩, ⟨k, ?_⟩, ?_⟩
    · unfold parserParse
      rw [hcore, ok_bind]
      unfold postProcess
      simp
    · simp [hr]

/-! ## Examples -/

/-- `S <- S 'a' / 'b'` on "baac". -/
def lrDef : Def :=
  { name := [83], ope := .cho [.seq [.ref 0 [83] [], .lit [97] false] none, .lit [98] false] false [], isLR := true }

def lrCfg : Cfg Nat := { input := [98, 97, 97, 99], rules := [lrDef] }

/-- The rule is evaluated and grown: "b", "ba", "baa". -/
example : ∃ st', Parses lrCfg (.weak 0) 0 ({} : St Nat) (some 3) st' ∧
    ∃ a0 v0 s0, BodyRun lrCfg 0 lrDef 0
        { ({} : St Nat) with lrMemo := lrSet (0, 0, 0) none [], lrActive := setInsert (0, 0, 0) [], lrRefs := [] } a0 v0 s0 := by
  obtain ⟨st', h, -⟩ := parses_of_outcome (cfg := lrCfg) (st := {}) (i := 0) (n := 30)
    (e := .weak 0) (o := ⟨some 3, [none], [], 0, [], []⟩) (by decide +kernel)
  obtain ⟨a0, v0, s0, h1, -⟩ := C33_left_recursive_rule (d := lrDef) (top := []) (inst := 0) (rest := []) rfl rfl rfl rfl h
  exact ⟨st', h, a0, v0, s0, h1⟩

theorem lr_setKeep_memo (cfg : Cfg V) (s : St V) (b : Bool) :
    ((resetCut cfg s).setKeep b).lrMemo = s.lrMemo ∧ ((resetCut cfg s).setKeep b).args = s.args := by
  unfold resetCut
  split
  · unfold St.setCut; split <;> exact ⟨rfl, rfl⟩
  · exact ⟨rfl, rfl⟩

/-- A literal without white space and `%word` finishes at once. -/
theorem lit_finishes (cfg : Cfg V) (hw : cfg.word = none) (hs : cfg.ws = none) (s : List Byte) (ic : Bool) (i n : Nat)
    (st : St V) : run (n + 1) cfg (.ope (.lit s ic)) i st ≠ .oof := by
  change parseOpe (run n) cfg (.lit s ic) i st ≠ _
  unfold parseOpe
  split
  · simp
  · dsimp only
    unfold parseLiteral skipWs
    rw [hw, hs]
    split
    · dsimp only; split <;> simp
    · simp

theorem after_ne_oof {x : Out (Res V)} {f : St V → St V} (h : x ≠ .oof) : after x f ≠ .oof := by
  unfold after; cases x with
  | ok a => simp
  | ub w => simp
  | oof => exact absurd rfl h

/-- The hypothesis of `C33_growing_terminates` holds for this grammar at every position and in every context. -/
theorem lr_body_finishes (i : Nat) (hi : i ≤ lrCfg.input.length) (s : St Nat)
    (hl : ∃ j v, s.lrMemo.lookup (0, 0, i) = some (some (j, v))) : doParse (run 5) lrCfg 0 lrDef i s ≠ .oof := by
  obtain ⟨j, v, hl⟩ := hl
  have href : ∀ s : St Nat, s.lrMemo.lookup (0, 0, i) = some (some (j, v)) → ∃ s', run 3 lrCfg (.ope (.ref 0 [83] [])) i s =
      .ok (some j, s') := by
    intro s hl
    change ∃ s', parseOpe (run 2) lrCfg (.ref 0 [83] []) i s = _
    unfold parseOpe
    rw [if_neg (Nat.not_lt.mpr hi)]
    have hh : ∀ t : St Nat, t.lrMemo = s.lrMemo → t.args = ([], 0) :: s.args → run 2 lrCfg (.hold 0) i t =
        .ok (some j, emplace lrCfg lrDef v { t with lrRefs := setInsert (0, 0) t.lrRefs }) := by
      intro t h1 h2
      show holder (run 1) lrCfg 0 i t = _
      unfold holder lrHold
      rw [show lrCfg.rules[0]? = some lrDef from rfl]
      simp only [show lrDef.isLR = true from rfl, Bool.not_true, Bool.and_false, Bool.false_eq_true, if_false, if_true]
      rw [h2]
      simp only [h1, hl]
    have e : refer (run 2) lrCfg 0 [] i s =
        withArgs s ([], 0) fun st => run 2 lrCfg (.hold 0) i st := rfl
    have aux : ∀ (x : Out (Res Nat)) (f : St Nat → St Nat) (t : St Nat), x = .ok (some j, t) →
        ∃ s', after x f = .ok (some j, s') := by
      intro x f t hx; subst hx; exact ⟨f t, rfl⟩
    show ∃ s', refer (run 2) lrCfg 0 [] i s = .ok (some j, s')
    rw [e]
    exact aux _ _ _ (hh _ rfl rfl)
  have hbody : ∀ s : St Nat, s.lrMemo.lookup (0, 0, i) = some (some (j, v)) → run 5 lrCfg (.ope lrDef.ope) i s ≠ .oof := by
    intro s hl
    change parseOpe (run 4) lrCfg lrDef.ope i s ≠ _
    unfold parseOpe
    rw [if_neg (Nat.not_lt.mpr hi)]
    simp only [lrDef]
    unfold parseCho
    apply after_ne_oof
    have hp : ∀ b, (pushCut b s).lrMemo = s.lrMemo := by intro b; unfold pushCut; split <;> rfl
    generalize hq : pushCut (lrCfg.hasCut && !false) s = s1
    have hl1 : s1.lrMemo.lookup (0, 0, i) = some (some (j, v)) := by rw [← hq, hp]; exact hl
    unfold choLoop
    rw [if_neg (by simp [fsSkip])]
    have e1 : ∃ x, run 4 lrCfg (.ope (.seq [.ref 0 [83] [], .lit [97] false] none)) i
        ((resetCut lrCfg s1).setKeep (decide (0 > 0))) = x ∧ x ≠ .oof := by
      refine ⟨_, rfl, ?_⟩
      change parseOpe (run 3) lrCfg (.seq [.ref 0 [83] [], .lit [97] false] none) i _ ≠ _
      unfold parseOpe
      rw [if_neg (Nat.not_lt.mpr hi)]
      simp only [parseSeq, Option.bind_none]
      unfold seqLoop
      obtain ⟨s', hs'⟩ := href ((resetCut lrCfg s1).setKeep (decide (0 > 0)))
        (by rw [(lr_setKeep_memo lrCfg s1 _).1]; exact hl1)
      rw [hs']
      unfold andThen
      simp only [ok_bind]
      unfold seqLoop andThen
      have := lit_finishes lrCfg rfl rfl [97] false j 2 s'
      cases hx : run 3 lrCfg (.ope (.lit [97] false)) j s' with
      | oof => exact absurd hx this
      | ub w => simp
      | ok x =>
        rw [ok_bind]
        rcases x with ⟨_ | y, t⟩
        · simp
        · simp [seqLoop]
    obtain ⟨x, hx, hne⟩ := e1
    rw [hx]
    cases x with
    | oof => exact absurd rfl hne
    | ub w => simp
    | ok x =>
      rw [ok_bind]
      rcases x with ⟨_ | y, t⟩
      · dsimp only
        split
        · simp
        · unfold choLoop
          rw [if_neg (by simp [fsSkip])]
          have := lit_finishes lrCfg rfl rfl [98] false i 3
            ((resetCut lrCfg (t.rollback s1.snapshot)).setKeep (decide (0 + 1 > 0)))
          cases hx : run 4 lrCfg (.ope (.lit [98] false)) i
              ((resetCut lrCfg (t.rollback s1.snapshot)).setKeep (decide (0 + 1 > 0))) with
          | oof => exact absurd hx this
          | ub w => simp
          | ok x =>
            rw [ok_bind]
            rcases x with ⟨_ | y, t⟩
            · dsimp only
              split
              · simp
              · simp [choLoop]
            · simp
      · simp
  unfold doParse
  intro hc
  have : opeBody (run 5) lrCfg 0 lrDef i { callEnter lrCfg 0 i s with vs := {} } ≠ .oof := by
    unfold opeBody
    apply after_ne_oof
    rw [if_neg (by simp [lrDef])]
    exact hbody _ hl
  cases hx : opeBody (run 5) lrCfg 0 lrDef i { callEnter lrCfg 0 i s with vs := {} } with
  | oof => exact this hx
  | ub w => rw [hx] at hc; simp at hc
  | ok x => rw [hx] at hc; simp [lrCfg] at hc

/-- Growing terminates for `S <- S 'a' / 'b'` from every seed. -/
example (i j : Nat) (v : Option Nat) (st : St Nat) (cyc : List (Nat × Nat)) (hi : i ≤ 4) (hj : j ≤ 4) (ho : StOk lrCfg st)
    (hl : ∃ j v, st.lrMemo.lookup (0, 0, i) = some (some (j, v))) :
    run 10 lrCfg (.grow 0 0 cyc j v) i st ≠ .oof :=
  C33_growing_terminates (d := lrDef) (B := 5) rfl (slotsOk_of rfl) hi st (fun s _ _ hl => lr_body_finishes i hi s hl) 4 j v st
    (by simp [lrCfg]) hj ho (Keep.refl _) hl

/-- `S <- 'a' B^lbl`-like recovery: `%recover('b')` succeeds on "bbb aaa " and marks the parse. -/
def rcCfg : Cfg Nat :=
  { input := [97, 98]
    rules := [{ name := [83], ope := .seq [.lit [97] false, .recov 1 [114] [.ref 2 [108] []]] none, hasMacroRef := true },
              { name := [114], ope := .dot, isMacro := true, params := [[120]] },
              { name := [108], ope := .lit [120] false, errorMessage := [109] }] }

example : ∃ a, Answers rcCfg 0 true true none a ∧ a.ok = false ∧ a.res.ret = true ∧ a.res.st.recovered = true := by
  have h : ∃ a, Answers rcCfg 0 true true none a ∧ (a.ok, a.res.ret, a.res.st.recovered) = (false, true, true) := by
    have h : (match parserParse 20 rcCfg 0 true true none with
        | .ok a => some (a.ok, a.res.ret, a.res.st.recovered) | _ => none) = some (false, true, true) := by decide +kernel
    split at h
    · rename_i a ha; exact ⟨a, ⟨20, ha⟩, by simpa using h⟩
    · cases h
  obtain ⟨a, h, e⟩ := h
  simp only [Prod.mk.injEq] at e
  exact ⟨a, h, e.1, e.2.1, e.2.2⟩

/-- The example parse is true, so the start rule matches the whole of "bbb aaa ". -/
example : ∃ i s j s', LeadingSpace exCfg { dt := none, logOn := true } i s ∧ Parses exCfg (.weak 0) i s (some j) s' ∧
    (true = true → j = exCfg.input.length) ∧ s'.recovered = false := by
  obtain ⟨a, h, hok, -⟩ := exAnswer
  exact (C38_parse_true_iff (slotsOk_of rfl)).mp ⟨a, h, hok⟩

end Verif.Props
