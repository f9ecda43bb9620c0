import Verif.ErrTrace
import Verif.Props.Parse
/-!
# Error reports: C13

`St.fails` is the list of all failures recorded during the parse, in order (peglib.h 3609-3641 `set_error_pos`, 1601-1616 the
alternative skipped by its first set).  `Furthest` and `Stands` (module `ErrTrace`) speak about such a list only.
-/

namespace Verif.Props
open Verif Out CharClass

variable {V : Type}

/-- A rule whose name starts with `_` is not shown in reports (peglib.h 3568). -/
def Hidden (rules : List Def) (er : Option Nat) : Prop :=
  ∃ r d, er = some r ∧ rules[r]? = some d ∧ d.name.head? = some 95

theorem hidden_iff (rules : List Def) (er : Option Nat) :
    (er.isSome && decide (((er.bind fun r => rules[r]?.map (·.name)).getD []).head? = some 95)) = true ↔ Hidden rules er := by
  unfold Hidden
  cases er with
  | none => simp
  | some r =>
    simp only [Option.isSome_some, Option.bind_some, Bool.true_and, decide_eq_true_eq, Option.some.injEq]
    cases h : rules[r]? with
    | none => simp [h]
    | some d =>
      simp only [Option.map_some, Option.getD_some]
      constructor
      · intro h'; exact ⟨r, d, rfl, h, h'⟩
      · rintro ⟨_, _, rfl, h1, h2⟩; rw [h] at h1; cases h1; exact h2

theorem expected_spec (rules : List Def) (ts : List (Option ErrLit × Option Nat)) (label : List Byte)
    (x : List (List Byte) × List Nat × List Byte) (h : expected rules ts label = .ok x) :
    (∀ l, l ∈ x.1 ↔ ∃ l' er, l = cstr l' ∧ (some (.lit l'), er) ∈ ts ∧ ¬ Hidden rules er) ∧
    (∀ r, r ∈ x.2.1 ↔ (none, some r) ∈ ts ∧ ¬ Hidden rules (some r)) := by
  induction ts generalizing label x with
  | nil => cases h; simp
  | cons t ts ih =>
    obtain ⟨el, er⟩ := t
    unfold expected at h
    simp only at h
    by_cases hh : Hidden rules er
    · rw [if_pos ((hidden_iff rules er).2 hh)] at h
      have := ih _ _ h
      refine ⟨fun l => ?_, fun r => ?_⟩
      · rw [this.1]
        constructor
        · rintro ⟨l', er', hl, h1, h2⟩; exact ⟨l', er', hl, List.mem_cons_of_mem _ h1, h2⟩
        · rintro ⟨l', er', hl, h1, h2⟩
          rcases List.mem_cons.1 h1 with h1 | h1
          · simp only [Prod.mk.injEq] at h1; rw [h1.2] at h2; exact absurd hh h2
          · exact ⟨l', er', hl, h1, h2⟩
      · rw [this.2]
        constructor
        · rintro ⟨h1, h2⟩; exact ⟨List.mem_cons_of_mem _ h1, h2⟩
        · rintro ⟨h1, h2⟩
          rcases List.mem_cons.1 h1 with h1 | h1
          · simp only [Prod.mk.injEq] at h1; rw [h1.2] at h2; exact absurd hh h2
          · exact ⟨h1, h2⟩
    · rw [if_neg (fun h' => hh ((hidden_iff rules er).1 h'))] at h
      cases el with
      | none =>
        simp only at h
        obtain ⟨y, hy, e⟩ := Out.bind_eq_ok.1 h
        cases e
        have := ih _ _ hy
        refine ⟨fun l => ?_, fun r => ?_⟩
        · rw [this.1]
          constructor
          · rintro ⟨l', er', hl, h1, h2⟩; exact ⟨l', er', hl, List.mem_cons_of_mem _ h1, h2⟩
          · rintro ⟨l', er', hl, h1, h2⟩
            rcases List.mem_cons.1 h1 with h1 | h1
            · simp at h1
            · exact ⟨l', er', hl, h1, h2⟩
        · simp only [List.mem_append, this.2, Option.mem_toList, List.mem_cons, Prod.mk.injEq, true_and]
          constructor
          · rintro (h1 | h1)
            · exact ⟨.inl h1.symm, h1 ▸ hh⟩
            · exact ⟨.inr h1.1, h1.2⟩
          · rintro ⟨h1 | h1, h2⟩
            · exact .inl h1.symm
            · exact .inr ⟨h1, h2⟩
      | some w =>
        cases w with
        | cap s => cases h
        | lit s =>
          simp only at h
          obtain ⟨y, hy, e⟩ := Out.bind_eq_ok.1 h
          cases e
          have := ih _ _ hy
          refine ⟨fun l => ?_, fun r => ?_⟩
          · simp only [List.mem_cons, this.1, Prod.mk.injEq, Option.some.injEq, ErrLit.lit.injEq]
            constructor
            · rintro (h1 | ⟨l', er', hl, h1, h2⟩)
              · exact ⟨s, er, h1, .inl ⟨rfl, rfl⟩, hh⟩
              · exact ⟨l', er', hl, .inr h1, h2⟩
            · rintro ⟨l', er', hl, h1 | h1, h2⟩
              · exact .inl (h1.1 ▸ hl)
              · exact .inr ⟨l', er', hl, h1, h2⟩
          · rw [this.2]; simp

/-- What a parse that reported nothing on the way ends with. -/
theorem trace_end {cfg : Cfg V} {r : Nat} {eoi log : Bool} {dt : Option V} {a : Answer V} (h : Answers cfg r eoi log dt a)
    (hr : a.res.st.recovered = false) :
    Shows a.res.st.fails a.res.st.err ∧ a.res.st.err.lastOut = none ∧ a.res.st.logs = [] := by
  obtain ⟨n, h⟩ := h
  unfold parserParse at h
  obtain ⟨res, h1, h2⟩ := Out.bind_eq_ok.1 h
  have hres : a.res = res := by
    unfold postProcess at h2
    split at h2
    · obtain ⟨o, _, e⟩ := Out.bind_eq_ok.1 h2; cases e; rfl
    · cases h2; rfl
  have := (parseCore_T n cfg r eoi { dt := dt, logOn := log } res h1).ok (fun _ => ⟨Shows.init, rfl, rfl⟩)
  rw [hres] at hr ⊢
  exact this hr

theorem report_end {cfg : Cfg V} {r : Nat} {eoi log : Bool} {dt : Option V} {a : Answer V} (h : Answers cfg r eoi log dt a)
    (hr : a.res.st.recovered = false) :
    (a.logs = [] ∧ (log = false ∨ a.res.ret = true)) ∨
    (log = true ∧ a.res.ret = false ∧ ∃ o, a.res.st.err.output cfg.rules = .ok o ∧ a.logs = o.1.toList) := by
  have hl := (trace_end h hr).2.2
  obtain ⟨n, h⟩ := h
  unfold parserParse at h
  obtain ⟨res, h1, h2⟩ := Out.bind_eq_ok.1 h
  unfold postProcess at h2
  split at h2
  · rename_i hc
    obtain ⟨o, ho, e⟩ := Out.bind_eq_ok.1 h2
    cases e
    simp only [Bool.and_eq_true, Bool.not_eq_true'] at hc
    simp only at hl ⊢
    exact .inr ⟨hc.1, hc.2, o, ho, by rw [hl]; rfl⟩
  · rename_i hc
    cases h2
    refine .inl ⟨hl, ?_⟩
    cases log
    · exact .inl rfl
    · right; simpa using hc

/-- Every report of a parse was made from error data by `output_log`. -/
theorem made_end {cfg : Cfg V} {r : Nat} {eoi log : Bool} {dt : Option V} {a : Answer V} (h : Answers cfg r eoi log dt a) :
    Made cfg.rules a.logs := by
  obtain ⟨n, h⟩ := h
  unfold parserParse at h
  obtain ⟨res, h1, h2⟩ := Out.bind_eq_ok.1 h
  have hm := (parseCore_T n cfg r eoi { dt := dt, logOn := log } res h1).made (by intro rep hr; cases hr)
  unfold postProcess at h2
  split at h2
  · obtain ⟨o, ho, e⟩ := Out.bind_eq_ok.1 h2
    cases e
    exact hm.output ho
  · cases h2; exact hm

/-! ## C50: reports advance and lie inside the input -/

theorem rising_end {cfg : Cfg V} {r : Nat} {eoi log : Bool} {dt : Option V} {a : Answer V} (h : Answers cfg r eoi log dt a) :
    a.logs.Pairwise (fun x y => x.pos < y.pos) ∧ ∀ rep ∈ a.logs, rep.pos ≤ cfg.input.length := by
  obtain ⟨n, h⟩ := h
  unfold parserParse at h
  obtain ⟨res, h1, h2⟩ := Out.bind_eq_ok.1 h
  have ht := parseCore_T n cfg r eoi { dt := dt, logOn := log } res h1
  have hr := ht.rising ⟨List.Pairwise.nil, by intro rep hr; cases hr⟩
  have hi := ht.inside ⟨(by intro p hp; cases hp), (by intro p hp; cases hp), (by intro rep hr; cases hr)⟩
  unfold postProcess at h2
  split at h2
  · obtain ⟨o, ho, e⟩ := Out.bind_eq_ok.1 h2
    cases e
    refine ⟨(hr.output (e' := o.2) (o := o.1) ho).1, ?_⟩
    exact (hi.output (st' := { res.st with logs := res.st.logs ++ o.1.toList, err := o.2.clear }) ho rfl rfl).2.2
  · cases h2; exact ⟨hr.1, hi.2.2⟩

/-- C50: the error reports of one parse are at strictly increasing positions, error recovery included: no position is reported twice and
nothing before an earlier report is reported. -/
theorem C50_reports_advance {cfg : Cfg V} {r : Nat} {eoi log : Bool} {dt : Option V} {a : Answer V} (h : Answers cfg r eoi log dt a) :
    a.logs.Pairwise (fun x y => x.pos < y.pos) := (rising_end h).1

/-- C50: every report is at a position of the input (its end included). -/
theorem C50_reports_inside {cfg : Cfg V} {r : Nat} {eoi log : Bool} {dt : Option V} {a : Answer V} (h : Answers cfg r eoi log dt a)
    {rep : Report} (hm : rep ∈ a.logs) : rep.pos ≤ cfg.input.length := (rising_end h).2 rep hm

/-- C50: so there are at most as many reports as positions. -/
theorem C50_report_count {cfg : Cfg V} {r : Nat} {eoi log : Bool} {dt : Option V} {a : Answer V} (h : Answers cfg r eoi log dt a) :
    a.logs.length ≤ cfg.input.length + 1 := by
  obtain ⟨h1, h2⟩ := rising_end h
  have key : ∀ (l : List Report) (N k : Nat), l.Pairwise (fun x y => x.pos < y.pos) → (∀ x ∈ l, k ≤ x.pos ∧ x.pos ≤ N) → l.length ≤ N + 1 - k := by
    intro l
    induction l with
    | nil => intro N k _ _; exact Nat.zero_le _
    | cons x l ih =>
      intro N k hp hb
      have hx := hb x (by simp)
      rw [List.pairwise_cons] at hp
      have := ih N (x.pos + 1) hp.2 (fun y hy => ⟨hp.1 y hy, (hb y (by simp [hy])).2⟩)
      simp only [List.length_cons]
      omega
  have := key a.logs _ 0 h1 (fun x hx => ⟨Nat.zero_le _, h2 x hx⟩)
  omega

/-! ## Position -/

/-- C13: a plain syntax-error report of a parse (no recovery involved) is at the furthest position at which any failure was
recorded in the whole parse, and it is the only report. -/
theorem C13_position {cfg : Cfg V} {r : Nat} {eoi log : Bool} {dt : Option V} {a : Answer V} (h : Answers cfg r eoi log dt a)
    (hr : a.res.st.recovered = false) {rep : Report} (hm : rep ∈ a.logs) (hp : rep.msg = none) :
    a.logs = [rep] ∧ Furthest a.res.st.fails rep.pos := by
  obtain ⟨hs, ho, _⟩ := trace_end h hr
  rcases report_end h hr with ⟨e, _⟩ | ⟨_, _, o, he, e⟩
  · rw [e] at hm; cases hm
  · rw [e] at hm ⊢
    unfold Err.output at he
    rw [ho] at he
    simp only [optLt, if_true] at he
    split at he
    · cases he; simp only [Option.toList_some, List.mem_singleton] at hm; subst hm; cases hp
    · split at he
      · rename_i p hpos
        obtain ⟨x, hx, e⟩ := Out.bind_eq_ok.1 he
        cases e
        simp only [Option.toList_some, List.mem_singleton] at hm
        subst hm
        exact ⟨rfl, hs.pos _ hpos⟩
      · cases he; cases hm

/-- C13: and there is such a report whenever the parse fails after some failure was recorded and no message applies. -/
theorem C13_reported {cfg : Cfg V} {r : Nat} {eoi : Bool} {dt : Option V} {a : Answer V} (h : Answers cfg r eoi true dt a)
    (hr : a.res.st.recovered = false) (hf : a.res.ret = false) (hm : a.res.st.err.msgPos = none) (hn : a.res.st.fails ≠ []) :
    ∃ rep, a.logs = [rep] ∧ rep.msg = none := by
  obtain ⟨hs, ho, _⟩ := trace_end h hr
  rcases report_end h hr with ⟨_, e⟩ | ⟨_, _, o, he, e⟩
  · rcases e with e | e
    · cases e
    · rw [hf] at e; cases e
  · unfold Err.output at he
    rw [ho, hm] at he
    simp only [optLt, if_true] at he
    split at he
    · obtain ⟨x, hx, e'⟩ := Out.bind_eq_ok.1 he
      cases e'
      exact ⟨_, e, rfl⟩
    · rename_i hp; exact absurd (hs.none_ hp) hn

/-! ## Expected tokens -/

theorem report_toks {cfg : Cfg V} {r : Nat} {eoi log : Bool} {dt : Option V} {a : Answer V} (h : Answers cfg r eoi log dt a)
    (hr : a.res.st.recovered = false) {rep : Report} (hm : rep ∈ a.logs) (hp : rep.msg = none) :
    a.res.st.err.pos = some rep.pos ∧
    (∀ l, l ∈ rep.lits ↔ ∃ l' er, l = cstr l' ∧ (some (.lit l'), er) ∈ a.res.st.err.toks ∧ ¬ Hidden cfg.rules er) ∧
    (∀ r, r ∈ rep.rules ↔ (none, some r) ∈ a.res.st.err.toks ∧ ¬ Hidden cfg.rules (some r)) := by
  obtain ⟨hs, ho, _⟩ := trace_end h hr
  rcases report_end h hr with ⟨e, _⟩ | ⟨_, _, o, he, e⟩
  · rw [e] at hm; cases hm
  · rw [e] at hm
    unfold Err.output at he
    rw [ho] at he
    simp only [optLt, if_true] at he
    split at he
    · cases he; simp only [Option.toList_some, List.mem_singleton] at hm; subst hm; cases hp
    · split at he
      · rename_i p hpos
        obtain ⟨x, hx, e⟩ := Out.bind_eq_ok.1 he
        cases e
        simp only [Option.toList_some, List.mem_singleton] at hm
        subst hm
        exact ⟨hpos, expected_spec _ _ _ _ hx⟩
      · cases he; cases hm

/-- C13: the tokens shown as expected are those recorded at the reported position and not dropped there later (a literal is shown up
to its first NUL byte, `cstr`).  (Partial: the
property says all recorded at that position; see `C13_expectations_dropped`.) -/
theorem C13_expected_partial {cfg : Cfg V} {r : Nat} {eoi log : Bool} {dt : Option V} {a : Answer V}
    (h : Answers cfg r eoi log dt a) (hr : a.res.st.recovered = false) {rep : Report} (hm : rep ∈ a.logs) (hp : rep.msg = none) :
    (∀ l, l ∈ rep.lits ↔ ∃ l' er, l = cstr l' ∧ Stands a.res.st.fails rep.pos (some (.lit l'), er) ∧ ¬ Hidden cfg.rules er) ∧
    (∀ q, q ∈ rep.rules ↔ Stands a.res.st.fails rep.pos (none, some q) ∧ ¬ Hidden cfg.rules (some q)) := by
  obtain ⟨hpos, h1, h2⟩ := report_toks h hr hm hp
  obtain ⟨hs, _, _⟩ := trace_end h hr
  have : ∀ t, t ∈ a.res.st.err.toks ↔ Stands a.res.st.fails rep.pos t := by
    intro t
    rw [hs.toks, hpos]
    constructor
    · rintro ⟨p, e, h⟩; cases e; exact h
    · exact fun h => ⟨_, rfl, h⟩
  exact ⟨fun l => by simp only [h1, this], fun q => by rw [h2, this]⟩

/-- C13: if the failures recorded at the reported position dropped nothing (each was recorded inside a later alternative of a
choice, or is the first one recorded there), the tokens shown are exactly all tokens recorded at that position. -/
theorem C13_expected_all_partial {cfg : Cfg V} {r : Nat} {eoi log : Bool} {dt : Option V} {a : Answer V}
    (h : Answers cfg r eoi log dt a) (hr : a.res.st.recovered = false) {rep : Report} (hm : rep ∈ a.logs) (hp : rep.msg = none)
    (hd : ∀ l1 f l2, a.res.st.fails = l1 ++ f :: l2 → f.pos = rep.pos → (∃ g ∈ l1, g.pos = rep.pos) → f.reset = false) :
    (∀ l, l ∈ rep.lits ↔ ∃ l' er, l = cstr l' ∧ (∃ f ∈ a.res.st.fails, f.pos = rep.pos ∧ f.item = some (some (.lit l'), er)) ∧
      ¬ Hidden cfg.rules er) ∧
    (∀ q, q ∈ rep.rules ↔ (∃ f ∈ a.res.st.fails, f.pos = rep.pos ∧ f.item = some (none, some q)) ∧ ¬ Hidden cfg.rules (some q)) := by
  have : ∀ t, Stands a.res.st.fails rep.pos t ↔ ∃ f ∈ a.res.st.fails, f.pos = rep.pos ∧ f.item = some t := by
    intro t
    constructor
    · rintro ⟨l1, f, l2, e, h1, h2, _⟩; exact ⟨f, by rw [e]; simp, h1, h2⟩
    · rintro ⟨f, hf, h1, h2⟩
      obtain ⟨l1, l2, e⟩ := List.append_of_mem hf
      refine ⟨l1, f, l2, e, h1, h2, fun g hg hgp => ?_⟩
      obtain ⟨m1, m2, e2⟩ := List.append_of_mem hg
      exact hd (l1 ++ f :: m1) g m2 (by rw [e, e2]; simp) hgp ⟨f, by simp, h1⟩
  obtain ⟨h1, h2⟩ := C13_expected_partial h hr hm hp
  exact ⟨fun l => by rw [h1]; simp only [this], fun q => by rw [h2, this]⟩

/-! ## What is recorded -/

/-- C13: a terminal that does not match records a failure at its position, naming what was expected there; whatever was recorded
before stays recorded. -/
theorem C13_terminal_recorded {cfg : Cfg V} {e : Ope} {i : Nat} {st st' : St V} {a : Option Nat} (h : Parses cfg e i st a st')
    (hl : st.logOn = true) {lit : Option ErrLit}
    (ht : (∃ s ic, e = .lit s ic ∧ litMatch s ic (cfg.rest i) = false ∧ lit = some (.lit s)) ∨
      (∃ c, e = .cls c ∧ c.matchLen (cfg.rest i) = none ∧ lit = none) ∨
      (∃ c, e = .chr c ∧ matchChar c (cfg.rest i) = none ∧ lit = none) ∨
      (e = .dot ∧ matchAny (cfg.rest i) = none ∧ lit = none) ∨
      (∃ ws ic, e = .dict ws ic ∧ ((Trie.build ws ic).matchText (cfg.rest i)).1 = 0 ∧ lit = none)) :
    a = none ∧ ∃ f, st'.fails = st.fails ++ [f] ∧ f.pos = i ∧ f.item = expectation cfg.rules st.ruleStack lit := by
  obtain ⟨n, h⟩ := h
  cases n with
  | zero => cases h
  | succ n =>
    have key : ∀ l, a = none → st' = setErr cfg st i l → l = lit →
        a = none ∧ ∃ f, st'.fails = st.fails ++ [f] ∧ f.pos = i ∧ f.item = expectation cfg.rules st.ruleStack lit := by
      intro l ha hs hl'
      subst hl'
      refine ⟨ha, ⟨i, !st.err.keep, expectation cfg.rules st.ruleStack l⟩, ?_, rfl, rfl⟩
      rw [hs]; unfold setErr; rw [if_pos hl]
    have h : parseOpe (run n) cfg e i st = .ok (a, st') := h
    unfold parseOpe at h
    split at h
    · cases h
    · rcases ht with ⟨s, ic, rfl, hm, hl'⟩ | ⟨c, rfl, hm, hl'⟩ | ⟨c, rfl, hm, hl'⟩ | ⟨rfl, hm, hl'⟩ | ⟨ws, ic, rfl, hm, hl'⟩
      · simp only [parseLiteral, hm, Bool.false_eq_true, if_false] at h; cases h; exact key _ rfl rfl hl'.symm
      · simp only [terminal, hm] at h; cases h; exact key _ rfl rfl hl'.symm
      · simp only [terminal, hm] at h; cases h; exact key _ rfl rfl hl'.symm
      · simp only [terminal, hm] at h; cases h; exact key _ rfl rfl hl'.symm
      · simp only [parseDict, hm, if_true] at h; cases h; exact key _ rfl rfl hl'.symm

/-- The rule is a token rule. -/
def IsTok (rules : List Def) (q : Nat) : Prop := ∃ d, rules[q]? = some d ∧ d.isToken = true

/-- The rule named for a failure inside the rules `stack` (the innermost first): the outermost token rule, or the innermost rule if none of them is
a token rule. -/
def Named (rules : List Def) (stack : List Nat) (er : Option Nat) : Prop :=
  (∃ l1 q l2, stack = l1 ++ q :: l2 ∧ IsTok rules q ∧ (∀ p ∈ l2, ¬ IsTok rules p) ∧ er = some q) ∨
  ((∀ p ∈ stack, ¬ IsTok rules p) ∧ er = stack.head?)

theorem isTok_iff (rules : List Def) (q : Nat) : (rules[q]?.map (·.isToken)).getD false = true ↔ IsTok rules q := by
  unfold IsTok
  cases rules[q]? with
  | none => simp
  | some d => simp

theorem errRule_spec (rules : List Def) (l : List Nat) (cur : Option Nat) :
    (∃ l1 q l2, l = l1 ++ q :: l2 ∧ (∀ p ∈ l1, ¬ IsTok rules p) ∧ IsTok rules q ∧ errRule rules l cur = some q) ∨
    ((∀ p ∈ l, ¬ IsTok rules p) ∧ errRule rules l cur = if l = [] then cur else l.getLast?) := by
  induction l generalizing cur with
  | nil => exact .inr ⟨by simp, rfl⟩
  | cons r l ih =>
    unfold errRule
    by_cases hr : (rules[r]?.map (·.isToken)).getD false = true
    · rw [if_pos hr]
      exact .inl ⟨[], r, l, rfl, by simp, (isTok_iff _ _).1 hr, rfl⟩
    · rw [if_neg hr]
      have hr' : ¬ IsTok rules r := fun h => hr ((isTok_iff _ _).2 h)
      rcases ih (some r) with ⟨l1, q, l2, e, h1, h2, h3⟩ | ⟨h1, h2⟩
      · refine .inl ⟨r :: l1, q, l2, by rw [e]; rfl, fun p hp => ?_, h2, h3⟩
        rcases List.mem_cons.1 hp with rfl | hp
        · exact hr'
        · exact h1 p hp
      · refine .inr ⟨fun p hp => ?_, ?_⟩
        · rcases List.mem_cons.1 hp with rfl | hp
          · exact hr'
          · exact h1 p hp
        · rw [h2]
          cases l with
          | nil => simp
          | cons c l => simp

theorem named_spec (rules : List Def) (stack : List Nat) : Named rules stack (errRule rules stack.reverse none) := by
  rcases errRule_spec rules stack.reverse none with ⟨l1, q, l2, e, h1, h2, h3⟩ | ⟨h1, h2⟩
  · left
    refine ⟨l2.reverse, q, l1.reverse, ?_, h2, fun p hp => h1 p (by simpa using hp), h3⟩
    rw [← stack.reverse_reverse, e]; simp
  · right
    refine ⟨fun p hp => h1 p (by simpa using hp), ?_⟩
    rw [h2]
    cases stack with
    | nil => rfl
    | cons c l => simp

/-- C13: what a failure names.  The literal is the one that failed to match, or, for other terminals, the literal the innermost rule consists of,
if it does; the rule is the outermost token rule being parsed, or the innermost rule if no token rule is. -/
theorem C13_names (rules : List Def) (stack : List Nat) (lit : Option ErrLit) :
    ∃ el er, Named rules stack er ∧
      (el = lit ∨ lit = none ∧ ∃ q d s, stack.head? = some q ∧ rules[q]? = some d ∧ d.errLit = some s ∧ el = some (.lit s)) ∧
      (lit = none → (∃ q d s, stack.head? = some q ∧ rules[q]? = some d ∧ d.errLit = some s) → el ≠ none) ∧
      expectation rules stack lit = if el = none ∧ er = none then none else some (el, er) := by
  unfold expectation
  generalize hel : (match lit with | some l => some l | none => (stack.head?.bind fun r => rules[r]?.bind (·.errLit)).map ErrLit.lit) = el
  refine ⟨el, errRule rules stack.reverse none, named_spec rules stack, ?_, ?_, ?_⟩
  · subst hel
    cases lit with
    | some l => exact .inl rfl
    | none =>
      cases hs : stack.head? with
      | none => exact .inl rfl
      | some q =>
        cases hd : rules[q]? with
        | none => exact .inl (by simp [hd])
        | some d =>
          cases he : d.errLit with
          | none => exact .inl (by simp [hd, he])
          | some s => exact .inr ⟨rfl, q, d, s, rfl, hd, he, by simp [hd, he]⟩
  · rintro rfl ⟨q, d, s, h1, h2, h3⟩
    subst hel
    simp [h1, h2, h3]
  · generalize errRule rules stack.reverse none = er
    dsimp only
    cases lit <;> simp only at hel ⊢ <;> rw [hel] <;> cases el <;> cases er <;> simp

/-- C13: no expression forgets a failure recorded earlier, and a failure recorded before the furthest one changes nothing. -/
theorem C13_earlier_kept {cfg : Cfg V} {e : Ope} {i : Nat} {st st' : St V} {a : Option Nat} (h : Parses cfg e i st a st') :
    st.fails <+: st'.fails := by
  obtain ⟨n, h⟩ := h
  exact (run_T n cfg (.ope e) i st _ h).fails

theorem C13_earlier_ignored (cfg : Cfg V) (st : St V) (i p : Nat) (lit : Option ErrLit) (hp : st.err.pos = some p) (h : i < p) :
    (setErr cfg st i lit).err = st.err := by
  unfold setErr
  split
  · simp only [Err.setPos, hp, optLe]
    rw [if_neg (by simpa using h)]
  · rfl

/-! ## Examples -/

/-- `S <- 'a' ('b' / 'c' / [x] 'y')`. -/
def erCfg (inp : List Byte) : Cfg Nat :=
  { input := inp, needsRuleStack := true
    rules := [{ name := [83], ope := .seq [.lit [97] false, .cho [.lit [98] false, .lit [99] false,
      .seq [.chr 120, .lit [121] false] none] false []] none }] }

/-- `S <- 'a'? 'b'`. -/
def edCfg : Cfg Nat :=
  { input := [99], needsRuleStack := true
    rules := [{ name := [83], ope := .seq [.rep (.lit [97] false) 0 (some 1) none, .lit [98] false] none }] }

/-- What a user sees of a report. -/
structure Seen where
  pos : Nat
  msg : Option (List Byte)
  lits : List (List Byte)
  rules : List Nat
  deriving DecidableEq

def Report.seen (r : Report) : Seen := ⟨r.pos, r.msg, r.lits, r.rules⟩

structure Obs where
  reps : List Seen
  recovered : Bool
  fails : List Fail
  deriving DecidableEq

def observe (n : Nat) (cfg : Cfg Nat) : Option Obs :=
  match parserParse n cfg 0 true true none with
  | .ok a => some ⟨a.logs.map Report.seen, a.res.st.recovered, a.res.st.fails⟩
  | _ => none

theorem seen_answers {n : Nat} {cfg : Cfg Nat} {s : Seen} {b : Bool} {fs : List Fail} (h : observe n cfg = some ⟨[s], b, fs⟩) :
    ∃ a rep, Answers cfg 0 true true none a ∧ a.logs = [rep] ∧ Report.seen rep = s ∧ a.res.st.recovered = b ∧ a.res.st.fails = fs := by
  unfold observe at h
  split at h
  · rename_i a ha
    simp only [Option.some.injEq, Obs.mk.injEq] at h
    obtain ⟨rep, hl, hs⟩ : ∃ rep, a.logs = [rep] ∧ Report.seen rep = s := by
      have h1 := h.1
      cases hl : a.logs with
      | nil => rw [hl] at h1; cases h1
      | cons x l =>
        cases l with
        | nil => rw [hl] at h1; exact ⟨x, rfl, by simpa using h1⟩
        | cons y l => rw [hl] at h1; simp at h1
    exact ⟨a, rep, ⟨n, ha⟩, hl, hs, h.2.1, h.2.2⟩
  · cases h

/-- The hypotheses are met: on "ad" the report is at 1 and shows 'b' and 'c' (and the rule, for the class). -/
example : ∃ a, Answers (erCfg [97, 100]) 0 true true none a ∧ a.res.st.recovered = false ∧
    ∃ rep ∈ a.logs, rep.msg = none ∧ rep.pos = 1 ∧ rep.lits = [[98], [99]] := by
  obtain ⟨a, rep, h, hl, h1, h2, h3⟩ := seen_answers (n := 20) (cfg := erCfg [97, 100]) (s := ⟨1, none, [[98], [99]], [0]⟩) (b := false)
    (fs := [⟨1, true, some (some (.lit [98]), some 0)⟩, ⟨1, false, some (some (.lit [99]), some 0)⟩, ⟨1, false, some (none, some 0)⟩])
    (by decide +kernel)
  simp only [Report.seen, Seen.mk.injEq] at h1
  exact ⟨a, h, h2, rep, by rw [hl]; simp, h1.2.1, h1.1, h1.2.2.1⟩

/-- The expected tokens of the report are not all those recorded at its position. -/
def DropsExpectation (cfg : Cfg V) (a : Answer V) : Prop :=
  a.res.st.recovered = false ∧ ∃ rep ∈ a.logs, rep.msg = none ∧
    ∃ l er, (∃ f ∈ a.res.st.fails, f.pos = rep.pos ∧ f.item = some (some (.lit l), er)) ∧ ¬ Hidden cfg.rules er ∧ cstr l ∉ rep.lits

/-- C13 is false as stated for the tokens: outside the later alternatives of a choice a failure drops the expectations recorded
before at the same position.  `S <- 'a'? 'b'` on "c" reports at 0 that 'b' is expected; 'a', recorded there too, is not shown. -/
theorem C13_expectations_dropped : ∃ a, Answers edCfg 0 true true none a ∧ DropsExpectation edCfg a := by
  obtain ⟨a, rep, h, hl, h1, h2, h3⟩ := seen_answers (n := 20) (cfg := edCfg) (s := ⟨0, none, [[98]], []⟩) (b := false)
    (fs := [⟨0, true, some (some (.lit [97]), some 0)⟩, ⟨0, true, some (some (.lit [98]), some 0)⟩])
    (by decide +kernel)
  simp only [Report.seen, Seen.mk.injEq] at h1
  refine ⟨a, h, h2, rep, by rw [hl]; simp, h1.2.1, [97], some 0, ⟨_, by rw [h3]; exact List.mem_cons_self, h1.1.symm, rfl⟩, ?_,
    by rw [h1.2.2.1]; decide⟩
  rintro ⟨r, d, e1, e2, e3⟩
  cases e1
  cases e2
  cases e3

/-- `S <- (A ';' / %recover(e))*; A <- 'a'; %recover(x) <- x; e <- (!';' .)* ';'` (the error label with its recovery expression). -/
def rvCfg (inp : List Byte) : Cfg Nat where
  input := inp
  rules := [⟨[83], .rep (.cho [.seq [.ref 1 [65] [], .lit [59] false] none, .recov 2 [37] [.ref 3 [101] []]] false []) 0 none none,
      false, [], false, false, false, true, true, [], false, false, none⟩,
    ⟨[65], .lit [97] false, false, [], false, false, false, false, false, [], false, true, none⟩,
    ⟨[37], .param 0 [120], true, [[120]], false, false, false, false, false, [], false, false, none⟩,
    ⟨[101], .seq [.rep (.seq [.not_ (.lit [59] false), .dot] none) 0 none none, .lit [59] false] none,
      false, [], false, false, false, false, false, [], false, false, none⟩]
  needsRuleStack := true

/-- Two errors recovered on "b;a;c;a;": two reports, at 0 and 4. -/
example : ∃ a, Answers (rvCfg [98, 59, 97, 59, 99, 59, 97, 59]) 0 true true none a ∧ a.ok = false ∧ a.logs.map (·.pos) = [0, 4] := by
  have h : (match parserParse 60 (rvCfg [98, 59, 97, 59, 99, 59, 97, 59]) 0 true true none with
    | .ok a => some (a.ok, a.logs.map (·.pos)) | _ => none) = some (false, [0, 4]) := by decide +kernel
  cases hp : parserParse 60 (rvCfg [98, 59, 97, 59, 99, 59, 97, 59]) 0 true true none with
  | ok a =>
    rw [hp] at h
    simp only [Option.some.injEq, Prod.mk.injEq] at h
    exact ⟨a, ⟨60, hp⟩, h.1, h.2⟩
  | ub s => rw [hp] at h; cases h
  | oof => rw [hp] at h; cases h

end Verif.Props
