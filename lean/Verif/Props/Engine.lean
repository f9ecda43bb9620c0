import Verif.Parses
/-!
# Properties of the operators (C16-C21, C23-C26, C45, C46)

All statements are about `Parses cfg e i st r st'` (a finished execution of operator `e`), `Answers` (a finished execution
of `parser::parse`), and the fields of the context.  `Pre cfg i st` says that the context is one a parse can be in;
`start_ready` shows that the context a parse starts with is one, `C26_context_stays_sane` that execution leads to such
contexts only.
-/

namespace Verif.Props
open Verif Out CharClass

variable {V : Type}

/-- A finished call of `parser::parse_n` with start rule `r`. -/
def Answers (cfg : Cfg V) (r : Nat) (eoi log : Bool) (dt : Option V) (a : Answer V) : Prop :=
  ∃ n, parserParse n cfg r eoi log dt = .ok a

/-- The context every parse starts with is sane. -/
theorem start_ready {cfg : Cfg V} (hs : SlotsOk cfg) (dt : Option V) (log : Bool) :
    Pre cfg 0 ({ dt := dt, logOn := log } : St V) :=
  Fresh.ready ⟨rfl, rfl, rfl, rfl⟩ hs (Nat.zero_le _)

/-- Inversion of a finished run of an operator. -/
theorem Parses.inv {cfg : Cfg V} {e : Ope} {i : Nat} {st : St V} {r : Option Nat} {st' : St V}
    (h : Parses cfg e i st r st') : ∃ n, parseOpe (run n) cfg e i st = .ok (r, st') := parses_iff.mp h

/-- Unfold the dispatch of `parseOpe` in a hypothesis, given the proof that the position is in the input. -/
macro "open_ope " h:ident ", " hp:term : tactic =>
  `(tactic| (unfold parseOpe at $h:ident; rw [if_neg (Nat.not_lt.mpr $hp)] at $h:ident; dsimp only at $h:ident))

/-! ## A concrete grammar for the examples

`S <- $q<[a-b]> (&'b' 'bc' / !'a' 'b' $q / ↑ 'a' / .) <'a'*>   %whitespace <- ' '*`  -/

/-- Grammars without precedence operator and with the default user parsers satisfy `FrameOk`. -/
theorem frameOk_of {cfg : Cfg V} (hr : ∀ d ∈ cfg.rules, d.ope.noPrec = true) (hw : ∀ w, cfg.ws = some w → w.noPrec = true)
    (hu : cfg.user = fun _ _ f d => (none, f, d)) : FrameOk cfg := by
  refine ⟨fun r d h _ _ => hr d (List.mem_of_getElem? h), fun _ r d h => hr d (List.mem_of_getElem? h), hw, ?_⟩
  intro id i f dt
  rw [hu]
  exact ⟨List.prefix_refl _, List.prefix_refl _, List.prefix_refl _, rfl⟩

theorem slotsOk_of {cfg : Cfg V} (h : cfg.packrat = false) : SlotsOk cfg := by
  intro h'; rw [h] at h'; cases h'

def exAlts : List Ope :=
  [.seq [.and_ (.lit [98] false), .lit [98, 99] false] none, .seq [.not_ (.lit [97] false), .lit [98] false, .bref [113]] none,
   .seq [.cut, .lit [97] false] none, .dot]

def exTok : Ope := .tok (.rep (.lit [97] false) 0 none none)

def exSeq : Ope := .seq [.cap [113] (.cls ⟨[(97, 98)], false, false⟩), .cho exAlts false [], exTok] none

/-- The input "bbb aaa ". -/
def exCfg : Cfg Nat :=
  { input := [98, 98, 98, 32, 97, 97, 97, 32]
    rules := [{ name := [83], ope := exSeq }]
    ws := some (.ws (.ign (.rep (.lit [32] false) 0 none none))) }

theorem exFrameOk : FrameOk exCfg := frameOk_of (by decide) (by intro w h; cases h; decide) rfl

theorem exPre (dt : Option Nat) : Pre exCfg 0 ({ dt := dt, logOn := true } : St Nat) :=
  start_ready (slotsOk_of rfl) dt true

/-- What an operator does on the example input, for the examples. -/
structure Shown where
  res : Option Nat
  vals : List (Option Nat)
  tokens : List (Nat × Nat)
  choice : Nat
  caps : List (List Byte × List Byte)
  cut : List Bool
  deriving DecidableEq

def shown (r : Option Nat) (st : St Nat) : Shown := ⟨r, st.vs.vals, st.vs.tokens, st.vs.choice, st.caps, st.cut⟩

def outcome (x : Out (Res Nat)) : Option Shown :=
  match x with
  | .ok (r, st) => some (shown r st)
  | _ => none

theorem parses_of_outcome {cfg : Cfg Nat} {e : Ope} {i : Nat} {st : St Nat} {n : Nat} {o : Shown}
    (h : outcome (run n cfg (.ope e) i st) = some o) :
    ∃ st', Parses cfg e i st o.res st' ∧ shown o.res st' = o := by
  unfold outcome at h
  split at h
  · rename_i r' st' hx
    cases h
    exact ⟨st', ⟨n, hx⟩, rfl⟩
  · cases h

/-- The example sequence matches "bbb aaa " completely: capture "b", second alternative, token (4, 3). -/
theorem exRun : ∃ st', Parses exCfg exSeq 0 ({ logOn := true } : St Nat) (some 8) st' ∧
    shown (some 8) st' = ⟨some 8, [], [(4, 3)], 1, [([113], [98])], []⟩ :=
  parses_of_outcome (n := 20) (o := ⟨some 8, [], [(4, 3)], 1, [([113], [98])], []⟩) (by decide +kernel)

/-! ## C16: a match stays inside the input -/

/-- Every successful (sub)match ends inside the input, at or after its start. -/
theorem C16_match_in_bounds {cfg : Cfg V} {e : Ope} {i j : Nat} {st st' : St V} (hp : Pre cfg i st)
    (h : Parses cfg e i st (some j) st') : i ≤ j ∧ j ≤ cfg.input.length :=
  (h.P hp).bounds j rfl

theorem parseCore_bounds {n : Nat} {cfg : Cfg V} {r : Nat} {eoi : Bool} {st : St V} {res : Result V}
    (hp : Pre cfg 0 st) (h : parseCore n cfg r eoi st = .ok res) :
    res.len ≤ cfg.input.length ∧ StOk cfg res.st ∧ Keep st res.st := by
  unfold parseCore at h
  dsimp only at h
  rw [bind_eq_ok] at h
  obtain ⟨⟨a, s⟩, h1, h⟩ := h
  have p1 : P cfg 0 st (a, s) := by
    split at h1
    · cases h1; exact P.stay hp.ok hp.le
    · exact (run_good n).ope hp.slots hp.ok hp.le h1
  cases a with
  | none => cases h; exact ⟨Nat.zero_le _, p1.ok, p1.keep⟩
  | some i =>
    dsimp only at h
    rw [bind_eq_ok] at h
    obtain ⟨⟨b, s2⟩, h2, h⟩ := h
    have hp2 := hp.step p1
    have p2 := p1.seq ((run_good n).hold hp2.slots hp2.ok hp2.le h2)
    cases b with
    | none => cases h; exact ⟨hp2.le, p2.ok, p2.keep⟩
    | some j =>
      cases h
      unfold eoiCheck
      dsimp only
      have hb := (p2.bounds j rfl).2
      split
      · refine ⟨hb, ?_, ?_⟩
        · split
          · exact p2.ok.same ⟨rfl, rfl, rfl⟩
          · exact p2.ok
        · split
          · exact p2.keep.trans ⟨rfl, rfl, rfl, rfl, rfl, rfl, rfl, rfl, rfl, List.prefix_refl _, List.prefix_refl _, List.prefix_refl _, id⟩
          · exact p2.keep
      · exact ⟨hb, p2.ok, p2.keep⟩

theorem Answers.core {cfg : Cfg V} {r : Nat} {eoi log : Bool} {dt : Option V} {a : Answer V}
    (h : Answers cfg r eoi log dt a) :
    ∃ n, parseCore n cfg r eoi { dt := dt, logOn := log } = .ok a.res ∧ a.ok = (a.res.ret && !a.res.recovered) ∧
      a.val = deliver a.res := by
  obtain ⟨n, h⟩ := h
  unfold parserParse at h
  rw [bind_eq_ok] at h
  obtain ⟨res, h1, h2⟩ := h
  refine ⟨n, ?_⟩
  unfold postProcess at h2
  split at h2
  · rw [bind_eq_ok] at h2
    obtain ⟨o, -, h3⟩ := h2
    cases h3; exact ⟨h1, rfl, rfl⟩
  · cases h2; exact ⟨h1, rfl, rfl⟩

/-- The length reported by a whole parse is at most the length of the input. -/
theorem C16_parse_in_bounds {cfg : Cfg V} {r : Nat} {eoi log : Bool} {dt : Option V} {a : Answer V} (hs : SlotsOk cfg)
    (h : Answers cfg r eoi log dt a) : a.res.len ≤ cfg.input.length := by
  obtain ⟨n, h, -⟩ := h.core
  exact (parseCore_bounds (start_ready hs dt log) h).1

/-- Not vacuous: the example sequence satisfies the hypotheses (and consumes everything). -/
example : ∃ st', Parses exCfg exSeq 0 ({ logOn := true } : St Nat) (some 8) st' ∧ 0 ≤ 8 ∧ 8 ≤ exCfg.input.length := by
  obtain ⟨st', h, -⟩ := exRun
  exact ⟨st', h, C16_match_in_bounds (exPre none) h⟩

theorem answers_of {cfg : Cfg Nat} {r : Nat} {eoi log : Bool} {dt : Option Nat} {n len : Nat} {b : Bool}
    (h : (match parserParse n cfg r eoi log dt with | .ok a => some (a.ok, a.res.len) | _ => none) = some (b, len)) :
    ∃ a, Answers cfg r eoi log dt a ∧ a.ok = b ∧ a.res.len = len := by
  split at h
  · rename_i a ha; cases h; exact ⟨a, ⟨n, ha⟩, rfl, rfl⟩
  · cases h

/-- The whole parse of the example succeeds with length 8. -/
theorem exAnswer : ∃ a, Answers exCfg 0 true true none a ∧ a.ok = true ∧ a.res.len = 8 :=
  answers_of (n := 20) (by decide +kernel)

example : ∃ a, Answers exCfg 0 true true none a ∧ a.res.len ≤ exCfg.input.length := by
  obtain ⟨a, h, -⟩ := exAnswer
  exact ⟨a, h, C16_parse_in_bounds (slotsOk_of rfl) h⟩

/-! ## C17: determinism -/

/-- A finished (sub)parse has only one result and one final context. -/
theorem C17_deterministic {cfg : Cfg V} {e : Ope} {i : Nat} {st : St V} {r r' : Option Nat} {s s' : St V}
    (h : Parses cfg e i st r s) (h' : Parses cfg e i st r' s') : r = r' ∧ s = s' := h.unique h'

theorem parserParse_le {n m : Nat} (h : n ≤ m) (cfg : Cfg V) (r : Nat) (eoi log : Bool) (dt : Option V) :
    Le (parserParse n cfg r eoi log dt) (parserParse m cfg r eoi log dt) :=
  Le.bind (parseCore_le h cfg r eoi _) fun _ => Le.refl _

/-- Two finished calls of `parse` on the same grammar, callbacks, input and datum answer the same: result, value and error
reports. -/
theorem C17_parse_deterministic {cfg : Cfg V} {r : Nat} {eoi log : Bool} {dt : Option V} {a a' : Answer V}
    (h : Answers cfg r eoi log dt a) (h' : Answers cfg r eoi log dt a') : a = a' := by
  obtain ⟨n, h⟩ := h
  obtain ⟨m, h'⟩ := h'
  have h1 := (parserParse_le (Nat.le_max_left n m) cfg r eoi log dt).eq_ok h
  have h2 := (parserParse_le (Nat.le_max_right n m) cfg r eoi log dt).eq_ok h'
  rw [h1] at h2; cases h2; rfl

/-- More stack never changes an answer: if a parse answers (or runs into undefined behaviour) with room for `n` nested calls
it does exactly the same with room for more. -/
theorem C17_more_stack_same_answer {n m : Nat} (h : n ≤ m) (cfg : Cfg V) (r : Nat) (eoi log : Bool) (dt : Option V)
    (hn : parserParse n cfg r eoi log dt ≠ .oof) :
    parserParse m cfg r eoi log dt = parserParse n cfg r eoi log dt := by
  rcases parserParse_le h cfg r eoi log dt with h | h
  · exact absurd h hn
  · exact h.symm

example : ∃ a, Answers exCfg 0 true true none a ∧ ∀ a', Answers exCfg 0 true true none a' → a' = a := by
  obtain ⟨a, h, -⟩ := exAnswer
  exact ⟨a, h, fun a' h' => C17_parse_deterministic h' h⟩

example : parserParse 20 exCfg 0 true true none ≠ .oof ∧ ∀ m ≥ 20,
    parserParse m exCfg 0 true true none = parserParse 20 exCfg 0 true true none := by
  have h : (match parserParse 20 exCfg 0 true true none with | .oof => true | _ => false) = false := by decide +kernel
  have hne : parserParse 20 exCfg 0 true true none ≠ .oof := by
    intro he; rw [he] at h; cases h
  exact ⟨hne, fun m hm => C17_more_stack_same_answer hm _ _ _ _ _ hne⟩

/-! ## C18: predicates -/

/-- `&e`: succeeds iff `e` does, ends where it started, and leaves the semantic values (values, tags, tokens, choice)
and the captures exactly as they were. -/
theorem C18_and {cfg : Cfg V} {e : Ope} {i : Nat} {st : St V} {r : Option Nat} {st' : St V}
    (hk : FrameOk cfg) (hp : Pre cfg i st) (he : e.noPrec = true) (h : Parses cfg (.and_ e) i st r st') :
    (∃ x s, Parses cfg e i st x s ∧ ((x = none ∧ r = none) ∨ (∃ j, x = some j ∧ r = some i))) ∧
      st'.vs = st.vs ∧ st'.caps = st.caps := by
  obtain ⟨n, h⟩ := Parses.inv h
  open_ope h, hp.le
  refine ⟨?_, parseAnd_E (run_good n) (run_goodF n) hk hp he h⟩
  unfold parseAnd at h
  rw [bind_eq_ok] at h
  obtain ⟨⟨x, s⟩, h1, h⟩ := h
  cases h
  refine ⟨x, s, ⟨n, h1⟩, ?_⟩
  cases x with
  | none => exact Or.inl ⟨rfl, rfl⟩
  | some j => exact Or.inr ⟨j, rfl, rfl⟩

/-- `!e`: succeeds iff `e` fails, ends where it started, and leaves semantic values and captures exactly as they were. -/
theorem C18_not {cfg : Cfg V} {e : Ope} {i : Nat} {st : St V} {r : Option Nat} {st' : St V}
    (hk : FrameOk cfg) (hp : Pre cfg i st) (he : e.noPrec = true) (h : Parses cfg (.not_ e) i st r st') :
    (∃ x s, Parses cfg e i st x s ∧ ((x = none ∧ r = some i) ∨ (∃ j, x = some j ∧ r = none))) ∧
      st'.vs = st.vs ∧ st'.caps = st.caps := by
  obtain ⟨n, h⟩ := Parses.inv h
  open_ope h, hp.le
  refine ⟨?_, parseNot_E (run_good n) (run_goodF n) hk hp he h⟩
  unfold parseNot at h
  rw [bind_eq_ok] at h
  obtain ⟨⟨x, s⟩, h1, h⟩ := h
  refine ⟨x, s, ⟨n, h1⟩, ?_⟩
  cases x with
  | none => cases h; exact Or.inl ⟨rfl, rfl⟩
  | some j => cases h; exact Or.inr ⟨j, rfl, rfl⟩

/-- `&($q<'bb'> <'b'>)` succeeds on "bbb aaa " and leaves nothing. -/
example : ∃ st', Parses exCfg (.and_ (.seq [.cap [113] (.lit [98, 98] false), .tok (.lit [98] false)] none)) 0
    ({ logOn := true } : St Nat) (some 0) st' ∧ st'.vs = ({ logOn := true } : St Nat).vs ∧ st'.caps = [] := by
  obtain ⟨st', h, -⟩ := parses_of_outcome (cfg := exCfg) (st := { logOn := true }) (i := 0) (n := 20)
    (e := .and_ (.seq [.cap [113] (.lit [98, 98] false), .tok (.lit [98] false)] none))
    (o := ⟨some 0, [], [], 0, [], []⟩) (by decide +kernel)
  exact ⟨st', h, (C18_and exFrameOk (exPre none) (by decide) h).2⟩

/-- `!($q<'bb'> 'x')` succeeds on "bbb aaa ". -/
example : ∃ st', Parses exCfg (.not_ (.seq [.cap [113] (.lit [98, 98] false), .lit [120] false] none)) 0
    ({ logOn := true } : St Nat) (some 0) st' ∧ st'.vs = ({ logOn := true } : St Nat).vs ∧ st'.caps = [] := by
  obtain ⟨st', h, -⟩ := parses_of_outcome (cfg := exCfg) (st := { logOn := true }) (i := 0) (n := 20)
    (e := .not_ (.seq [.cap [113] (.lit [98, 98] false), .lit [120] false] none))
    (o := ⟨some 0, [], [], 0, [], []⟩) (by decide +kernel)
  exact ⟨st', h, (C18_not exFrameOk (exPre none) (by decide) h).2⟩

/-! ## C19, C23: ordered choice -/

/-- Alternative `m` was rejected: its first set excludes the next byte, or it was tried at `i` with the scope and captures
of the choice, failed, and (if cuts are tracked) left the cut flag unset. -/
def Rejected (cfg : Cfg V) (fs : List FirstSet) (es : List Ope) (i : Nat) (st : St V) (m : Nat) : Prop :=
  fsSkip fs[m]? (cfg.rest i) = true ∨
    ∃ e t t', es[m]? = some e ∧ t.vs = st.vs ∧ t.caps = st.caps ∧ Parses cfg e i t none t' ∧
      (cfg.hasCut = true → t'.cut.headD false = false)

theorem choLoop_inv {n : Nat} {cfg : Cfg V} {total : Nat} {fs : List FirstSet} (hk : FrameOk cfg) {i : Nat} :
    ∀ {es : List Ope} {id : Nat} {st : St V} {r : Option Nat} {st' : St V}, Pre cfg i st →
      (∀ e ∈ es, e.noPrec = true) → choLoop (run n) cfg total fs es id i st = .ok (r, st') →
      ∃ k, (∀ m < k, fsSkip fs[id + m]? (cfg.rest i) = true ∨
          ∃ e t t', es[m]? = some e ∧ t.vs = st.vs ∧ t.caps = st.caps ∧ Parses cfg e i t none t' ∧
            (cfg.hasCut = true → t'.cut.headD false = false)) ∧
        ((∃ e t t' j, es[k]? = some e ∧ r = some j ∧ t.vs = st.vs ∧ t.caps = st.caps ∧ Parses cfg e i t (some j) t' ∧
            st' = t'.setChoice total (id + k)) ∨
         (r = none ∧ st'.vs = st.vs ∧ st'.caps = st.caps ∧
           (k = es.length ∨ ∃ e t t', es[k]? = some e ∧ t.vs = st.vs ∧ t.caps = st.caps ∧ Parses cfg e i t none t' ∧
             cfg.hasCut = true ∧ t'.cut.headD false = true))) := by
  intro es
  induction es with
  | nil =>
    intro id st r st' _ _ h
    cases h
    exact ⟨0, by intro m hm; omega, Or.inr ⟨rfl, rfl, rfl, Or.inl rfl⟩⟩
  | cons e es ih =>
    intro id st r st' hp he h
    have hall : ∀ e ∈ es, e.noPrec = true := fun x hx => he x (List.mem_cons_of_mem _ hx)
    unfold choLoop at h
    by_cases hsk : fsSkip fs[id]? (cfg.rest i) = true
    · simp only [hsk, if_true] at h
      have hvs : (fsErr st (fs[id]?.getD {}) id i).vs = st.vs := by unfold fsErr; split <;> rfl
      have hcs : (fsErr st (fs[id]?.getD {}) id i).caps = st.caps := by unfold fsErr; split <;> rfl
      obtain ⟨k, h1, h2⟩ := ih (hp.same (same_fsErr _ _ _ _) (keep_fsErr _ _ _ _).args) hall h
      rw [hvs, hcs] at h1 h2
      refine ⟨k + 1, ?_, ?_⟩
      · intro m hm
        cases m with
        | zero => exact Or.inl hsk
        | succ m => have := h1 m (by omega); rwa [show id + 1 + m = id + (m + 1) by omega] at this
      · rw [show id + 1 + k = id + (k + 1) by omega] at h2
        rcases h2 with h | ⟨a1, a2, a3, rfl | h⟩
        · exact Or.inl h
        · exact Or.inr ⟨a1, a2, a3, Or.inl rfl⟩
        · exact Or.inr ⟨a1, a2, a3, Or.inr h⟩
    · simp only [hsk, Bool.false_eq_true, if_false] at h
      rw [bind_eq_ok] at h
      obtain ⟨⟨a, st1⟩, h1, h⟩ := h
      have hq : Pre cfg i ((resetCut cfg st).setKeep (decide (id > 0))) :=
        (hp.same (same_resetCut cfg st) (keep_resetCut cfg st).args).same (same_setKeep _ _) rfl
      have hvs : ((resetCut cfg st).setKeep (decide (id > 0))).vs = st.vs := vs_resetCut (run_good n) (run_goodF n) cfg st
      have hcs : ((resetCut cfg st).setKeep (decide (id > 0))).caps = st.caps := by
        show (resetCut cfg st).caps = _
        unfold resetCut; split
        · unfold St.setCut; split <;> rfl
        · rfl
      have hpar : Parses cfg e i ((resetCut cfg st).setKeep (decide (id > 0))) a st1 := ⟨n, h1⟩
      have x := hpar.ext hk hq (he e List.mem_cons_self)
      have pk := (hpar.P hq).keep.caps
      rw [hcs] at pk
      have x' : Ext st st1 := ⟨hvs ▸ x.vals, hvs ▸ x.tags, hvs ▸ x.tokens, by rw [x.name, hvs]⟩
      obtain ⟨rv, rc⟩ := rollback_exact x' pk
      cases a with
      | some j =>
        cases h
        exact ⟨0, by intro m hm; omega, Or.inl ⟨e, _, st1, j, rfl, rfl, hvs, hcs, hpar, rfl⟩⟩
      | none =>
        dsimp only at h
        by_cases hc : (cfg.hasCut && (st1.rollback st.snapshot).cut.headD false) = true
        · rw [if_pos hc] at h
          cases h
          rw [Bool.and_eq_true] at hc
          exact ⟨0, by intro m hm; omega,
            Or.inr ⟨rfl, rv, rc, Or.inr ⟨e, _, st1, rfl, hvs, hcs, hpar, hc.1, hc.2⟩⟩⟩
        · rw [if_neg hc] at h
          have p2 : P cfg i st (none, st1.rollback st.snapshot) := by
            have p := P.pre ((keep_resetCut cfg st).trans (keep_setKeep _ (decide (id > 0))))
              (same_resetCut cfg st).lrActive (hpar.P hq)
            exact P.fail (p.ok.same (same_rollback _ _)) (keep_rollback p.keep) p.act
          obtain ⟨k, h2, h3⟩ := ih (hp.after p2) hall h
          rw [rv, rc] at h2 h3
          refine ⟨k + 1, ?_, ?_⟩
          · intro m hm
            cases m with
            | zero =>
              refine Or.inr ⟨e, _, st1, rfl, hvs, hcs, hpar, ?_⟩
              intro hcut
              rw [hcut, Bool.true_and] at hc
              exact Bool.eq_false_iff.mpr hc
            | succ m => have := h2 m (by omega); rwa [show id + 1 + m = id + (m + 1) by omega] at this
          · rw [show id + 1 + k = id + (k + 1) by omega] at h3
            rcases h3 with h | ⟨a1, a2, a3, rfl | h⟩
            · exact Or.inl h
            · exact Or.inr ⟨a1, a2, a3, Or.inl rfl⟩
            · exact Or.inr ⟨a1, a2, a3, Or.inr h⟩

theorem parseCho_inv {cfg : Cfg V} {es : List Ope} {l : Bool} {fs : List FirstSet} {i : Nat} {st : St V}
    {r : Option Nat} {st' : St V} (hk : FrameOk cfg) (hp : Pre cfg i st) (he : ∀ e ∈ es, e.noPrec = true)
    (hh : Parses cfg (.cho es l fs) i st r st') :
    ∃ k, (∀ m < k, Rejected cfg fs es i st m) ∧
      ((∃ e t t' j, es[k]? = some e ∧ r = some j ∧ t.vs = st.vs ∧ t.caps = st.caps ∧ Parses cfg e i t (some j) t' ∧
          st'.vs = { t'.vs with choiceCount := es.length, choice := k } ∧ st'.caps = t'.caps) ∨
       (r = none ∧ st'.vs = st.vs ∧ st'.caps = st.caps ∧
         (k = es.length ∨ ∃ e t t', es[k]? = some e ∧ t.vs = st.vs ∧ t.caps = st.caps ∧ Parses cfg e i t none t' ∧
             cfg.hasCut = true ∧ t'.cut.headD false = true))) := by
  obtain ⟨n, h⟩ := Parses.inv hh
  open_ope h, hp.le
  unfold parseCho at h
  rw [after_ok] at h
  obtain ⟨a, st1, h, e1⟩ := h
  injection e1 with ea eb
  subst ea; subst eb
  have hq : Pre cfg i (pushCut (cfg.hasCut && !l) st) := by
    unfold pushCut; split
    · exact hp.same ⟨rfl, rfl, rfl⟩ rfl
    · exact hp
  have hvs : (pushCut (cfg.hasCut && !l) st).vs = st.vs := by unfold pushCut; split <;> rfl
  have hcs : (pushCut (cfg.hasCut && !l) st).caps = st.caps := by unfold pushCut; split <;> rfl
  have xvs : ∀ s : St V, (choExit (cfg.hasCut && !l) s).vs = s.vs := by intro s; unfold choExit; split <;> rfl
  have xcs : ∀ s : St V, (choExit (cfg.hasCut && !l) s).caps = s.caps := by intro s; unfold choExit; split <;> rfl
  obtain ⟨k, h1, h2⟩ := choLoop_inv hk hq he h
  rw [hvs, hcs] at h1 h2
  simp only [Nat.zero_add] at h1 h2
  refine ⟨k, h1, ?_⟩
  rw [xvs, xcs]
  rcases h2 with ⟨e, t, t', j, b1, b2, b3, b4, b5, rfl⟩ | h2
  · exact Or.inl ⟨e, t, t', j, b1, b2, b3, b4, b5, rfl, rfl⟩
  · exact Or.inr h2

/-- A successful choice `e0 / e1 / ...`: it is the success of one alternative `k`, executed at the position of the choice
with the scope and captures the choice was given; every earlier alternative was rejected; the scope afterwards is the one
that alternative produced, with `choice() = k` and `choice_count()` the number of alternatives. -/
theorem C19_choice_success {cfg : Cfg V} {es : List Ope} {l : Bool} {fs : List FirstSet} {i j : Nat} {st st' : St V}
    (hk : FrameOk cfg) (hp : Pre cfg i st) (he : ∀ e ∈ es, e.noPrec = true)
    (h : Parses cfg (.cho es l fs) i st (some j) st') :
    ∃ k e t t', es[k]? = some e ∧ (∀ m < k, Rejected cfg fs es i st m) ∧
      t.vs = st.vs ∧ t.caps = st.caps ∧ Parses cfg e i t (some j) t' ∧
      st'.vs = { t'.vs with choiceCount := es.length, choice := k } ∧ st'.caps = t'.caps := by
  obtain ⟨k, h1, h2⟩ := parseCho_inv hk hp he h
  rcases h2 with ⟨e, t, t', j', a1, a2, a3, a4, a5, a6, a7⟩ | ⟨h2, -⟩
  · cases a2; exact ⟨k, e, t, t', a1, h1, a3, a4, a5, a6, a7⟩
  · cases h2

/-- A failed choice: every alternative was rejected, or the alternatives up to one that failed after passing a cut were;
nothing is left in the scope or the captures. -/
theorem C19_choice_failure {cfg : Cfg V} {es : List Ope} {l : Bool} {fs : List FirstSet} {i : Nat} {st st' : St V}
    (hk : FrameOk cfg) (hp : Pre cfg i st) (he : ∀ e ∈ es, e.noPrec = true)
    (h : Parses cfg (.cho es l fs) i st none st') :
    st'.vs = st.vs ∧ st'.caps = st.caps ∧ ∃ k, (∀ m < k, Rejected cfg fs es i st m) ∧
      (k = es.length ∨ ∃ e t t', es[k]? = some e ∧ t.vs = st.vs ∧ t.caps = st.caps ∧ Parses cfg e i t none t' ∧
             cfg.hasCut = true ∧ t'.cut.headD false = true) := by
  obtain ⟨k, h1, h2⟩ := parseCho_inv hk hp he h
  rcases h2 with ⟨e, t, t', j', a1, a2, -⟩ | ⟨-, a, b, c⟩
  · cases a2
  · exact ⟨a, b, k, h1, c⟩

/-- The choice of the example (without the back reference) takes its second alternative at offset 0. -/
example : ∃ st' k, Parses exCfg (.cho [.lit [97] false, .lit [98, 98] false, .dot] false []) 0
    ({ logOn := true } : St Nat) (some 2) st' ∧ Rejected exCfg [] [.lit [97] false, .lit [98, 98] false, .dot] 0
      ({ logOn := true } : St Nat) 0 ∧ st'.vs.choice = k ∧ st'.vs.choiceCount = 3 ∧ k = 1 := by
  obtain ⟨st', h, hs⟩ := parses_of_outcome (cfg := exCfg) (st := { logOn := true }) (i := 0) (n := 20)
    (e := .cho [.lit [97] false, .lit [98, 98] false, .dot] false []) (o := ⟨some 2, [], [], 1, [], []⟩)
    (by decide +kernel)
  obtain ⟨k, e, t, t', h1, h2, -, -, -, h3, -⟩ := C19_choice_success exFrameOk (exPre none) (by decide) h
  have hk : st'.vs.choice = k := by rw [h3]
  have hk1 : st'.vs.choice = 1 := by have := congrArg Shown.choice hs; exact this
  have : k = 1 := hk.symm.trans hk1
  subst this
  exact ⟨st', 1, h, h2 0 (by omega), hk1, by rw [h3]; rfl, rfl⟩

/-- A choice that fails after a cut in its first alternative although the second would match. -/
example : ∃ st', Parses exCfg (.cho [.seq [.cut, .lit [97] false] none, .dot] false []) 0
    ({ logOn := true } : St Nat) none st' ∧ st'.vs = ({ logOn := true } : St Nat).vs := by
  obtain ⟨st', h, hs⟩ := parses_of_outcome (cfg := exCfg) (st := { logOn := true }) (i := 0) (n := 20)
    (e := .cho [.seq [.cut, .lit [97] false] none, .dot] false []) (o := ⟨none, [], [], 0, [], []⟩)
    (by decide +kernel)
  exact ⟨st', h, (C19_choice_failure exFrameOk (exPre none) (by decide) h).1⟩

/-! ## C20: sequences -/

/-- A sequence succeeds, ending at `j` in context `st'`, iff its elements succeed one after the other, each from where
(and in the context in which) the previous one stopped. -/
theorem C20_sequence_success {cfg : Cfg V} {es : List Ope} {i j : Nat} {st st' : St V} (hi : i ≤ cfg.input.length) :
    Parses cfg (.seq es none) i st (some j) st' ↔ SeqRun cfg es i st j st' := by
  rw [parses_iff, ← seqLoop_some]
  simp only [parseOpe, if_neg (Nat.not_lt.mpr hi), parseSeq, Option.bind_none]

/-- A sequence fails iff some element fails where the elements before it stopped. -/
theorem C20_sequence_failure {cfg : Cfg V} {es : List Ope} {i : Nat} {st st' : St V} (hi : i ≤ cfg.input.length) :
    Parses cfg (.seq es none) i st none st' ↔
      ∃ front e back k s, es = front ++ e :: back ∧ SeqRun cfg front i st k s ∧ Parses cfg e k s none st' := by
  rw [parses_iff, ← seqLoop_none]
  simp only [parseOpe, if_neg (Nat.not_lt.mpr hi), parseSeq, Option.bind_none]

/-- Values, tags and tokens of a sequence: those that were there, then those of the first element, then those of the
rest. -/
theorem C20_sequence_values {cfg : Cfg V} {e : Ope} {es : List Ope} {i j : Nat} {st st' : St V}
    (hk : FrameOk cfg) (hp : Pre cfg i st) (he : ∀ x ∈ e :: es, x.noPrec = true)
    (h : Parses cfg (.seq (e :: es) none) i st (some j) st') :
    ∃ k s v1 v2 t1 t2 o1 o2, Parses cfg e i st (some k) s ∧ Parses cfg (.seq es none) k s (some j) st' ∧
      s.vs.vals = st.vs.vals ++ v1 ∧ st'.vs.vals = st.vs.vals ++ v1 ++ v2 ∧
      s.vs.tags = st.vs.tags ++ t1 ∧ st'.vs.tags = st.vs.tags ++ t1 ++ t2 ∧
      s.vs.tokens = st.vs.tokens ++ o1 ∧ st'.vs.tokens = st.vs.tokens ++ o1 ++ o2 := by
  rw [C20_sequence_success hp.le] at h
  cases h with
  | @cons _ _ _ _ k s _ _ h1 h2 =>
    have x1 := h1.ext hk hp (he e List.mem_cons_self)
    have hp2 := h1.pre hp
    have x2 := h2.ext hk hp2 fun x hx => he x (List.mem_cons_of_mem _ hx)
    obtain ⟨v1, hv1⟩ := x1.vals
    obtain ⟨v2, hv2⟩ := x2.vals
    obtain ⟨t1, ht1⟩ := x1.tags
    obtain ⟨t2, ht2⟩ := x2.tags
    obtain ⟨o1, ho1⟩ := x1.tokens
    obtain ⟨o2, ho2⟩ := x2.tokens
    refine ⟨k, s, v1, v2, t1, t2, o1, o2, h1, (C20_sequence_success hp2.le).mpr h2, hv1.symm, ?_, ht1.symm, ?_,
      ho1.symm, ?_⟩
    · rw [hv1, hv2]
    · rw [ht1, ht2]
    · rw [ho1, ho2]

example : ∃ st', SeqRun exCfg [.cap [113] (.cls ⟨[(97, 98)], false, false⟩), .cho exAlts false [], exTok] 0
    ({ logOn := true } : St Nat) 8 st' ∧ st'.vs.tokens = [(4, 3)] := by
  obtain ⟨st', h, hs⟩ := exRun
  exact ⟨st', (C20_sequence_success (Nat.zero_le _)).mp h, congrArg Shown.tokens hs⟩

example : ∃ st' o1 o2, Parses exCfg exSeq 0 ({ logOn := true } : St Nat) (some 8) st' ∧
    st'.vs.tokens = ({ logOn := true } : St Nat).vs.tokens ++ o1 ++ o2 := by
  obtain ⟨st', h, hs⟩ := exRun
  obtain ⟨k, s, v1, v2, t1, t2, o1, o2, -, -, -, -, -, -, -, h2⟩ :=
    C20_sequence_values exFrameOk (exPre none) (by decide) h
  exact ⟨st', o1, o2, h, h2⟩

/-! ## C21: repetition -/

/-- A successful repetition `e{mn,mx}`: `k` successive matches of `e` with `mn ≤ k ≤ mx`; it stopped because `k` reached
the maximum, or because one more `e` fails there, and that attempt left neither values nor captures.  (`mx` below `mn` can be
written but means nothing; then exactly `mn` iterations are made.) -/
theorem C21_repetition_success {cfg : Cfg V} {e : Ope} {mn : Nat} {mx : Option Nat} {i j : Nat} {st st' : St V}
    (hk : FrameOk cfg) (hp : Pre cfg i st) (he : e.noPrec = true)
    (h : Parses cfg (.rep e mn mx none) i st (some j) st') :
    ∃ k s, IterRun cfg e k i st j s ∧ mn ≤ k ∧ (∀ m, mx = some m → mn ≤ m → k ≤ m) ∧
      st'.vs = s.vs ∧ st'.caps = s.caps ∧
      ((∃ m, mx = some m ∧ m ≤ k) ∨ ∃ s', Parses cfg e j s none s') := by
  obtain ⟨n, h⟩ := Parses.inv h
  open_ope h, hp.le
  unfold parseRep at h
  rw [andThen_ok] at h
  rcases h with ⟨s, h, he⟩ | ⟨p, s, h1, h2⟩
  · cases he
  · have i1 := repMin_some h1
    obtain ⟨k, j', s2, hj, i2, hm, hst⟩ := rep_run h2
    cases hj
    refine ⟨mn + k, s2, i1.append i2, Nat.le_add_right _ _, hm, ?_⟩
    have hp2 := ((i1.append i2).pre hp).1
    rcases hst with ⟨hmx, rfl⟩ | ⟨s3, h3, rfl⟩
    · exact ⟨rfl, rfl, Or.inl hmx⟩
    · obtain ⟨a, b⟩ := rollback_exact (h3.ext hk hp2 he) (h3.P hp2).keep.caps
      exact ⟨a, b, Or.inr ⟨s3, h3⟩⟩

/-- A repetition fails only because `e` failed after fewer than `mn` iterations. -/
theorem C21_repetition_failure {cfg : Cfg V} {e : Ope} {mn : Nat} {mx : Option Nat} {i : Nat} {st st' : St V}
    (hi : i ≤ cfg.input.length) (h : Parses cfg (.rep e mn mx none) i st none st') :
    ∃ k p s, k < mn ∧ IterRun cfg e k i st p s ∧ Parses cfg e p s none st' := by
  obtain ⟨n, h⟩ := Parses.inv h
  open_ope h, hi
  unfold parseRep at h
  rw [andThen_ok] at h
  rcases h with ⟨s, h, he⟩ | ⟨p, s, h1, h2⟩
  · cases he; exact repMin_none h
  · obtain ⟨k, j', s2, hj, -⟩ := rep_run h2
    cases hj

/-- `'b'{2,5}` on "bbb aaa " makes three iterations. -/
example : ∃ st' k s, Parses exCfg (.rep (.lit [98] false) 2 (some 5) none) 0 ({ logOn := true } : St Nat) (some 4) st' ∧
    IterRun exCfg (.lit [98] false) k 0 ({ logOn := true } : St Nat) 4 s ∧ 2 ≤ k ∧ k ≤ 5 := by
  obtain ⟨st', h, hs⟩ := parses_of_outcome (cfg := exCfg) (st := { logOn := true }) (i := 0) (n := 20)
    (e := .rep (.lit [98] false) 2 (some 5) none) (o := ⟨some 4, [], [], 0, [], []⟩) (by decide +kernel)
  obtain ⟨k, s, h1, h2, h3, -⟩ := C21_repetition_success exFrameOk (exPre none) (by decide) h
  exact ⟨st', k, s, h, h1, h2, h3 5 rfl (by omega)⟩

example : ∃ st', Parses exCfg (.rep (.lit [98] false) 4 none none) 0 ({ logOn := true } : St Nat) none st' ∧
    ∃ k p s, k < 4 ∧ IterRun exCfg (.lit [98] false) k 0 ({ logOn := true } : St Nat) p s ∧
      Parses exCfg (.lit [98] false) p s none st' := by
  obtain ⟨st', h, hs⟩ := parses_of_outcome (cfg := exCfg) (st := { logOn := true }) (i := 0) (n := 20)
    (e := .rep (.lit [98] false) 4 none none) (o := ⟨none, [], [], 0, [], []⟩) (by decide +kernel)
  exact ⟨st', h, C21_repetition_failure (Nat.zero_le _) h⟩

/-! ## C23: cut -/

/-- Passing `↑` consumes nothing and sets the flag of the innermost choice in progress. -/
theorem C23_cut_sets_flag {cfg : Cfg V} {i : Nat} {st : St V} {r : Option Nat} {st' : St V} {b : Bool} {fs : List Bool}
    (hc : st.cut = b :: fs) (h : Parses cfg .cut i st r st') : r = some i ∧ st'.cut = true :: fs := by
  have hi := parses_le h
  obtain ⟨n, h⟩ := Parses.inv h
  open_ope h, hi
  cases h
  exact ⟨rfl, by unfold St.setCut; rw [hc]⟩

/-- A choice keeps its cuts to itself: whatever happens inside, the flags of the enclosing choices are untouched. -/
theorem C23_cut_scope {cfg : Cfg V} {es : List Ope} {fs : List FirstSet} {i : Nat} {st : St V} {r : Option Nat} {st' : St V}
    (hc : cfg.hasCut = true) (hp : Pre cfg i st) (hh : Parses cfg (.cho es false fs) i st r st') : st'.cut = st.cut := by
  obtain ⟨n, h⟩ := Parses.inv hh
  open_ope h, hp.le
  unfold parseCho at h
  rw [after_ok] at h
  obtain ⟨a, st1, h, e1⟩ := h
  injection e1 with ea eb
  subst ea; subst eb
  simp only [hc, Bool.not_false, Bool.and_self, pushCut, choExit, if_true] at h ⊢
  have p := choLoop_P (st := { st with cut := false :: st.cut }) (run_good n) hp.slots (hp.ok.same ⟨rfl, rfl, rfl⟩) hp.le h
  have := p.keep.cutTail
  simpa using this

/-- If the first alternative is tried and fails after passing a cut, the choice fails and no other alternative is
tried, whatever they are. -/
theorem C23_cut_commits {cfg : Cfg V} {e : Ope} {es : List Ope} {fs : List FirstSet} {i : Nat} {st : St V} {t' : St V}
    (hc : cfg.hasCut = true) (hi : i ≤ cfg.input.length) (hf : fsSkip fs[0]? (cfg.rest i) = false)
    (h : Parses cfg e i { st with cut := false :: st.cut, err := { st.err with keep := false } } none t')
    (hcut : t'.cut.headD false = true) : ∃ st', Parses cfg (.cho (e :: es) false fs) i st none st' := by
  obtain ⟨n, h⟩ := h
  refine ⟨choExit (cfg.hasCut && !false) (t'.rollback st.snapshot), parses_iff.mpr ⟨n, ?_⟩⟩
  unfold parseOpe
  rw [if_neg (Nat.not_lt.mpr hi)]
  dsimp only
  unfold parseCho
  rw [after_ok]
  refine ⟨none, t'.rollback st.snapshot, ?_, rfl⟩
  simp only [hc, Bool.not_false, Bool.and_self, pushCut, if_true]
  unfold choLoop
  rw [if_neg (by rw [hf]; simp)]
  rw [bind_eq_ok]
  refine ⟨(none, t'), ?_, ?_⟩
  · simp only [resetCut, hc, if_true, St.setCut, St.setKeep]
    exact h
  · dsimp only
    rw [if_pos (by simp only [hc, Bool.true_and]; exact hcut)]
    rfl

/-- `(↑ 'a' / .) ` fails on "bbb aaa ": the hypotheses of `C23_cut_commits` are met. -/
example : ∃ st', Parses exCfg (.cho [.seq [.cut, .lit [97] false] none, .dot] false []) 0
    ({ logOn := true } : St Nat) none st' ∧ st'.cut = [] := by
  obtain ⟨t, h, hs⟩ := parses_of_outcome (cfg := exCfg) (st := { logOn := true, cut := [false] }) (i := 0) (n := 20)
    (e := .seq [.cut, .lit [97] false] none) (o := ⟨none, [], [], 0, [], [true]⟩) (by decide +kernel)
  obtain ⟨st', h'⟩ := C23_cut_commits (cfg := exCfg) (es := [.dot]) (fs := []) (st := { logOn := true }) rfl
    (Nat.zero_le _) rfl h (by rw [show t.cut = [true] from congrArg Shown.cut hs]; rfl)
  exact ⟨st', h', C23_cut_scope rfl (exPre none) h'⟩

/-! ## C24: captures and back references -/

/-- `$name<e>`: a success of `e`, after which the text matched by `e` is recorded under `name` as the most recent
capture. -/
theorem C24_capture {cfg : Cfg V} {name : List Byte} {e : Ope} {i j : Nat} {st st' : St V} :
    Parses cfg (.cap name e) i st (some j) st' ↔
      ∃ s, Parses cfg e i st (some j) s ∧
        st' = { s with caps := s.caps ++ [(name, (cfg.input.drop i).take (j - i))] } := by
  constructor
  · intro h
    have hi := parses_le h
    obtain ⟨n, h⟩ := Parses.inv h
    open_ope h, hi
    unfold parseCap at h
    rw [andThen_ok] at h
    rcases h with ⟨s, h, he⟩ | ⟨p, s, h1, h2⟩
    · cases he
    · cases h2; exact ⟨s, ⟨n, h1⟩, rfl⟩
  · rintro ⟨s, h, rfl⟩
    have hi := parses_le h
    obtain ⟨n, h⟩ := h
    refine parses_iff.mpr ⟨n, ?_⟩
    unfold parseOpe
    rw [if_neg (Nat.not_lt.mpr hi)]
    dsimp only
    unfold parseCap
    rw [andThen_ok]
    exact Or.inr ⟨j, s, h, rfl⟩

theorem findCap_last {caps front back : List (List Byte × List Byte)} {name text : List Byte}
    (h : caps = front ++ (name, text) :: back) (hb : ∀ e ∈ back, e.1 ≠ name) : findCap caps name = some text := by
  subst h
  unfold findCap
  rw [List.reverse_append, List.reverse_cons, List.append_assoc, List.find?_append]
  have : back.reverse.find? (fun e => decide (e.1 = name)) = none := by
    rw [List.find?_eq_none]
    intro x hx
    have := hb x (List.mem_reverse.mp hx)
    simpa using this
  rw [this]
  simp

theorem findCap_none {caps : List (List Byte × List Byte)} {name : List Byte} (hb : ∀ e ∈ caps, e.1 ≠ name) :
    findCap caps name = none := by
  unfold findCap
  have : caps.reverse.find? (fun e => decide (e.1 = name)) = none := by
    rw [List.find?_eq_none]
    intro x hx
    have := hb x (List.mem_reverse.mp hx)
    simpa using this
  rw [this]; rfl

theorem parseLiteral_el {rec : Rec V} {cfg : Cfg V} {l : List Byte} {ic : Bool} {el el' : ErrLit} {i : Nat} {st : St V}
    {r : Option Nat} {st' : St V} (h : parseLiteral rec cfg l ic el i st = .ok (r, st')) :
    ∃ s, parseLiteral rec cfg l ic el' i st = .ok (r, s) ∧ (r ≠ none → s = st') := by
  unfold parseLiteral at h ⊢
  split at h
  · rename_i hm
    rw [if_pos hm]
    split at h
    · exact ⟨st', h, fun _ => rfl⟩
    · rw [bind_eq_ok] at h
      obtain ⟨b, hb, h⟩ := h
      simp only [hb, ok_bind]
      cases b
      · exact ⟨st', h, fun _ => rfl⟩
      · simp only [if_true] at h ⊢
        rw [bind_eq_ok] at h
        obtain ⟨b, hb, h⟩ := h
        simp only [hb, ok_bind]
        cases b
        · cases h; exact ⟨_, rfl, fun h => absurd rfl h⟩
        · exact ⟨st', h, fun _ => rfl⟩
  · rename_i hm
    rw [if_neg hm]
    cases h; exact ⟨_, rfl, fun h => absurd rfl h⟩

/-- `$name` after the capture `(name, text)`, with no later capture of that name, does exactly what the literal `text`
would do. -/
theorem C24_backreference {cfg : Cfg V} {name text : List Byte} {front back : List (List Byte × List Byte)} {i : Nat}
    {st : St V} {r : Option Nat} {st' : St V}
    (hc : st.caps = front ++ (name, text) :: back) (hb : ∀ e ∈ back, e.1 ≠ name)
    (h : Parses cfg (.bref name) i st r st') :
    ∃ s, Parses cfg (.lit text false) i st r s ∧ (r ≠ none → s = st') := by
  have hi := parses_le h
  obtain ⟨n, h⟩ := Parses.inv h
  open_ope h, hi
  unfold parseBref at h
  rw [findCap_last hc hb] at h
  obtain ⟨s, h1, h2⟩ := parseLiteral_el (el' := .lit text) h
  refine ⟨s, parses_iff.mpr ⟨n, ?_⟩, h2⟩
  unfold parseOpe
  rw [if_neg (Nat.not_lt.mpr hi)]
  exact h1

/-- `$name` fails if nothing is captured under that name. -/
theorem C24_backreference_undefined {cfg : Cfg V} {name : List Byte} {i : Nat}
    {st : St V} {r : Option Nat} {st' : St V} (hb : ∀ e ∈ st.caps, e.1 ≠ name)
    (h : Parses cfg (.bref name) i st r st') : r = none ∧ st'.vs = st.vs ∧ st'.caps = st.caps := by
  have hi := parses_le h
  obtain ⟨n, h⟩ := Parses.inv h
  open_ope h, hi
  unfold parseBref at h
  rw [findCap_none hb] at h
  cases h; exact ⟨rfl, rfl, rfl⟩

/-- `$(e)`: the result is that of `e`; its captures are forgotten, the earlier ones stay. -/
theorem C24_capture_scope {cfg : Cfg V} {e : Ope} {i : Nat} {st : St V} {r : Option Nat} {st' : St V} (hp : Pre cfg i st)
    (hh : Parses cfg (.capScope e) i st r st') :
    st'.caps = st.caps ∧ ∃ s, Parses cfg e i st r s ∧ st' = { s with caps := st.caps } := by
  obtain ⟨n, h⟩ := Parses.inv hh
  open_ope h, hp.le
  unfold parseCapScope at h
  rw [after_ok] at h
  obtain ⟨a, s, h, e1⟩ := h
  injection e1 with ea eb
  subst ea
  have := ((run_good n).ope hp.slots hp.ok hp.le h).keep.caps
  rw [resize_prefix this] at eb
  subst eb
  exact ⟨rfl, s, ⟨n, h⟩, rfl⟩

/-- After `$q<'b'>`, `$q` matches the second "b" of "bbb aaa "; outside `$( )` the capture is gone. -/
example : ∃ s, Parses exCfg (.lit [98] false) 1 ({ caps := [([113], [97]), ([113], [98])] } : St Nat) (some 2) s := by
  obtain ⟨st', h, hs⟩ := parses_of_outcome (cfg := exCfg) (st := { caps := [([113], [97]), ([113], [98])] }) (i := 1)
    (n := 20) (e := .bref [113]) (o := ⟨some 2, [], [], 0, [([113], [97]), ([113], [98])], []⟩) (by decide +kernel)
  obtain ⟨s, h1, -⟩ := C24_backreference (front := [([113], [97])]) (back := []) rfl (by simp) h
  exact ⟨s, h1⟩

example : ∃ st', Parses exCfg (.capScope exSeq) 0 ({ logOn := true } : St Nat) (some 8) st' ∧ st'.caps = [] := by
  obtain ⟨st', h, hs⟩ := parses_of_outcome (cfg := exCfg) (st := { logOn := true }) (i := 0) (n := 20)
    (e := .capScope exSeq) (o := ⟨some 8, [], [(4, 3)], 1, [], []⟩) (by decide +kernel)
  exact ⟨st', h, (C24_capture_scope (exPre none) h).1⟩

/-! ## C25: token boundaries -/

/-- The white-space operator as the grammar front end builds it (peglib.h 6400-6408): nothing of it reaches the caller's
values. -/
def WsOk (cfg : Cfg V) : Prop := ∀ w, cfg.ws = some w → ∃ e, w = .ws (.ign e)

theorem ws_scope {n : Nat} {cfg : Cfg V} {i : Nat} {st : St V} {r : Res V} (hw : WsOk cfg)
    (h : skipWs (run n) cfg i st = .ok r) : r.2.vs = st.vs := by
  unfold skipWs at h
  split at h
  · cases h; rfl
  · split at h
    · cases h; rfl
    · rename_i w he
      obtain ⟨e, rfl⟩ := hw w he
      cases n with
      | zero => cases h
      | succ n =>
        change parseOpe (run n) cfg (.ws (.ign e)) i st = .ok r at h
        unfold parseOpe at h
        split at h
        · cases h
        · dsimp only at h
          unfold parseWs at h
          split at h
          · cases h; rfl
          · rw [after_ok] at h
            obtain ⟨a, s, h, rfl⟩ := h
            cases n with
            | zero => cases h
            | succ n =>
              change parseOpe (run n) cfg (.ign e) i { st with inWs := true } = .ok (a, s) at h
              unfold parseOpe at h
              split at h
              · cases h
              · dsimp only at h
                unfold parseIgn inScope at h
                rw [after_ok] at h
                obtain ⟨a, s, h, e1⟩ := h
                injection e1 with ea eb
                subst eb; rfl

/-- `<e>`: matches what `e` matches with white-space skipping switched off, then skips white space.  The token added to
the scope is exactly the text `e` matched (offset `i`, ending where `e` ended), not the white space after it. -/
theorem C25_token {cfg : Cfg V} {e : Ope} {i j : Nat} {st st' : St V} (hw : WsOk cfg) (hr : cfg.recognizeOnly = false)
    (hp : Pre cfg i st) (hh : Parses cfg (.tok e) i st (some j) st') :
    ∃ k s, Parses cfg e i { st with tokCount := st.tokCount + 1 } (some k) s ∧ i ≤ k ∧ k ≤ j ∧
      st'.vs = { s.vs with tokens := s.vs.tokens ++ [(i, k - i)] } := by
  obtain ⟨n, h⟩ := Parses.inv hh
  open_ope h, hp.le
  unfold tokenBody at h
  rw [andThen_ok] at h
  rcases h with ⟨s, h, he⟩ | ⟨k, s, h1, h2⟩
  · cases he
  · rw [after_ok] at h1
    obtain ⟨a, s1, h1, e1⟩ := h1
    injection e1 with ea eb
    subst ea; subst eb
    have hp' : Pre cfg i { st with tokCount := st.tokCount + 1 } := hp.same ⟨rfl, rfl, rfl⟩ rfl
    have p := tokUp_P (run_good n) ((run_good n).ope hp'.slots hp'.ok hp'.le h1)
    have q := p.post (keep_addToken cfg (i, k - i) _) (same_addToken _ _ _)
    have hq := hp.step q
    have b := (skipWs_P (run_good n) hq.slots hq.ok hq.le h2).bounds j rfl
    refine ⟨k, s1, ⟨n, h1⟩, (p.bounds k rfl).1, b.1, ?_⟩
    have := ws_scope hw h2
    rw [this]
    unfold addToken
    rw [hr]
    rfl

/-- `<'a'*>` at offset 4 of "bbb aaa ": the token is "aaa", the space after it is skipped but not part of it. -/
example : ∃ st' k s, Parses exCfg exTok 4 ({ logOn := true } : St Nat) (some 8) st' ∧
    st'.vs.tokens = s ++ [(4, k - 4)] ∧ k ≤ 8 := by
  obtain ⟨st', h, hs⟩ := parses_of_outcome (cfg := exCfg) (st := { logOn := true }) (i := 4) (n := 20)
    (e := exTok) (o := ⟨some 8, [], [(4, 3)], 0, [], []⟩) (by decide +kernel)
  obtain ⟨k, s, -, -, h2, h3⟩ := C25_token (by intro w hw; cases hw; exact ⟨_, rfl⟩) rfl
    (Fresh.ready ⟨rfl, rfl, rfl, rfl⟩ (slotsOk_of rfl) (by decide)) h
  exact ⟨st', k, s.vs.tokens, h, by rw [h3], h2⟩

/-- Inside `< >` a literal consumes its own length: no white space is skipped after it. -/
theorem C25_no_whitespace_inside {cfg : Cfg V} {s : List Byte} {ic : Bool} {i j : Nat} {st st' : St V}
    (ht : st.tokCount ≠ 0) (h : Parses cfg (.lit s ic) i st (some j) st') : j = i + s.length := by
  have hi := parses_le h
  obtain ⟨n, h⟩ := Parses.inv h
  open_ope h, hi
  have key : ∀ x, skipWs (run n) cfg (i + s.length) st = .ok x → x.1 = some (i + s.length) := by
    intro x hx
    unfold skipWs at hx
    rw [if_pos ht] at hx
    cases hx; rfl
  unfold parseLiteral at h
  split at h
  · split at h
    · have := key _ h; simpa using this
    · rw [bind_eq_ok] at h
      obtain ⟨b, -, h⟩ := h
      cases b
      · have := key _ h; simpa using this
      · simp only [if_true] at h
        rw [bind_eq_ok] at h
        obtain ⟨b, -, h⟩ := h
        cases b
        · cases h
        · have := key _ h; simpa using this
  · cases h

/-! ## C26: stacks and flags are restored -/

/-- After any finished (sub)parse, successful or not: the argument stack, rule stack, token-boundary counter, white-space
flag, logging flag and re-entry guards are what they were, the cut stack has its height and all flags but the innermost one,
and captures and error reports were only appended to. -/
theorem C26_restored {cfg : Cfg V} {e : Ope} {i : Nat} {st : St V} {r : Option Nat} {st' : St V} (hp : Pre cfg i st)
    (h : Parses cfg e i st r st') :
    st'.args = st.args ∧ st'.ruleStack = st.ruleStack ∧ st'.tokCount = st.tokCount ∧ st'.inWs = st.inWs ∧
      st'.logOn = st.logOn ∧ st'.active = st.active ∧ st'.lrActive = st.lrActive ∧
      st'.cut.length = st.cut.length ∧ st'.cut.tail = st.cut.tail ∧
      st.caps <+: st'.caps ∧ st.logs <+: st'.logs :=
  let p := h.P hp
  ⟨p.keep.args, p.keep.ruleStack, p.keep.tokCount, p.keep.inWs, p.keep.logOn, p.keep.active, p.act, p.keep.cutLen,
    p.keep.cutTail, p.keep.caps, p.keep.logs⟩

/-- Execution leads from contexts a parse can be in to such contexts, so the other theorems apply to every subparse. -/
theorem C26_context_stays_sane {cfg : Cfg V} {e : Ope} {i : Nat} {st : St V} {r : Option Nat} {st' : St V} (hp : Pre cfg i st)
    (h : Parses cfg e i st r st') : Pre cfg i st' ∧ ∀ j, r = some j → Pre cfg j st' := by
  refine ⟨hp.after (h.P hp), ?_⟩
  rintro j rfl
  exact h.pre hp

example : ∃ st', Parses exCfg exSeq 0 ({ logOn := true } : St Nat) (some 8) st' ∧ st'.args = [([], 0)] ∧ st'.inWs = false := by
  obtain ⟨st', h, -⟩ := exRun
  have := C26_restored (exPre none) h
  exact ⟨st', h, this.1, this.2.2.2.1⟩

/-! ## C45: literals -/

/-- Without `%word` and where no white space is skipped, `'lit'` (or `'lit'i`) succeeds iff the next bytes are the literal
(after lower-casing both byte by byte, if `i`), and then consumes exactly its length and leaves the context alone. -/
theorem C45_literal {cfg : Cfg V} {s : List Byte} {ic : Bool} {i j : Nat} {st st' : St V} (hi : i ≤ cfg.input.length)
    (hw : cfg.word = none) (ht : st.tokCount ≠ 0 ∨ cfg.ws = none) :
    Parses cfg (.lit s ic) i st (some j) st' ↔
      (if ic then ((cfg.input.drop i).take s.length).map Trie.lowerByte = s.map Trie.lowerByte
       else (cfg.input.drop i).take s.length = s) ∧ j = i + s.length ∧ st' = st := by
  have hm : litMatch s ic (cfg.rest i) = true ↔
      (if ic then ((cfg.input.drop i).take s.length).map Trie.lowerByte = s.map Trie.lowerByte
       else (cfg.input.drop i).take s.length = s) := by
    unfold litMatch Cfg.rest
    cases ic with
    | false =>
      simp only [Bool.false_eq_true, if_false]
      rw [List.isPrefixOf_iff_prefix, List.prefix_iff_eq_take]
      exact eq_comm
    | true =>
      simp only [if_true]
      rw [List.isPrefixOf_iff_prefix, List.prefix_iff_eq_take]
      unfold Trie.toLower
      rw [List.length_map, List.map_take]
      exact eq_comm
  have hsk : ∀ n k, skipWs (run n) cfg k st = .ok (some k, st) := by
    intro n k
    unfold skipWs
    rcases ht with ht | ht
    · rw [if_pos ht]
    · split
      · rfl
      · rw [ht]
  rw [← hm, parses_iff]
  constructor
  · rintro ⟨n, h⟩
    open_ope h, hi
    unfold parseLiteral at h
    rw [hw] at h
    split at h
    · rename_i hl
      rw [hsk] at h
      cases h
      exact ⟨hl, rfl, rfl⟩
    · cases h
  · rintro ⟨hl, rfl, rfl⟩
    refine ⟨0, ?_⟩
    unfold parseOpe
    rw [if_neg (Nat.not_lt.mpr hi)]
    dsimp only
    unfold parseLiteral
    rw [if_pos hl, hw]
    exact hsk 0 _

/-- `'BB'i` matches "bb" inside a token. -/
example : Parses exCfg (.lit [66, 66] true) 1 ({ tokCount := 1 } : St Nat) (some 3) { tokCount := 1 } :=
  (C45_literal (by decide) rfl (Or.inl (by simp))).mpr ⟨by decide, rfl, rfl⟩

/-- In general (white space, `%word`): a literal matches only where the next bytes are the literal, and consumes at least
its length. -/
theorem C45_literal_necessary {cfg : Cfg V} {s : List Byte} {ic : Bool} {i j : Nat} {st st' : St V} (hp : Pre cfg i st)
    (hh : Parses cfg (.lit s ic) i st (some j) st') : litMatch s ic (cfg.input.drop i) = true ∧ i + s.length ≤ j := by
  obtain ⟨n, h⟩ := Parses.inv hh
  open_ope h, hp.le
  unfold parseLiteral at h
  by_cases hm : litMatch s ic (cfg.rest i) = true
  · rw [if_pos hm] at h
    have hl := litMatch_le hm
    rw [rest_length] at hl
    refine ⟨hm, ?_⟩
    have hle : i + s.length ≤ cfg.input.length := by have := hp.le; omega
    have key : ∀ x, skipWs (run n) cfg (i + s.length) st = .ok x → ∀ j, x.1 = some j → i + s.length ≤ j := by
      intro x hx j hj
      exact ((skipWs_P (run_good n) hp.slots hp.ok hle hx).bounds j hj).1
    split at h
    · exact key _ h _ rfl
    · rw [bind_eq_ok] at h
      obtain ⟨b, -, h⟩ := h
      cases b
      · exact key _ h _ rfl
      · simp only [if_true] at h
        rw [bind_eq_ok] at h
        obtain ⟨b, -, h⟩ := h
        cases b
        · cases h
        · exact key _ h _ rfl
  · rw [if_neg hm] at h; cases h

/-! ## C46: word boundaries -/

/-- With `%word <- w`: if `w` matches at the start of the literal itself (the literal is a word), then the literal matches
only if `w` does not match right after it. -/
theorem C46_word_boundary {cfg : Cfg V} {w : Ope} {s : List Byte} {ic : Bool} {i j : Nat} {st st' : St V}
    (hw : cfg.word = some w) (hh : Parses cfg (.lit s ic) i st (some j) st') :
    (∃ t, Parses (cfg.dummy s) w 0 {} none t) ∨ (∃ t, Parses (cfg.dummy cfg.input) w (i + s.length) {} none t) := by
  have hi := parses_le hh
  obtain ⟨n, h⟩ := Parses.inv hh
  open_ope h, hi
  unfold parseLiteral at h
  rw [hw] at h
  split at h
  · dsimp only at h
    rw [bind_eq_ok] at h
    obtain ⟨b, hb, h⟩ := h
    unfold isWord at hb
    rw [bind_eq_ok] at hb
    obtain ⟨⟨a, t⟩, h1, h2⟩ := hb
    cases h2
    cases a with
    | none => exact Or.inl ⟨t, n, h1⟩
    | some k =>
      right
      simp only [Option.isSome_some, if_true] at h
      rw [bind_eq_ok] at h
      obtain ⟨b, hb, h⟩ := h
      unfold wordCheck at hb
      rw [bind_eq_ok] at hb
      obtain ⟨⟨a, t⟩, h1, h2⟩ := hb
      cases h2
      cases a with
      | none => exact ⟨t, n, h1⟩
      | some k => cases h
  · cases h

/-- ... and if `w` matches right after a literal that is a word, the literal fails. -/
theorem C46_word_continues_fails {cfg : Cfg V} {w : Ope} {s : List Byte} {ic : Bool} {i k k' : Nat} {st t t' : St V}
    (hw : cfg.word = some w) (hi : i ≤ cfg.input.length) (h1 : Parses (cfg.dummy s) w 0 {} (some k) t)
    (h2 : Parses (cfg.dummy cfg.input) w (i + s.length) {} (some k') t') :
    ∃ st', Parses cfg (.lit s ic) i st none st' := by
  refine ⟨setErr cfg st i (some (.lit s)), ?_⟩
  obtain ⟨n, h1⟩ := h1
  obtain ⟨m, h2⟩ := h2
  have h1 := run_mono h1 (Nat.le_max_left n m)
  have h2 := run_mono h2 (Nat.le_max_right n m)
  refine parses_iff.mpr ⟨max n m, ?_⟩
  unfold parseOpe
  rw [if_neg (Nat.not_lt.mpr hi)]
  dsimp only
  unfold parseLiteral
  split
  · rw [hw]
    dsimp only
    unfold isWord wordCheck
    rw [h1, h2]
    simp
  · rfl

/-- `%word <- [a-z]+`: on "bbb aaa " the literal 'bb' (a word) does not match, since another 'b' follows. -/
example : ∃ st', Parses { exCfg with word := some (.rep (.cls ⟨[(97, 122)], false, false⟩) 1 none none) }
    (.lit [98, 98] false) 0 ({} : St Nat) none st' := by
  obtain ⟨t, h1, -⟩ := parses_of_outcome
    (cfg := Cfg.dummy { exCfg with word := some (.rep (.cls ⟨[(97, 122)], false, false⟩) 1 none none) } [98, 98])
    (st := {}) (i := 0) (n := 20) (e := .rep (.cls ⟨[(97, 122)], false, false⟩) 1 none none)
    (o := ⟨some 2, [], [], 0, [], []⟩) (by decide +kernel)
  obtain ⟨t', h2, -⟩ := parses_of_outcome
    (cfg := Cfg.dummy { exCfg with word := some (.rep (.cls ⟨[(97, 122)], false, false⟩) 1 none none) } exCfg.input)
    (st := {}) (i := 2) (n := 20) (e := .rep (.cls ⟨[(97, 122)], false, false⟩) 1 none none)
    (o := ⟨some 3, [], [], 0, [], []⟩) (by decide +kernel)
  exact C46_word_continues_fails (s := [98, 98]) rfl (Nat.zero_le _) h1 h2

end Verif.Props
