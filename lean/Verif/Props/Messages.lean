import Verif.Props.Errors
/-!
# Custom error messages: C58

`Err.notes` is the list of the custom messages offered during the parse (since the last report), in order, each with its position and
label (peglib.h 3899-3904 predicate, 3912-3918 `error_message`, 4164-4165 undefined back reference, 4270-4276 `%recover`, 3420-3421 end of
input).  What follows speaks about such a list only.
-/

namespace Verif.Props
open Verif Out

variable {V : Type}

/-! ## Which message is reported -/

/-- `n` is the message that wins among `l`: nothing offered later replaces it, being neither forced nor further on, and when it was offered it was
forced or further on than everything offered since the last forced message. -/
def Wins (l : List Note) (n : Note) : Prop :=
  ∃ l1 l2, l = l1 ++ n :: l2 ∧ (∀ m ∈ l2, m.force = false ∧ m.pos ≤ n.pos) ∧
    (n.force = true ∨ ∃ a b, l1 = a ++ b ∧ (a = [] ∨ ∃ f b', b = f :: b' ∧ f.force = true) ∧ ∀ m ∈ b, m.pos < n.pos)

theorem snoc_induction {α : Type} {p : List α → Prop} (h0 : p []) (h1 : ∀ l x, p l → p (l ++ [x])) (l : List α) : p l := by
  have : ∀ l : List α, p l.reverse := by
    intro l
    induction l with
    | nil => exact h0
    | cons x l ih => rw [List.reverse_cons]; exact h1 _ _ ih
  have := this l.reverse
  rwa [List.reverse_reverse] at this

theorem kept_none {l : List Note} (h : kept l = none) : l = [] := by
  revert h
  induction l using snoc_induction with
  | h0 => exact fun _ => rfl
  | h1 l x ih =>
    intro h
    rw [kept_snoc] at h
    split at h
    · cases h
    · rename_i hc
      rw [h] at hc
      simp [optLt] at hc

theorem kept_wins {l : List Note} {n : Note} (h : kept l = some n) : Wins l n := by
  induction l using snoc_induction generalizing n with
  | h0 => cases h
  | h1 l x ih =>
    rw [kept_snoc] at h
    split at h
    · rename_i hc
      cases h
      refine ⟨l, [], by simp, by simp, ?_⟩
      cases hf : x.force with
      | true => exact .inl rfl
      | false =>
        right
        rw [hf, Bool.false_or] at hc
        cases hk : kept l with
        | none => exact ⟨[], [], by rw [kept_none hk]; rfl, .inl rfl, by simp⟩
        | some m =>
          rw [hk] at hc
          have hlt : m.pos < x.pos := by simpa [optLt] using hc
          obtain ⟨l1, l2, e, h2, h1⟩ := ih hk
          have hl2 : ∀ y ∈ m :: l2, y.pos < x.pos := by
            intro y hy
            rcases List.mem_cons.1 hy with rfl | hy
            · exact hlt
            · exact Nat.lt_of_le_of_lt (h2 y hy).2 hlt
          rcases h1 with h1 | ⟨a, b, e1, ha, hb⟩
          · exact ⟨l1, m :: l2, e, .inr ⟨m, l2, rfl, h1⟩, hl2⟩
          · refine ⟨a, b ++ m :: l2, by rw [e, e1]; simp, ?_, fun y hy => ?_⟩
            · rcases ha with ha | ⟨f, b', e2, hf⟩
              · exact .inl ha
              · exact .inr ⟨f, b' ++ m :: l2, by rw [e2]; rfl, hf⟩
            · rcases List.mem_append.1 hy with hy | hy
              · exact Nat.lt_trans (hb y hy) hlt
              · exact hl2 y hy
    · rename_i hc
      obtain ⟨l1, l2, e, h2, h1⟩ := ih h
      rw [h] at hc
      simp only [Option.map_some, optLt, Bool.or_eq_true, decide_eq_true_eq, not_or, Bool.not_eq_true, Nat.not_lt] at hc
      refine ⟨l1, l2 ++ [x], by rw [e]; simp, fun m hm => ?_, h1⟩
      rcases List.mem_append.1 hm with hm | hm
      · exact h2 m hm
      · rw [List.mem_singleton] at hm; subst hm; exact hc

/-- If nothing forced was offered, the winner is the first of those furthest on. -/
theorem Wins.first {l : List Note} {n : Note} (h : Wins l n) (hf : ∀ m ∈ l, m.force = false) :
    ∃ l1 l2, l = l1 ++ n :: l2 ∧ (∀ m ∈ l1, m.pos < n.pos) ∧ ∀ m ∈ l2, m.pos ≤ n.pos := by
  obtain ⟨l1, l2, e, h2, h1⟩ := h
  refine ⟨l1, l2, e, ?_, fun m hm => (h2 m hm).2⟩
  rcases h1 with h1 | ⟨a, b, e1, ha, hb⟩
  · rw [hf n (by rw [e]; simp)] at h1; cases h1
  · rcases ha with rfl | ⟨f, b', e2, hff⟩
    · rw [e1]; exact hb
    · rw [hf f (by rw [e, e1, e2]; simp)] at hff; cases hff

theorem said_end {cfg : Cfg V} {r : Nat} {eoi log : Bool} {dt : Option V} {a : Answer V} (h : Answers cfg r eoi log dt a) :
    Said cfg a.res.st.err a.res.st.logs ∧
      ∀ rep ∈ a.logs, ∀ m, rep.msg = some m → ∃ l n, kept l = some n ∧ (∀ x ∈ l, Origin cfg x) ∧ n.pos = rep.pos ∧ n.msg = m ∧
        ∀ b, n.label = some b → rep.label = b := by
  obtain ⟨n, h⟩ := h
  unfold parserParse at h
  obtain ⟨res, h1, h2⟩ := Out.bind_eq_ok.1 h
  have hs := (parseCore_T n cfg r eoi { dt := dt, logOn := log } res h1).said Said.init
  unfold postProcess at h2
  split at h2
  · obtain ⟨o, ho, e⟩ := Out.bind_eq_ok.1 h2
    cases e
    exact ⟨hs, (hs.output (e' := o.2) (o := o.1) ho).logs⟩
  · cases h2; exact ⟨hs, hs.logs⟩

/-- C58: if a parse without error recovery fails after any custom message was offered, exactly one report is sent and it is the winning
message, at the position it was offered and with its label: never a plain syntax error, never another message. -/
theorem C58_reported {cfg : Cfg V} {r : Nat} {eoi : Bool} {dt : Option V} {a : Answer V} (h : Answers cfg r eoi true dt a)
    (hr : a.res.st.recovered = false) (hf : a.res.ret = false) (hn : a.res.st.err.notes ≠ []) :
    ∃ rep n, a.logs = [rep] ∧ Wins a.res.st.err.notes n ∧ rep.pos = n.pos ∧ rep.msg = some n.msg ∧
      ∀ b, n.label = some b → rep.label = b := by
  have hs := (said_end h).1
  obtain ⟨_, ho, _⟩ := trace_end h hr
  rcases report_end h hr with ⟨_, e⟩ | ⟨_, _, o, he, e⟩
  · rcases e with e | e
    · cases e
    · rw [hf] at e; cases e
  · cases hk : kept a.res.st.err.notes with
    | none => exact absurd (kept_none hk) hn
    | some n =>
      obtain ⟨h1, h2⟩ := hs.heard.msg n hk
      have hp : a.res.st.err.msgPos = some n.pos := by rw [hs.heard.pos, hk]; rfl
      unfold Err.output at he
      rw [hp] at he
      simp only [ho, optLt, if_true] at he
      cases he
      exact ⟨_, n, e, kept_wins hk, rfl, by rw [← h1], h2⟩

/-- C58: without forced messages (no undefined back reference, no `%recover`, no "expected end of input") the message reported is the first
one offered at the furthest position at which any was offered. -/
theorem C58_first_furthest {cfg : Cfg V} {r : Nat} {eoi : Bool} {dt : Option V} {a : Answer V} (h : Answers cfg r eoi true dt a)
    (hr : a.res.st.recovered = false) (hf : a.res.ret = false) (hn : a.res.st.err.notes ≠ [])
    (hu : ∀ m ∈ a.res.st.err.notes, m.force = false) :
    ∃ rep n l1 l2, a.logs = [rep] ∧ a.res.st.err.notes = l1 ++ n :: l2 ∧ (∀ m ∈ l1, m.pos < n.pos) ∧ (∀ m ∈ l2, m.pos ≤ n.pos) ∧
      rep.pos = n.pos ∧ rep.msg = some n.msg ∧ ∀ b, n.label = some b → rep.label = b := by
  obtain ⟨rep, n, h1, h2, h3⟩ := C58_reported h hr hf hn
  obtain ⟨l1, l2, e, h4, h5⟩ := h2.first hu
  exact ⟨rep, n, l1, l2, h1, e, h4, h5, h3⟩

/-- C58: a report is a plain syntax error only if no custom message was offered at all. -/
theorem C58_plain_only_without_messages {cfg : Cfg V} {r : Nat} {eoi : Bool} {dt : Option V} {a : Answer V}
    (h : Answers cfg r eoi true dt a) (hr : a.res.st.recovered = false) {rep : Report} (hm : rep ∈ a.logs) (hp : rep.msg = none) :
    a.res.st.err.notes = [] := by
  rcases report_end h hr with ⟨e, _⟩ | ⟨_, hf, _⟩
  · rw [e] at hm; cases hm
  · refine Decidable.byContradiction fun hn => ?_
    obtain ⟨rep', n, h1, _, _, h4, _⟩ := C58_reported h hr hf hn
    rw [h1, List.mem_singleton] at hm
    rw [hm, h4] at hp
    cases hp

/-! ## Where messages come from -/

/-- C58: a custom message in any report of any parse, error recovery included, is the `error_message` of a rule with the rule's name as
label, or what a predicate of a rule that refused said, with that rule's name, or one of the two messages of the library. -/
theorem C58_message_origin {cfg : Cfg V} {r : Nat} {eoi log : Bool} {dt : Option V} {a : Answer V} (h : Answers cfg r eoi log dt a)
    {rep : Report} (hm : rep ∈ a.logs) {m : List Byte} (hp : rep.msg = some m) :
    (∃ (q : Nat) (d : Def) (caps : List (List Byte × List Byte)), cfg.rules[q]? = some d ∧ d.errorMessage ≠ [] ∧
      m = resolvePlaceholders caps d.errorMessage.length d.errorMessage ∧ rep.label = d.name) ∨
    (∃ (q : Nat) (d : Def) (p : Frame V → Option V → Bool × List Byte × Option V) (f : Frame V) (dt : Option V),
      cfg.rules[q]? = some d ∧ cfg.predicate q = some p ∧ (p f dt).1 = false ∧ (p f dt).2.1 = m ∧ m ≠ [] ∧ rep.label = d.name) ∨
    (∃ nm, m = "undefined back reference '$".toUTF8.toList ++ nm ++ "'...".toUTF8.toList) ∨
    m = "expected end of input".toUTF8.toList := by
  obtain ⟨l, n, hk, ho, h1, h2, h3⟩ := (said_end h).2 rep hm m hp
  obtain ⟨l1, l2, e, _⟩ := kept_wins hk
  cases ho n (by rw [e]; simp) with
  | rule q d caps hd hm e hl => exact .inl ⟨q, d, caps, hd, hm, by rw [← h2, e], h3 _ hl⟩
  | pred q d p f dt hd hp hf hm e hl =>
    exact .inr (.inl ⟨q, d, p, f, dt, hd, hp, hf, by rw [← h2, e], by rw [← h2, e]; exact hm, h3 _ hl⟩)
  | bref nm e => exact .inr (.inr (.inl ⟨nm, by rw [← h2, e]⟩))
  | eoi e => exact .inr (.inr (.inr (by rw [← h2, e])))

/-! ## What is offered -/

theorem bind_none {x : Out (VRes V)} {g : Nat → VRes V → St V} {st' : St V}
    (h : (x.bind fun y => match y.1 with | some j => .ok (some j, g j y) | none => .ok (none, y.2.2)) = .ok (none, st')) :
    ∃ v, x = .ok (none, v, st') := by
  obtain ⟨⟨o, v, s⟩, h1, h2⟩ := Out.bind_eq_ok.1 h
  cases o with
  | none => cases h2; exact ⟨v, h1⟩
  | some j => cases h2

theorem leave_state {cfg : Cfg V} {r i : Nat} {y : VRes V} {st : St V} {o : Option Nat} {v : Option V} {st' : St V}
    (h : (match cfg.leave r with
      | some f => let z := f i y.1 y.2.1 st.dt; (.ok (y.1, z.1, { st with dt := z.2 }) : Out (VRes V))
      | none => .ok (y.1, y.2.1, st)) = .ok (o, v, st')) : o = y.1 ∧ st'.err = st.err ∧ st'.caps = st.caps ∧
      st'.logOn = st.logOn ∧ st'.recovered = st.recovered := by
  split at h <;> cases h <;> exact ⟨rfl, rfl, rfl, rfl, rfl⟩

/-- The state a rule's expression starts in. -/
def bodyStart (cfg : Cfg V) (r i : Nat) (st : St V) : St V :=
  { callEnter cfg r i { st with args := ([], 0) :: st.args, lrMemo := ((r, 0, i), none) :: st.lrMemo } with vs := {} }

/-- What a rule that fails does last. -/
theorem rule_fails {cfg : Cfg V} {r : Nat} {d : Def} {nm : List Byte} {i : Nat} {st st' : St V}
    (h : Parses cfg (.ref r nm []) i st none st') (hd : cfg.rules[r]? = some d) (hm : d.isMacro = false) (hl : d.isLR = false)
    (hro : cfg.recognizeOnly = false) (hpk : cfg.packrat = false) (hre : st.lrMemo.lookup (r, 0, i) = none) :
    ∃ (x : Option Nat) (s : St V) (n : Nat), opeBody (run n) cfg r d i (bodyStart cfg r i st) = .ok (x, s) ∧ Tr cfg st s ∧ (finishRule cfg r d i x s).1 = none ∧ st'.err = (finishRule cfg r d i x s).2.2.err ∧
      st'.caps = (finishRule cfg r d i x s).2.2.caps ∧ st'.logOn = (finishRule cfg r d i x s).2.2.logOn ∧
      st'.recovered = (finishRule cfg r d i x s).2.2.recovered := by
  obtain ⟨n, h⟩ := h
  cases n with
  | zero => cases h
  | succ n =>
    have h : parseOpe (run n) cfg (.ref r nm []) i st = .ok (none, st') := h
    unfold parseOpe at h
    split at h
    · cases h
    · simp only [refer, hd, hm, hl, hpk, Bool.false_eq_true, if_false, Bool.and_false] at h
      unfold withArgs after at h
      obtain ⟨⟨o, s1⟩, h1, h2⟩ := Out.bind_eq_ok.1 h
      cases h2
      cases n with
      | zero => cases h1
      | succ n =>
        have h1 : holder (run n) cfg r i { st with args := ([], 0) :: st.args } = .ok (none, s1) := h1
        unfold holder at h1
        simp only [hd, hm, hl, hro, Bool.false_and, Bool.false_eq_true, if_false] at h1
        obtain ⟨v, h1⟩ := bind_none (g := fun j x => emplace cfg d x.2.1 x.2.2) h1
        unfold guarded at h1
        simp only [hpk, hre, Bool.false_eq_true, if_false, Option.isSome_none] at h1
        obtain ⟨⟨o, v2, s2⟩, h3, h4⟩ := Out.bind_eq_ok.1 h1
        cases h4
        unfold doParse at h3
        obtain ⟨⟨x, s⟩, h5, h6⟩ := Out.bind_eq_ok.1 h3
        have h7 := leave_state h6
        refine ⟨x, s, n, h5, ?_, h7.1.symm, h7.2.1, h7.2.2.1, h7.2.2.2⟩
        refine TrO.pre (cfg := cfg) (b := bodyStart cfg r i st) ?_
          (opeBody_T (run_T n) _ _ _ _ _) _ h5
        unfold bodyStart callEnter
        split <;> exact Tr.same rfl rfl rfl rfl rfl rfl ⟨rfl, rfl, rfl, rfl⟩

theorem notes_note (e : Err) (n : Note) : (e.note n).notes = e.notes ++ [n] := (note_other e n).2.2.2.1

/-- C58: a rule with an `error_message` that fails at a position offers that message there, with its name as label and its placeholders filled from
the captures as they are then (no packrat parsing, the rule is not being evaluated at the same position already); messages offered before stay. -/
theorem C58_rule_offers {cfg : Cfg V} {r : Nat} {d : Def} {nm : List Byte} {i : Nat} {st st' : St V} (hpre : Pre cfg i st)
    (h : Parses cfg (.ref r nm []) i st none st') (hd : cfg.rules[r]? = some d) (hm : d.isMacro = false) (hl : d.isLR = false)
    (hro : cfg.recognizeOnly = false) (hpk : cfg.packrat = false) (hre : st.lrMemo.lookup (r, 0, i) = none)
    (hlog : st.logOn = true) (hnp : cfg.predicate r = none) (hem : d.errorMessage ≠ []) :
    ∃ l, st'.err.notes = l ++ [⟨i, resolvePlaceholders st'.caps d.errorMessage.length d.errorMessage, some d.name, false⟩] ∧
      (st'.recovered = false → st.err.notes <+: l) := by
  have hlog' : st'.logOn = true := by rw [(h.P hpre).keep.logOn]; exact hlog
  obtain ⟨x, s, _, _, ht, h1, h2, h3, h4, h5⟩ := rule_fails h hd hm hl hro hpk hre
  cases x with
  | some j =>
    unfold finishRule at h1
    simp only [hnp] at h1
    split at h1 <;> cases h1
  | none =>
    unfold finishRule at h2 h3 h4 h5
    simp only at h2 h3 h4 h5
    by_cases hc : s.logOn = true
    · rw [if_pos (by simp [hc, hem])] at h2 h3 h4 h5
      refine ⟨s.err.notes, ?_, fun hr => ht.notes ?_⟩
      · rw [h2, h3]; exact notes_note _ _
      · rw [h5] at hr; exact hr
    · rw [if_neg (by simp [hc])] at h4
      rw [h4] at hlog'; exact absurd hlog' hc

/-- C58: a rule whose predicate refuses a match with a message offers that message where the match began, with the rule's name as label: if the rule
(with a predicate and without `error_message`, not a token rule) fails, its expression either failed too and nothing is added, or matched up
to some `j` and the predicate refused the scope for `i` to `j`; what it said is offered unless empty. -/
theorem C58_predicate_offers {cfg : Cfg V} {r : Nat} {d : Def} {nm : List Byte} {i : Nat} {st st' : St V} (hpre : Pre cfg i st)
    (h : Parses cfg (.ref r nm []) i st none st') (hd : cfg.rules[r]? = some d) (hm : d.isMacro = false) (hl : d.isLR = false)
    (hro : cfg.recognizeOnly = false) (hpk : cfg.packrat = false) (hre : st.lrMemo.lookup (r, 0, i) = none)
    (hlog : st.logOn = true) {p : Frame V → Option V → Bool × List Byte × Option V} (hp : cfg.predicate r = some p)
    (hem : d.errorMessage = []) (hnw : d.noWs = false) :
    ∃ (s0 s1 : St V) (x : Option Nat), Parses cfg d.ope i s0 x s1 ∧ s0.err = st.err ∧ s0.caps = st.caps ∧
      match x with
      | none => st'.err.notes = s1.err.notes
      | some j => ∃ f : Frame V, f.sv = (i, j - i) ∧ f.vals = s1.vs.vals ∧ f.tokens = s1.vs.tokens ∧ (p f s1.dt).1 = false ∧
          st'.err.notes = s1.err.notes ++ (if (p f s1.dt).2.1 = [] then [] else [⟨i, (p f s1.dt).2.1, some d.name, false⟩]) := by
  have hlog' : st'.logOn = true := by rw [(h.P hpre).keep.logOn]; exact hlog
  obtain ⟨x, s, n, hb, ht, h1, h2, h3, h4, h5⟩ := rule_fails h hd hm hl hro hpk hre
  unfold opeBody at hb
  rw [hnw] at hb
  simp only [Bool.false_eq_true, if_false] at hb
  unfold after at hb
  obtain ⟨⟨x1, s1⟩, hb1, hb2⟩ := Out.bind_eq_ok.1 hb
  have hc : ∀ b : Bool, (popRule b s1).err = s1.err ∧ (popRule b s1).vs = s1.vs ∧ (popRule b s1).dt = s1.dt := by
    intro b; unfold popRule; split <;> exact ⟨rfl, rfl, rfl⟩
  have hc := hc (cfg.needsRuleStack || d.hasMacroRef)
  refine ⟨_, s1, x1, ⟨n, hb1⟩, ?_, ?_, ?_⟩
  · unfold pushRule bodyStart callEnter; split <;> split <;> rfl
  · unfold pushRule bodyStart callEnter; split <;> split <;> rfl
  · cases hb2
    generalize popRule (cfg.needsRuleStack || d.hasMacroRef) s1 = s2 at *
    dsimp only at h1 h2 h3 h4 h5
    cases x1 with
    | none =>
      unfold finishRule at h2
      simp only [hem] at h2
      rw [if_neg (by simp)] at h2
      rw [h2, hc.1]
    | some j =>
      unfold finishRule at h1 h2 h4
      simp only [hp] at h1 h2 h4
      have hf : (finishFrame r d i j s2.vs).sv = (i, j - i) ∧ (finishFrame r d i j s2.vs).vals = s2.vs.vals ∧
          (finishFrame r d i j s2.vs).tokens = s2.vs.tokens := by
        unfold finishFrame; simp only; split <;> exact ⟨rfl, rfl, rfl⟩
      refine ⟨finishFrame r d i j s2.vs, hf.1, by rw [hf.2.1, hc.2.1], by rw [hf.2.2, hc.2.1], ?_, ?_⟩
      · rw [← hc.2.2]
        by_cases hq : (p (finishFrame r d i j s2.vs) s2.dt).1 = true
        · rw [if_pos hq] at h1
          split at h1 <;> cases h1
        · simpa using hq
      · rw [← hc.2.2, ← hc.1]
        by_cases hq : (p (finishFrame r d i j s2.vs) s2.dt).1 = true
        · rw [if_pos hq] at h1
          split at h1 <;> cases h1
        · rw [if_neg hq] at h2 h4
          by_cases hq2 : (p (finishFrame r d i j s2.vs) s2.dt).2.1 = []
          · rw [if_neg (by simp [hq2])] at h2
            rw [h2, if_pos hq2]; simp
          · rw [if_neg hq2, h2]
            by_cases hs : s2.logOn = true
            · rw [if_pos (by simp [hs, hq2])]; exact notes_note _ _
            · rw [if_neg (by simp [hs])] at h4
              rw [h4] at hlog'; exact absurd hlog' hs

/-! ## Placeholders -/

/-- `v` is `w` without the white space around it. -/
def Trimmed (w v : List Byte) : Prop :=
  ∃ a b, w = a ++ v ++ b ∧ (∀ x ∈ a, isSpaceByte x = true) ∧ (∀ x ∈ b, isSpaceByte x = true) ∧
    (∀ x, v.head? = some x → isSpaceByte x = false) ∧ (∀ x, v.getLast? = some x → isSpaceByte x = false)

/-- What a name stands for: nothing if there is no capture of that name, else the text of the latest one, trimmed. -/
def Stood (caps : List (List Byte × List Byte)) (name v : List Byte) : Prop :=
  ((∀ e ∈ caps, e.1 ≠ name) ∧ v = []) ∨
  ∃ l1 w l2, caps = l1 ++ (name, w) :: l2 ∧ (∀ e ∈ l2, e.1 ≠ name) ∧ Trimmed w v

/-- `s` contains `%{`, and `}` somewhere after that. -/
def HasHole (s : List Byte) : Prop := ∃ a name t, s = a ++ [37, 123] ++ name ++ 125 :: t

/-- A message and what becomes of it: from left to right every `%{name}` is replaced by what the name stands for, everything else stays. -/
inductive Filled (caps : List (List Byte × List Byte)) : List Byte → List Byte → Prop
  | done {s : List Byte} : ¬ HasHole s → Filled caps s s
  | hole {a name t v t' : List Byte} : (∀ k, k < a.length → ¬ [37, 123] <+: (a ++ [37, 123] ++ name ++ 125 :: t).drop k) → 125 ∉ name →
      Stood caps name v → Filled caps t t' → Filled caps (a ++ [37, 123] ++ name ++ 125 :: t) (a ++ v ++ t')

theorem dropWhile_split {p : Byte → Bool} (l : List Byte) : ∃ a, l = a ++ l.dropWhile p ∧ (∀ x ∈ a, p x = true) ∧
    ∀ x, (l.dropWhile p).head? = some x → p x = false := by
  induction l with
  | nil => exact ⟨[], rfl, by simp, by simp⟩
  | cons b l ih =>
    obtain ⟨a, e, h1, h2⟩ := ih
    rw [List.dropWhile_cons]
    split
    · rename_i hp
      refine ⟨b :: a, by rw [List.cons_append, ← e], fun x hx => ?_, h2⟩
      rcases List.mem_cons.1 hx with rfl | hx
      · exact hp
      · exact h1 x hx
    · rename_i hp
      refine ⟨[], rfl, by simp, fun x hx => ?_⟩
      cases hx; simpa using hp

theorem trimSpace_spec (w : List Byte) : Trimmed w (trimSpace w) := by
  unfold trimSpace
  obtain ⟨a, e1, ha, h1⟩ := dropWhile_split (p := isSpaceByte) w.reverse
  generalize w.reverse.dropWhile isSpaceByte = u at *
  obtain ⟨b, e2, hb, h2⟩ := dropWhile_split (p := isSpaceByte) u.reverse
  generalize hv : u.reverse.dropWhile isSpaceByte = v at *
  refine ⟨b, a.reverse, ?_, hb, fun x hx => ha x (by simpa using hx), h2, fun x hx => h1 x ?_⟩
  · rw [← e2, ← List.reverse_append, ← e1, List.reverse_reverse]
  · have : u = v.reverse ++ b.reverse := by rw [← List.reverse_append, ← e2, List.reverse_reverse]
    rw [this, List.head?_append, List.head?_reverse, hx]; rfl

theorem findCap_spec (caps : List (List Byte × List Byte)) (name : List Byte) : Stood caps name (trimSpace ((findCap caps name).getD [])) := by
  unfold findCap
  induction caps using snoc_induction with
  | h0 => exact .inl ⟨by simp, rfl⟩
  | h1 l x ih =>
    rw [List.reverse_append]
    simp only [List.reverse_cons, List.reverse_nil, List.nil_append, List.singleton_append, List.find?_cons]
    by_cases hx : x.1 = name
    · rw [decide_eq_true hx]
      simp only [Option.map_some, Option.getD_some]
      exact .inr ⟨l, x.2, [], by rw [← hx], by simp, trimSpace_spec _⟩
    · rw [decide_eq_false hx]
      simp only
      rcases ih with ⟨h1, h2⟩ | ⟨l1, w, l2, e, h1, h2⟩
      · refine .inl ⟨fun e he => ?_, h2⟩
        rcases List.mem_append.1 he with he | he
        · exact h1 e he
        · rw [List.mem_singleton] at he; subst he; exact hx
      · refine .inr ⟨l1, w, l2 ++ [x], by rw [e]; simp, fun e he => ?_, h2⟩
        rcases List.mem_append.1 he with he | he
        · exact h1 e he
        · rw [List.mem_singleton] at he; subst he; exact hx

theorem Filled.cons {caps : List (List Byte × List Byte)} {b : Byte} {s s' : List Byte} (h : Filled caps s s')
    (hb : ¬ (b = 37 ∧ s.head? = some 123 ∧ 125 ∈ s.tail)) : Filled caps (b :: s) (b :: s') := by
  cases h with
  | done hn =>
    refine .done ?_
    rintro ⟨a, name, t, e⟩
    cases a with
    | nil =>
      simp only [List.nil_append, List.cons_append, List.cons.injEq] at e
      exact hb ⟨e.1, by rw [e.2]; rfl, by rw [e.2]; simp⟩
    | cons c a =>
      simp only [List.cons_append, List.cons.injEq] at e
      exact hn ⟨a, name, t, by rw [e.2]⟩
  | @hole a name t v t' h1 h2 h3 h4 =>
    have := Filled.hole (a := b :: a) (name := name) (t := t) (v := v) (t' := t') (caps := caps) (fun k hk hp => ?_) h2 h3 h4
    · simpa using this
    · cases k with
      | succ k =>
        exact h1 k (by simpa using hk) (by simpa using hp)
      | zero =>
        obtain ⟨u, hu⟩ := hp
        simp only [List.drop_zero, List.cons_append, List.nil_append, List.cons.injEq] at hu
        refine hb ⟨hu.1.symm, ?_, ?_⟩
        · rw [← hu.2]; rfl
        · rw [← hu.2]
          have : (125 : Byte) ∈ 123 :: u := by rw [hu.2]; simp
          rcases List.mem_cons.1 this with h | h
          · cases h
          · exact h

theorem takeWhile_stop (l : List Byte) (h : (125 : Byte) ∈ l) : ∃ t, l = l.takeWhile (· ≠ 125) ++ 125 :: t ∧
    125 ∉ l.takeWhile (· ≠ 125) ∧ l.drop ((l.takeWhile (· ≠ 125)).length + 1) = t := by
  induction l with
  | nil => cases h
  | cons b l ih =>
    by_cases hb : b = 125
    · subst hb; exact ⟨l, by simp, by simp, by simp⟩
    · obtain ⟨t, e, h1, h2⟩ := ih (by rcases List.mem_cons.1 h with h | h; exact absurd h.symm hb; exact h)
      have : (b :: l).takeWhile (· ≠ 125) = b :: l.takeWhile (· ≠ 125) := by rw [List.takeWhile_cons, if_pos (by simpa using hb)]
      rw [this]
      refine ⟨t, by rw [List.cons_append, ← e], ?_, by simpa using h2⟩
      simp only [List.mem_cons, not_or]
      exact ⟨fun e => hb e.symm, h1⟩

theorem resolve_filled (caps : List (List Byte × List Byte)) (n : Nat) (s : List Byte) (h : s.length ≤ n) :
    Filled caps s (resolvePlaceholders caps n s) := by
  induction n generalizing s with
  | zero =>
    cases s with
    | nil => exact .done (by rintro ⟨a, name, t, e⟩; simp at e)
    | cons b s => simp at h
  | succ n ih =>
    cases s with
    | nil => exact .done (by rintro ⟨a, name, t, e⟩; simp at e)
    | cons b s =>
      unfold resolvePlaceholders
      simp only [List.length_cons] at h
      by_cases hc : b = 37 ∧ s.head? = some 123 ∧ 125 ∈ s.tail
      · rw [if_pos hc]
        simp only
        obtain ⟨rfl, h1, h2⟩ := hc
        cases s with
        | nil => cases h1
        | cons c s =>
          cases h1
          simp only [List.tail_cons] at h2 ⊢
          obtain ⟨t, e, h3, h4⟩ := takeWhile_stop s h2
          rw [h4]
          have hlen : t.length ≤ n := by
            have := congrArg List.length e
            simp only [List.length_append, List.length_cons] at this h
            omega
          have := Filled.hole (a := []) (t := t) (caps := caps) (by simp) h3 (findCap_spec caps _) (ih t hlen)
          simp only [List.nil_append, List.cons_append] at this
          rwa [← e] at this
      · rw [if_neg hc]
        exact (ih s (by omega)).cons hc

/-- C58: the placeholders of a message: from left to right every `%{name}` is replaced by the text of the latest capture of that name, without the
white space around it, or by nothing if there is none; everything else is left as it is. -/
theorem C58_placeholders (caps : List (List Byte × List Byte)) (s : List Byte) : Filled caps s (resolvePlaceholders caps s.length s) :=
  resolve_filled caps _ s (Nat.le_refl _)

/-! ## Examples -/

/-- `S <- $x< 'q' > A; A <- 'a' { error_message "no a after %{x}" }`. -/
def mgCfg (inp : List Byte) : Cfg Nat :=
  { input := inp, needsRuleStack := true
    rules := [{ name := [83], ope := .seq [.cap [120] (.lit [113] false), .ref 1 [65] []] none },
      { name := [65], ope := .lit [97] false, errorMessage := "no a after %{x}".toUTF8.toList }] }

/-- `S <- A / 'b' 'c'; A <- 'a' { error_message "no a" }`. -/
def mkCfg (inp : List Byte) : Cfg Nat :=
  { input := inp, needsRuleStack := true
    rules := [{ name := [83], ope := .cho [.ref 1 [65] [], .seq [.lit [98] false, .lit [99] false] none] false [] },
      { name := [65], ope := .lit [97] false, errorMessage := "no a".toUTF8.toList }] }

/-- `S <- A? 'b'; A <- 'a' { error_message "no a" }`. -/
def slCfg (inp : List Byte) : Cfg Nat :=
  { input := inp, needsRuleStack := true
    rules := [{ name := [83], ope := .seq [.rep (.ref 1 [65] []) 0 (some 1) none, .lit [98] false] none },
      { name := [65], ope := .lit [97] false, errorMessage := "no a".toUTF8.toList }] }

/-- What a user sees of the reports of a failed parse without recovery, and what was offered. -/
structure Told where
  reps : List (Nat × Option (List Byte) × List Byte)
  recovered : Bool
  ret : Bool
  notes : List Note
  furthest : Option Nat
  deriving DecidableEq

def told (n : Nat) (cfg : Cfg Nat) : Option Told :=
  match parserParse n cfg 0 true true none with
  | .ok a => some ⟨a.logs.map fun r => (r.pos, r.msg, r.label), a.res.st.recovered, a.res.ret, a.res.st.err.notes, a.res.st.err.pos⟩
  | _ => none

theorem told_answers {n : Nat} {cfg : Cfg Nat} {t : Told} (h : told n cfg = some t) :
    ∃ a, Answers cfg 0 true true none a ∧ (a.logs.map fun r => (r.pos, r.msg, r.label)) = t.reps ∧ a.res.st.recovered = t.recovered ∧
      a.res.ret = t.ret ∧ a.res.st.err.notes = t.notes ∧ a.res.st.err.pos = t.furthest := by
  unfold told at h
  split at h
  · rename_i a ha
    cases h
    exact ⟨a, ⟨n, ha⟩, rfl, rfl, rfl, rfl, rfl⟩
  · cases h

/-- The hypotheses of `C58_first_furthest` are met: on "qz" the message of `A` is reported at 1, with the capture filled in. -/
example : ∃ a, Answers (mgCfg [113, 122]) 0 true true none a ∧ a.res.st.recovered = false ∧ a.res.ret = false ∧ a.res.st.err.notes ≠ [] ∧
    (∀ m ∈ a.res.st.err.notes, m.force = false) ∧
    (a.logs.map fun r => (r.pos, r.msg, r.label)) = [(1, some "no a after q".toUTF8.toList, [65])] := by
  obtain ⟨a, h, h1, h2, h3, h4, _⟩ := told_answers (n := 20) (cfg := mgCfg [113, 122])
    (t := ⟨[(1, some "no a after q".toUTF8.toList, [65])], false, false, [⟨1, "no a after q".toUTF8.toList, some [65], false⟩], some 1⟩)
    (by decide +kernel)
  exact ⟨a, h, h2, h3, by rw [h4]; simp, by rw [h4]; simp, h1⟩

/-- C58: a custom message is reported even if the parse got further than where it was offered: `S <- A / 'b' 'c'` with a message at `A` on
"bx" reports the message of `A` at 0, although 'c' was expected at 1. -/
theorem C58_message_masks_error : ∃ a, Answers (mkCfg [98, 120]) 0 true true none a ∧ a.res.st.recovered = false ∧
    (a.logs.map fun r => (r.pos, r.msg, r.label)) = [(0, some "no a".toUTF8.toList, [65])] ∧ Furthest a.res.st.fails 1 := by
  obtain ⟨a, h, h1, h2, h3, h4, h5⟩ := told_answers (n := 20) (cfg := mkCfg [98, 120])
    (t := ⟨[(0, some "no a".toUTF8.toList, [65])], false, false, [⟨0, "no a".toUTF8.toList, some [65], false⟩], some 1⟩)
    (by decide +kernel)
  exact ⟨a, h, h2, h1, (trace_end h h2).1.pos _ h5⟩

/-- C58: the library's own messages come with whatever label an earlier message left behind: `S <- A? 'b'` with a message at `A` on "bx" reports
"expected end of input" at 1 with label `A`, a rule that is not expected there. -/
theorem C58_stale_label : ∃ a, Answers (slCfg [98, 120]) 0 true true none a ∧ a.res.st.recovered = false ∧
    (a.logs.map fun r => (r.pos, r.msg, r.label)) = [(1, some "expected end of input".toUTF8.toList, [65])] := by
  obtain ⟨a, h, h1, h2, h3, h4, h5⟩ := told_answers (n := 20) (cfg := slCfg [98, 120])
    (t := ⟨[(1, some "expected end of input".toUTF8.toList, [65])], false, false,
      [⟨0, "no a".toUTF8.toList, some [65], false⟩, ⟨1, "expected end of input".toUTF8.toList, none, true⟩], some 0⟩)
    (by decide +kernel)
  exact ⟨a, h, h2, h1⟩

theorem parses_of {n : Nat} {cfg : Cfg V} {e : Ope} {i : Nat} {st : St V} {l : List Note}
    (h : (match run n cfg (.ope e) i st with | .ok (none, s) => some s.err.notes | _ => none) = some l) :
    ∃ st', Parses cfg e i st none st' ∧ st'.err.notes = l := by
  split at h
  · rename_i s hs; cases h; exact ⟨s, ⟨n, hs⟩, rfl⟩
  · cases h

/-- The hypotheses of `C58_rule_offers` are met: `A` on "z", with logging on. -/
example : ∃ st', Parses (mgCfg [122]) (.ref 1 [65] []) 0 { logOn := true } none st' ∧ Pre (mgCfg [122]) 0 ({ logOn := true } : St Nat) ∧
    st'.err.notes = [⟨0, "no a after ".toUTF8.toList, some [65], false⟩] := by
  obtain ⟨s, h1, h2⟩ := parses_of (n := 9) (cfg := mgCfg [122]) (e := .ref 1 [65] []) (i := 0) (st := { logOn := true })
    (l := [⟨0, "no a after ".toUTF8.toList, some [65], false⟩]) (by decide +kernel)
  refine ⟨s, h1, Fresh.ready ?_ ?_ (Nat.zero_le _), h2⟩
  · exact ⟨rfl, rfl, rfl, rfl⟩
  · exact fun h => by cases h

/-- `mgCfg` with a predicate at `A` that refuses everything. -/
def mpCfg (inp : List Byte) : Cfg Nat :=
  { input := inp, needsRuleStack := true, rules := [{ name := [83], ope := .ref 1 [65] [] }, { name := [65], ope := .lit [97] false }]
    predicate := fun r => if r = 1 then some fun _ dt => (false, [33], dt) else none }

/-- The hypotheses of `C58_predicate_offers` are met: on "a" the message of the predicate is offered at 0. -/
example : ∃ st', Parses (mpCfg [97]) (.ref 1 [65] []) 0 { logOn := true } none st' ∧ st'.err.notes = [⟨0, [33], some [65], false⟩] :=
  parses_of (n := 9) (by decide +kernel)

/-- A message with two placeholders, one of them unknown, and a `%{` that is not closed. -/
example : resolvePlaceholders [([120], [32, 97, 32]), ([121], [98])] 20 "<%{x}|%{z}|%{".toUTF8.toList = "<a||%{".toUTF8.toList := by decide +kernel

end Verif.Props
