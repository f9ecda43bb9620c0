import Verif.EngineMono
/-!
# What the error data are, in terms of the failures recorded

`St.fails` lists every failure recorded in a parse.  `Shows l e` says what the error data `e` are in terms of such a list `l`:
the furthest position, and the expectations recorded there that no later failure at that position has dropped.  It is an
invariant of the engine as long as no recovery has succeeded (a recovery reports the error and starts over).
-/

namespace Verif
open Out CharClass

variable {V : Type}

/-- `p` is the furthest position in a list of failures. -/
def Furthest (l : List Fail) (p : Nat) : Prop := (∃ f ∈ l, f.pos = p) ∧ ∀ f ∈ l, f.pos ≤ p

/-- `t` was recorded as expected at position `p`, and no failure recorded later at `p` dropped it. -/
def Stands (l : List Fail) (p : Nat) (t : Option ErrLit × Option Nat) : Prop :=
  ∃ l1 f l2, l = l1 ++ f :: l2 ∧ f.pos = p ∧ f.item = some t ∧ ∀ g ∈ l2, g.pos = p → g.reset = false

/-- The error data after the failures `l` were recorded. -/
structure Shows (l : List Fail) (e : Err) : Prop where
  none_ : e.pos = none → l = []
  pos : ∀ p, e.pos = some p → Furthest l p
  toks : ∀ t, t ∈ e.toks ↔ ∃ p, e.pos = some p ∧ Stands l p t
  nodup : e.toks.Nodup

theorem Shows.congr {l : List Fail} {e e' : Err} (h : Shows l e) (hp : e'.pos = e.pos) (ht : e'.toks = e.toks) : Shows l e' := by
  obtain ⟨a, b, c, d⟩ := h
  constructor
  · rw [hp]; exact a
  · rw [hp]; exact b
  · rw [hp, ht]; exact c
  · rw [ht]; exact d

theorem Shows.init : Shows [] {} := by
  constructor
  · intro _; rfl
  · intro p h; cases h
  · intro t
    constructor
    · intro h; cases h
    · rintro ⟨p, h, _⟩; cases h
  · exact List.nodup_nil

theorem stands_snoc {l : List Fail} {f : Fail} {p : Nat} {t : Option ErrLit × Option Nat} :
    Stands (l ++ [f]) p t ↔ (f.pos = p ∧ f.item = some t) ∨ ((f.pos = p → f.reset = false) ∧ Stands l p t) := by
  constructor
  · rintro ⟨l1, g, l2, e, hp, hi, hl⟩
    rcases List.eq_nil_or_concat l2 with h | ⟨l3, b, h⟩
    · subst h
      have := List.append_inj_right' e rfl
      simp only [List.cons.injEq, and_true] at this
      subst this
      exact .inl ⟨hp, hi⟩
    · subst h
      rw [List.concat_eq_append, ← List.cons_append, ← List.append_assoc] at e
      have h1 := List.append_inj_right' e rfl
      have h2 := List.append_inj_left' e rfl
      simp only [List.cons.injEq, and_true] at h1
      subst h1
      refine .inr ⟨fun h => hl f (by simp) h, l1, g, l3, h2, hp, hi, fun x hx => hl x (by simp [hx])⟩
  · rintro (⟨hp, hi⟩ | ⟨hf, l1, g, l2, e, hp, hi, hl⟩)
    · exact ⟨l, f, [], rfl, hp, hi, by simp⟩
    · refine ⟨l1, g, l2 ++ [f], by simp [e], hp, hi, fun x hx h => ?_⟩
      rcases List.mem_append.1 hx with hx | hx
      · exact hl x hx h
      · simp only [List.mem_singleton] at hx; subst hx; exact hf h

theorem stands_pos {l : List Fail} {p : Nat} {t : Option ErrLit × Option Nat} (h : Stands l p t) : ∃ f ∈ l, f.pos = p := by
  obtain ⟨l1, f, l2, e, hp, _⟩ := h
  exact ⟨f, by simp [e], hp⟩

/-- One recorded failure, as the code treats it (peglib.h 3610-3639, 1601-1616). -/
def Err.record (e : Err) (f : Fail) : Err :=
  if optLe e.pos f.pos then
    let e := if optLt e.pos f.pos || f.reset then { e with pos := some f.pos, toks := [] } else e
    match f.item with
    | some t => e.add t
    | none => e
  else e

theorem mem_add (e : Err) (t u : Option ErrLit × Option Nat) : u ∈ (e.add t).toks ↔ u = t ∨ u ∈ e.toks := by
  unfold Err.add
  by_cases h : t ∈ e.toks
  · rw [if_pos h]
    constructor
    · exact .inr
    · rintro (rfl | h')
      · exact h
      · exact h'
  · rw [if_neg h]; simp [or_comm]

theorem pos_add (e : Err) (t : Option ErrLit × Option Nat) : (e.add t).pos = e.pos := by unfold Err.add; split <;> rfl

theorem nodup_add (e : Err) (t : Option ErrLit × Option Nat) (h : e.toks.Nodup) : (e.add t).toks.Nodup := by
  unfold Err.add
  by_cases h' : t ∈ e.toks
  · rw [if_pos h']; exact h
  · rw [if_neg h']
    rw [List.nodup_append]
    exact ⟨h, by simp, by intro a ha b hb e; simp only [List.mem_singleton] at hb; subst hb; subst e; exact h' ha⟩

theorem Shows.record {l : List Fail} {e : Err} (h : Shows l e) (f : Fail) : Shows (l ++ [f]) (e.record f) := by
  have key : ∀ e0 : Err, e0.toks.Nodup → e0.pos = some f.pos → (∀ x ∈ l, x.pos ≤ f.pos) →
      (∀ t, t ∈ e0.toks ↔ f.reset = false ∧ Stands l f.pos t) →
      Shows (l ++ [f]) (match f.item with | some t => e0.add t | none => e0) := by
    intro e0 hn hp hm ht
    have hp' : (match f.item with | some t => e0.add t | none => e0).pos = some f.pos := by
      cases f.item with
      | none => exact hp
      | some t => exact (pos_add _ _).trans hp
    constructor
    · intro h'; rw [hp'] at h'; cases h'
    · intro p h'
      rw [hp'] at h'; cases h'
      refine ⟨⟨f, by simp, rfl⟩, fun x hx => ?_⟩
      rcases List.mem_append.1 hx with hx | hx
      · exact hm x hx
      · simp only [List.mem_singleton] at hx; subst hx; exact Nat.le_refl _
    · intro t
      have : t ∈ (match f.item with | some t => e0.add t | none => e0).toks ↔ f.item = some t ∨ t ∈ e0.toks := by
        cases f.item with
        | none => simp
        | some u => simp only [mem_add, Option.some.injEq]; constructor <;> rintro (h | h) <;> simp [h]
      rw [this, ht, hp']
      constructor
      · rintro (h' | h')
        · exact ⟨_, rfl, stands_snoc.2 (.inl ⟨rfl, h'⟩)⟩
        · exact ⟨_, rfl, stands_snoc.2 (.inr ⟨fun _ => h'.1, h'.2⟩)⟩
      · rintro ⟨p, e', hs⟩
        cases e'
        rcases stands_snoc.1 hs with hs | hs
        · exact .inl hs.2
        · exact .inr ⟨hs.1 rfl, hs.2⟩
    · cases f.item with
      | none => exact hn
      | some t => exact nodup_add _ _ hn
  unfold Err.record
  cases hp : e.pos with
  | none =>
    have hl := h.none_ hp
    subst hl
    simp only [optLe, optLt, Bool.true_or, if_true]
    apply key
    · exact List.nodup_nil
    · rfl
    · simp
    · intro t
      constructor
      · intro h; cases h
      · rintro ⟨_, hs⟩; obtain ⟨x, hx, _⟩ := stands_pos hs; cases hx
  | some p =>
    obtain ⟨⟨g, hg, hgp⟩, hm⟩ := h.pos p hp
    simp only [optLe]
    by_cases hle : p ≤ f.pos
    · simp only [hle, decide_true, if_true]
      have hm' : ∀ x ∈ l, x.pos ≤ f.pos := fun x hx => Nat.le_trans (hm x hx) hle
      by_cases hr : (optLt (some p) f.pos || f.reset) = true
      · have e1 : ∀ x : Err, (if (optLt (some p) f.pos || f.reset) = true then x else e) = x := fun x => if_pos hr
        simp only [e1]
        apply key
        · exact List.nodup_nil
        · rfl
        · exact hm'
        · intro t
          constructor
          · intro h; cases h
          · rintro ⟨hr', hs⟩
            exfalso
            rw [hr', Bool.or_false] at hr
            simp only [optLt, decide_eq_true_eq] at hr
            obtain ⟨x, hx, hxp⟩ := stands_pos hs
            have := hm x hx
            omega
      · have e1 : ∀ x : Err, (if (optLt (some p) f.pos || f.reset) = true then x else e) = e := fun x => if_neg hr
        simp only [e1]
        simp only [optLt, Bool.or_eq_true, decide_eq_true_eq, not_or, Bool.not_eq_true] at hr
        have hpf : p = f.pos := by omega
        apply key
        · exact h.nodup
        · rw [hp, hpf]
        · exact hm'
        · intro t
          rw [h.toks, hp, ← hpf]
          constructor
          · rintro ⟨q, e', hs⟩; cases e'; exact ⟨hr.2, hs⟩
          · rintro ⟨_, hs⟩; exact ⟨_, rfl, hs⟩
    · have hlt : f.pos < p := by omega
      simp only [hle, decide_false, Bool.false_eq_true, if_false]
      constructor
      · intro h'; rw [hp] at h'; cases h'
      · intro q h'
        rw [hp] at h'; cases h'
        refine ⟨⟨g, by simp [hg], hgp⟩, fun x hx => ?_⟩
        rcases List.mem_append.1 hx with hx | hx
        · exact hm x hx
        · simp only [List.mem_singleton] at hx; subst hx; omega
      · intro t
        rw [h.toks, hp]
        constructor
        · rintro ⟨q, e', hs⟩; cases e'; exact ⟨_, rfl, stands_snoc.2 (.inr ⟨by omega, hs⟩)⟩
        · rintro ⟨q, e', hs⟩
          cases e'
          rcases stands_snoc.1 hs with hs | hs
          · omega
          · exact ⟨_, rfl, hs.2⟩
      · exact h.nodup

/-! ## The engine keeps the invariant -/

/-- As long as no recovery succeeded: the error data show the failures recorded, and nothing was reported. -/
def TraceOk (st : St V) : Prop :=
  st.recovered = false → Shows st.fails st.err ∧ st.err.lastOut = none ∧ st.logs = []

/-- Reports sent so far, the last of them at `last` (if any): each is further on than all before it. -/
def Rising (logs : List Report) (last : Option Nat) : Prop :=
  logs.Pairwise (fun a b => a.pos < b.pos) ∧ ∀ rep ∈ logs, ∃ p, last = some p ∧ rep.pos ≤ p

theorem Rising.output {rules : List Def} {e e' : Err} {o : Option Report} {l : List Report} (h : Rising l e.lastOut)
    (he : e.output rules = .ok (o, e')) : Rising (l ++ o.toList) e'.lastOut := by
  have key : ∀ (rep : Report) (p : Nat), rep.pos = p → optLt e.lastOut p = true → Rising (l ++ [rep]) (some p) := by
    intro rep p hp hl
    have hlt : ∀ x ∈ l, x.pos < p := by
      intro x hx
      obtain ⟨q, hq, hxq⟩ := h.2 x hx
      rw [hq] at hl
      simp only [optLt, decide_eq_true_eq] at hl
      omega
    refine ⟨List.pairwise_append.2 ⟨h.1, by simp, ?_⟩, ?_⟩
    · intro a ha b hb
      simp only [List.mem_singleton] at hb
      subst hb
      rw [hp]; exact hlt a ha
    · intro x hx
      refine ⟨p, rfl, ?_⟩
      rcases List.mem_append.1 hx with hx | hx
      · exact Nat.le_of_lt (hlt x hx)
      · simp only [List.mem_singleton] at hx; subst hx; omega
  unfold Err.output at he
  cases hm : e.msgPos with
  | some p =>
    simp only [hm] at he
    by_cases hl : optLt e.lastOut p = true
    · rw [if_pos hl] at he; cases he; exact key _ p rfl hl
    · rw [if_neg hl] at he; cases he; simpa using h
  | none =>
    simp only [hm] at he
    cases hp : e.pos with
    | none => simp only [hp] at he; cases he; simpa using h
    | some p =>
      simp only [hp] at he
      by_cases hl : optLt e.lastOut p = true
      · rw [if_pos hl] at he
        obtain ⟨x, _, hx⟩ := Out.bind_eq_ok.1 he
        cases hx; exact key _ p rfl hl
      · rw [if_neg hl] at he; cases he; simpa using h

/-- All positions in the error data and in the reports are positions of the input. -/
def Inside (N : Nat) (st : St V) : Prop :=
  (∀ p, st.err.pos = some p → p ≤ N) ∧ (∀ p, st.err.msgPos = some p → p ≤ N) ∧ ∀ rep ∈ st.logs, rep.pos ≤ N

/-- Every report was made from error data by `output_log`. -/
def Made (rules : List Def) (logs : List Report) : Prop :=
  ∀ rep ∈ logs, ∃ e e' : Err, e.output rules = .ok (some rep, e')

theorem Made.output {rules : List Def} {l : List Report} {e : Err} {o : Option Report × Err} (h : Made rules l)
    (he : e.output rules = .ok o) : Made rules (l ++ o.1.toList) := by
  intro rep hr
  rcases List.mem_append.1 hr with hr | hr
  · exact h rep hr
  · obtain ⟨o1, o2⟩ := o
    simp only [Option.mem_toList] at hr
    subst hr
    exact ⟨e, o2, he⟩

/-- Which message is kept, in terms of those offered. -/
def kept (l : List Note) : Option Note :=
  l.foldl (fun w n => if n.force || optLt (w.map (·.pos)) n.pos then some n else w) none

/-- The message data after the messages `e.notes` were offered. -/
structure Heard (e : Err) : Prop where
  pos : e.msgPos = (kept e.notes).map (·.pos)
  msg : ∀ n, kept e.notes = some n → e.msg = n.msg ∧ ∀ l, n.label = some l → e.label = l

theorem kept_snoc (l : List Note) (n : Note) :
    kept (l ++ [n]) = if n.force || optLt ((kept l).map (·.pos)) n.pos then some n else kept l := by
  unfold kept
  rw [List.foldl_append]
  rfl

theorem Heard.init : Heard {} := ⟨rfl, fun n h => by cases h⟩

theorem Heard.note {e : Err} (h : Heard e) (n : Note) : Heard (e.note n) := by
  obtain ⟨h1, h2⟩ := h
  unfold Err.note
  have hk := kept_snoc e.notes n
  rw [← h1] at hk
  by_cases hc : (n.force || optLt e.msgPos n.pos) = true
  · rw [if_pos hc] at hk ⊢
    refine ⟨by show some n.pos = _; rw [hk]; rfl, fun m hm => ?_⟩
    have hm : kept (e.notes ++ [n]) = some m := hm
    rw [hk] at hm
    cases hm
    exact ⟨rfl, fun l hl => by show n.label.getD e.label = l; rw [hl]; rfl⟩
  · rw [if_neg hc] at hk ⊢
    exact ⟨by show e.msgPos = _; rw [hk]; exact h1, fun m hm => h2 m (hk ▸ hm)⟩

theorem Heard.congr {e e' : Err} (h : Heard e) (hp : e'.msgPos = e.msgPos) (hm : e'.msg = e.msg) (hl : e'.label = e.label)
    (hn : e'.notes = e.notes) : Heard e' :=
  ⟨by rw [hp, hn]; exact h.pos, fun n hk => by rw [hm, hl]; exact h.msg n (hn ▸ hk)⟩

/-- Everything about messages is the same. -/
def SameMsg (e e' : Err) : Prop := e'.msgPos = e.msgPos ∧ e'.msg = e.msg ∧ e'.label = e.label ∧ e'.notes = e.notes

theorem sameMsg_add (e : Err) (t : Option ErrLit × Option Nat) : SameMsg e (e.add t) := by
  unfold Err.add; split <;> exact ⟨rfl, rfl, rfl, rfl⟩

theorem SameMsg.trans {a b c : Err} (h : SameMsg a b) (h' : SameMsg b c) : SameMsg a c :=
  ⟨h'.1.trans h.1, h'.2.1.trans h.2.1, h'.2.2.1.trans h.2.2.1, h'.2.2.2.trans h.2.2.2⟩

theorem sameMsg_record (e : Err) (f : Fail) : SameMsg e (e.record f) := by
  have key : ∀ e' : Err, SameMsg e e' → SameMsg e (match f.item with | some t => e'.add t | none => e') := by
    intro e' h
    cases f.item with
    | none => exact h
    | some t => exact h.trans (sameMsg_add _ _)
  unfold Err.record
  split
  · refine key _ ?_
    split <;> exact ⟨rfl, rfl, rfl, rfl⟩
  · exact ⟨rfl, rfl, rfl, rfl⟩

variable {cfg : Cfg V}

/-- Where a custom message comes from: the `error_message` of a rule (its capture placeholders filled in) with the name of the rule as
label, the message of the predicate of a rule, likewise, or one of the two messages of the library itself. -/
inductive Origin (cfg : Cfg V) (n : Note) : Prop
  | rule (r : Nat) (d : Def) (caps : List (List Byte × List Byte)) (hd : cfg.rules[r]? = some d) (hm : d.errorMessage ≠ [])
    (e : n.msg = resolvePlaceholders caps d.errorMessage.length d.errorMessage) (hl : n.label = some d.name) : Origin cfg n
  | pred (r : Nat) (d : Def) (p : Frame V → Option V → Bool × List Byte × Option V) (f : Frame V) (dt : Option V) (hd : cfg.rules[r]? = some d) (hp : cfg.predicate r = some p)
    (hf : (p f dt).1 = false) (hm : (p f dt).2.1 ≠ []) (e : n.msg = (p f dt).2.1) (hl : n.label = some d.name) : Origin cfg n
  | bref (nm : List Byte) (e : n.msg = "undefined back reference '$".toUTF8.toList ++ nm ++ "'...".toUTF8.toList) (hl : n.label = none)
      (hf : n.force = true) : Origin cfg n
  | eoi (e : n.msg = "expected end of input".toUTF8.toList) (hl : n.label = none) (hf : n.force = true) : Origin cfg n

/-- The custom messages: those kept and those reported. -/
structure Said (cfg : Cfg V) (e : Err) (logs : List Report) : Prop where
  heard : Heard e
  origin : ∀ n ∈ e.notes, Origin cfg n
  logs : ∀ rep ∈ logs, ∀ m, rep.msg = some m → ∃ l n, kept l = some n ∧ (∀ x ∈ l, Origin cfg x) ∧ n.pos = rep.pos ∧ n.msg = m ∧
    ∀ b, n.label = some b → rep.label = b

theorem Said.init : Said cfg {} [] := ⟨Heard.init, (fun n h => by cases h), (fun n h => by cases h)⟩

theorem Said.congr {e e' : Err} {l l' : List Report} (h : Said cfg e l) (hm : SameMsg e e') (hl : l' = l) : Said cfg e' l' :=
  ⟨h.heard.congr hm.1 hm.2.1 hm.2.2.1 hm.2.2.2, by rw [hm.2.2.2]; exact h.origin, hl ▸ h.logs⟩

theorem Said.output {e e' : Err} {o : Option Report} {l : List Report} (h : Said cfg e l) (ho : e.output cfg.rules = .ok (o, e')) :
    Said cfg e'.clear (l ++ o.toList) := by
  refine ⟨⟨rfl, (fun n h => by cases h)⟩, (fun n h => by cases h), fun rep hr m hm => ?_⟩
  rcases List.mem_append.1 hr with hr | hr
  · exact h.logs rep hr m hm
  · unfold Err.output at ho
    cases hp : e.msgPos with
    | some p =>
      simp only [hp] at ho
      have hk := h.heard.pos
      rw [hp] at hk
      cases hn : kept e.notes with
      | none => rw [hn] at hk; cases hk
      | some n =>
        rw [hn] at hk
        cases hk
        obtain ⟨h1, h2⟩ := h.heard.msg n hn
        by_cases hq : optLt e.lastOut n.pos = true
        · rw [if_pos hq] at ho; cases ho
          simp only [Option.toList_some, List.mem_singleton] at hr
          subst hr
          cases hm
          exact ⟨e.notes, n, hn, h.origin, rfl, h1.symm, h2⟩
        · rw [if_neg hq] at ho; cases ho; cases hr
    | none =>
      simp only [hp] at ho
      cases hq : e.pos with
      | none => simp only [hq] at ho; cases ho; cases hr
      | some p =>
        simp only [hq] at ho
        by_cases hc : optLt e.lastOut p = true
        · rw [if_pos hc] at ho
          obtain ⟨x, _, hx⟩ := Out.bind_eq_ok.1 ho
          cases hx
          simp only [Option.toList_some, List.mem_singleton] at hr
          subst hr; cases hm
        · rw [if_neg hc] at ho; cases ho; cases hr

/-- What a parse does to the error data. -/
structure Tr (cfg : Cfg V) (st st' : St V) : Prop where
  ok : TraceOk st → TraceOk st'
  fails : st.fails <+: st'.fails
  recd : st'.recovered = false → st.recovered = false
  rising : Rising st.logs st.err.lastOut → Rising st'.logs st'.err.lastOut
  inside : Inside cfg.input.length st → Inside cfg.input.length st'
  made : Made cfg.rules st.logs → Made cfg.rules st'.logs
  said : Said cfg st.err st.logs → Said cfg st'.err st'.logs
  notes : st'.recovered = false → st.err.notes <+: st'.err.notes

theorem Tr.refl (st : St V) : Tr cfg st st := ⟨id, List.prefix_refl _, id, id, id, id, id, fun _ => List.prefix_refl _⟩

theorem Tr.trans {a b c : St V} (h : Tr cfg a b) (h' : Tr cfg b c) : Tr cfg a c :=
  ⟨h'.ok ∘ h.ok, h.fails.trans h'.fails, h.recd ∘ h'.recd, h'.rising ∘ h.rising, h'.inside ∘ h.inside, h'.made ∘ h.made,
    h'.said ∘ h.said, fun k => (h.notes (h'.recd k)).trans (h'.notes k)⟩

theorem Tr.same {st st' : St V} (hp : st'.err.pos = st.err.pos) (ht : st'.err.toks = st.err.toks)
    (ho : st'.err.lastOut = st.err.lastOut) (hl : st'.logs = st.logs) (hf : st'.fails = st.fails)
    (hr : st'.recovered = st.recovered) (hm : SameMsg st.err st'.err) : Tr cfg st st' := by
  refine ⟨fun h h' => ?_, hf ▸ List.prefix_refl _, fun h => hr ▸ h, fun h => by rw [hl, ho]; exact h,
    fun h => by unfold Inside; rw [hl, hp, hm.1]; exact h, fun h => hl ▸ h, fun h => h.congr hm hl,
    fun _ => hm.2.2.2 ▸ List.prefix_refl _⟩
  have h := h (hr ▸ h')
  exact ⟨by rw [hf]; exact h.1.congr hp ht, ho.trans h.2.1, hl.trans h.2.2⟩

theorem tr_record (st st' : St V) (f : Fail) (he : st'.err = st.err.record f) (hf : st'.fails = st.fails ++ [f])
    (hl : st'.logs = st.logs) (hr : st'.recovered = st.recovered) (hi : f.pos ≤ cfg.input.length) : Tr cfg st st' := by
  have ho : (st.err.record f).lastOut = st.err.lastOut := by
    have ha : ∀ (e : Err) t, (e.add t).lastOut = e.lastOut := by intro e t; unfold Err.add; split <;> rfl
    unfold Err.record
    repeat' split
    all_goals first | rfl | (simp only [ha]; repeat' split) <;> rfl
  refine ⟨fun h h' => ?_, hf ▸ List.prefix_append _ _, fun h => hr ▸ h, fun h => by rw [hl, he, ho]; exact h, fun h => ?_, fun h => hl ▸ h,
    fun h => h.congr (by rw [he]; exact sameMsg_record st.err f) hl,
    fun _ => by rw [he, (sameMsg_record st.err f).2.2.2]; exact List.prefix_refl _⟩
  rotate_left
  · refine ⟨fun p hp => ?_, fun p hp => h.2.1 p ?_, by rw [hl]; exact h.2.2⟩
    · rw [he] at hp
      unfold Err.record at hp
      have ha : ∀ (e : Err) t, (e.add t).pos = e.pos := by intro e t; unfold Err.add; split <;> rfl
      have : ∀ e : Err, (match f.item with | some t => e.add t | none => e).pos = e.pos := by
        intro e; split
        · exact ha _ _
        · rfl
      split at hp
      · simp only [this] at hp
        split at hp
        · cases hp; exact hi
        · exact h.1 p hp
      · exact h.1 p hp
    · rw [he] at hp
      have ha : ∀ (e : Err) t, (e.add t).msgPos = e.msgPos := by intro e t; unfold Err.add; split <;> rfl
      have : ∀ e : Err, (match f.item with | some t => e.add t | none => e).msgPos = e.msgPos := by
        intro e; split
        · exact ha _ _
        · rfl
      unfold Err.record at hp
      split at hp
      · simp only [this] at hp
        split at hp <;> exact hp
      · exact hp
  have h := h (hr ▸ h')
  exact ⟨by rw [hf, he]; exact h.1.record f, by rw [he, ho]; exact h.2.1, hl.trans h.2.2⟩

theorem note_other (e : Err) (n : Note) : (e.note n).pos = e.pos ∧ (e.note n).toks = e.toks ∧ (e.note n).lastOut = e.lastOut ∧
    (e.note n).notes = e.notes ++ [n] ∧ ((e.note n).msgPos = some n.pos ∨ (e.note n).msgPos = e.msgPos) := by
  unfold Err.note
  split
  · exact ⟨rfl, rfl, rfl, rfl, .inl rfl⟩
  · exact ⟨rfl, rfl, rfl, rfl, .inr rfl⟩

attribute [local irreducible] Err.note

theorem Tr.msg {st st' : St V} (n : Note) (hi : n.pos ≤ cfg.input.length) (hor : Origin cfg n) (he : st'.err = st.err.note n)
    (hl : st'.logs = st.logs) (hf : st'.fails = st.fails) (hr : st'.recovered = st.recovered) : Tr cfg st st' := by
  obtain ⟨hp, ht, ho, hn, hm⟩ := note_other st.err n
  rw [← he] at hp ht ho hn hm
  refine ⟨fun h h' => ?_, hf ▸ List.prefix_refl _, fun h => hr ▸ h, fun h => by rw [hl, ho]; exact h,
    fun h => ⟨by rw [hp]; exact h.1, fun p hp => ?_, by rw [hl]; exact h.2.2⟩, fun h => hl ▸ h, fun h => ⟨by rw [he]; exact h.heard.note n, fun m hm => ?_, hl ▸ h.logs⟩,
    fun _ => by rw [hn]; exact List.prefix_append _ _⟩
  · have h := h (hr ▸ h')
    exact ⟨by rw [hf]; exact h.1.congr hp ht, ho.trans h.2.1, hl.trans h.2.2⟩
  · rcases hm with hm | hm
    · rw [hm] at hp; cases hp; exact hi
    · rw [hm] at hp; exact h.2.1 p hp
  · rw [hn] at hm
    rcases List.mem_append.1 hm with hm | hm
    · exact h.origin m hm
    · rw [List.mem_singleton] at hm; exact hm ▸ hor

theorem Inside.output {rules : List Def} {N : Nat} {st st' : St V} {o : Option Report × Err} (h : Inside N st)
    (he : st.err.output rules = .ok o) (hl : st'.logs = st.logs ++ o.1.toList) (hc : st'.err = o.2.clear) : Inside N st' := by
  refine ⟨fun p hp => (by rw [hc] at hp; cases hp), fun p hp => (by rw [hc] at hp; cases hp), fun rep hr => ?_⟩
  rw [hl] at hr
  rcases List.mem_append.1 hr with hr | hr
  · exact h.2.2 rep hr
  · unfold Err.output at he
    cases hm : st.err.msgPos with
    | some p =>
      simp only [hm] at he
      by_cases hq : optLt st.err.lastOut p = true
      · rw [if_pos hq] at he; cases he
        simp only [Option.toList_some, List.mem_singleton] at hr
        subst hr; exact h.2.1 _ hm
      · rw [if_neg hq] at he; cases he; cases hr
    | none =>
      simp only [hm] at he
      cases hp : st.err.pos with
      | none => simp only [hp] at he; cases he; cases hr
      | some p =>
        simp only [hp] at he
        by_cases hq : optLt st.err.lastOut p = true
        · rw [if_pos hq] at he
          obtain ⟨x, _, hx⟩ := Out.bind_eq_ok.1 he
          cases hx
          simp only [Option.toList_some, List.mem_singleton] at hr
          subst hr; exact h.1 _ hp
        · rw [if_neg hq] at he; cases he; cases hr

theorem tr_setErr (cfg : Cfg V) (st : St V) (i : Nat) (l : Option ErrLit) (hi : i ≤ cfg.input.length) : Tr cfg st (setErr cfg st i l) := by
  unfold setErr
  split
  · exact tr_record _ _ ⟨i, !st.err.keep, expectation cfg.rules st.ruleStack l⟩ rfl rfl rfl rfl hi
  · exact Tr.refl _

theorem tr_fsErr (st : St V) (fs : FirstSet) (id i : Nat) (hi : i ≤ cfg.input.length) : Tr cfg st (fsErr st fs id i) := by
  unfold fsErr
  split
  · exact tr_record _ _ ⟨i, decide (id = 0), some (match fs.firstLit with
      | some l => (some (.lit l), none)
      | none => (none, fs.firstRule))⟩ (by unfold Err.record; rfl) rfl rfl rfl hi
  · exact Tr.refl _

/-- Every answer satisfies `p`. -/
def Out.All {α : Type} (x : Out α) (p : α → Prop) : Prop := ∀ a, x = .ok a → p a

theorem Out.All.ok {α : Type} {a : α} {p : α → Prop} (h : p a) : Out.All (.ok a) p := fun _ e => by cases e; exact h
theorem Out.All.ub {α : Type} {s : String} {p : α → Prop} : Out.All (.ub s) p := fun _ e => by cases e
theorem Out.All.oof {α : Type} {p : α → Prop} : Out.All (.oof : Out α) p := fun _ e => by cases e

theorem Out.All.bind {α β : Type} {x : Out α} {f : α → Out β} {p : α → Prop} {q : β → Prop} (h : x.All p)
    (hf : ∀ a, p a → (f a).All q) : (x.bind f).All q := by
  cases x with
  | ok a => exact hf a (h a rfl)
  | ub s => exact .ub
  | oof => exact .oof

theorem Out.All.imp {α : Type} {x : Out α} {p q : α → Prop} (h : x.All p) (hf : ∀ a, p a → q a) : x.All q :=
  fun a e => hf a (h a e)

/-- `x` started from `st`. -/
def TrO (cfg : Cfg V) (st : St V) (x : Out (Res V)) : Prop := x.All fun r => Tr cfg st r.2
def TrV (cfg : Cfg V) (st : St V) (x : Out (VRes V)) : Prop := x.All fun r => Tr cfg st r.2.2

theorem TrO.pre {a b : St V} {x : Out (Res V)} (h : Tr cfg a b) (hx : TrO cfg b x) : TrO cfg a x := hx.imp fun _ => h.trans
theorem TrV.pre {a b : St V} {x : Out (VRes V)} (h : Tr cfg a b) (hx : TrV cfg b x) : TrV cfg a x := hx.imp fun _ => h.trans

theorem TrO.okr {st st' : St V} {r : Option Nat} (h : Tr cfg st st') : TrO cfg st (.ok (r, st')) := .ok h

theorem TrO.after {st : St V} {x : Out (Res V)} {g : St V → St V} (h : TrO cfg st x) (hg : ∀ s, Tr cfg s (g s)) :
    TrO cfg st (after x g) := by
  cases x with
  | ok a => exact .ok ((h a rfl).trans (hg _))
  | ub s => exact .ub
  | oof => exact .oof

theorem TrO.andThen {st : St V} {x : Out (Res V)} {k : Nat → St V → Out (Res V)} (h : TrO cfg st x)
    (hk : ∀ j s, TrO cfg s (k j s)) : TrO cfg st (andThen x k) := by
  cases x with
  | ok a =>
    obtain ⟨r, s⟩ := a
    cases r with
    | none => exact .ok (h _ rfl)
    | some j => exact (hk j s).pre (h _ rfl)
  | ub s => exact .ub
  | oof => exact .oof

macro "trsame" : term => `(by exact Tr.same rfl rfl rfl rfl rfl rfl ⟨rfl, rfl, rfl, rfl⟩)

section
variable {rec : Rec V} (ih : ∀ cfg t i st, TrO cfg st (rec cfg t i st))
  (hb : ∀ cfg e i st r, rec cfg (.ope e) i st = .ok r → i ≤ cfg.input.length)
include ih

theorem skipWs_T (cfg : Cfg V) (i : Nat) (st : St V) : TrO cfg st (skipWs rec cfg i st) := by
  unfold skipWs
  split
  · exact .okr (Tr.refl _)
  · split
    · exact .okr (Tr.refl _)
    · exact ih _ _ _ _

theorem terminal_T (cfg : Cfg V) (i : Nat) (st : St V) (m : Option Nat) (hi : i ≤ cfg.input.length) : TrO cfg st (terminal cfg i st m) := by
  unfold terminal
  split
  · exact TrO.okr (tr_setErr _ _ _ _ hi)
  · exact .okr (Tr.refl _)

theorem parseLiteral_T (cfg : Cfg V) (lit : List Byte) (ic : Bool) (el : ErrLit) (i : Nat) (st : St V) (hi : i ≤ cfg.input.length) :
    TrO cfg st (parseLiteral rec cfg lit ic el i st) := by
  unfold parseLiteral
  split
  · split
    · exact skipWs_T ih _ _ _
    · refine Out.All.bind (p := fun _ => True) (fun _ _ => trivial) fun b _ => ?_
      split
      · refine Out.All.bind (p := fun _ => True) (fun _ _ => trivial) fun b _ => ?_
        split
        · exact skipWs_T ih _ _ _
        · exact TrO.okr (tr_setErr _ _ _ _ hi)
      · exact skipWs_T ih _ _ _
  · exact TrO.okr (tr_setErr _ _ _ _ hi)

theorem parseDict_T (cfg : Cfg V) (ws : List (List Byte)) (ic : Bool) (i : Nat) (st : St V) (hi : i ≤ cfg.input.length) :
    TrO cfg st (parseDict rec cfg ws ic i st) := by
  unfold parseDict
  simp only
  split
  · exact TrO.okr (tr_setErr _ _ _ _ hi)
  · refine TrO.pre (b := st.setChoice ws.length ((Trie.build ws ic).matchText (cfg.rest i)).2) trsame ?_
    split
    · exact skipWs_T ih _ _ _
    · refine Out.All.bind (p := fun _ => True) (fun _ _ => trivial) fun b _ => ?_
      split
      · exact skipWs_T ih _ _ _
      · exact TrO.okr (tr_setErr _ _ _ _ hi)

theorem parseBref_T (cfg : Cfg V) (nm : List Byte) (i : Nat) (st : St V) (hi : i ≤ cfg.input.length) : TrO cfg st (parseBref rec cfg nm i st) := by
  unfold parseBref
  split
  · exact parseLiteral_T ih _ _ _ _ _ _ hi
  · exact .okr (Tr.msg ⟨i, _, _, _⟩ hi (.bref nm rfl rfl rfl) rfl rfl rfl rfl)

omit ih in
theorem tr_addToken (cfg : Cfg V) (t : Nat × Nat) (st : St V) : Tr cfg st (addToken cfg t st) := by
  unfold addToken; split
  · exact Tr.refl _
  · exact trsame

theorem tokenBody_T (cfg : Cfg V) (e : Ope) (i : Nat) (st : St V) : TrO cfg st (tokenBody rec cfg e i st) := by
  unfold tokenBody
  refine TrO.andThen (TrO.after (.pre (b := { st with tokCount := st.tokCount + 1 }) trsame (ih _ _ _ _)) fun _ => trsame) fun j s => ?_
  exact (skipWs_T ih _ _ _).pre (tr_addToken _ _ _)

theorem seqLoop_T (cfg : Cfg V) (es : List Ope) (i : Nat) (st : St V) : TrO cfg st (seqLoop rec cfg es i st) := by
  induction es generalizing i st with
  | nil => exact .okr (Tr.refl _)
  | cons e es ih' => exact TrO.andThen (ih _ _ _ _) fun j s => ih' j s

theorem parseSeq_T (cfg : Cfg V) (es : List Ope) (kw : Option KwGuard) (i : Nat) (st : St V) (hi : i ≤ cfg.input.length) :
    TrO cfg st (parseSeq rec cfg es kw i st) := by
  unfold parseSeq
  split
  · rename_i r h
    cases kw with
    | none => cases h
    | some k =>
      simp only [Option.bind_some] at h
      unfold kwGuarded at h
      split at h
      · cases h; exact TrO.okr (tr_setErr _ _ _ _ hi)
      · simp only at h
        split at h
        · cases h; exact TrO.okr (tr_setErr _ _ _ _ hi)
        · split at h
          · cases h
          · cases h; exact (skipWs_T ih _ _ _).pre (tr_addToken _ _ _)
  · exact seqLoop_T ih _ _ _ _

omit ih in
theorem tr_setCut (st : St V) (b : Bool) : Tr cfg st (st.setCut b) := by
  unfold St.setCut; split
  · exact Tr.refl _
  · exact trsame

omit ih in
theorem tr_resetCut (cfg : Cfg V) (st : St V) : Tr cfg st (resetCut cfg st) := by
  unfold resetCut; split
  · exact tr_setCut _ _
  · exact Tr.refl _

theorem choLoop_T (cfg : Cfg V) (total : Nat) (fs : List FirstSet) (es : List Ope) (id i : Nat) (st : St V) (hi : i ≤ cfg.input.length) :
    TrO cfg st (choLoop rec cfg total fs es id i st) := by
  induction es generalizing id st with
  | nil => exact .okr (Tr.refl _)
  | cons e es ih' =>
    unfold choLoop
    split
    · exact (ih' _ _).pre (tr_fsErr _ _ _ _ hi)
    · refine Out.All.bind (p := fun r => Tr cfg st r.2) ?_ fun r hr => ?_
      · exact TrO.pre ((tr_resetCut cfg st).trans (b := resetCut cfg st) (c := (resetCut cfg st).setKeep (id > 0)) trsame) (ih _ _ _ _)
      · split
        · exact .ok (hr.trans trsame)
        · split
          · exact .ok (hr.trans trsame)
          · exact (ih' _ _).pre (hr.trans trsame)

theorem parseCho_T (cfg : Cfg V) (es : List Ope) (l : Bool) (fs : List FirstSet) (i : Nat) (st : St V) (hi : i ≤ cfg.input.length) :
    TrO cfg st (parseCho rec cfg es l fs i st) := by
  unfold parseCho
  refine TrO.after (TrO.pre ?_ (choLoop_T ih _ _ _ _ _ _ _ hi)) fun s => ?_
  · unfold pushCut; split
    · exact trsame
    · exact Tr.refl _
  · unfold choExit; split <;> exact trsame

theorem repMin_T (cfg : Cfg V) (e : Ope) (k i : Nat) (st : St V) : TrO cfg st (repMin rec cfg e k i st) := by
  induction k generalizing i st with
  | zero => exact .okr (Tr.refl _)
  | succ k ih' => exact TrO.andThen (ih _ _ _ _) fun j s => ih' j s

theorem repRound_T (cfg : Cfg V) (e : Ope) (mx : Option Nat) (c i : Nat) (st : St V) : TrO cfg st (repRound rec cfg e mx c i st) := by
  unfold repRound
  split
  · refine Out.All.bind (ih _ _ _ _) fun r hr => ?_
    split
    · exact .ok (hr.trans trsame)
    · exact (ih _ _ _ _).pre hr
  · exact .okr (Tr.refl _)

theorem parseRep_T (cfg : Cfg V) (e : Ope) (mn : Nat) (mx : Option Nat) (sp : Option Cls) (i : Nat) (st : St V) (hi : i ≤ cfg.input.length) :
    TrO cfg st (parseRep rec cfg e mn mx sp i st) := by
  unfold parseRep
  split
  · simp only
    have hk : ∀ (c : Cls) (l : List Byte), l.length ≤ (cfg.rest i).length → i + (l.takeWhile c.asciiBit).length ≤ cfg.input.length := by
      intro c l hl
      have := (List.takeWhile_prefix (l := l) c.asciiBit).length_le
      simp only [Cfg.rest, List.length_drop] at hl
      omega
    split <;> split <;> first
      | exact TrO.okr (tr_setErr _ _ _ _ (hk _ _ (Nat.le_refl _)))
      | exact TrO.okr (tr_setErr _ _ _ _ (hk _ _ (by rw [List.length_take]; exact Nat.min_le_right _ _)))
      | exact .okr (Tr.refl _)
  · exact TrO.andThen (repMin_T ih _ _ _ _ _) fun j s => ih _ _ _ _

theorem parseAnd_T (cfg : Cfg V) (e : Ope) (i : Nat) (st : St V) : TrO cfg st (parseAnd rec cfg e i st) := by
  unfold parseAnd
  exact Out.All.bind (ih _ _ _ _) fun r hr => .ok (hr.trans trsame)

theorem parseNot_T (cfg : Cfg V) (e : Ope) (i : Nat) (st : St V) (hi : i ≤ cfg.input.length) : TrO cfg st (parseNot rec cfg e i st) := by
  unfold parseNot
  refine Out.All.bind (ih _ _ _ _) fun r hr => ?_
  have : Tr cfg st (r.2.rollback st.snapshot) := hr.trans trsame
  simp only
  split
  · exact .ok (this.trans (tr_setErr _ _ _ _ hi))
  · exact .ok this

theorem parseCapScope_T (cfg : Cfg V) (e : Ope) (i : Nat) (st : St V) : TrO cfg st (parseCapScope rec cfg e i st) :=
  TrO.after (ih _ _ _ _) fun _ => trsame

theorem parseCap_T (cfg : Cfg V) (nm : List Byte) (e : Ope) (i : Nat) (st : St V) : TrO cfg st (parseCap rec cfg nm e i st) :=
  TrO.andThen (ih _ _ _ _) fun _ _ => .okr trsame

theorem parseIgn_T (cfg : Cfg V) (e : Ope) (i : Nat) (st : St V) : TrO cfg st (parseIgn rec cfg e i st) := by
  unfold parseIgn inScope
  exact TrO.after (TrO.pre (a := st) (b := { st with vs := {} }) trsame (ih _ _ _ _)) fun _ => trsame

omit ih in
theorem parseUsr_T (cfg : Cfg V) (id i : Nat) (st : St V) : TrO cfg st (parseUsr cfg id i st) := by
  unfold parseUsr
  simp only
  split
  · exact .okr trsame
  · split
    · exact .okr trsame
    · exact .ub

theorem parseWs_T (cfg : Cfg V) (e : Ope) (i : Nat) (st : St V) : TrO cfg st (parseWs rec cfg e i st) := by
  unfold parseWs
  split
  · exact .okr (Tr.refl _)
  · exact TrO.after (TrO.pre (b := { st with inWs := true }) trsame (ih _ _ _ _)) fun _ => trsame

omit ih in
theorem tr_pushRule (b : Bool) (r : Nat) (st : St V) : Tr cfg st (pushRule b r st) := by
  unfold pushRule; split
  · exact trsame
  · exact Tr.refl _

omit ih in
theorem tr_popRule (b : Bool) (st : St V) : Tr cfg st (popRule b st) := by
  unfold popRule; split
  · exact trsame
  · exact Tr.refl _

theorem opeBody_T (cfg : Cfg V) (r : Nat) (d : Def) (i : Nat) (st : St V) : TrO cfg st (opeBody rec cfg r d i st) := by
  unfold opeBody
  refine TrO.after ?_ (tr_popRule _)
  split
  · refine TrO.andThen (TrO.after (TrO.pre ((tr_pushRule (cfg.needsRuleStack || d.hasMacroRef) r st).trans trsame) (ih _ _ _ _)) fun _ => trsame) fun j s => skipWs_T ih _ _ _
  · exact (ih _ _ _ _).pre (tr_pushRule _ _ _)

omit ih in
theorem tr_callAction (cfg : Cfg V) (r : Nat) (f : Frame V) (pd : Option V) (st : St V) : Tr cfg st (callAction cfg r f pd st).2 := by
  unfold callAction; simp only; split <;> exact trsame

omit ih in
theorem tr_reduce (cfg : Cfg V) (r : Nat) (d : Def) (f : Frame V) (pd : Option V) (st : St V) : Tr cfg st (reduce cfg r d f pd st).2 := by
  unfold reduce; split
  · exact tr_callAction _ _ _ _ _
  · exact Tr.refl _

omit ih in
theorem tr_finishRule (cfg : Cfg V) (r : Nat) (d : Def) (i : Nat) (x : Option Nat) (st : St V) (hi : i ≤ cfg.input.length)
    (hd : cfg.rules[r]? = some d) : Tr cfg st (finishRule cfg r d i x st).2.2 := by
  unfold finishRule
  split
  · simp only
    split
    · rename_i p hp
      split
      · split
        · exact trsame
        · exact Tr.trans trsame (tr_reduce _ _ _ _ _ _)
      · rename_i hq
        simp only; split
        · rename_i hm
          exact Tr.msg ⟨i, _, _, _⟩ hi (.pred r d p _ _ hd hp (by simpa using hq) (by simpa using (Bool.and_eq_true_iff.1 hm).2) rfl rfl) rfl rfl rfl rfl
        · exact trsame
    · split
      · exact trsame
      · exact Tr.trans trsame (tr_reduce _ _ _ _ _ _)
  · simp only; split
    · rename_i hm
      exact Tr.msg ⟨i, _, _, _⟩ hi (.rule r d _ hd (by simpa using (Bool.and_eq_true_iff.1 hm).2) rfl rfl) rfl rfl rfl rfl
    · exact Tr.refl _

omit ih in
include hb in
theorem opeBody_in {cfg : Cfg V} {r : Nat} {d : Def} {i : Nat} {st : St V} {x : Res V} (h : opeBody rec cfg r d i st = .ok x) :
    i ≤ cfg.input.length := by
  unfold opeBody after at h
  obtain ⟨y, h, -⟩ := Out.bind_eq_ok.1 h
  split at h
  · unfold andThen at h
    obtain ⟨z, h, -⟩ := Out.bind_eq_ok.1 h
    obtain ⟨w, h, -⟩ := Out.bind_eq_ok.1 h
    exact hb _ _ _ _ _ h
  · exact hb _ _ _ _ _ h

include hb in
theorem doParse_T (cfg : Cfg V) (r : Nat) (d : Def) (i : Nat) (st : St V) (hd : cfg.rules[r]? = some d) : TrV cfg st (doParse rec cfg r d i st) := by
  unfold doParse
  refine Out.All.bind (p := fun x : Res V => Tr cfg st x.2 ∧ i ≤ cfg.input.length)
    (fun x hx => ⟨TrO.pre (b := { callEnter cfg r i st with vs := {} }) ?_ (opeBody_T ih _ _ _ _ _) x hx, opeBody_in hb hx⟩) fun x hx => ?_
  · unfold callEnter; split <;> exact trsame
  · have h2 := hx.1.trans (tr_finishRule cfg r d i x.1 x.2 hx.2 hd)
    simp only
    split
    · exact .ok (h2.trans trsame)
    · exact .ok (h2.trans trsame)

omit ih in
theorem tr_writeMemo (cfg : Cfg V) (r i j : Nat) (v : Option V) (st : St V) : Tr cfg st (writeMemo cfg r i j v st) := by
  unfold writeMemo
  repeat' split
  all_goals first | exact Tr.refl _ | exact trsame

omit ih in
theorem tr_clearMemo (cfg : Cfg V) (r i : Nat) (st : St V) : Tr cfg st (clearMemo cfg r i st) := by
  unfold clearMemo
  repeat' split
  all_goals first | exact Tr.refl _ | exact trsame

omit ih in
theorem reentered_T (cfg : Cfg V) (st : St V) : TrV cfg st (reentered cfg st) := fun r h => by
  rw [reentered_ok h]; exact Tr.refl _

omit ih in
theorem guarded_T (cfg : Cfg V) (r i : Nat) (st : St V) (fn : St V → Out (VRes V)) (hf : ∀ s, TrV cfg s (fn s)) :
    TrV cfg st (guarded cfg r i st fn) := by
  unfold guarded
  split
  · split
    · split
      · exact .ub
      · split
        · exact reentered_T _ _
        · exact Out.All.bind ((hf _).pre (a := st) trsame) fun x hx => .ok (hx.trans trsame)
    · split
      · exact .ub
      · split
        · exact .ok (Tr.refl _)
        · exact .ok (Tr.refl _)
        · refine Out.All.bind ((hf _).pre (a := st) trsame) fun x hx => ?_
          split
          · exact .ok (hx.trans (tr_writeMemo _ _ _ _ _ _))
          · exact .ok hx
  · split
    · exact .ub
    · split
      · exact reentered_T _ _
      · exact Out.All.bind ((hf _).pre (a := st) trsame) fun x hx => .ok (hx.trans trsame)

omit ih in
theorem tr_emplace (cfg : Cfg V) (d : Def) (v : Option V) (st : St V) : Tr cfg st (emplace cfg d v st) := by
  unfold emplace; split
  · exact trsame
  · exact Tr.refl _

omit ih in
theorem tr_growDone (cfg : Cfg V) (r inst : Nat) (d : Def) (i j : Nat) (v : Option V) (st : St V) :
    Tr cfg st (growDone cfg r inst d i j v st).2 := by
  unfold growDone
  simp only
  refine Tr.trans ?_ (tr_emplace _ _ _ _)
  split
  · exact trsame
  · exact (tr_writeMemo _ _ _ _ _ _).trans trsame

include hb in
theorem growRound_T (cfg : Cfg V) (r inst : Nat) (cyc : List (Nat × Nat)) (j : Nat) (v : Option V) (i : Nat) (st : St V) :
    TrO cfg st (growRound rec cfg r inst cyc j v i st) := by
  unfold growRound
  split
  · exact .ub
  · rename_i d _
    have h0 : Tr cfg st (if d.isMacro then st else clearMemo cfg r i st) := by
      split
      · exact Tr.refl _
      · exact tr_clearMemo _ _ _ _
    simp only
    refine Out.All.bind (p := fun x : VRes V => Tr cfg st x.2.2) (TrV.pre (h0.trans ?_) (doParse_T ih hb _ _ _ _ _ (by assumption))) fun x hx => ?_
    · exact trsame
    · split
      · exact .ok (hx.trans (tr_growDone _ _ _ _ _ _ _ _))
      · split
        · exact .ok (hx.trans (tr_growDone _ _ _ _ _ _ _ _))
        · exact (ih _ _ _ _).pre (hx.trans trsame)

include hb in
theorem lrHold_T (cfg : Cfg V) (r : Nat) (d : Def) (i : Nat) (st : St V) (hd : cfg.rules[r]? = some d) : TrO cfg st (lrHold rec cfg r d i st) := by
  unfold lrHold
  split
  · exact .ub
  · split
    · simp only
      split
      · exact Out.All.ok (Tr.trans trsame (tr_emplace cfg d _ _))
      · exact .okr trsame
    · refine Out.All.bind (p := fun x : VRes V => Tr cfg st x.2.2) (TrV.pre ?_ (doParse_T ih hb _ _ _ _ _ hd)) fun x hx => ?_
      · exact trsame
      · simp only
        split
        · exact .ok (hx.trans trsame)
        · exact (ih _ _ _ _).pre (hx.trans trsame)

include hb in
theorem holder_T (cfg : Cfg V) (r i : Nat) (st : St V) : TrO cfg st (holder rec cfg r i st) := by
  unfold holder
  split
  · exact .ub
  · split
    · exact TrO.after ((ih _ _ _ _).pre (a := st) trsame) fun _ => trsame
    · split
      · exact lrHold_T ih hb _ _ _ _ _ (by assumption)
      · split
        · exact Out.All.bind (guarded_T _ _ _ _ _ fun s => Out.All.bind (opeBody_T ih _ _ _ _ _) fun x hx => .ok hx) fun x hx => .ok hx
        · refine Out.All.bind (guarded_T _ _ _ _ _ fun s => doParse_T ih hb _ _ _ _ _ (by assumption)) fun x hx => ?_
          split
          · exact .ok (hx.trans (tr_emplace _ _ _ _))
          · exact .ok hx

omit ih in
theorem withArgs_T (st : St V) (f : List Ope × Nat) (x : St V → Out (Res V)) (hx : ∀ s, TrO cfg s (x s)) : TrO cfg st (withArgs st f x) :=
  TrO.after ((hx _).pre (a := st) trsame) fun _ => trsame

theorem refer_T (cfg : Cfg V) (r : Nat) (as : List Ope) (i : Nat) (st : St V) : TrO cfg st (refer rec cfg r as i st) := by
  unfold refer
  split
  · exact .ub
  · split
    · split
      · exact .ub
      · exact .ub
      · split
        · exact .ub
        · split
          · exact .ub
          · simp only
            split
            · exact (withArgs_T _ _ _ fun s => ih _ _ _ _).pre (a := st) trsame
            · exact withArgs_T _ _ _ fun s => ih _ _ _ _
    · split
      · exact ih _ _ _ _
      · exact withArgs_T _ _ _ fun s => ih _ _ _ _

theorem parseParam_T (cfg : Cfg V) (k i : Nat) (st : St V) : TrO cfg st (parseParam rec cfg k i st) := by
  unfold parseParam
  split
  · exact .ub
  · split
    · exact .ub
    · exact ih _ _ _ _

theorem parsePrec_T (cfg : Cfg V) (a b : Ope) (info : List (List Byte × Nat × Byte)) (r mp i : Nat) (st : St V) :
    TrO cfg st (parsePrec rec cfg a b info r mp i st) := by
  unfold parsePrec
  refine TrO.andThen (ih _ _ _ _) fun j s => ?_
  refine Out.All.bind (p := fun _ => True) (fun _ _ => trivial) fun q _ => ?_
  exact TrO.after ((ih _ _ _ _).pre (a := s) trsame) fun _ => trsame

omit ih in
theorem tr_precReduce (cfg : Cfg V) (r s j : Nat) (st : St V) : Tr cfg st (precReduce cfg r s j st) := by
  unfold precReduce
  split
  · simp only; exact (tr_callAction cfg r _ none st).trans trsame
  · exact trsame

theorem precRound_T (cfg : Cfg V) (a b : Ope) (info : List (List Byte × Nat × Byte)) (r mp q s i : Nat) (st : St V) :
    TrO cfg st (precRound rec cfg a b info r mp q s i st) := by
  unfold precRound
  split
  · refine Out.All.bind (p := fun x : Res V => Tr cfg st x.2) ((ih _ _ _ _).pre (a := st) trsame) fun x hx => ?_
    simp only
    split
    · exact .ok (hx.trans trsame)
    · split
      · exact .ok (hx.trans trsame)
      · split
        · exact .ok (hx.trans trsame)
        · split
          · exact .ub
          · refine Out.All.bind (p := fun y : Res V => Tr cfg st y.2) ((ih _ _ _ _).pre (hx.trans trsame)) fun y hy => ?_
            split
            · exact .ok (hy.trans trsame)
            · split
              · exact .ub
              · exact (ih _ _ _ _).pre (Tr.trans (hy.trans trsame) (tr_precReduce _ _ _ _ _))
  · exact .okr (Tr.refl _)

theorem parseRecov_T (cfg : Cfg V) (r : Nat) (nm : List Byte) (as : List Ope) (i : Nat) (st : St V) (hi : i ≤ cfg.input.length) :
    TrO cfg st (parseRecov rec cfg r nm as i st) := by
  unfold parseRecov
  simp only
  refine Out.All.bind (p := fun s => Tr cfg st s) ?_ fun s hs => ?_
  · split
    · split
      · exact .ub
      · split
        · exact .ub
        · split
          · rename_i hd hm
            exact .ok (Tr.msg ⟨i, _, _, _⟩ hi (.rule _ _ _ hd (by simpa using hm) rfl rfl) rfl rfl rfl rfl)
          · exact .ok (Tr.refl _)
      · exact .ub
      · exact .ok (Tr.refl _)
    · exact .ok (Tr.refl _)
  · refine Out.All.bind (p := fun x : Res V => Tr cfg st x.2) ((ih _ _ _ _).pre (hs.trans trsame)) fun x hx => ?_
    refine Out.All.bind (p := fun s => Tr cfg st s) ?_ fun s hs => ?_
    · split
      · split
        · intro s' h'
          obtain ⟨o, ho, he⟩ := Out.bind_eq_ok.1 h'
          cases he
          refine ⟨fun _ h => by simp at h, hx.fails, fun h => by simp at h, fun h => ?_, fun h => (hx.inside h).output ho rfl rfl,
            fun h => (hx.made h).output ho, fun h => (hx.said h).output (e' := o.2) (o := o.1) ho, fun h => by simp at h⟩
          exact (hx.rising h).output (e' := o.2) (o := o.1) ho
        · exact .ok ⟨fun _ h => by simp at h, hx.fails, fun h => by simp at h, hx.rising, hx.inside, hx.made, hx.said, fun h => by simp at h⟩
      · exact .ok (hx.trans trsame)
    · exact .ok (hs.trans (tr_setCut _ _))

theorem parseOpe_T (cfg : Cfg V) (e : Ope) (i : Nat) (st : St V) : TrO cfg st (parseOpe rec cfg e i st) := by
  unfold parseOpe
  split
  · exact .ub
  · rename_i hi
    have hi := Nat.le_of_not_lt hi
    split
    · exact parseSeq_T ih _ _ _ _ _ hi
    · exact parseCho_T ih _ _ _ _ _ _ hi
    · exact parseRep_T ih _ _ _ _ _ _ _ hi
    · exact parseAnd_T ih _ _ _ _
    · exact parseNot_T ih _ _ _ _ hi
    · exact parseDict_T ih _ _ _ _ _ hi
    · exact parseLiteral_T ih _ _ _ _ _ _ hi
    · exact terminal_T ih _ _ _ _ hi
    · exact terminal_T ih _ _ _ _ hi
    · exact terminal_T ih _ _ _ _ hi
    · exact parseCapScope_T ih _ _ _ _
    · exact parseCap_T ih _ _ _ _ _
    · exact tokenBody_T ih _ _ _ _
    · exact parseIgn_T ih _ _ _ _
    · exact parseUsr_T _ _ _ _
    · exact ih _ _ _ _
    · exact refer_T ih _ _ _ _ _
    · exact parseParam_T ih _ _ _ _
    · exact parseWs_T ih _ _ _ _
    · exact parseBref_T ih _ _ _ _ hi
    · exact ih _ _ _ _
    · exact parseRecov_T ih _ _ _ _ _ _ hi
    · exact .okr (tr_setCut _ _)
    · exact .ub

include hb in
theorem step_T (cfg : Cfg V) (t : Task V) (i : Nat) (st : St V) : TrO cfg st (step rec cfg t i st) := by
  unfold step
  split
  · exact parseOpe_T ih _ _ _ _
  · exact repRound_T ih _ _ _ _ _ _
  · exact holder_T ih hb _ _ _ _
  · exact growRound_T ih hb _ _ _ _ _ _ _ _
  · exact parsePrec_T ih _ _ _ _ _ _ _ _
  · exact precRound_T ih _ _ _ _ _ _ _ _ _ _

end

theorem run_in {n : Nat} {cfg : Cfg V} {e : Ope} {i : Nat} {st : St V} {r : Res V} (h : run n cfg (.ope e) i st = .ok r) :
    i ≤ cfg.input.length := by
  cases n with
  | zero => cases h
  | succ n =>
    have h : parseOpe (run n) cfg e i st = .ok r := h
    unfold parseOpe at h
    split at h
    · cases h
    · omega

theorem run_T (n : Nat) (cfg : Cfg V) (t : Task V) (i : Nat) (st : St V) : TrO cfg st (run n cfg t i st) := by
  induction n generalizing cfg t i st with
  | zero => exact .oof
  | succ n ih => exact step_T ih (fun _ _ _ _ _ h => run_in h) _ _ _ _

/-- A whole parse. -/
theorem parseCore_T (n : Nat) (cfg : Cfg V) (r : Nat) (eoi : Bool) (st : St V) :
    (parseCore n cfg r eoi st).All fun res => Tr cfg st res.st := by
  unfold parseCore
  refine Out.All.bind (p := fun x : Res V => Tr cfg st x.2) ?_ fun x hx => ?_
  · split
    · exact .ok (Tr.refl _)
    · exact run_T _ _ _ _ _
  · split
    · exact .ok hx
    · refine Out.All.bind (p := fun x : Res V => Tr cfg st x.2) ((run_T _ _ _ _ _).pre hx) fun y hy => ?_
      split
      · exact .ok hy
      · unfold eoiCheck
        split
        · rename_i hj
          simp only [Bool.and_eq_true, decide_eq_true_eq] at hj
          simp only
          split
          · exact .ok (hy.trans (Tr.msg ⟨_, _, _, _⟩ (Nat.le_of_lt hj.2) (.eoi rfl rfl rfl) rfl rfl rfl rfl))
          · exact .ok hy
        · exact .ok hy

end Verif
