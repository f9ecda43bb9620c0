import Verif.Cert
import Verif.PegDet
/-!
# The engine agrees with the reference semantics

For a grammar with a certificate (`CertOk`), every expression has a result in the reference semantics, and the engine, started
in any context that corresponds to the reference state, finishes with that result.
-/

namespace Verif
open Out CharClass

variable {V : Type}

def PRes.cutOf : PRes V → Bool
  | .fail c => c
  | .ok _ c _ => c

/-- The effect of a passed cut on the cut stack. -/
def orHead (c : Bool) : List Bool → List Bool
  | [] => []
  | h :: t => (h || c) :: t

theorem orHead_false (l : List Bool) : orHead false l = l := by cases l <;> simp [orHead]

theorem orHead_orHead (a b : Bool) (l : List Bool) : orHead b (orHead a l) = orHead (a || b) l := by
  cases l <;> simp [orHead, Bool.or_assoc]

theorem setCut_cut (st : St V) : (st.setCut true).cut = orHead true st.cut := by
  unfold St.setCut; cases h : st.cut <;> simp [orHead, h]

/-- Captured texts are fine to match against. -/
def CapsOk (cfg : Cfg V) (C : Cert) (al : Nat → Prop) (s : PSt V) : Prop :=
  (∀ e ∈ s.caps, TextOk cfg al e.2 false) ∧ (cfg.packrat = true ∨ C.capless = true → s.caps = [])

/-- Memo table entries tell the truth, except those of rules under way (`B`). -/
def MemoOk (cfg : Cfg V) (C : Cert) (B : List (Nat × Nat)) (st : St V) : Prop :=
  cfg.packrat = true → ∀ (r : Nat) (d : Def) (sl i : Nat), cfg.rules[r]? = some d → cfg.slot (cfg.defId r) = some sl →
    match st.memo (cfg.memoIdx sl i) with
    | none => True
    | some none => (r, i) ∈ B ∨ ∀ m f, C.modes r m = true → Peg cfg.gram {} m (.hold r) i ⟨[], f⟩ (.fail false)
    | some (some (len, v)) => ∃ v', (cfg.recognizeOnly = false → v' = v) ∧ ∀ m f, C.modes r m = true →
        Peg cfg.gram {} m (.hold r) i ⟨[], f⟩ (.ok (i + len) false ⟨[], pushValue d v' f⟩)

/-- A remembered result of the left-recursive rule `r` at `p` is its result. -/
def LrTrue (cfg : Cfg V) (C : Cert) (r : Nat) (d : Def) (p : Nat) (e : Option (Nat × Option V)) : Prop :=
  match e with
  | none => ∀ m f, C.modes r m = true → Peg cfg.gram {} m (.hold r) p ⟨[], f⟩ (.fail false)
  | some (j, v) => ∃ v', (cfg.recognizeOnly = false → v' = v) ∧ ∀ m f, C.modes r m = true →
      Peg cfg.gram {} m (.hold r) p ⟨[], f⟩ (.ok j false ⟨[], pushValue d v' f⟩)

/-- The table of left-recursive results and re-entry marks has entries of rules under way (`B`) and true ones, and only
left-recursive rules are recorded as used. -/
def LrOk (cfg : Cfg V) (C : Cert) (B : List (Nat × Nat)) (st : St V) : Prop :=
  (∀ k ∈ st.lrRefs, isLRRule cfg k.1) ∧
  ∀ r p e, st.lrMemo.lookup (r, 0, p) = some e → (r, p) ∈ B ∨
    ∃ d, cfg.rules[r]? = some d ∧ d.isLR = true ∧ d.isMacro = false ∧ LrTrue cfg C r d p e

theorem LrOk.same {cfg : Cfg V} {C : Cert} {B : List (Nat × Nat)} {st st' : St V} (h : LrOk cfg C B st)
    (e1 : st'.lrMemo = st.lrMemo) (e2 : st'.lrRefs = st.lrRefs) : LrOk cfg C B st' :=
  ⟨by rw [e2]; exact h.1, by rw [e1]; exact h.2⟩

/-- The context corresponds to the reference state. -/
structure Rel (cfg : Cfg V) (C : Cert) (B : List (Nat × Nat)) (b : Nat) (m : Mode) (i : Nat) (s : PSt V) (st : St V) :
    Prop where
  pre : Pre cfg i st
  caps : st.caps = s.caps
  vs : cfg.recognizeOnly = false → st.vs = s.vs
  tok : st.tokCount ≠ 0 ↔ m.tok = true
  inWs : st.inWs = m.ws
  prec : ∀ q ∈ st.precToks.map (·.1), actionOff cfg q false = true
  recd : st.recovered = false
  args : st.args ≠ []
  busy : ∀ q ∈ B, q.2 ≤ i ∧ (q.2 = i → b ≤ C.rank q.1)
  memo : MemoOk cfg C B st
  lr : LrOk cfg C B st
  lra : ∀ q ∈ B, isLRRule cfg q.1 → (q.1, 0, q.2) ∈ st.lrActive
  capl : C.capless = true → st.caps = []
  act : cfg.packrat = true → ∀ (r : Nat) (d : Def) p, cfg.rules[r]? = some d → st.active (cfg.defId r) = some p → (r, p) ∈ B

/-- The rule stack and argument stack correspond to the macro arguments of the reference semantics. -/
def EnvRel (cfg : Cfg V) (v : Env) (st : St V) : Prop :=
  ∃ cur rest c inst tl, st.ruleStack = cur :: rest ∧ cfg.rules[cur]? = some c ∧ st.args = (v.args, inst) :: tl ∧
    (v.args = [] ∨ (c.params = v.params ∧ v.args.length ≤ v.params.length))

theorem EnvRel.of {cfg : Cfg V} {v : Env} {st st' : St V} (h : EnvRel cfg v st) (h1 : st'.ruleStack = st.ruleStack)
    (h2 : st'.args = st.args) : EnvRel cfg v st' := by
  unfold EnvRel; rw [h1, h2]; exact h

/-- How the contexts before and after are related. -/
structure Core (cfg : Cfg V) (C : Cert) (B : List (Nat × Nat)) (x : PRes V) (st st' : St V) : Prop where
  res : ∀ j c s', x = .ok j c s' → st'.caps = s'.caps ∧ (cfg.recognizeOnly = false → st'.vs = s'.vs)
  cut : st'.cut = orHead x.cutOf st.cut
  recd : st'.recovered = false
  memo : MemoOk cfg C B st'
  lr : LrOk cfg C B st'
  held : ∀ q ∈ B, st'.lrMemo.lookup (q.1, 0, q.2) = st.lrMemo.lookup (q.1, 0, q.2)
  capl : C.capless = true → st'.caps = st.caps

structure After (cfg : Cfg V) (C : Cert) (B : List (Nat × Nat)) (i : Nat) (x : PRes V) (st st' : St V) : Prop
    extends Core cfg C B x st st' where
  p : P cfg i st (x.pos, st')
  ext : Ext st st'

/-- The program `f` (with enough fuel) does what the reference result `x` says, from every corresponding context.
`u`: it uses the macro arguments. -/
def Sim (cfg : Cfg V) (C : Cert) (b : Nat) (v : Env) (u : Bool) (m : Mode) (i : Nat) (s : PSt V) (x : PRes V)
    (f : Nat → St V → Out (Res V)) : Prop :=
  ∀ B st, Rel cfg C B b m i s st → (u = true → EnvRel cfg v st) →
    ∃ n st', f n st = .ok (x.pos, st') ∧ After cfg C B i x st st'

def FMono (f : Nat → St V → Out (Res V)) : Prop := ∀ n n' st, n ≤ n' → Le (f n st) (f n' st)

/-- Facts about a reference result: bounds, and what the certificate says. -/
structure ResOk (cfg : Cfg V) (C : Cert) (al : Nat → Prop) (nl lk : Bool) (i : Nat) (x : PRes V) : Prop where
  cut : x.cutOf = true → lk = true
  pos : ∀ j c s', x = .ok j c s' → i ≤ j ∧ j ≤ cfg.input.length ∧ al j ∧ (j = i → nl = true) ∧ CapsOk cfg C al s'

theorem ResOk.weaken {cfg : Cfg V} {C : Cert} {al : Nat → Prop} {nl lk nl' lk' : Bool} {i : Nat} {x : PRes V}
    (h : ResOk cfg C al nl lk i x) (h1 : nl = true → nl' = true) (h2 : lk = true → lk' = true) : ResOk cfg C al nl' lk' i x :=
  ⟨fun hc => h2 (h.cut hc), fun j c s' e => by
    obtain ⟨a, b, c, d, e⟩ := h.pos j c s' e
    exact ⟨a, b, c, fun h => h1 (d h), e⟩⟩

theorem ResOk.failed {cfg : Cfg V} {C : Cert} {al : Nat → Prop} {nl lk : Bool} {i : Nat} {c : Bool} (h : c = true → lk = true) :
    ResOk cfg C al nl lk i (.fail c) := ⟨h, fun _ _ _ e => by cases e⟩

/-- Everything about task `t` run by program `f` (the reference result exists, is in bounds, and the program finds it). -/
def Does (cfg : Cfg V) (C : Cert) (al : Nat → Prop) (b : Nat) (v : Env) (u : Bool) (m : Mode) (nl lk : Bool) (t : PTask) (i : Nat)
    (s : PSt V) (f : Nat → St V → Out (Res V)) : Prop :=
  ∃ x, Peg cfg.gram v m t i s x ∧ ResOk cfg C al nl lk i x ∧ Sim cfg C b v u m i s x f

/-- The claim for one expression. -/
def Claim (cfg : Cfg V) (C : Cert) (al : Nat → Prop) (e : Ope) (b i : Nat) : Prop :=
  ∀ κ arg v m s, wf cfg C κ arg m b e = true → (arg = true → κ = {}) → EnvOk cfg C al κ v → e.Each (nodeOk cfg al) →
    al i → i ≤ cfg.input.length → CapsOk cfg C al s →
    Does cfg C al b v (usesEnv cfg e) m (C.nul κ.null e) (C.lk κ.leak e) (.ope e) i s fun n st => run n cfg (.ope e) i st

/-! ## Generic lemmas -/

section
variable {cfg : Cfg V} {C : Cert} {al : Nat → Prop}

theorem run_fmono (t : Task V) (i : Nat) : FMono fun n (st : St V) => run n cfg t i st :=
  fun _ _ _ h => run_le h _ _ _ _

theorem FMono.ok {f : Nat → St V → Out (Res V)} (hf : FMono f) {n n' : Nat} {st : St V} {r : Res V} (h : f n st = .ok r)
    (hn : n ≤ n') : f n' st = .ok r := (hf n n' st hn).eq_ok h

theorem MemoOk.same {B : List (Nat × Nat)} {st st' : St V} (h : MemoOk cfg C B st) (e : st'.memo = st.memo) :
    MemoOk cfg C B st' := by unfold MemoOk at h ⊢; rw [e]; exact h

/-- A state that differs only in what parsing does not depend on. -/
structure Same (st st' : St V) : Prop where
  vs : st'.vs = st.vs
  caps : st'.caps = st.caps
  cut : st'.cut = st.cut
  recovered : st'.recovered = st.recovered
  memo : SameMemo st st'
  keep : Keep st st'
  refs : st'.lrRefs = st.lrRefs

theorem Same.refl (st : St V) : Same st st := ⟨rfl, rfl, rfl, rfl, ⟨rfl, rfl, rfl⟩, Keep.refl _, rfl⟩

theorem same_err (st : St V) (e : Err) (f : List Fail) : Same st { st with err := e, fails := f } := ⟨rfl, rfl, rfl, rfl, ⟨rfl, rfl, rfl⟩,
  ⟨rfl, rfl, rfl, rfl, rfl, rfl, rfl, rfl, rfl, List.prefix_refl _, List.prefix_refl _, List.prefix_refl _, id⟩, rfl⟩

theorem same_setErr' (cfg : Cfg V) (st : St V) (i : Nat) (l : Option ErrLit) : Same st (setErr cfg st i l) := by
  unfold setErr; split
  · exact same_err _ _ _
  · exact Same.refl _

theorem Same.trans {a b c : St V} (h : Same a b) (h' : Same b c) : Same a c :=
  ⟨h'.vs.trans h.vs, h'.caps.trans h.caps, h'.cut.trans h.cut, h'.recovered.trans h.recovered,
   ⟨h'.memo.memo.trans h.memo.memo, h'.memo.lrMemo.trans h.memo.lrMemo, h'.memo.lrActive.trans h.memo.lrActive⟩,
   h.keep.trans h'.keep, h'.refs.trans h.refs⟩

theorem Rel.same {B : List (Nat × Nat)} {b : Nat} {m : Mode} {i : Nat} {s : PSt V} {st st' : St V}
    (h : Rel cfg C B b m i s st) (hs : Same st st') : Rel cfg C B b m i s st' where
  pre := h.pre.same hs.memo hs.keep.args
  caps := hs.caps.trans h.caps
  vs hr := hs.vs.trans (h.vs hr)
  tok := by rw [hs.keep.tokCount]; exact h.tok
  inWs := hs.keep.inWs.trans h.inWs
  prec := by rw [hs.keep.precToks]; exact h.prec
  recd := hs.recovered.trans h.recd
  args := by rw [hs.keep.args]; exact h.args
  busy := h.busy
  memo := h.memo.same hs.memo.memo
  lr := h.lr.same hs.memo.lrMemo hs.refs
  lra := by rw [hs.memo.lrActive]; exact h.lra
  capl hq := hs.caps.trans (h.capl hq)
  act := by rw [hs.keep.active]; exact h.act

theorem Rel.bound {B : List (Nat × Nat)} {b b' : Nat} {m : Mode} {i : Nat} {s : PSt V} {st : St V}
    (h : Rel cfg C B b m i s st) (hb : b' ≤ b) : Rel cfg C B b' m i s st :=
  { h with busy := fun q hq => ⟨(h.busy q hq).1, fun e => Nat.le_trans hb ((h.busy q hq).2 e)⟩ }

/-- Failing (or succeeding on the spot) without touching anything. -/
theorem after_same {B : List (Nat × Nat)} {b : Nat} {m : Mode} {i j : Nat} {s s' : PSt V} {st st' : St V}
    (h : Rel cfg C B b m i s st) (hs : Same st st') (hj : i ≤ j) (hl : j ≤ cfg.input.length)
    (hc : s'.caps = s.caps) (hv : s'.vs = s.vs) :
    After cfg C B i (.ok j false s') st st' where
  res := by rintro _ _ _ ⟨⟩; exact ⟨hs.caps.trans (h.caps.trans hc.symm), fun hr => hs.vs.trans ((h.vs hr).trans hv.symm)⟩
  cut := by simp only [PRes.cutOf, orHead_false]; exact hs.cut
  recd := hs.recovered.trans h.recd
  memo := h.memo.same hs.memo.memo
  lr := h.lr.same hs.memo.lrMemo hs.refs
  held _ _ := by rw [hs.memo.lrMemo]
  capl _ := hs.caps
  p := P.succ (h.pre.ok.same hs.memo) hs.keep hs.memo.lrActive hj hl
  ext := Ext.of_vs hs.vs

theorem after_fail {B : List (Nat × Nat)} {b : Nat} {m : Mode} {i : Nat} {s : PSt V} {st st' : St V}
    (h : Rel cfg C B b m i s st) (hs : Same st st') : After cfg C B i (.fail false) st st' where
  res := by rintro _ _ _ ⟨⟩
  cut := by simp only [PRes.cutOf, orHead_false]; exact hs.cut
  recd := hs.recovered.trans h.recd
  memo := h.memo.same hs.memo.memo
  lr := h.lr.same hs.memo.lrMemo hs.refs
  held _ _ := by rw [hs.memo.lrMemo]
  capl _ := hs.caps
  p := P.fail (h.pre.ok.same hs.memo) hs.keep hs.memo.lrActive
  ext := Ext.of_vs hs.vs

/-- The context after a successful step corresponds to the reference state after it. -/
theorem Rel.next {B : List (Nat × Nat)} {b b2 : Nat} {m : Mode} {i j : Nat} {c : Bool} {s s1 : PSt V} {st st1 : St V}
    (h : Rel cfg C B b m i s st) (a : After cfg C B i (.ok j c s1) st st1) (hb : i < j ∨ (j = i ∧ b2 ≤ b)) :
    Rel cfg C B b2 m j s1 st1 where
  pre := h.pre.step a.p
  caps := (a.res _ _ _ rfl).1
  vs := (a.res _ _ _ rfl).2
  tok := by rw [a.p.keep.tokCount]; exact h.tok
  inWs := a.p.keep.inWs.trans h.inWs
  prec := by rw [a.p.keep.precToks]; exact h.prec
  recd := a.recd
  args := by rw [a.p.keep.args]; exact h.args
  busy := by
    intro q hq
    obtain ⟨h1, h2⟩ := h.busy q hq
    rcases hb with hb | ⟨rfl, hb⟩
    · exact ⟨by omega, fun e => by omega⟩
    · exact ⟨h1, fun e => Nat.le_trans hb (h2 e)⟩
  memo := a.memo
  lr := a.lr
  lra := by rw [a.p.act]; exact h.lra
  capl hq := (a.capl hq).trans (h.capl hq)
  act := by rw [a.p.keep.active]; exact h.act

/-- After a failed attempt that has been rolled back, the context corresponds to the state before. -/
theorem Rel.back {B : List (Nat × Nat)} {b : Nat} {m : Mode} {i : Nat} {x : PRes V} {s : PSt V} {st st1 : St V}
    (h : Rel cfg C B b m i s st) (a : After cfg C B i x st st1) :
    Rel cfg C B b m i s (st1.rollback st.snapshot) where
  pre := by
    have := h.pre.after a.p
    exact this.same (same_rollback _ _) rfl
  caps := (rollback_exact a.ext a.p.keep.caps).2.trans h.caps
  vs hr := (rollback_exact a.ext a.p.keep.caps).1.trans (h.vs hr)
  tok := by show st1.tokCount ≠ 0 ↔ _; rw [a.p.keep.tokCount]; exact h.tok
  inWs := a.p.keep.inWs.trans h.inWs
  prec := by show ∀ q ∈ st1.precToks.map _, _; rw [a.p.keep.precToks]; exact h.prec
  recd := a.recd
  args := by show st1.args ≠ _; rw [a.p.keep.args]; exact h.args
  busy := h.busy
  memo := a.memo
  lr := a.lr.same rfl rfl
  lra := by show ∀ q ∈ B, _ → _ ∈ st1.lrActive; rw [a.p.act]; exact h.lra
  capl hq := (rollback_exact a.ext a.p.keep.caps).2.trans (h.capl hq)
  act := by show _ → ∀ (r : Nat) (d : Def) p, _ → st1.active _ = _ → _; rw [a.p.keep.active]; exact h.act

/-- A rolled-back attempt: nothing but a cut remains. -/
theorem after_back {B : List (Nat × Nat)} {b : Nat} {m : Mode} {i : Nat} {x : PRes V} {s : PSt V} {st st1 : St V}
    (h : Rel cfg C B b m i s st) (a : After cfg C B i x st st1) :
    After cfg C B i (.ok i x.cutOf s) st (st1.rollback st.snapshot) ∧
    After cfg C B i (.fail x.cutOf) st (st1.rollback st.snapshot) := by
  have hk := keep_rollback a.p.keep
  have hs : StOk cfg (st1.rollback st.snapshot) := a.p.ok.same (same_rollback _ _)
  have he := rollback_exact a.ext a.p.keep.caps
  constructor
  · exact { res := by rintro _ _ _ ⟨⟩; exact ⟨he.2.trans h.caps, fun hr => he.1.trans (h.vs hr)⟩
            cut := a.cut, recd := a.recd, memo := a.memo, lr := a.lr.same rfl rfl, held := a.held, capl := fun _ => he.2
            p := P.succ hs hk a.p.act (Nat.le_refl _) h.pre.le
            ext := Ext.of_vs he.1 }
  · exact { res := by rintro _ _ _ ⟨⟩
            cut := a.cut, recd := a.recd, memo := a.memo, lr := a.lr.same rfl rfl, held := a.held, capl := fun _ => he.2
            p := P.fail hs hk a.p.act
            ext := Ext.of_vs he.1 }

/-- Sequential composition of postconditions. -/
theorem After.seq {B : List (Nat × Nat)} {i j : Nat} {c : Bool} {s1 : PSt V} {y : PRes V} {st st1 st2 : St V}
    (a : After cfg C B i (.ok j c s1) st st1) (a' : After cfg C B j y st1 st2) : After cfg C B i (y.orCut c) st st2 where
  res := by
    intro j' c' s' e
    cases y with
    | fail => cases e
    | ok j2 c2 s2 => cases e; exact a'.res _ _ _ rfl
  cut := by
    have h1 := a.cut
    have h2 := a'.cut
    rw [h2, h1, orHead_orHead]
    cases y <;> rfl
  recd := a'.recd
  memo := a'.memo
  lr := a'.lr
  held q hq := (a'.held q hq).trans (a.held q hq)
  capl h := (a'.capl h).trans (a.capl h)
  p := by
    have := a.p.seq a'.p
    cases y <;> exact this
  ext := a.ext.trans a'.ext

theorem Sim.mono {b b' : Nat} {v : Env} {u u' : Bool} {m : Mode} {i : Nat} {s : PSt V} {x : PRes V} {f : Nat → St V → Out (Res V)}
    (h : Sim cfg C b v u m i s x f) (hb : b ≤ b') (hu : u = true → u' = true) : Sim cfg C b' v u' m i s x f :=
  fun B st hr he => h B st (hr.bound hb) fun e => he (hu e)

/-- Running `f` and, if it succeeds, `g`. -/
theorem Sim.andThen {b b2 : Nat} {v : Env} {u1 u2 u : Bool} {m : Mode} {i j : Nat} {c : Bool} {s s1 : PSt V} {y : PRes V}
    {f : Nat → St V → Out (Res V)} {g : Nat → Nat → St V → Out (Res V)}
    (h1 : Sim cfg C b v u1 m i s (.ok j c s1) f) (h2 : Sim cfg C b2 v u2 m j s1 y fun n st => g n j st)
    (hf : FMono f) (hg : FMono fun n st => g n j st) (hb : i < j ∨ (j = i ∧ b2 ≤ b))
    (hu1 : u1 = true → u = true) (hu2 : u2 = true → u = true) :
    Sim cfg C b v u m i s (y.orCut c) fun n st => Verif.andThen (f n st) (g n) := by
  intro B st hr he
  obtain ⟨n1, st1, e1, a1⟩ := h1 B st hr fun h => he (hu1 h)
  obtain ⟨n2, st2, e2, a2⟩ := h2 B st1 (hr.next a1 hb) fun h => (he (hu2 h)).of a1.p.keep.ruleStack a1.p.keep.args
  refine ⟨max n1 n2, st2, ?_, a1.seq a2⟩
  rw [andThen_ok]
  right
  have hp : (y.orCut c).pos = y.pos := by cases y <;> rfl
  rw [hp]
  exact ⟨j, st1, hf.ok e1 (Nat.le_max_left _ _), hg.ok (n := n2) (n' := max n1 n2) e2 (Nat.le_max_right _ _)⟩

theorem Sim.andThen_fail {b : Nat} {v : Env} {u : Bool} {m : Mode} {i : Nat} {c : Bool} {s : PSt V}
    {f : Nat → St V → Out (Res V)} {g : Nat → Nat → St V → Out (Res V)}
    (h1 : Sim cfg C b v u m i s (.fail c) f) : Sim cfg C b v u m i s (.fail c) fun n st => Verif.andThen (f n st) (g n) := by
  intro B st hr he
  obtain ⟨n1, st1, e1, a1⟩ := h1 B st hr he
  refine ⟨n1, st1, ?_, a1⟩
  rw [andThen_ok]
  exact Or.inl ⟨st1, e1, rfl⟩

/-- An operator does what its own function does. -/
theorem Sim.ope {b : Nat} {v : Env} {u : Bool} {m : Mode} {i : Nat} {s : PSt V} {x : PRes V} {e : Ope}
    {f : Nat → St V → Out (Res V)} (h : Sim cfg C b v u m i s x f)
    (hf : ∀ n st, i ≤ cfg.input.length → parseOpe (run n) cfg e i st = f n st) :
    Sim cfg C b v u m i s x fun n st => run n cfg (.ope e) i st := by
  intro B st hr he
  obtain ⟨n, st', e1, a⟩ := h B st hr he
  exact ⟨n + 1, st', (hf n st hr.pre.le).trans e1, a⟩

/-- It is enough to establish the core of the postcondition for operators and rules. -/
theorem after_of_core {B : List (Nat × Nat)} {i n : Nat} {x : PRes V} {st st' : St V} {t : Task V} (hc : CertOk cfg C al)
    (ht : TaskF t) (hg : ∀ r inst cyc j v, t ≠ .grow r inst cyc j v) (hp : Pre cfg i st)
    (h : run n cfg t i st = .ok (x.pos, st')) (c : Core cfg C B x st st') : After cfg C B i x st st' := by
  have tp : TaskPre cfg t i st := by
    cases t <;> first | trivial | exact absurd rfl (hg _ _ _ _ _)
  have hP := run_good n cfg t i st _ hp.slots hp.ok hp.le tp h
  refine { c with p := ⟨hP.ok, hP.keep, ?_, hP.bounds⟩, ext := run_goodF n cfg t i st _ hc.frame hp tp ht h }
  have := hP.act
  cases t <;> first | exact this | exact absurd rfl (hg _ _ _ _ _)

end
end Verif
