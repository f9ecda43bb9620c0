import Verif.SimOps
/-!
# The engine agrees with the reference semantics: tokens, rules, macros
-/

namespace Verif
open Out CharClass

variable {V : Type} {cfg : Cfg V} {C : Cert} {al : Nat → Prop}

/-! ## Tokens -/

/-- The body of a token boundary. -/
def inTok (cfg : Cfg V) (e : Ope) (i n : Nat) (st : St V) : Out (Res V) :=
  after (run n cfg (.ope e) i { st with tokCount := st.tokCount + 1 }) fun st => { st with tokCount := st.tokCount - 1 }

theorem inTok_mono (e : Ope) (i : Nat) : FMono (inTok cfg e i) := fun _ _ _ h => after_le _ (run_le h _ _ _ _)

theorem Sim.inTok {b : Nat} {v : Env} {u : Bool} {m : Mode} {i : Nat} {s : PSt V} {x : PRes V} {e : Ope}
    (h : Sim cfg C b v u { m with tok := true } i s x fun n st => run n cfg (.ope e) i st) :
    Sim cfg C b v u m i s x (inTok cfg e i) := by
  intro B st hr he
  have hr' : Rel cfg C B b { m with tok := true } i s { st with tokCount := st.tokCount + 1 } :=
    { hr with
      pre := hr.pre.same ⟨rfl, rfl, rfl⟩ rfl
      tok := ⟨fun _ => rfl, fun _ => Nat.succ_ne_zero _⟩ }
  obtain ⟨n, st', e1, a⟩ := h B _ hr' fun h => (he h).of rfl rfl
  have k := a.p.keep
  refine ⟨n, { st' with tokCount := st'.tokCount - 1 }, ?_, ⟨a.res, a.cut, a.recd, a.memo, a.lr, a.held, a.capl⟩, ?_, ?_⟩
  · unfold Verif.inTok
    rw [after_ok]
    exact ⟨_, _, e1, rfl⟩
  · refine ⟨a.p.ok.same ⟨rfl, rfl, rfl⟩, ?_, a.p.act, a.p.bounds⟩
    refine ⟨k.cutLen, k.cutTail, k.args, k.ruleStack, ?_, k.inWs, k.logOn, k.active, k.precToks, k.caps, k.logs, k.insts, k.recovered⟩
    show st'.tokCount - 1 = st.tokCount
    have : st'.tokCount = st.tokCount + 1 := k.tokCount
    omega
  · exact ⟨a.ext.vals, a.ext.tags, a.ext.tokens, a.ext.name⟩

/-- Skipping white space after something that ended at `j`. -/
theorem skip_after (hc : CertOk cfg C al) {v : Env} {m : Mode} {b i j S : Nat} {s1 : PSt V} (ih : IH cfg C al S b i)
    (hv : EnvOk cfg C al {} v) (hij : i ≤ j) (hj : j ≤ cfg.input.length) (ha : al j) (hs : CapsOk cfg C al s1)
    (hsk : j = i → C.skipOk cfg m b = true) :
    ∃ b2, (i < j ∨ (j = i ∧ b2 ≤ b)) ∧ Does cfg C al b2 v false m true false .skip j s1 fun n st => skipWs (run n) cfg j st := by
  rcases Nat.lt_or_eq_of_le hij with hlt | rfl
  · exact ⟨_, Or.inl hlt, skip_does hc (SkipAt.later ih hj hlt) hv ha hj hs⟩
  · exact ⟨b, Or.inr ⟨rfl, Nat.le_refl _⟩, skip_does hc (SkipAt.here ih hj (hsk rfl)) hv ha hj hs⟩

theorem claim_tok (hc : CertOk cfg C al) {e : Ope} {b i : Nat}
    (ih : IH cfg C al (sizeOf (Ope.tok e)) b i) : Claim cfg C al (.tok e) b i := by
  intro κ arg v m s hw hκ hv hn ha hi hs
  simp only [wf, Bool.and_eq_true, Bool.or_eq_true, Bool.not_eq_true'] at hw
  simp only [Ope.Each] at hn
  obtain ⟨x, hp, hx, hsim⟩ := ih e b i hi (Or.inr ⟨rfl, Or.inr ⟨rfl, by simp⟩⟩) κ arg v { m with tok := true } s hw.1 hκ hv hn.2 ha hi hs
  have hsim := hsim.inTok
  have hpo : ∀ n st, i ≤ cfg.input.length → parseOpe (run n) cfg (.tok e) i st =
      Verif.andThen (inTok cfg e i n st) fun j st => skipWs (run n) cfg j (addToken cfg (i, j - i) st) := by
    intro n st hi
    unfold parseOpe
    rw [if_neg (by omega)]; rfl
  cases x with
  | fail c =>
    exact ⟨_, .tok_fail hp, ResOk.failed fun h => hx.cut h, (Sim.andThen_fail hsim).ope hpo⟩
  | ok j c s1 =>
    obtain ⟨a1, a2, a3, a4, a5⟩ := hx.pos j c s1 rfl
    obtain ⟨b2, hb2, y, hp2, hy, hsim2⟩ := skip_after (m := m) (s1 := { s1 with vs := { s1.vs with tokens := s1.vs.tokens ++ [(i, j - i)] } })
      hc ih hv.empty a1 a2 a3 a5 fun h => hw.2.resolve_left (by rw [a4 h]; simp)
    refine ⟨_, .tok_ok hp hp2, hx.seq hy (fun h _ h3 => h h3) (fun h => h.elim id (by intro h; cases h)), ?_⟩
    have hs2 : Sim cfg C b2 v false m j s1 y fun n st => skipWs (run n) cfg j (addToken cfg (i, j - i) st) :=
      Sim.shift (fun B st hr => after_token (i, j - i) hr (Nat.le_refl _) a2) hsim2 (Or.inr ⟨rfl, Nat.le_refl _⟩)
    refine (Sim.andThen (g := fun n j st => skipWs (run n) cfg j (addToken cfg (i, j - i) st)) (u := usesEnv cfg (.tok e))
      hsim hs2 (inTok_mono e i) ?_ hb2 id (by intro h; cases h)).ope hpo
    exact fun _ _ _ h => skipWs_le (recLe_run h) _ _ _

/-! ## Rule bodies -/

theorem notPrec_of_wf {κ : MCtx} {arg : Bool} {m : Mode} {b : Nat} {e : Ope} (h : wf cfg C κ arg m b e = true) : e.isPrec = false := by
  cases e <;> first | rfl | (simp [wf] at h; done)


/-- `opeBody` without the rule stack. -/
def bodyOf (cfg : Cfg V) (d : Def) (i n : Nat) (st : St V) : Out (Res V) :=
  if d.noWs then Verif.andThen (inTok cfg d.ope i n st) fun j st => skipWs (run n) cfg j st
  else run n cfg (.ope d.ope) i st

theorem body_of_ope (hc : CertOk cfg C al) {r : Nat} {d : Def} (hd : cfg.rules[r]? = some d) (hmac : d.isMacro = false)
    (hlr : d.isLR = false)
    {m : Mode} (hm : C.modes r m = true) {i S : Nat} {s : PSt V}
    (hD : Does cfg C al (C.rank r) {} (usesEnv cfg d.ope) { m with tok := m.tok || d.noWs } (C.nul false d.ope) (C.lk false d.ope)
      (.ope d.ope) i s fun n st => run n cfg (.ope d.ope) i st)
    (ih : IH cfg C al S (C.rank r) i) :
    Does cfg C al (C.rank r) {} (usesEnv cfg d.ope) m (C.null r) (C.leak r) (.body d) i s (bodyOf cfg d i) := by
  obtain ⟨-, hsk⟩ := hc.body r d hd hmac hlr m hm
  have hctx : C.ctx r d = {} := by simp [Cert.ctx, hmac]
  have hnull := hc.null r d hd
  have hleak := hc.leak r d hd
  rw [hctx] at hnull hleak
  cases hnw : d.noWs with
  | false =>
    rw [hnw] at hD
    simp only [Bool.or_false] at hD
    obtain ⟨x, hp, hx, hsim⟩ := hD
    refine ⟨x, .body hnw hp, hx.weaken hnull hleak, ?_⟩
    intro B st hr he
    obtain ⟨n, st', e1, a⟩ := hsim B st hr he
    refine ⟨n, st', ?_, a⟩
    simp only [bodyOf, hnw]
    exact e1
  | true =>
    rw [hnw] at hD
    simp only [Bool.or_true] at hD
    obtain ⟨x, hp, hx, hsim⟩ := hD
    have hsim := hsim.inTok
    have hbo : bodyOf cfg d i = fun n st => Verif.andThen (inTok cfg d.ope i n st) fun j st => skipWs (run n) cfg j st := by
      funext n st; simp only [bodyOf, hnw, if_true]
    rw [hbo]
    cases x with
    | fail c =>
      exact ⟨_, .body_fail hnw hp, ResOk.failed fun h => hleak (hx.cut h), Sim.andThen_fail hsim⟩
    | ok j c s1 =>
      obtain ⟨a1, a2, a3, a4, a5⟩ := hx.pos j c s1 rfl
      obtain ⟨b2, hb2, y, hp2, hy, hsim2⟩ := skip_after (m := m) hc ih (EnvOk.none cfg C al) a1 a2 a3 a5 fun h => hsk hnw (a4 h)
      refine ⟨_, .body_ok hnw hp hp2, hx.seq hy (fun h _ h3 => hnull (h h3)) (fun h => h.elim hleak (by intro h; cases h)), ?_⟩
      exact Sim.andThen (g := fun n j st => skipWs (run n) cfg j st) hsim hsim2 (inTok_mono _ _) (skip_mono j) hb2 id
        (by intro h; cases h)

theorem body_plain (hc : CertOk cfg C al) {r : Nat} {d : Def} (hd : cfg.rules[r]? = some d) (hmac : d.isMacro = false)
    (hlr : d.isLR = false) (hpr : d.ope.isPrec = false) {m : Mode} (hm : C.modes r m = true) {i S : Nat} {s : PSt V}
    (hcl : Claim cfg C al d.ope (C.rank r) i)
    (ih : IH cfg C al S (C.rank r) i) (ha : al i) (hi : i ≤ cfg.input.length) (hs : CapsOk cfg C al s) :
    Does cfg C al (C.rank r) {} (usesEnv cfg d.ope) m (C.null r) (C.leak r) (.body d) i s (bodyOf cfg d i) := by
  have hw := (hc.body r d hd hmac hlr m hm).1
  rw [hpr] at hw
  exact body_of_ope hc hd hmac hlr hm (hcl {} false {} { m with tok := m.tok || d.noWs } s hw (by intro h; cases h) (EnvOk.none _ _ _)
    (hc.node r d m hd hm hpr) ha hi hs) ih

/-- The precondition on the argument stack when a rule is entered. -/
def ArgsAt (cfg : Cfg V) (d : Def) (st : St V) : Prop :=
  cfg.packrat = false ∨ d.hasMacroRef = true ∨ d.isLR = true → ∃ tl, st.args = ([], 0) :: tl

theorem opeBody_does {Q : List (Nat × Nat) → St V → Prop} (hQ : Steady Q) (hc : CertOk cfg C al) {r : Nat} {d : Def} (hd : cfg.rules[r]? = some d) (hmac : d.isMacro = false)
    {m : Mode} {i : Nat} {s : PSt V} {y : PRes V}
    (hsim : ∀ B st, Rel cfg C B (C.rank r) m i s st → (usesEnv cfg d.ope = true → EnvRel cfg {} st) → Q B st →
      ∃ n st', bodyOf cfg d i n st = .ok (y.pos, st') ∧ After cfg C B i y st st') :
    ∀ B st, Rel cfg C B (C.rank r) m i s st → ArgsAt cfg d st → Q B st →
      ∃ n st', opeBody (run n) cfg r d i st = .ok (y.pos, st') ∧ After cfg C B i y st st' := by
  intro B st hr hargs hq
  have heq : ∀ n, opeBody (run n) cfg r d i st =
      after (bodyOf cfg d i n (pushRule (cfg.needsRuleStack || d.hasMacroRef) r st)) (popRule (cfg.needsRuleStack || d.hasMacroRef)) := by
    intro n
    unfold opeBody bodyOf
    cases cfg.needsRuleStack || d.hasMacroRef <;> rfl
  have hu : usesEnv cfg d.ope = true → d.hasMacroRef = true := hc.env r d hd hmac
  cases hb : cfg.needsRuleStack || d.hasMacroRef with
  | false =>
    have hno : usesEnv cfg d.ope = true → EnvRel cfg {} st := by
      intro h
      rw [hu h] at hb
      simp at hb
    obtain ⟨n, st', e1, a⟩ := hsim B st hr hno hq
    refine ⟨n, st', ?_, a⟩
    rw [heq, hb, after_ok]
    exact ⟨_, _, e1, rfl⟩
  | true =>
    have hr' : Rel cfg C B (C.rank r) m i s { st with ruleStack := r :: st.ruleStack } :=
      { hr with pre := hr.pre.same ⟨rfl, rfl, rfl⟩ rfl }
    have henv : usesEnv cfg d.ope = true → EnvRel cfg {} { st with ruleStack := r :: st.ruleStack } := by
      intro h
      obtain ⟨tl, htl⟩ := hargs (Or.inr (Or.inl (hu h)))
      exact ⟨r, st.ruleStack, d, 0, tl, rfl, hd, htl, Or.inl rfl⟩
    obtain ⟨n, st', e1, a⟩ := hsim B _ hr' henv (hQ B st _ hq fun _ _ => rfl)
    have k := a.p.keep
    refine ⟨n, { st' with ruleStack := st'.ruleStack.tail }, ?_, ⟨a.res, a.cut, a.recd, a.memo, a.lr, a.held, a.capl⟩, ?_, ?_⟩
    · rw [heq, hb, after_ok]
      exact ⟨_, _, e1, rfl⟩
    · refine ⟨a.p.ok.same ⟨rfl, rfl, rfl⟩, ?_, a.p.act, a.p.bounds⟩
      refine ⟨k.cutLen, k.cutTail, k.args, ?_, k.tokCount, k.inWs, k.logOn, k.active, k.precToks, k.caps, k.logs, k.insts, k.recovered⟩
      show st'.ruleStack.tail = st.ruleStack
      rw [k.ruleStack]; rfl
    · exact ⟨a.ext.vals, a.ext.tags, a.ext.tokens, a.ext.name⟩

/-! ## Predicates, actions, values -/

/-- The rule's value, given the result of its body. -/
def holdVal (G : Gram V) (r : Nat) (d : Def) (i : Nat) : PRes V → Option V
  | .fail _ => none
  | .ok j _ s' =>
    let f := ruleFrame r d i j s'.vs
    ruleValue G r d i j f (match G.predicate r with
      | none => none
      | some p => (p f).2)

/-- The rule's predicate accepts. -/
def accepts (G : Gram V) (r : Nat) (f : Frame V) : Bool :=
  match G.predicate r with
  | none => true
  | some p => (p f).1

/-- The rule's result, given the result of its body. -/
def holdRes (G : Gram V) (r : Nat) (d : Def) (i : Nat) (f : Frame V) (y : PRes V) : PRes V :=
  match y with
  | .fail c => .fail c
  | .ok j c s' =>
    if accepts G r (ruleFrame r d i j s'.vs) then .ok j c ⟨s'.caps, pushValue d (holdVal G r d i y) f⟩ else .fail c

/-- The token of a rule whose body has result `y`. -/
def holdTok (G : Gram V) (r : Nat) (d : Def) (i : Nat) (y : PRes V) : List Byte :=
  match y with
  | .ok j _ s' => (ruleFrame r d i j s'.vs).token G.input
  | .fail _ => []

theorem holdRes_peg {G : Gram V} {v : Env} {r : Nat} {d : Def} {m : Mode} {i : Nat} {caps : List (List Byte × List Byte)}
    {y : PRes V} (hd : G.rules[r]? = some d) (hlr : d.isLR = false) (h : Peg G v m (.body d) i ⟨caps, {}⟩ y) (f : Frame V) :
    Peg G v m (.hold r) i ⟨caps, f⟩ (holdRes G r d i f y) := by
  cases y with
  | fail c => exact .rule_fail hd hlr h
  | ok j c s' =>
    unfold holdRes holdVal accepts
    cases hp : G.predicate r with
    | none =>
      simp only [if_true]
      exact .rule_ok hd hlr h hp
    | some p =>
      simp only
      cases hq : (p (ruleFrame r d i j s'.vs)).1 with
      | true =>
        simp only [if_true]
        exact .rule_pred hd hlr h hp hq
      | false =>
        simp only [Bool.false_eq_true, if_false]
        exact .rule_reject hd hlr h hp hq

theorem holdRes_cut (G : Gram V) (r : Nat) (d : Def) (i : Nat) (f : Frame V) (y : PRes V) :
    (holdRes G r d i f y).cutOf = y.cutOf := by
  cases y with
  | fail c => rfl
  | ok j c s' => unfold holdRes; simp only; split <;> rfl

/-- What is left after a rule's own work (before its value goes to the caller). -/
structure VAfter (cfg : Cfg V) (C : Cert) (B : List (Nat × Nat)) (q : Nat) (d : Def) (x : PRes V)
    (val : Option V) (tk : List Byte) (st : St V) (r : VRes V) : Prop where
  pos : r.1 = x.pos
  val : cfg.recognizeOnly = false → x.pos.isSome = true → ∀ g, pushValue d r.2.1 g = pushValue d val g
  caps : ∀ j c s', x = .ok j c s' → r.2.2.caps = s'.caps
  vs : cfg.recognizeOnly = false → r.2.2.vs = st.vs
  cut : r.2.2.cut = orHead x.cutOf st.cut
  recd : r.2.2.recovered = false
  memo : MemoOk cfg C B r.2.2
  lr : LrOk cfg C B r.2.2
  held : ∀ q ∈ B, r.2.2.lrMemo.lookup (q.1, 0, q.2) = st.lrMemo.lookup (q.1, 0, q.2)
  active : r.2.2.active = st.active
  capl : C.capless = true → r.2.2.caps = st.caps
  toks : cfg.packrat = false → cfg.recognizeOnly = false → d.disableAction = false → x.pos.isSome = true →
    ∀ e ∈ r.2.2.precToks, e.1 = q → e.2 = tk

/-- `fn` does a rule's own work: the body, the predicate and the action. -/
def FnDoes (cfg : Cfg V) (C : Cert) (r : Nat) (d : Def) (m : Mode) (i : Nat) (s : PSt V) (x : PRes V) (val : Option V)
    (tk : List Byte) (fn : Nat → St V → Out (VRes V)) : Prop :=
  ∀ B st, Rel cfg C B (C.rank r) m i s st → ArgsAt cfg d st → ∃ n res, fn n st = .ok res ∧ VAfter cfg C B r d x val tk st res

theorem callEnter_st (r i : Nat) (st : St V) : ∃ dt, callEnter cfg r i st = { st with dt := dt } := by
  unfold callEnter
  cases cfg.enter r with
  | none => exact ⟨st.dt, rfl⟩
  | some f => exact ⟨_, rfl⟩

/-- The value the action computes. -/
def actVal (G : Gram V) (r : Nat) (d : Def) (f : Frame V) (pd : Option V) : Option V :=
  match G.action r with
  | some a => if d.disableAction then f.vals.head?.getD none else a f pd
  | none => f.vals.head?.getD none

/-- The tokens reported to the precedence operators under way. -/
def recTok (cfg : Cfg V) (r : Nat) (d : Def) (f : Frame V) (l : List (Nat × List Byte)) : List (Nat × List Byte) :=
  if d.disableAction then l else l.map fun e => if e.1 = r then (e.1, f.token cfg.input) else e

theorem recTok_mem {r : Nat} {d : Def} {f : Frame V} {l : List (Nat × List Byte)} (hd : d.disableAction = false) :
    ∀ e ∈ recTok cfg r d f l, e.1 = r → e.2 = f.token cfg.input := by
  intro e he h
  simp only [recTok, hd, Bool.false_eq_true, if_false, List.mem_map] at he
  obtain ⟨e', -, he⟩ := he
  split at he
  · rw [← he]
  · rename_i hn; rw [← he] at h; exact absurd h hn

theorem reduce_val (hc : CertOk cfg C al) (r : Nat) (d : Def) (f : Frame V) (pd : Option V) (st : St V) :
    ∃ dt, reduce cfg r d f pd st = (actVal cfg.gram r d f pd, { st with dt := dt, precToks := recTok cfg r d f st.precToks }) := by
  unfold reduce actVal Cfg.gram recTok
  cases hd : d.disableAction with
  | true =>
    refine ⟨st.dt, ?_⟩
    simp only [Bool.not_true, Bool.and_false, Bool.false_eq_true, if_false, if_true]
    cases cfg.action r <;> rfl
  | false =>
    simp only [Bool.not_false, Bool.and_true, Bool.false_eq_true, if_false]
    cases ha : cfg.action r with
    | some a =>
      have : hasAction cfg r st = true := by simp [hasAction, ha]
      rw [if_pos this]
      refine ⟨(a f st.dt pd).2, ?_⟩
      simp only [callAction, ha, Option.map_some]
      rw [hc.dt.action r a ha f st.dt pd]
    | none =>
      refine ⟨st.dt, ?_⟩
      simp only [Option.map_none]
      by_cases hh : hasAction cfg r st = true
      · rw [if_pos hh]
        simp only [callAction, ha]
      · rw [if_neg hh]
        have : (st.precToks.map fun e => if e.1 = r then (e.1, f.token cfg.input) else e) = st.precToks := by
          rw [List.map_congr_left (g := id), List.map_id]
          intro e he
          simp only [hasAction, ha, Option.isSome_none, Bool.false_or, List.any_eq_true, not_exists, not_and, decide_eq_true_eq] at hh
          rw [if_neg (hh e he)]; rfl
        rw [this]

theorem finish_fail (r : Nat) (d : Def) (i : Nat) (st : St V) :
    ∃ e, finishRule cfg r d i none st = (none, none, { st with err := e }) := by
  unfold finishRule
  simp only
  split
  · exact ⟨_, rfl⟩
  · exact ⟨st.err, rfl⟩

theorem finish_none (hc : CertOk cfg C al) (r : Nat) (d : Def) (i j : Nat) (st : St V)
    (hrec : st.recovered = false) (hpr : cfg.predicate r = none) :
    ∃ dt g, finishRule cfg r d i (some j) st =
      (some j, actVal cfg.gram r d (ruleFrame r d i j st.vs) none,
        { st with dt := dt, vs := g, precToks := recTok cfg r d (ruleFrame r d i j st.vs) st.precToks }) := by
  obtain ⟨dt, e⟩ := reduce_val hc r d (finishFrame r d i j st.vs) none { st with vs := finishFrame r d i j st.vs }
  unfold finishRule
  simp only [hpr]
  rw [if_neg (by rw [hrec]; simp), e]
  exact ⟨dt, _, rfl⟩

theorem finish_pred (hc : CertOk cfg C al) (r : Nat) (d : Def) (i j : Nat) (st : St V)
    (hrec : st.recovered = false) {p} (hpr : cfg.gram.predicate r = some p) :
    if (p (ruleFrame r d i j st.vs)).1 = true then
      ∃ dt g, finishRule cfg r d i (some j) st =
        (some j, actVal cfg.gram r d (ruleFrame r d i j st.vs) (p (ruleFrame r d i j st.vs)).2,
          { st with dt := dt, vs := g, precToks := recTok cfg r d (ruleFrame r d i j st.vs) st.precToks })
    else ∃ e g, finishRule cfg r d i (some j) st = (none, none, { st with err := e, vs := g }) := by
  unfold finishRule
  simp only [Cfg.gram] at hpr
  cases hq : cfg.predicate r with
  | none => rw [hq] at hpr; cases hpr
  | some q =>
    rw [hq] at hpr
    simp only [Option.map_some, Option.some.injEq] at hpr
    subst hpr
    obtain ⟨h1, h2⟩ := hc.dt.predicate r q hq (finishFrame r d i j st.vs) st.dt
    simp only
    have hf : finishFrame r d i j st.vs = ruleFrame r d i j st.vs := rfl
    rw [h1, h2, hf]
    cases hb : (q (ruleFrame r d i j st.vs) none).1 with
    | true =>
      obtain ⟨dt, e⟩ := reduce_val hc r d (finishFrame r d i j st.vs) (q (finishFrame r d i j st.vs) none).2.2
        { st with vs := finishFrame r d i j st.vs }
      rw [hf] at e
      rw [if_pos rfl, if_pos rfl, if_neg (by rw [hrec]; simp), e]
      exact ⟨dt, _, rfl⟩
    | false =>
      rw [if_neg (by simp), if_neg (by simp)]
      split
      · exact ⟨_, _, rfl⟩
      · exact ⟨st.err, _, rfl⟩

/-- The `leave` callback. -/
def leaveRule (cfg : Cfg V) (r i : Nat) (z : VRes V) : VRes V :=
  match cfg.leave r with
  | some f => (z.1, (f i z.1 z.2.1 z.2.2.dt).1, { z.2.2 with dt := (f i z.1 z.2.1 z.2.2.dt).2 })
  | none => z

theorem doParse_eq (rec : Rec V) (r : Nat) (d : Def) (i : Nat) (st : St V) : doParse rec cfg r d i st =
    (opeBody rec cfg r d i { callEnter cfg r i st with vs := {} }).bind fun x =>
      .ok (leaveRule cfg r i ((finishRule cfg r d i x.1 x.2).1, (finishRule cfg r d i x.1 x.2).2.1,
        { (finishRule cfg r d i x.1 x.2).2.2 with vs := st.vs })) := by
  unfold doParse leaveRule
  cases cfg.leave r <;> rfl

theorem leave_val (hc : CertOk cfg C al) (r i : Nat) (x : Option Nat) (val : Option V) (st : St V) :
    ∃ dt, leaveRule cfg r i (x, val, st) = (x, (match cfg.gram.leave r with
      | some l => l i x val
      | none => val), { st with dt := dt }) := by
  unfold leaveRule
  cases h : cfg.leave r with
  | none =>
    have : cfg.gram.leave r = none := by simp [Cfg.gram, h]
    rw [this]
    exact ⟨st.dt, rfl⟩
  | some l =>
    have : cfg.gram.leave r = some fun i x v => (l i x v none).1 := by simp [Cfg.gram, h]
    rw [this]
    exact ⟨_, by simp only; rw [hc.dt.leave r l h i x val st.dt]⟩

theorem doParse_does {Q : List (Nat × Nat) → St V → Prop} (hQ : Steady Q) (hc : CertOk cfg C al) {r : Nat} {d : Def} (hd : cfg.rules[r]? = some d) (hmac : d.isMacro = false)
    {m : Mode} {i : Nat} {caps : List (List Byte × List Byte)} {y : PRes V} (f : Frame V)
    (hsim : ∀ B st, Rel cfg C B (C.rank r) m i ⟨caps, {}⟩ st → (usesEnv cfg d.ope = true → EnvRel cfg {} st) → Q B st →
      ∃ n st', bodyOf cfg d i n st = .ok (y.pos, st') ∧ After cfg C B i y st st') :
    ∀ B st, Rel cfg C B (C.rank r) m i ⟨caps, f⟩ st → ArgsAt cfg d st → Q B st →
      ∃ n res, doParse (run n) cfg r d i st = .ok res ∧
        VAfter cfg C B r d (holdRes cfg.gram r d i f y) (holdVal cfg.gram r d i y) (holdTok cfg.gram r d i y) st res := by
  intro B st hr hargs hq
  obtain ⟨dt, hce⟩ := callEnter_st (cfg := cfg) r i st
  have hr' : Rel cfg C B (C.rank r) m i ⟨caps, {}⟩ { st with dt := dt, vs := {} } :=
    { hr with
      pre := hr.pre.same ⟨rfl, rfl, rfl⟩ rfl
      vs := fun _ => rfl }
  obtain ⟨n, st', e1, a⟩ := opeBody_does hQ hc hd hmac hsim B _ hr' hargs (hQ B st _ hq fun _ _ => rfl)
  refine ⟨n, leaveRule cfg r i ((finishRule cfg r d i y.pos st').1, (finishRule cfg r d i y.pos st').2.1,
    { (finishRule cfg r d i y.pos st').2.2 with vs := st.vs }), ?_, ?_⟩
  · show doParse (run n) cfg r d i st = _
    rw [doParse_eq, hce, show opeBody (run n) cfg r d i { ({ st with dt := dt } : St V) with vs := {} } = _ from e1]
    rfl
  · have hact : st'.active = st.active := a.p.keep.active
    cases y with
    | fail c =>
      obtain ⟨e, he⟩ := finish_fail (cfg := cfg) r d i st'
      simp only [PRes.pos, he]
      obtain ⟨dt', hl⟩ := leave_val hc r i none none { st' with err := e, vs := st.vs }
      rw [hl]
      exact ⟨rfl, fun _ h => (by cases h), fun _ _ _ h => (by cases h), fun _ => rfl, a.cut, a.recd, a.memo, a.lr, a.held, hact, a.capl, fun _ _ _ h => (by cases h)⟩
    | ok j c s' =>
      obtain ⟨hcaps, hvs⟩ := a.res j c s' rfl
      cases hp : cfg.gram.predicate r with
      | none =>
        have hp' : cfg.predicate r = none := by simpa [Cfg.gram] using hp
        obtain ⟨dt2, g, he⟩ := finish_none hc r d i j st' a.recd hp'
        simp only [PRes.pos, he]
        obtain ⟨dt', hl⟩ := leave_val hc r i (some j) (actVal cfg.gram r d (ruleFrame r d i j st'.vs) none)
          { st' with dt := dt2, vs := st.vs, precToks := recTok cfg r d (ruleFrame r d i j st'.vs) st'.precToks }
        rw [hl]
        have hres : holdRes cfg.gram r d i f (.ok j c s') = .ok j c ⟨s'.caps, pushValue d (holdVal cfg.gram r d i (.ok j c s')) f⟩ := by
          unfold holdRes accepts; simp only [hp, if_true]
        rw [hres]
        refine ⟨rfl, fun hreco _ => ?_, ?_, fun _ => rfl, a.cut, a.recd, a.memo, a.lr, a.held, hact, a.capl, fun _ hreco hda _ => (by simp only [holdTok]; rw [← hvs hreco]; exact recTok_mem hda)⟩
        · intro g; unfold holdVal ruleValue actVal; simp only [hp, hvs hreco]; rfl
        · intro _ _ _ h; cases h; exact hcaps
      | some p =>
        have hreco : cfg.recognizeOnly = false := by
          cases hq : cfg.recognizeOnly with
          | false => rfl
          | true => simp [Cfg.gram, hc.reco hq r] at hp
        have hvs := hvs hreco
        have he := finish_pred hc r d i j st' a.recd hp
        rw [hvs] at he
        cases hb : (p (ruleFrame r d i j s'.vs)).1 with
        | true =>
          rw [if_pos hb] at he
          obtain ⟨dt2, g, he⟩ := he
          simp only [PRes.pos, he]
          obtain ⟨dt', hl⟩ := leave_val hc r i (some j)
            (actVal cfg.gram r d (ruleFrame r d i j s'.vs) (p (ruleFrame r d i j s'.vs)).2)
            { st' with dt := dt2, vs := st.vs, precToks := recTok cfg r d (ruleFrame r d i j s'.vs) st'.precToks }
          rw [hl]
          have hres : holdRes cfg.gram r d i f (.ok j c s') = .ok j c ⟨s'.caps, pushValue d (holdVal cfg.gram r d i (.ok j c s')) f⟩ := by
            unfold holdRes accepts; simp only [hp, hb, if_true]
          rw [hres]
          refine ⟨rfl, fun _ _ => ?_, ?_, fun _ => rfl, a.cut, a.recd, a.memo, a.lr, a.held, hact, a.capl, fun _ _ hda _ => recTok_mem hda⟩
          · intro g; unfold holdVal ruleValue actVal; simp only [hp]; rfl
          · intro _ _ _ h; cases h; exact hcaps
        | false =>
          rw [if_neg (by rw [hb]; simp)] at he
          obtain ⟨e, g, he⟩ := he
          simp only [PRes.pos, he]
          obtain ⟨dt', hl⟩ := leave_val hc r i none none { st' with err := e, vs := st.vs }
          rw [hl]
          have hres : holdRes cfg.gram r d i f (.ok j c s') = .fail c := by
            unfold holdRes accepts; simp only [hp, hb, Bool.false_eq_true, if_false]
          rw [hres]
          exact ⟨rfl, fun _ h => (by cases h), fun _ _ _ h => (by cases h), fun _ => rfl, a.cut, a.recd, a.memo, a.lr, a.held, hact, a.capl, fun _ _ _ h => (by cases h)⟩

/-- Without value collection only the body is run. -/
theorem reco_does (hc : CertOk cfg C al) {r : Nat} {d : Def} (hd : cfg.rules[r]? = some d) (hmac : d.isMacro = false)
    {m : Mode} {i : Nat} {caps : List (List Byte × List Byte)} {y : PRes V} (f : Frame V) (hreco : cfg.recognizeOnly = true)
    (hsim : Sim cfg C (C.rank r) {} (usesEnv cfg d.ope) m i ⟨caps, {}⟩ y (bodyOf cfg d i)) :
    FnDoes cfg C r d m i ⟨caps, f⟩ (holdRes cfg.gram r d i f y) (holdVal cfg.gram r d i y) (holdTok cfg.gram r d i y)
      fun n st => (opeBody (run n) cfg r d i st).bind fun x => .ok (x.1, none, x.2) := by
  intro B st hr hargs
  have hr' : Rel cfg C B (C.rank r) m i ⟨caps, {}⟩ st :=
    { hr with vs := fun h => by rw [hreco] at h; cases h }
  obtain ⟨n, st', e1, a⟩ := opeBody_does steady_true hc hd hmac (fun B st hr he _ => hsim B st hr he) B _ hr' hargs trivial
  refine ⟨n, (y.pos, none, st'), ?_, ?_⟩
  · show (opeBody (run n) cfg r d i st).bind _ = _
    rw [e1]; rfl
  · have hres : holdRes cfg.gram r d i f y = match y with
        | .fail c => .fail c
        | .ok j c s' => .ok j c ⟨s'.caps, pushValue d (holdVal cfg.gram r d i y) f⟩ := by
      have hp : cfg.gram.predicate r = none := by simp [Cfg.gram, hc.reco hreco r]
      cases y with
      | fail => rfl
      | ok => unfold holdRes accepts; simp only [hp, if_true]
    rw [hres]
    have nr : ∀ {p : Prop}, cfg.recognizeOnly = false → p := fun h => by rw [hreco] at h; cases h
    cases y with
    | fail c => exact ⟨rfl, nr, fun _ _ _ h => (by cases h), nr, a.cut, a.recd, a.memo, a.lr, a.held, a.p.keep.active, a.capl, fun _ h => nr h⟩
    | ok j c s' =>
      refine ⟨rfl, nr, ?_, nr, a.cut, a.recd, a.memo, a.lr, a.held, a.p.keep.active, a.capl, fun _ h => nr h⟩
      intro _ _ _ h; cases h; exact (a.res j c s' rfl).1

/-! ## Memoisation and the re-entry guard -/

theorem pushValue_inj {d : Def} {v v' : Option V} {f : Frame V} (h : pushValue d v f = pushValue d v' f) :
    ∀ g, pushValue d v g = pushValue d v' g := by
  intro g
  unfold pushValue at h ⊢
  cases hd : d.ignoreSV with
  | true => simp
  | false =>
    rw [hd] at h
    simp only [Bool.false_eq_true, if_false, Frame.mk.injEq, List.append_cancel_left_eq, List.cons.injEq, and_true, true_and] at h
    rw [h]

theorem holdRes_fail {G : Gram V} {r : Nat} {d : Def} {i : Nat} {f : Frame V} {y : PRes V}
    (h : (holdRes G r d i f y).pos = none) (g : Frame V) : holdRes G r d i g y = .fail y.cutOf := by
  cases y with
  | fail c => rfl
  | ok j c s' =>
    unfold holdRes at h ⊢
    simp only at h ⊢
    split at h
    · cases h
    · rename_i hn; rw [if_neg hn]; rfl

theorem holdRes_ok {G : Gram V} {r : Nat} {d : Def} {i : Nat} {f : Frame V} {y : PRes V} {j : Nat}
    (h : (holdRes G r d i f y).pos = some j) : ∃ c s', y = .ok j c s' ∧
      ∀ g, holdRes G r d i g y = .ok j c ⟨s'.caps, pushValue d (holdVal G r d i y) g⟩ := by
  cases y with
  | fail c => cases h
  | ok j' c s' =>
    unfold holdRes at h ⊢
    simp only at h ⊢
    split at h
    · rename_i hn
      cases h
      exact ⟨c, s', rfl, fun g => by rw [if_pos hn]⟩
    · cases h

theorem memoIdx_inj {s s' i i' : Nat} (hs : s < cfg.cachedCount) (hs' : s' < cfg.cachedCount)
    (h : cfg.memoIdx s i = cfg.memoIdx s' i') : s = s' ∧ i = i' := by
  unfold Cfg.memoIdx at h
  have h1 : (cfg.cachedCount * i + s) / cfg.cachedCount = i := by
    rw [Nat.mul_add_div (by omega), Nat.div_eq_of_lt hs, Nat.add_zero]
  have h2 : (cfg.cachedCount * i' + s') / cfg.cachedCount = i' := by
    rw [Nat.mul_add_div (by omega), Nat.div_eq_of_lt hs', Nat.add_zero]
  have h3 : i = i' := by rw [← h1, h, h2]
  subst h3
  omega

theorem Rel.enter {B : List (Nat × Nat)} {b : Nat} {m : Mode} {i r : Nat} {s : PSt V} {st : St V} (hr : Rel cfg C B b m i s st)
    (hb : C.rank r < b) : ∀ q ∈ (r, i) :: B, q.2 ≤ i ∧ (q.2 = i → C.rank r ≤ C.rank q.1) := by
  intro q hq
  rcases List.mem_cons.mp hq with rfl | hq
  · exact ⟨Nat.le_refl _, fun _ => Nat.le_refl _⟩
  · exact ⟨(hr.busy q hq).1, fun e => by have := (hr.busy q hq).2 e; omega⟩

theorem Rel.notBusy {B : List (Nat × Nat)} {b : Nat} {m : Mode} {i r : Nat} {s : PSt V} {st : St V} (hr : Rel cfg C B b m i s st)
    (hb : C.rank r < b) : (r, i) ∉ B := by
  intro h
  have := (hr.busy _ h).2 rfl
  simp only at this
  omega

theorem LrOk.cons {B : List (Nat × Nat)} {q : Nat × Nat} {st : St V} (h : LrOk cfg C B st) : LrOk cfg C (q :: B) st :=
  ⟨h.1, fun r p e he => (h.2 r p e he).imp (List.mem_cons_of_mem _) id⟩

theorem LrOk.uncons {B : List (Nat × Nat)} {q : Nat × Nat} {st : St V} (h : LrOk cfg C (q :: B) st)
    (hn : st.lrMemo.lookup (q.1, 0, q.2) = none) : LrOk cfg C B st := by
  refine ⟨h.1, fun r p e he => (h.2 r p e he).imp (fun hm => ?_) id⟩
  rcases List.mem_cons.mp hm with rfl | hm
  · simp only at hn; rw [hn] at he; cases he
  · exact hm

/-- A rule that is not left recursive has no entry where it is not under way. -/
theorem Rel.noEntry {B : List (Nat × Nat)} {b : Nat} {m : Mode} {i r : Nat} {d : Def} {s : PSt V} {st : St V}
    (hr : Rel cfg C B b m i s st) (hb : C.rank r < b) (hd : cfg.rules[r]? = some d) (hlr : d.isLR = false) :
    st.lrMemo.lookup (r, 0, i) = none := by
  cases h : st.lrMemo.lookup (r, 0, i) with
  | none => rfl
  | some w =>
    rcases hr.lr.2 r i w h with h | ⟨d', h1, h2, -⟩
    · exact absurd h (hr.notBusy hb)
    · rw [hd] at h1; cases h1; rw [hlr] at h2; cases h2

theorem Rel.lraCons {B : List (Nat × Nat)} {b : Nat} {m : Mode} {i r : Nat} {d : Def} {s : PSt V} {st : St V}
    (hr : Rel cfg C B b m i s st) (hd : cfg.rules[r]? = some d) (hlr : d.isLR = false) :
    ∀ q ∈ (r, i) :: B, isLRRule cfg q.1 → (q.1, 0, q.2) ∈ st.lrActive := by
  intro q hq hl
  rcases List.mem_cons.mp hq with rfl | hq
  · obtain ⟨d', h1, h2⟩ := hl
    rw [hd] at h1; cases h1; rw [hlr] at h2; cases h2
  · exact hr.lra q hq hl

section
variable {r : Nat} {d : Def} {m : Mode} {b i : Nat} {caps : List (List Byte × List Byte)} {f : Frame V} {y : PRes V}
  {fn : Nat → St V → Out (VRes V)}

/-- Without packrat parsing: the re-entry guard of a rule that is not under way here does not interfere. -/
theorem guarded_plain (hd : cfg.rules[r]? = some d) (hlr : d.isLR = false) (hp : cfg.packrat = false) (hb : C.rank r < b)
    (hfn : FnDoes cfg C r d m i ⟨caps, f⟩ (holdRes cfg.gram r d i f y) (holdVal cfg.gram r d i y) (holdTok cfg.gram r d i y) fn) :
    ∀ B st, Rel cfg C B b m i ⟨caps, f⟩ st → ArgsAt cfg d st → ∃ n res, guarded cfg r i st (fn n) = .ok res ∧
      VAfter cfg C B r d (holdRes cfg.gram r d i f y) (holdVal cfg.gram r d i y) (holdTok cfg.gram r d i y) st res := by
  intro B st hr hargs
  obtain ⟨tl, htl⟩ := hargs (Or.inl hp)
  have hno := hr.noEntry hb hd hlr
  have hr' : Rel cfg C ((r, i) :: B) (C.rank r) m i ⟨caps, f⟩ { st with lrMemo := ((r, 0, i), none) :: st.lrMemo } :=
    { hr with
      pre := by
        refine ⟨hr.pre.slots, ⟨hr.pre.ok.memo, ?_, ?_⟩, hr.pre.le, hr.pre.top⟩
        · intro r inst' p j v hm
          rcases List.mem_cons.mp hm with hm | hm
          · cases hm
          · exact hr.pre.ok.lr r inst' p j v hm
        · intro k hk
          refine ⟨?_, (hr.pre.ok.act k hk).2⟩
          show (List.lookup k (_ :: _)).isSome = true
          rw [List.lookup_cons]
          split
          · rfl
          · exact (hr.pre.ok.act k hk).1
      busy := hr.enter hb
      memo := fun h => by rw [hp] at h; cases h
      lr := by
        refine ⟨hr.lr.1, ?_⟩
        intro r' p e h
        simp only [List.lookup_cons] at h
        split at h
        · rename_i e; simp at e; rw [e.1, e.2]; exact Or.inl List.mem_cons_self
        · exact hr.lr.cons.2 r' p e h
      lra := hr.lraCons hd hlr
      act := fun h => by rw [hp] at h; cases h }
  obtain ⟨n, res, e1, a⟩ := hfn _ _ hr' hargs
  refine ⟨n, (res.1, res.2.1, { res.2.2 with lrMemo := res.2.2.lrMemo.filter (·.1 ≠ (r, 0, i)) }), ?_, ?_⟩
  · unfold guarded
    simp only [hp, Bool.false_eq_true, if_false, htl, hno, Option.isSome_none]
    rw [← htl, e1]; rfl
  · have hlk : ∀ r' p, (r', p) ≠ (r, i) →
        (res.2.2.lrMemo.filter (·.1 ≠ (r, 0, i))).lookup (r', 0, p) = res.2.2.lrMemo.lookup (r', 0, p) := by
      intro r' p h
      refine lookup_filter_ne _ _ _ ?_
      intro e _ he
      simp only [he, decide_not, Bool.not_eq_true', decide_eq_false_iff_not]
      intro e'
      apply h
      simp at e'
      rw [e'.1, e'.2]
    have hgone : (res.2.2.lrMemo.filter (·.1 ≠ (r, 0, i))).lookup (r, 0, i) = none := by
      rw [List.lookup_eq_none_iff]
      intro e he
      simp only [List.mem_filter, decide_not, Bool.not_eq_true', decide_eq_false_iff_not] at he
      simp only [bne_iff_ne, ne_eq, Bool.not_eq_true', beq_eq_false_iff_ne]
      exact fun h => he.2 h.symm
    refine ⟨a.pos, a.val, a.caps, a.vs, a.cut, a.recd, fun h => (by rw [hp] at h; cases h), ?_, ?_, a.active, a.capl, a.toks⟩
    · refine LrOk.uncons (q := (r, i)) ⟨a.lr.1, ?_⟩ hgone
      intro r' p e he
      by_cases h : (r', p) = (r, i)
      · exact Or.inl (h ▸ List.mem_cons_self)
      · exact a.lr.2 r' p e ((hlk r' p h) ▸ he)
    · intro q hq
      have hne : (q.1, q.2) ≠ (r, i) := fun h => hr.notBusy hb (h ▸ hq)
      refine (hlk q.1 q.2 hne).trans ((a.held q (List.mem_cons_of_mem _ hq)).trans ?_)
      show List.lookup _ (_ :: _) = _
      rw [List.lookup_cons]
      split
      · rename_i e; simp at e; exact absurd (by rw [e.1, e.2]) hne
      · rfl

/-- A rule that is not memoised. -/
theorem guarded_active (hc : CertOk cfg C al) (hd : cfg.rules[r]? = some d) (hlr : d.isLR = false) (hp : cfg.packrat = true)
    (hsl : cfg.slot (cfg.defId r) = none) (hb : C.rank r < b)
    (hfn : FnDoes cfg C r d m i ⟨caps, f⟩ (holdRes cfg.gram r d i f y) (holdVal cfg.gram r d i y) (holdTok cfg.gram r d i y) fn) :
    ∀ B st, Rel cfg C B b m i ⟨caps, f⟩ st → ArgsAt cfg d st → ∃ n res, guarded cfg r i st (fn n) = .ok res ∧
      VAfter cfg C B r d (holdRes cfg.gram r d i f y) (holdVal cfg.gram r d i y) (holdTok cfg.gram r d i y) st res := by
  intro B st hr hargs
  have hno : ¬ st.active (cfg.defId r) = some i := fun h => hr.notBusy hb (hr.act hp r d i hd h)
  have hr' : Rel cfg C ((r, i) :: B) (C.rank r) m i ⟨caps, f⟩ { st with active := fset st.active (cfg.defId r) (some i) } :=
    { hr with
      pre := hr.pre.same ⟨rfl, rfl, rfl⟩ rfl
      busy := hr.enter hb
      memo := by
        intro _ r' d' sl i' h1 h2
        have := hr.memo hp r' d' sl i' h1 h2
        simp only
        split
        · trivial
        · rename_i e; rw [e] at this; exact this.imp (List.mem_cons_of_mem _) id
        · rename_i e; rw [e] at this; exact this
      lr := hr.lr.cons
      lra := hr.lraCons hd hlr
      act := by
        intro _ r' d' p h1 h2
        simp only [fset] at h2
        split at h2
        · rename_i e
          have := hc.ids hp r' r d' d h1 hd e
          cases h2; rw [this]; exact List.mem_cons_self
        · exact List.mem_cons_of_mem _ (hr.act hp r' d' p h1 h2) }
  obtain ⟨n, res, e1, a⟩ := hfn _ _ hr' hargs
  refine ⟨n, (res.1, res.2.1, { res.2.2 with active := fset res.2.2.active (cfg.defId r) (st.active (cfg.defId r)) }), ?_, ?_⟩
  · unfold guarded
    have := hc.idLt hp r d hd
    simp only [hp, if_true, hsl, if_neg (Nat.not_le.mpr this), hno, if_false]
    rw [e1]; rfl
  · refine ⟨a.pos, a.val, a.caps, a.vs, a.cut, a.recd, ?_,
      LrOk.uncons (q := (r, i)) a.lr ((a.held _ List.mem_cons_self).trans (hr.noEntry hb hd hlr)),
      fun q hq => a.held q (List.mem_cons_of_mem _ hq), ?_, a.capl, a.toks⟩
    · intro _ r' d' sl i' h1 h2
      have := a.memo hp r' d' sl i' h1 h2
      simp only
      split
      · trivial
      · rename_i e; rw [e] at this
        refine this.imp (fun h => ?_) id
        rcases List.mem_cons.mp h with h | h
        · injection h with h h'
          subst h
          rw [hsl] at h2; cases h2
        · exact h
      · rename_i e; rw [e] at this; exact this
    · show fset res.2.2.active _ _ = st.active
      rw [a.active]
      funext q
      simp only [fset]
      split
      · rename_i e; rw [e]
      · rfl

/-- A memoised rule. -/
theorem guarded_memo (hc : CertOk cfg C al) (hd : cfg.rules[r]? = some d) (hlr : d.isLR = false) (hp : cfg.packrat = true) {sl : Nat}
    (hsl : cfg.slot (cfg.defId r) = some sl) (hb : C.rank r < b) (hm : C.modes r m = true)
    (hcaps : caps = []) (hy : ∀ j c s', y = .ok j c s' → i ≤ j ∧ s'.caps = []) (hcut : y.cutOf = false)
    (hpeg : ∀ g, Peg cfg.gram {} m (.hold r) i ⟨caps, g⟩ (holdRes cfg.gram r d i g y))
    (hfn : FnDoes cfg C r d m i ⟨caps, f⟩ (holdRes cfg.gram r d i f y) (holdVal cfg.gram r d i y) (holdTok cfg.gram r d i y) fn) :
    ∀ B st, Rel cfg C B b m i ⟨caps, f⟩ st → ArgsAt cfg d st → ∃ n res, guarded cfg r i st (fn n) = .ok res ∧
      VAfter cfg C B r d (holdRes cfg.gram r d i f y) (holdVal cfg.gram r d i y) (holdTok cfg.gram r d i y) st res := by
  subst hcaps
  intro B st hr hargs
  have hslt := hc.slots hp r sl hsl
  have hsz : ¬ cfg.memoSize ≤ cfg.memoIdx sl i := by
    unfold Cfg.memoSize Cfg.memoIdx
    have : cfg.cachedCount * i ≤ cfg.cachedCount * cfg.input.length := Nat.mul_le_mul_left _ hr.pre.le
    rw [Nat.mul_add, Nat.mul_one]
    omega
  have hmo := hr.memo hp r d sl i hd hsl
  have hone : ∀ m', C.modes r m' = true → m' = m := fun m' h => (hc.cached hp r d sl hd hsl).2 m' m h hm
  have hcut' : (holdRes cfg.gram r d i f y).cutOf = false := by rw [holdRes_cut]; exact hcut
  have nlr : ∀ {q : Prop}, cfg.packrat = false → q := fun h => by rw [hp] at h; cases h
  cases hmem : st.memo (cfg.memoIdx sl i) with
  | some w =>
    rw [hmem] at hmo
    cases w with
    | none =>
      have hx : holdRes cfg.gram r d i f y = .fail false :=
        (hpeg f).det ((hmo.resolve_left (hr.notBusy hb)) m f hm)
      refine ⟨0, (none, none, st), ?_, ?_⟩
      · unfold guarded
        simp only [hp, if_true, hsl, if_neg hsz, hmem]
      · rw [hx]
        exact ⟨rfl, fun _ h => (by cases h), fun _ _ _ h => (by cases h), fun _ => rfl,
          (orHead_false _).symm, hr.recd, hr.memo, hr.lr, fun _ _ => rfl, rfl, fun _ => rfl, fun h => nlr h⟩
    | some lv =>
      obtain ⟨len, v⟩ := lv
      obtain ⟨v', hv', hpg⟩ := hmo
      have hx : holdRes cfg.gram r d i f y = .ok (i + len) false ⟨[], pushValue d v' f⟩ := (hpeg f).det (hpg m f hm)
      refine ⟨0, (some (i + len), v, st), ?_, ?_⟩
      · unfold guarded
        simp only [hp, if_true, hsl, if_neg hsz, hmem]
      · obtain ⟨c, s', hy1, hy2⟩ := holdRes_ok (show (holdRes cfg.gram r d i f y).pos = some (i + len) by rw [hx]; rfl)
        have hv2 : pushValue d v' f = pushValue d (holdVal cfg.gram r d i y) f := by
          have := (hy2 f).symm.trans hx
          injection this with _ _ h
          injection h with _ h
          exact h.symm
        rw [hx]
        refine ⟨rfl, fun h _ g => ?_, ?_, fun _ => rfl, (orHead_false _).symm, hr.recd, hr.memo, hr.lr, fun _ _ => rfl, rfl, fun _ => rfl, fun h => nlr h⟩
        · rw [← hv' h]; exact pushValue_inj hv2 g
        · intro _ _ _ h; cases h; exact hr.caps
  | none =>
    have hidx : ∀ r' d' sl' i', cfg.rules[r']? = some d' → cfg.slot (cfg.defId r') = some sl' →
        cfg.memoIdx sl' i' = cfg.memoIdx sl i → r' = r ∧ i' = i := by
      intro r' d' sl' i' h1 h2 h3
      obtain ⟨e1, e2⟩ := memoIdx_inj (hc.slots hp r' sl' h2) hslt h3
      subst e1
      exact ⟨hc.slotInj hp r' r d' d sl' h1 hd h2 hsl, e2⟩
    have hr' : Rel cfg C ((r, i) :: B) (C.rank r) m i ⟨[], f⟩ { st with memo := fset st.memo (cfg.memoIdx sl i) (some none) } :=
      { hr with
        pre := ⟨hr.pre.slots, hr.pre.ok.fset _ _ (by intro len v e; cases e), hr.pre.le, hr.pre.top⟩
        busy := hr.enter hb
        memo := by
          intro _ r' d' sl' i' h1 h2
          have := hr.memo hp r' d' sl' i' h1 h2
          by_cases he : cfg.memoIdx sl' i' = cfg.memoIdx sl i
          · obtain ⟨rfl, rfl⟩ := hidx r' d' sl' i' h1 h2 he
            simp only [fset, he, if_true]
            exact Or.inl List.mem_cons_self
          · simp only [fset, he, if_false]
            split
            · trivial
            · rename_i e; rw [e] at this; exact this.imp (List.mem_cons_of_mem _) id
            · rename_i e; rw [e] at this; exact this
        lr := hr.lr.cons
        lra := hr.lraCons hd hlr
        act := fun _ r' d' p h1 h2 => List.mem_cons_of_mem _ (hr.act hp r' d' p h1 h2) }
    obtain ⟨n, res, e1, a⟩ := hfn _ _ hr' hargs
    -- entries other than that of (r, i)
    have hother : ∀ r' d' sl' i', cfg.rules[r']? = some d' → cfg.slot (cfg.defId r') = some sl' →
        ¬ cfg.memoIdx sl' i' = cfg.memoIdx sl i →
        match res.2.2.memo (cfg.memoIdx sl' i') with
        | none => True
        | some none => (r', i') ∈ B ∨ ∀ m f, C.modes r' m = true → Peg cfg.gram {} m (.hold r') i' ⟨[], f⟩ (.fail false)
        | some (some (len, v)) => ∃ v', (cfg.recognizeOnly = false → v' = v) ∧ ∀ m f, C.modes r' m = true →
            Peg cfg.gram {} m (.hold r') i' ⟨[], f⟩ (.ok (i' + len) false ⟨[], pushValue d' v' f⟩) := by
      intro r' d' sl' i' h1 h2 h3
      have := a.memo hp r' d' sl' i' h1 h2
      split
      · trivial
      · rename_i e; rw [e] at this
        refine this.imp (fun h => ?_) id
        rcases List.mem_cons.mp h with h | h
        · injection h with h h'
          subst h; subst h'
          rw [hsl] at h2; cases h2
          exact absurd rfl h3
        · exact h
      · rename_i e; rw [e] at this; exact this
    cases hx : (holdRes cfg.gram r d i f y).pos with
    | none =>
      have hf := holdRes_fail hx
      rw [hcut] at hf
      refine ⟨n, (none, res.2.1, res.2.2), ?_, ?_⟩
      · unfold guarded
        simp only [hp, if_true, hsl, if_neg hsz, hmem, e1, Out.bind, a.pos, hx]
      · refine ⟨hx.symm, fun _ h => (by rw [hx] at h; cases h), a.caps, a.vs, a.cut, a.recd, ?_,
          LrOk.uncons (q := (r, i)) a.lr ((a.held _ List.mem_cons_self).trans (hr.noEntry hb hd hlr)),
          fun q hq => a.held q (List.mem_cons_of_mem _ hq), a.active, a.capl, fun h => nlr h⟩
        intro _ r' d' sl' i' h1 h2
        by_cases he : cfg.memoIdx sl' i' = cfg.memoIdx sl i
        · obtain ⟨rfl, rfl⟩ := hidx r' d' sl' i' h1 h2 he
          have := a.memo hp r' d' sl' i' h1 h2
          split
          · trivial
          · right
            intro m' f' hm'
            rw [hone m' hm', ← hf f']
            exact hpeg f'
          · rename_i e; rw [e] at this; exact this
        · exact hother r' d' sl' i' h1 h2 he
    | some j =>
      obtain ⟨c, s', hy1, hy2⟩ := holdRes_ok hx
      have hcf : c = false := by rw [hy1] at hcut; exact hcut
      subst hcf
      obtain ⟨hij, hsc⟩ := hy j _ s' hy1
      rw [hsc] at hy2
      refine ⟨n, (some j, res.2.1, writeMemo cfg r i j res.2.1 res.2.2), ?_, ?_⟩
      · unfold guarded
        simp only [hp, if_true, hsl, if_neg hsz, hmem, e1, Out.bind, a.pos, hx]
      · have hw : ∀ (st' : St V), writeMemo cfg r i j res.2.1 st' = { st' with
            memo := fset st'.memo (cfg.memoIdx sl i) (if j - i ≤ 4294967295 then some (some (j - i, res.2.1)) else none) } := by
          intro st'
          unfold writeMemo
          simp only [hp, if_true, hsl, if_pos (Nat.not_le.mp hsz)]
          split <;> rfl
        rw [hw]
        refine ⟨hx.symm, a.val, a.caps, a.vs, a.cut, a.recd, ?_,
          LrOk.uncons (q := (r, i)) a.lr ((a.held _ List.mem_cons_self).trans (hr.noEntry hb hd hlr)),
          fun q hq => a.held q (List.mem_cons_of_mem _ hq), a.active, a.capl, fun h => nlr h⟩
        intro _ r' d' sl' i' h1 h2
        by_cases he : cfg.memoIdx sl' i' = cfg.memoIdx sl i
        · obtain ⟨rfl, rfl⟩ := hidx r' d' sl' i' h1 h2 he
          rw [hd] at h1; cases h1
          simp only [fset, he, if_true]
          by_cases hbig : j - i' ≤ 4294967295
          · simp only [hbig, if_true]
            refine ⟨if cfg.recognizeOnly then holdVal cfg.gram r' d i' y else res.2.1, fun h => by rw [h]; rfl, ?_⟩
            intro m' f' hm'
            rw [hone m' hm']
            have h3 := hpeg f'
            rw [hy2 f'] at h3
            have hji : i' + (j - i') = j := by omega
            rw [hji]
            cases hreco : cfg.recognizeOnly with
            | true => simp only [if_true]; exact h3
            | false =>
              simp only [Bool.false_eq_true, if_false]
              rw [a.val hreco (by rw [hx]; rfl) f']
              exact h3
          · simp only [hbig, if_false]
        · have := hother r' d' sl' i' h1 h2 he
          simp only [fset, he, if_false]
          exact this

end

/-! ## Rules -/

/-- What the rule's last successful call reported to the precedence operators under way. -/
def Toks (cfg : Cfg V) (r : Nat) (d : Def) (i : Nat) (x y : PRes V) (st' : St V) : Prop :=
  cfg.packrat = false → cfg.recognizeOnly = false → d.disableAction = false → x.pos.isSome = true →
    ∀ e ∈ st'.precToks, e.1 = r → e.2 = holdTok cfg.gram r d i y

theorem Toks.args {r : Nat} {d : Def} {i : Nat} {x y : PRes V} (st : St V) (fr : List (List Ope × Nat)) (h : Toks cfg r d i x y st) :
    Toks cfg r d i x y { st with args := fr } := h

theorem hold_of_body (hc : CertOk cfg C al) {r : Nat} {d : Def} (hd : cfg.rules[r]? = some d) (hmac : d.isMacro = false)
    (hlr : d.isLR = false) {m : Mode} (hm : C.modes r m = true) {b i : Nat} {caps : List (List Byte × List Byte)} {f : Frame V}
    {y : PRes V} (hb : C.rank r < b) (hs : CapsOk cfg C al (⟨caps, f⟩ : PSt V)) (hpy : Peg cfg.gram {} m (.body d) i ⟨caps, {}⟩ y)
    (hy : ResOk cfg C al (C.null r) (C.leak r) i y)
    (hsim : Sim cfg C (C.rank r) {} (usesEnv cfg d.ope) m i ⟨caps, {}⟩ y (bodyOf cfg d i)) :
    ResOk cfg C al (C.null r) (C.leak r) i (holdRes cfg.gram r d i f y) ∧
      ∀ B st, Rel cfg C B b m i ⟨caps, f⟩ st → ArgsAt cfg d st →
        ∃ n st', run n cfg (.hold r) i st = .ok ((holdRes cfg.gram r d i f y).pos, st') ∧
          After cfg C B i (holdRes cfg.gram r d i f y) st st' ∧ Toks cfg r d i (holdRes cfg.gram r d i f y) y st' := by
  have hpeg : ∀ g, Peg cfg.gram {} m (.hold r) i ⟨caps, g⟩ (holdRes cfg.gram r d i g y) :=
    fun g => holdRes_peg (G := cfg.gram) (caps := caps) hd hlr hpy g
  refine ⟨⟨?_, ?_⟩, ?_⟩
  · rw [holdRes_cut]; exact hy.cut
  · intro j c s' e
    obtain ⟨c', s2, hy1, hy2⟩ := holdRes_ok (show (holdRes cfg.gram r d i f y).pos = some j by rw [e]; rfl)
    have := (hy2 f).symm.trans e
    injection this with _ _ h
    obtain ⟨a1, a2, a3, a4, a5⟩ := hy.pos j c' s2 hy1
    refine ⟨a1, a2, a3, a4, ?_⟩
    rw [← h]; exact a5
  · intro B st hr hargs
    have hbounds : ∀ j c s', y = .ok j c s' → i ≤ j ∧ (cfg.packrat = true → s'.caps = []) := fun j c s' e =>
      ⟨(hy.pos j c s' e).1, fun h => (hy.pos j c s' e).2.2.2.2.2 (Or.inl h)⟩
    have hguard : ∀ fn : Nat → St V → Out (VRes V),
        FnDoes cfg C r d m i ⟨caps, f⟩ (holdRes cfg.gram r d i f y) (holdVal cfg.gram r d i y) (holdTok cfg.gram r d i y) fn →
        ∃ n res, guarded cfg r i st (fn n) = .ok res ∧
          VAfter cfg C B r d (holdRes cfg.gram r d i f y) (holdVal cfg.gram r d i y) (holdTok cfg.gram r d i y) st res := by
      intro fn hfn
      cases hp : cfg.packrat with
      | false => exact guarded_plain hd hlr hp hb hfn B st hr hargs
      | true =>
        cases hsl : cfg.slot (cfg.defId r) with
        | none => exact guarded_active hc hd hlr hp hsl hb hfn B st hr hargs
        | some sl =>
          refine guarded_memo hc hd hlr hp hsl hb hm (hs.2 (Or.inl hp)) (fun j c s' e => ⟨(hbounds j c s' e).1, (hbounds j c s' e).2 hp⟩)
            ?_ hpeg hfn B st hr hargs
          cases hq : y.cutOf with
          | false => rfl
          | true =>
            have := hy.cut hq
            rw [(hc.cached hp r d sl hd hsl).1] at this
            cases this
    have hrules : ∀ n, run (n + 1) cfg (.hold r) i st = holder (run n) cfg r i st := fun _ => rfl
    cases hreco : cfg.recognizeOnly with
    | true =>
      obtain ⟨n, res, e1, a⟩ := hguard _ (reco_does hc hd hmac f hreco hsim)
      have e2 : run (n + 1) cfg (.hold r) i st = .ok ((holdRes cfg.gram r d i f y).pos, res.2.2) := by
        rw [hrules]; unfold holder
        simp only [hd, hmac, hlr, hreco, Bool.false_and, Bool.false_eq_true, if_false, if_true]
        rw [e1, ← a.pos]; rfl
      refine ⟨n + 1, _, e2, after_of_core (t := .hold r) hc trivial (by intros; simp) hr.pre e2 ⟨?_, a.cut, a.recd, a.memo, a.lr, a.held, a.capl⟩, fun _ h => (by rw [hreco] at h; cases h)⟩
      intro j c s' e
      exact ⟨a.caps j c s' e, fun h => by rw [hreco] at h; cases h⟩
    | false =>
      obtain ⟨n, res, e1, a⟩ := hguard _ (fun B st hr ha => doParse_does steady_true hc hd hmac f (fun B st hr he _ => hsim B st hr he) B st hr ha trivial)
      cases hx : (holdRes cfg.gram r d i f y).pos with
      | none =>
        have e2 : run (n + 1) cfg (.hold r) i st = .ok ((holdRes cfg.gram r d i f y).pos, res.2.2) := by
          rw [hrules]; unfold holder
          simp only [hd, hmac, hlr, hreco, Bool.false_and, Bool.false_eq_true, if_false]
          rw [e1]
          simp only [Out.bind, a.pos, hx]
        refine ⟨n + 1, res.2.2, by rw [e2, hx], after_of_core (t := .hold r) hc trivial (by intros; simp) hr.pre e2 ⟨?_, a.cut, a.recd, a.memo, a.lr, a.held, a.capl⟩, fun _ _ _ h => (by rw [hx] at h; cases h)⟩
        intro j c s' e
        rw [e] at hx; cases hx
      | some j =>
        have e2 : run (n + 1) cfg (.hold r) i st = .ok ((holdRes cfg.gram r d i f y).pos, emplace cfg d res.2.1 res.2.2) := by
          rw [hrules]; unfold holder
          simp only [hd, hmac, hlr, hreco, Bool.false_and, Bool.false_eq_true, if_false]
          rw [e1]
          simp only [Out.bind, a.pos, hx]
        have hem : emplace cfg d res.2.1 res.2.2 = { res.2.2 with vs := pushValue d res.2.1 res.2.2.vs } := by
          unfold emplace pushValue
          rw [hreco]
          cases d.ignoreSV <;> rfl
        rw [hem] at e2
        refine ⟨n + 1, _, by rw [← hx]; exact e2, after_of_core (t := .hold r) hc trivial (by intros; simp) hr.pre e2 ⟨?_, a.cut, a.recd, a.memo, a.lr, a.held, a.capl⟩, fun h1 h2 h3 h4 => a.toks h1 h2 h3 (by rw [hx]; rfl)⟩
        intro j' c s' e
        refine ⟨a.caps j' c s' e, fun h => ?_⟩
        obtain ⟨c', s2, hy1, hy2⟩ := holdRes_ok hx
        have h3 := (hy2 f).symm.trans e
        injection h3 with _ _ h4
        rw [← h4]
        show pushValue d res.2.1 res.2.2.vs = pushValue d _ f
        rw [a.vs h, hr.vs h]
        exact a.val h (by rw [hx]; rfl) f

/-- Running with another frame on the argument stack. -/
theorem Rel.pushArgs {B : List (Nat × Nat)} {b : Nat} {m : Mode} {i : Nat} {s : PSt V} {st : St V} (hr : Rel cfg C B b m i s st)
    (fr : List Ope × Nat) (hp : ∀ e ∈ fr.1, e.noPrec = true) : Rel cfg C B b m i s { st with args := fr :: st.args } :=
  { hr with
    pre := ⟨hr.pre.slots, hr.pre.ok.same ⟨rfl, rfl, rfl⟩, hr.pre.le, by
      intro f hf e he
      simp only [List.head?_cons, Option.mem_def, Option.some.injEq] at hf
      subst hf
      exact hp e he⟩
    args := by simp }

/-- A reference to a rule. -/
theorem ref_of_hold (hc : CertOk cfg C al) {r : Nat} {d : Def} (hd : cfg.rules[r]? = some d) (hmac : d.isMacro = false)
    {m : Mode} {b i : Nat} {s : PSt V} {x : PRes V} {nm : List Byte} {as : List Ope} {T : St V → Prop}
    (hT : ∀ st (fr : List (List Ope × Nat)), T st → T { st with args := fr }) (hn : (Ope.ref r nm as).Each (nodeOk cfg al))
    (hsim : ∀ B st, Rel cfg C B b m i s st → ArgsAt cfg d st →
        ∃ n st', run n cfg (.hold r) i st = .ok (x.pos, st') ∧ After cfg C B i x st st' ∧ T st') :
    ∀ B st, Rel cfg C B b m i s st → ∃ n st', run n cfg (.ope (.ref r nm as)) i st = .ok (x.pos, st') ∧
      After cfg C B i x st st' ∧ T st' := by
  intro B st hr
  have key : ∃ n st', parseOpe (run n) cfg (.ref r nm as) i st = .ok (x.pos, st') ∧ Core cfg C B x st st' ∧ T st' := by
    have hi := hr.pre.le
    by_cases hdir : (!d.hasMacroRef && !d.isLR && cfg.packrat) = true
    · obtain ⟨n, st', e1, a, t⟩ := hsim B st hr (by
        intro h
        simp only [Bool.and_eq_true, Bool.not_eq_true'] at hdir
        rcases h with h | h | h
        · rw [hdir.2] at h; cases h
        · rw [hdir.1.1] at h; cases h
        · rw [hdir.1.2] at h; cases h)
      refine ⟨n, st', ?_, a.toCore, t⟩
      unfold parseOpe
      rw [if_neg (by omega)]
      simp only [refer, hd, hmac, Bool.false_eq_true, if_false, hdir, if_true]
      exact e1
    · obtain ⟨n, st', e1, a, t⟩ := hsim B _ (hr.pushArgs ([], 0) (by intro e he; cases he)) (fun _ => ⟨_, rfl⟩)
      refine ⟨n, { st' with args := st'.args.tail }, ?_, ⟨a.res, a.cut, a.recd, a.memo, a.lr, a.held, a.capl⟩, hT _ _ t⟩
      unfold parseOpe
      rw [if_neg (by omega)]
      simp only [refer, hd, hmac, Bool.false_eq_true, if_false, if_neg hdir, withArgs]
      rw [after_ok]
      exact ⟨_, _, e1, rfl⟩
  obtain ⟨n, st', e1, a, t⟩ := key
  have e2 : run (n + 1) cfg (.ope (.ref r nm as)) i st = .ok (x.pos, st') := e1
  exact ⟨n + 1, st', e2, after_of_core (t := .ope (.ref r nm as)) hc (noPrec_of_each _ hn) (by intros; simp) hr.pre e2 a, t⟩

end Verif
