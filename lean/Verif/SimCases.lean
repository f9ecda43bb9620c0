import Verif.Sim
/-!
# The engine agrees with the reference semantics: terminals and composite operators
-/

namespace Verif
open Out CharClass

variable {V : Type} {cfg : Cfg V} {C : Cert} {al : Nat → Prop}

theorem recLe_run {n n' : Nat} (h : n ≤ n') : RecLe (run n : Rec V) (run n') := fun _ _ _ _ => run_le h _ _ _ _

theorem Does.weaken {b b' : Nat} {v : Env} {u u' : Bool} {m : Mode} {nl lk nl' lk' : Bool} {t : PTask} {i : Nat} {s : PSt V}
    {f : Nat → St V → Out (Res V)} (h : Does cfg C al b v u m nl lk t i s f) (hb : b ≤ b') (hu : u = true → u' = true)
    (h1 : nl = true → nl' = true) (h2 : lk = true → lk' = true) : Does cfg C al b' v u' m nl' lk' t i s f := by
  obtain ⟨x, hp, hr, hs⟩ := h
  exact ⟨x, hp, hr.weaken h1 h2, hs.mono hb hu⟩

/-- Starting from a state that differs only in what parsing does not depend on. -/
theorem After.pre {B : List (Nat × Nat)} {i : Nat} {x : PRes V} {st st1 st' : St V} (hs : Same st st1)
    (a : After cfg C B i x st1 st') : After cfg C B i x st st' where
  res := a.res
  cut := by rw [a.cut, hs.cut]
  recd := a.recd
  memo := a.memo
  lr := a.lr
  held q hq := by rw [a.held q hq, hs.memo.lrMemo]
  capl h := (a.capl h).trans hs.caps
  p := a.p.pre hs.keep hs.memo.lrActive
  ext := (Ext.of_vs hs.vs).trans a.ext

theorem After.same {B : List (Nat × Nat)} {i : Nat} {x : PRes V} {st st1 st' : St V}
    (a : After cfg C B i x st st1) (hs : Same st1 st') : After cfg C B i x st st' where
  res j c s' e := ⟨hs.caps.trans (a.res j c s' e).1, fun hr => hs.vs.trans ((a.res j c s' e).2 hr)⟩
  cut := by rw [hs.cut, a.cut]
  recd := hs.recovered.trans a.recd
  memo := a.memo.same hs.memo.memo
  lr := a.lr.same hs.memo.lrMemo hs.refs
  held q hq := by rw [hs.memo.lrMemo, a.held q hq]
  capl h := hs.caps.trans (a.capl h)
  p := a.p.post hs.keep hs.memo
  ext := a.ext.trans (Ext.of_vs hs.vs)

/-- It is enough to establish the core of the postcondition. -/
theorem Sim.ope_core_at (hc : CertOk cfg C al) {B : List (Nat × Nat)} {st : St V} {b : Nat} {m : Mode} {i : Nat} {s : PSt V}
    {x : PRes V} {e : Ope} (hn : e.Each (nodeOk cfg al)) (hr : Rel cfg C B b m i s st)
    (h : ∃ n st', parseOpe (run n) cfg e i st = .ok (x.pos, st') ∧ Core cfg C B x st st') :
    ∃ n st', run n cfg (.ope e) i st = .ok (x.pos, st') ∧ After cfg C B i x st st' := by
  obtain ⟨n, st', e1, a⟩ := h
  have e2 : run (n + 1) cfg (.ope e) i st = .ok (x.pos, st') := e1
  exact ⟨n + 1, st', e2, after_of_core (t := .ope e) hc (noPrec_of_each e hn) (by intros; simp) hr.pre e2 a⟩

theorem Sim.ope_core (hc : CertOk cfg C al) {b : Nat} {v : Env} {u : Bool} {m : Mode} {i : Nat} {s : PSt V} {x : PRes V} {e : Ope}
    (hn : e.Each (nodeOk cfg al))
    (h : ∀ B st, Rel cfg C B b m i s st → (u = true → EnvRel cfg v st) →
      ∃ n st', parseOpe (run n) cfg e i st = .ok (x.pos, st') ∧ Core cfg C B x st st') :
    Sim cfg C b v u m i s x fun n st => run n cfg (.ope e) i st := by
  intro B st hr he
  obtain ⟨n, st', e1, a⟩ := h B st hr he
  have e2 : run (n + 1) cfg (.ope e) i st = .ok (x.pos, st') := e1
  exact ⟨n + 1, st', e2, after_of_core (t := .ope e) hc (noPrec_of_each e hn) (by intros; simp) hr.pre e2 a⟩

/-- The claims available for an expression smaller than size `S`, at bound `b` and position `i`. -/
def IH (cfg : Cfg V) (C : Cert) (al : Nat → Prop) (S b i : Nat) : Prop :=
  ∀ e' b' i', i' ≤ cfg.input.length → (i < i' ∨ (i' = i ∧ (b' < b ∨ (b' = b ∧ sizeOf e' < S)))) → Claim cfg C al e' b' i'

theorem IH.later {S b i S' b' j : Nat} (h : IH cfg C al S b i) (hj : i < j) : IH cfg C al S' b' j :=
  fun e' b'' i' hi hl => h e' b'' i' hi (Or.inl (by rcases hl with hl | ⟨rfl, -⟩ <;> omega))

theorem IH.le {S b i S' : Nat} (h : IH cfg C al S b i) (hs : S' ≤ S) : IH cfg C al S' b i :=
  fun e' b' i' hi hl => h e' b' i' hi (hl.imp id fun hl => ⟨hl.1, hl.2.imp id fun hl => ⟨hl.1, by omega⟩⟩)

theorem IH.lower {S b i S' b' : Nat} (h : IH cfg C al S b i) (hb : b' < b) : IH cfg C al S' b' i :=
  fun e' b'' i' hi hl => h e' b'' i' hi (hl.imp id fun hl => ⟨hl.1, Or.inl (by rcases hl.2 with hl | hl <;> omega)⟩)

/-! ## White space -/

/-- When skipping white space at `i` is known to work. -/
def SkipAt (cfg : Cfg V) (C : Cert) (al : Nat → Prop) (m : Mode) (b i : Nat) : Prop :=
  (m.tok = true ∨ m.ws = true ∨ cfg.ws = none) ∨ (C.wsBound ≤ b ∧ ∀ e, cfg.ws = some (.ws e) → Claim cfg C al e C.wsBound i)

theorem SkipAt.here {S b i : Nat} {m : Mode} (ih : IH cfg C al S b i) (hi : i ≤ cfg.input.length)
    (h : C.skipOk cfg m b = true) : SkipAt cfg C al m b i := by
  unfold Cert.skipOk at h
  simp only [Bool.or_eq_true, decide_eq_true_eq, Option.isNone_iff_eq_none] at h
  rcases h with ((h | h) | h) | h
  · exact Or.inl (Or.inl h)
  · exact Or.inl (Or.inr (Or.inl h))
  · exact Or.inl (Or.inr (Or.inr h))
  · exact Or.inr ⟨by omega, fun e _ => ih e _ _ hi (Or.inr ⟨rfl, Or.inl h⟩)⟩

theorem SkipAt.later {S b i j : Nat} {m : Mode} (ih : IH cfg C al S b i) (hi : j ≤ cfg.input.length) (h : i < j) :
    SkipAt cfg C al m (max b C.wsBound) j :=
  Or.inr ⟨by omega, fun e _ => ih e _ _ hi (Or.inl h)⟩

theorem skip_mono (i : Nat) : FMono fun n (st : St V) => skipWs (run n) cfg i st :=
  fun _ _ _ h => skipWs_le (recLe_run h) _ _ _

theorem skip_does (hc : CertOk cfg C al) {v : Env} {m : Mode} {b i : Nat} {s : PSt V} (hsk : SkipAt cfg C al m b i)
    (hv : EnvOk cfg C al {} v) (ha : al i) (hi : i ≤ cfg.input.length) (hs : CapsOk cfg C al s) :
    Does cfg C al b v false m true false .skip i s fun n st => skipWs (run n) cfg i st := by
  have stay : ResOk cfg C al true false i (.ok i false s) := ⟨fun h => (by cases h), by
    rintro _ _ _ ⟨⟩
    exact ⟨Nat.le_refl _, hi, ha, fun _ => rfl, hs⟩⟩
  by_cases ht : m.tok = true
  · refine ⟨_, .skip_tok ht, stay, ?_⟩
    intro B st hr _
    refine ⟨0, st, ?_, after_same hr (Same.refl _) (Nat.le_refl _) hi rfl rfl⟩
    simp only [skipWs, hr.tok.mpr ht, ne_eq, not_false_eq_true, if_true, PRes.pos]
  have ht' : m.tok = false := by simpa using ht
  cases hw : cfg.ws with
  | none =>
    refine ⟨_, .skip_none hw, stay, ?_⟩
    intro B st hr _
    refine ⟨0, st, ?_, after_same hr (Same.refl _) (Nat.le_refl _) hi rfl rfl⟩
    simp only [skipWs, hw, PRes.pos]; split <;> rfl
  | some w =>
    obtain ⟨e, rfl, hwf, hlk, hu, hnode⟩ := hc.ws w hw
    have t0 : ∀ {B st}, Rel cfg C B b m i s st → st.tokCount = 0 := by
      intro B st hr
      have := hr.tok
      simp only [ht', Bool.false_eq_true, iff_false, ne_eq, Decidable.not_not] at this
      exact this
    by_cases hm : m.ws = true
    · refine ⟨_, .skip_ws ht' hw (.ws_in hm), stay, ?_⟩
      intro B st hr _
      refine ⟨1, st, ?_, after_same hr (Same.refl _) (Nat.le_refl _) hi rfl rfl⟩
      simp only [skipWs, t0 hr, ne_eq, not_true_eq_false, if_false, hw, PRes.pos]
      show parseOpe (run 0) cfg (.ws e) i st = _
      unfold parseOpe
      rw [if_neg (by omega)]
      simp only [parseWs, hr.inWs, hm, if_true]
    · have hm' : m.ws = false := by simpa using hm
      have hcl : C.wsBound ≤ b ∧ Claim cfg C al e C.wsBound i := by
        rcases hsk with (h | h | h) | h
        · exact absurd h ht
        · exact absurd h hm
        · rw [hw] at h; cases h
        · exact ⟨h.1, h.2 e hw⟩
      have em : ({ m with ws := true } : Mode) = ⟨false, true⟩ := by rw [ht']
      obtain ⟨x, hp, hx, hsim⟩ := hcl.2 {} false v ⟨false, true⟩ s hwf (by intro h; cases h) hv hnode ha hi hs
      rw [hlk] at hx
      refine ⟨x, .skip_ws ht' hw (.ws_out hm' (by rw [em]; exact hp)), hx.weaken (fun _ => rfl) id, ?_⟩
      have := Sim.ope_core hc (x := x) (b := b) (v := v) (u := false) (m := m) (i := i) (s := s) (e := .ws e) ⟨by simp [nodeOk], hnode⟩ ?_
      · intro B st hr he
        obtain ⟨n, st', e1, a⟩ := this B st hr he
        refine ⟨n, st', ?_, a⟩
        simp only [skipWs, t0 hr, ne_eq, not_true_eq_false, if_false, hw]
        exact e1
      · intro B st hr _
        have hr' : Rel cfg C B C.wsBound ⟨false, true⟩ i s { st with inWs := true } :=
          { hr.bound hcl.1 with
            pre := hr.pre.same ⟨rfl, rfl, rfl⟩ rfl
            tok := by have := hr.tok; rw [ht'] at this; exact this
            inWs := rfl }
        obtain ⟨n, st', e1, a⟩ := hsim B _ hr' (by rw [hu]; intro h; cases h)
        refine ⟨n, { st' with inWs := false }, ?_, ?_⟩
        · unfold parseOpe
          rw [if_neg (by omega)]
          simp only [parseWs, hr.inWs, hm', Bool.false_eq_true, if_false]
          rw [after_ok]
          exact ⟨_, _, e1, rfl⟩
        · exact ⟨a.res, a.cut, a.recd, a.memo, a.lr, a.held, a.capl⟩

/-! ## Characters -/

theorem decodeLen_zero (t : List Byte) (h : (Utf8.decodeLenCp t).1 = 0) : (Utf8.decodeLenCp t).2 = 0 := by
  unfold Utf8.decodeLenCp at h ⊢
  cases hd : Utf8.decodeCodepoint? t with
  | none => rfl
  | some r =>
    rw [hd] at h
    exfalso
    unfold Utf8.decodeCodepoint? at hd
    simp only at hd
    repeat' split at hd
    all_goals first | (cases hd; done) | (injection hd with hd; subst hd; simp at h)

theorem single_le {e : Ope} {f : List Byte → Option Nat} (he : e.single = some f) {t : List Byte} {k : Nat} (h : f t = some k) :
    k ≤ t.length := by
  cases e <;> simp only [Ope.single, reduceCtorEq, Option.some.injEq] at he <;> subst he
  · exact (Props.C07_class_bounds _ _ _ h).2
  · exact matchChar_le h
  · exact matchAny_le h

theorem single_nul (hp : AlOk cfg C al) {e : Ope} {f : List Byte → Option Nat} (he : e.single = some f) {i : Nat} (ha : al i)
    (hi : i ≤ cfg.input.length) (h : f (cfg.rest i) = some 0) {p : Bool} : C.nul p e = true := by
  have hne : f (cfg.rest i) ≠ none → i < cfg.input.length := by
    intro hn
    rcases Nat.lt_or_eq_of_le hi with h' | h'
    · exact h'
    · exfalso; apply hn
      have : cfg.rest i = [] := by unfold Cfg.rest; rw [h']; simp
      rw [this]
      cases e <;> simp only [Ope.single, reduceCtorEq, Option.some.injEq] at he <;> subst he
      · rfl
      · rfl
      · unfold matchAny; rw [Utf8.length_eq]; rfl
  have hlt := hne (by rw [h]; simp)
  cases e <;> simp only [Ope.single, reduceCtorEq, Option.some.injEq] at he <;> subst he
  · rename_i c
    simp only [Cert.nul, Bool.and_eq_true]
    unfold Cls.matchLen at h
    cases hr : cfg.rest i with
    | nil => rw [hr] at h; cases h
    | cons x t =>
      rw [hr] at h
      simp only at h
      have h0 : (Utf8.decodeLenCp (x :: t)).1 = 0 := by
        revert h
        split <;> split <;> intro h <;> first | cases h | exact Option.some.inj h
      rw [← hr] at h0
      refine ⟨?_, ?_⟩
      · cases hm : C.malformed with
        | true => rfl
        | false => exact absurd h0 (hp.dec hm i ha hlt)
      · rw [hr] at h0
        rw [decodeLen_zero _ h0] at h
        cases hn : c.negated <;> cases hq : c.ranges.any (inRange c.ignoreCase · 0) <;> simp [hn, hq] at h ⊢
  · rename_i c
    simp only [Cert.nul, Bool.and_eq_true, beq_iff_eq]
    unfold matchChar at h
    cases hr : cfg.rest i with
    | nil => rw [hr] at h; cases h
    | cons x t =>
      rw [hr] at h
      simp only at h
      split at h
      · cases h
      · rename_i hcp
        simp only [ne_eq, Decidable.not_not] at hcp
        have h0 : (Utf8.decodeLenCp (x :: t)).1 = 0 := Option.some.inj h
        refine ⟨?_, by rw [← hcp]; exact decodeLen_zero _ h0⟩
        rw [← hr] at h0
        cases hm : C.malformed with
        | true => rfl
        | false => exact absurd h0 (hp.dec hm i ha hlt)
  · unfold matchAny at h
    simp only at h
    split at h
    · cases h
    · rename_i hl
      exact absurd (Option.some.inj h) (by omega)

theorem claim_single (hc : CertOk cfg C al) {e : Ope} {f : List Byte → Option Nat} (he : e.single = some f) (b i : Nat) :
    Claim cfg C al e b i := by
  intro κ arg v m s hw _ hv hn ha hi hs
  have hpo : ∀ n st, parseOpe (run n) cfg e i st = terminal cfg i st (f (cfg.rest i)) := by
    intro n st
    cases e <;> simp only [Ope.single, reduceCtorEq, Option.some.injEq] at he <;> subst he <;>
      (unfold parseOpe; rw [if_neg (by omega)])
  cases hf : f (cfg.rest i) with
  | none =>
    refine ⟨.fail false, .one_fail he hf, ResOk.failed (by intro h; cases h), ?_⟩
    intro B st hr _
    refine ⟨1, setErr cfg st i, ?_, after_fail hr (same_setErr' _ _ _ _)⟩
    show parseOpe (run 0) cfg e i st = _
    rw [hpo, hf]; rfl
  | some k =>
    have hk := single_le he hf
    rw [rest_length] at hk
    refine ⟨.ok (i + k) false s, .one_ok he hf, ⟨fun h => (by cases h), ?_⟩, ?_⟩
    · rintro _ _ _ ⟨⟩
      refine ⟨by omega, by omega, hc.pos.char e f i k he ha hf, fun h => ?_, hs⟩
      have : k = 0 := by omega
      subst this
      exact single_nul hc.pos he ha hi hf
    · intro B st hr _
      refine ⟨1, st, ?_, after_same hr (Same.refl _) (by omega) (by omega) rfl rfl⟩
      show parseOpe (run 0) cfg e i st = _
      rw [hpo, hf]; rfl

/-! ## Literals -/

theorem PRes.orCut_false (x : PRes V) : x.orCut false = x := by cases x <;> rfl

/-- Doing something harmless first. -/
theorem Sim.shift {b b2 : Nat} {v : Env} {u : Bool} {m : Mode} {i j : Nat} {s s1 : PSt V} {y : PRes V} {tr : St V → St V}
    {g : Nat → St V → Out (Res V)}
    (htr : ∀ B st, Rel cfg C B b m i s st → After cfg C B i (.ok j false s1) st (tr st))
    (h2 : Sim cfg C b2 v u m j s1 y g) (hb : i < j ∨ (j = i ∧ b2 ≤ b)) : Sim cfg C b v u m i s y fun n st => g n (tr st) := by
  intro B st hr he
  have a1 := htr B st hr
  obtain ⟨n, st', e2, a2⟩ := h2 B _ (hr.next a1 hb) fun h => (he h).of a1.p.keep.ruleStack a1.p.keep.args
  have a := a1.seq a2
  rw [PRes.orCut_false] at a
  exact ⟨n, st', e2, a⟩

/-- The word rule gives an answer at every position of the input. -/
def WordOk (cfg : Cfg V) (al : Nat → Prop) : Prop := ∀ i, al i → i ≤ cfg.input.length → WordAt cfg cfg.input i

theorem wordCheck_ev {w : Ope} {i n : Nat} {x : PRes V} {st' : St V}
    (h : run n (cfg.dummy cfg.input) (.ope w) i {} = .ok (x.pos, st')) :
    ∀ n', n ≤ n' → wordCheck (run n') cfg w i = .ok x.pos.isNone := by
  intro n' hn
  unfold wordCheck
  rw [(run_le hn _ _ _ _).eq_ok h]; rfl

theorem isWord_ev {w : Ope} {t : List Byte} {n : Nat} {x : PRes V} {st' : St V}
    (h : run n (cfg.dummy t) (.ope w) 0 {} = .ok (x.pos, st')) :
    ∀ n', n ≤ n' → isWord (run n') cfg w t = .ok x.pos.isSome := by
  intro n' hn
  unfold isWord
  rw [(run_le hn _ _ _ _).eq_ok h]; rfl

/-- The program behaves like another one from some fuel on. -/
theorem Sim.congr {b : Nat} {v : Env} {u : Bool} {m : Mode} {i : Nat} {s : PSt V} {x : PRes V} {f g : Nat → St V → Out (Res V)}
    (h : Sim cfg C b v u m i s x f) (hf : FMono f) (n0 : Nat)
    (he : ∀ n, n0 ≤ n → ∀ B st, Rel cfg C B b m i s st → g n st = f n st) :
    Sim cfg C b v u m i s x g := by
  intro B st hr hv
  obtain ⟨n, st', e, a⟩ := h B st hr hv
  exact ⟨max n n0, st', (he _ (Nat.le_max_right _ _) B st hr).trans (hf.ok e (Nat.le_max_left _ _)), a⟩

theorem Sim.failed {b : Nat} {v : Env} {u : Bool} {m : Mode} {i : Nat} {s : PSt V} {g : Nat → St V → Out (Res V)} (n0 : Nat)
    (tr : St V → St V) (hs : ∀ st, Same st (tr st))
    (he : ∀ B st, Rel cfg C B b m i s st → g n0 st = .ok (none, tr st)) : Sim cfg C b v u m i s (.fail false) g := by
  intro B st hr _
  exact ⟨n0, tr st, he B st hr, after_fail hr (hs st)⟩

theorem text_does (hc : CertOk cfg C al) (hword : WordOk cfg al) {v : Env} {m : Mode} {b i S : Nat} {s : PSt V} {t : List Byte} {ic : Bool}
    (el : ErrLit) (ht : TextOk cfg al t ic) (ih : IH cfg C al S b i) (hsk : t = [] → C.skipOk cfg m b = true)
    (hv : EnvOk cfg C al {} v) (ha : al i) (hi : i ≤ cfg.input.length) (hs : CapsOk cfg C al s) :
    Does cfg C al b v false m t.isEmpty false (.text t ic) i s fun n st => parseLiteral (run n) cfg t ic el i st := by
  have noMatch : ∀ (x : PRes V), x = .fail false → ResOk cfg C al t.isEmpty false i x := by
    rintro _ rfl; exact ResOk.failed (by intro h; cases h)
  cases hm : litMatch t ic (cfg.rest i) with
  | false =>
    refine ⟨_, .text_no hm, noMatch _ rfl, ?_⟩
    refine Sim.failed 0 (fun st => setErr cfg st i (some el)) (fun st => same_setErr' _ _ _ _) ?_
    intro B st hr
    unfold parseLiteral
    rw [hm]; rfl
  | true =>
    have hl := litMatch_le hm
    rw [rest_length] at hl
    -- white space after the literal
    have hskip : ∃ b2, (i < i + t.length ∨ (i + t.length = i ∧ b2 ≤ b)) ∧
        Does cfg C al b2 v false m true false .skip (i + t.length) s fun n st => skipWs (run n) cfg (i + t.length) st := by
      cases t with
      | nil => exact ⟨b, Or.inr ⟨rfl, Nat.le_refl _⟩, skip_does hc (SkipAt.here ih hi (hsk rfl)) hv ha hi hs⟩
      | cons c t =>
        have hlt : i < i + (c :: t).length := by simp
        exact ⟨max b C.wsBound, Or.inl hlt,
          skip_does hc (SkipAt.later ih (by omega) hlt) hv (ht.1 i ha hi hm) (by omega) hs⟩
    obtain ⟨b2, hb2, x, hp, hx, hsim⟩ := hskip
    have hx' : ResOk cfg C al t.isEmpty false i x := by
      refine ⟨hx.cut, fun j c s' e => ?_⟩
      obtain ⟨h1, h2, h3, h4, h5⟩ := hx.pos j c s' e
      refine ⟨by omega, h2, h3, fun hj => ?_, h5⟩
      have : t.length = 0 := by omega
      rw [List.isEmpty_iff]; exact List.length_eq_zero_iff.mp this
    have hsim' : Sim cfg C b v false m i s x fun n st => skipWs (run n) cfg (i + t.length) st :=
      Sim.shift (tr := id) (s1 := s) (fun B st hr => after_same hr (Same.refl _) (by omega) (by omega) rfl rfl) hsim hb2
    cases hw : cfg.word with
    | none =>
      refine ⟨x, .text_plain hm hw hp, hx', ?_⟩
      refine hsim'.congr (skip_mono _) 0 ?_
      intro n _ B st hr
      unfold parseLiteral
      rw [hm, hw]; rfl
    | some w =>
      obtain ⟨x1, n1, st1, hp1, e1⟩ := ht.2 w hw
      obtain ⟨x2, n2, st2, hp2, e2⟩ := hword (i + t.length) (ht.1 i ha hi hm) (by omega) w hw
      have he : ∀ n, max n1 n2 ≤ n → ∀ st, parseLiteral (run n) cfg t ic el i st =
          if x1.pos.isSome = true then if x2.pos.isNone = true then skipWs (run n) cfg (i + t.length) st
            else .ok (none, setErr cfg st i (some el)) else skipWs (run n) cfg (i + t.length) st := by
        intro n hn st
        unfold parseLiteral
        rw [hm, hw]
        simp only [if_true]
        rw [isWord_ev e1 n (by omega)]
        simp only [Out.bind]
        split
        · rw [wordCheck_ev e2 n (by omega)]
        · rfl
      cases x1 with
      | fail c =>
        refine ⟨x, .text_nonword hm hw hp1 hp, hx', ?_⟩
        refine hsim'.congr (skip_mono _) (max n1 n2) ?_
        intro n hn B st hr
        rw [he n hn]; rfl
      | ok j c s' =>
        cases x2 with
        | fail c2 =>
          refine ⟨x, .text_word hm hw hp1 hp2 hp, hx', ?_⟩
          refine hsim'.congr (skip_mono _) (max n1 n2) ?_
          intro n hn B st hr
          rw [he n hn]; rfl
        | ok j2 c2 s2 =>
          refine ⟨_, .text_longer hm hw hp1 hp2, noMatch _ rfl, ?_⟩
          refine Sim.failed (max n1 n2) (fun st => setErr cfg st i (some el)) (fun st => same_setErr' _ _ _ _) ?_
          intro B st hr
          rw [he _ (Nat.le_refl _)]; rfl

theorem Does.ope (hc : CertOk cfg C al) {b : Nat} {v : Env} {u : Bool} {m : Mode} {nl lk : Bool} {t : PTask} {i : Nat} {s : PSt V}
    {e : Ope} {f : Nat → St V → Out (Res V)} (h : Does cfg C al b v u m nl lk t i s f)
    (hp : ∀ x, Peg cfg.gram v m t i s x → Peg cfg.gram v m (.ope e) i s x)
    (hf : ∀ n st, i ≤ cfg.input.length → parseOpe (run n) cfg e i st = f n st) :
    Does cfg C al b v u m nl lk (.ope e) i s fun n st => run n cfg (.ope e) i st := by
  obtain ⟨x, h1, h2, h3⟩ := h
  exact ⟨x, hp x h1, h2, h3.ope hf⟩

theorem claim_lit (hc : CertOk cfg C al) (hword : WordOk cfg al) {t : List Byte} {ic : Bool} {b i S : Nat}
    (ih : IH cfg C al S b i) : Claim cfg C al (.lit t ic) b i := by
  intro κ arg v m s hw _ hv hn ha hi hs
  simp only [wf, Bool.or_eq_true, Bool.not_eq_true'] at hw
  simp only [Ope.Each, nodeOk] at hn
  refine Does.ope hc ((text_does hc hword (.lit t) hn ih ?_ hv.empty ha hi hs).weaken (Nat.le_refl _) (by intro h; cases h) ?_ ?_)
    (fun x h => .lit h) ?_
  · rintro rfl; exact hw.resolve_left (by simp)
  · exact fun h => h
  · intro h; cases h
  · intro n st hi
    unfold parseOpe
    rw [if_neg (by omega)]

theorem claim_bref (hc : CertOk cfg C al) (hword : WordOk cfg al) {nm : List Byte} {b i S : Nat}
    (ih : IH cfg C al S b i) : Claim cfg C al (.bref nm) b i := by
  intro κ arg v m s hw _ hv hn ha hi hs
  simp only [wf, Bool.and_eq_true] at hw
  cases hf : findCap s.caps nm with
  | none =>
    refine ⟨.fail false, .bref_no hf, ResOk.failed (by intro h; cases h), ?_⟩
    refine Sim.failed 1 (fun st => { st with err := st.err.note ⟨i, "undefined back reference '$".toUTF8.toList ++ nm ++
      "'...".toUTF8.toList, none, true⟩ }) (fun st => same_err _ _ st.fails) ?_
    intro B st hr
    show parseOpe (run 0) cfg (.bref nm) i st = _
    unfold parseOpe
    rw [if_neg (by omega)]
    simp only [parseBref, hr.caps, hf]
  | some t =>
    have ht : TextOk cfg al t false := by
      unfold findCap at hf
      rw [Option.map_eq_some_iff] at hf
      obtain ⟨q, hq, rfl⟩ := hf
      exact hs.1 q (List.mem_reverse.mp (List.mem_of_find?_eq_some hq))
    obtain ⟨x, hp, hx, hsim⟩ := text_does hc hword (.cap t) ht ih (fun _ => hw.2) hv.empty ha hi hs
    refine ⟨x, .bref hf hp, hx.weaken (fun _ => rfl) (by intro h; cases h), ?_⟩
    have := hsim.congr (g := fun n st => parseOpe (run n) cfg (.bref nm) i st)
      (fun _ _ _ h => parseLiteral_le (recLe_run h) _ _ _ _ _ _) 0 ?_
    · exact this.ope fun _ _ _ => rfl
    · intro n _ B st hr
      unfold parseOpe
      rw [if_neg (by omega)]
      simp only [parseBref, hr.caps, hf]

/-! ## Dictionaries -/

/-- Changing the scope. -/
theorem after_vs {B : List (Nat × Nat)} {b : Nat} {m : Mode} {i j : Nat} {s s1 : PSt V} {st : St V} {f : Frame V}
    (h : Rel cfg C B b m i s st) (hj : i ≤ j) (hl : j ≤ cfg.input.length) (hcp : s1.caps = s.caps)
    (hv : cfg.recognizeOnly = false → f = s1.vs) (he : Ext st { st with vs := f }) :
    After cfg C B i (.ok j false s1) st { st with vs := f } where
  res := by rintro _ _ _ ⟨⟩; exact ⟨h.caps.trans hcp.symm, hv⟩
  cut := by simp only [PRes.cutOf, orHead_false]
  recd := h.recd
  memo := h.memo
  lr := h.lr
  held _ _ := rfl
  capl _ := rfl
  p := P.succ (h.pre.ok.same ⟨rfl, rfl, rfl⟩) (keep_vs _ _) rfl hj hl
  ext := he

theorem after_token {B : List (Nat × Nat)} {b : Nat} {m : Mode} {i j : Nat} {s : PSt V} {st : St V} (t : Nat × Nat)
    (h : Rel cfg C B b m i s st) (hj : i ≤ j) (hl : j ≤ cfg.input.length) :
    After cfg C B i (.ok j false { s with vs := { s.vs with tokens := s.vs.tokens ++ [t] } }) st (addToken cfg t st) := by
  unfold addToken
  by_cases hr : cfg.recognizeOnly = true
  · rw [if_pos hr]
    have := after_vs (s1 := { s with vs := { s.vs with tokens := s.vs.tokens ++ [t] } }) (f := st.vs) h hj hl rfl
      (by intro h'; rw [hr] at h'; cases h') (Ext.refl _)
    exact this
  · rw [if_neg hr]
    refine after_vs h hj hl rfl ?_ ⟨List.prefix_refl _, List.prefix_refl _, List.prefix_append _ _, rfl⟩
    intro h'
    rw [h.vs h']

theorem claim_dict (hc : CertOk cfg C al) (hword : WordOk cfg al) {ws : List (List Byte)} {ic : Bool} {b i S : Nat}
    (ih : IH cfg C al S b i) : Claim cfg C al (.dict ws ic) b i := by
  intro κ arg v m s hw _ hv hn ha hi hs
  simp only [Ope.Each, nodeOk] at hn
  have hal := hn i ha hi
  have hle := dict_le ws ic (cfg.rest i)
  rw [rest_length] at hle
  cases hmt : (Trie.build ws ic).matchText (cfg.rest i) with
  | mk k id =>
  rw [hmt] at hal hle
  simp only at hal hle
  by_cases hk : k = 0
  · refine ⟨.fail false, .dict_no (by show ((Trie.build ws ic).matchText (cfg.rest i)).1 = 0; rw [hmt]; exact hk),
      ResOk.failed (by intro h; cases h), ?_⟩
    refine Sim.failed 1 (fun st => setErr cfg st i) (fun st => same_setErr' _ _ _ _) ?_
    intro B st hr
    show parseOpe (run 0) cfg (.dict ws ic) i st = _
    unfold parseOpe
    rw [if_neg (by omega)]
    simp only [parseDict, hmt, hk, if_true]
  · obtain ⟨x, hp, hx, hsim⟩ := skip_does (v := v) (m := m) (s := { s with vs := { s.vs with choiceCount := ws.length, choice := id } }) hc
      (SkipAt.later ih (j := i + k) (by omega) (by omega)) hv.empty hal (by omega) hs
    have hx' : ResOk cfg C al false false i x := by
      refine ⟨hx.cut, fun j c s' e => ?_⟩
      obtain ⟨h1, h2, h3, h4, h5⟩ := hx.pos j c s' e
      exact ⟨by omega, h2, h3, fun hj => by omega, h5⟩
    have hsim' : Sim cfg C b v false m i s x fun n st => skipWs (run n) cfg (i + k) (st.setChoice ws.length id) := by
      refine Sim.shift (fun B st hr => ?_) hsim (Or.inl (by omega))
      refine after_vs hr (by omega) (by omega) rfl (fun h => ?_) ⟨List.prefix_refl _, List.prefix_refl _, List.prefix_refl _, rfl⟩
      rw [hr.vs h]
    have hmono : FMono fun n (st : St V) => skipWs (run n) cfg (i + k) (st.setChoice ws.length id) :=
      fun _ _ _ h => skipWs_le (recLe_run h) _ _ _
    cases hw : cfg.word with
    | none =>
      refine ⟨x, .dict_plain hmt hk hw hp, hx'.weaken (by intro h; cases h) (by intro h; cases h), ?_⟩
      refine (hsim'.congr (g := fun n st => parseOpe (run n) cfg (.dict ws ic) i st) hmono 0 ?_).ope fun _ _ _ => rfl
      intro n _ B st hr
      unfold parseOpe
      rw [if_neg (by omega)]
      simp only [parseDict, hmt, hk, if_false, hw]
    | some w =>
      obtain ⟨x2, n2, st2, hp2, e2⟩ := hword (i + k) hal (by omega) w hw
      have he : ∀ n, n2 ≤ n → ∀ st, parseOpe (run n) cfg (.dict ws ic) i st =
          if x2.pos.isNone = true then skipWs (run n) cfg (i + k) (st.setChoice ws.length id)
            else .ok (none, setErr cfg (st.setChoice ws.length id) i) := by
        intro n hn st
        unfold parseOpe
        rw [if_neg (by omega)]
        simp only [parseDict, hmt, hk, if_false, hw]
        rw [wordCheck_ev e2 n hn]; rfl
      cases x2 with
      | fail c =>
        refine ⟨x, .dict_word hmt hk hw hp2 hp, hx'.weaken (by intro h; cases h) (by intro h; cases h), ?_⟩
        refine (hsim'.congr (g := fun n st => parseOpe (run n) cfg (.dict ws ic) i st) hmono n2 ?_).ope fun _ _ _ => rfl
        intro n hn B st hr
        rw [he n hn]; rfl
      | ok j2 c2 s2 =>
        refine ⟨.fail false, .dict_longer hmt hk hw hp2, ResOk.failed (by intro h; cases h), ?_⟩
        refine Sim.ope_core hc (by simp only [Ope.Each, nodeOk]; exact hn) ?_
        intro B st hr _
        have a := (after_vs (s1 := { s with vs := { s.vs with choiceCount := ws.length, choice := id } }) (j := i)
          (f := { st.vs with choiceCount := ws.length, choice := id }) hr (Nat.le_refl _) hi rfl
          (fun h => by rw [hr.vs h]) ⟨List.prefix_refl _, List.prefix_refl _, List.prefix_refl _, rfl⟩).same
          (same_setErr' cfg _ i none)
        refine ⟨n2, _, he n2 (Nat.le_refl _) st, ?_⟩
        exact ⟨by rintro _ _ _ ⟨⟩, a.cut, a.recd, a.memo, a.lr, a.held, a.capl⟩

end Verif
