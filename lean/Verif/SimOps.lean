import Verif.SimCases
/-!
# The engine agrees with the reference semantics: composite operators
-/

namespace Verif
open Out CharClass

variable {V : Type} {cfg : Cfg V} {C : Cert} {al : Nat → Prop}

/-! ## Sequences -/

theorem seq_mono (es : List Ope) (i : Nat) : FMono fun n (st : St V) => seqLoop (run n) cfg es i st :=
  fun _ _ _ h => seqLoop_le (recLe_run h) _ _ _ _

/-- Combining the facts about two consecutive results. -/
theorem ResOk.seq {nl1 nl2 lk1 lk2 nl lk : Bool} {i j : Nat} {c : Bool} {s1 : PSt V} {y : PRes V}
    (h1 : ResOk cfg C al nl1 lk1 i (.ok j c s1)) (h2 : ResOk cfg C al nl2 lk2 j y)
    (hn : (j = i → nl1 = true) → nl2 = true → j = i → nl = true) (hl : lk1 = true ∨ lk2 = true → lk = true) :
    ResOk cfg C al nl lk i (y.orCut c) := by
  obtain ⟨a1, a2, a3, a4, a5⟩ := h1.pos j c s1 rfl
  constructor
  · intro hc
    apply hl
    cases y with
    | fail c' =>
      simp only [PRes.orCut, PRes.cutOf, Bool.or_eq_true] at hc
      exact hc.imp (fun h => h1.cut h) (fun h => h2.cut h)
    | ok j' c' s' =>
      simp only [PRes.orCut, PRes.cutOf, Bool.or_eq_true] at hc
      exact hc.imp (fun h => h1.cut h) (fun h => h2.cut h)
  · intro j' c' s' e
    cases y with
    | fail => cases e
    | ok j2 c2 s2 =>
      cases e
      obtain ⟨b1, b2, b3, b4, b5⟩ := h2.pos j' _ s' rfl
      exact ⟨by omega, b2, b3, fun h => hn a4 (b4 (by omega)) (by omega), b5⟩

theorem seqL_does {κ : MCtx} {arg : Bool} {v : Env} {m : Mode} {S : Nat} (hκ : arg = true → κ = {}) (hv : EnvOk cfg C al κ v) :
    ∀ (es : List Ope) (b i : Nat) (s : PSt V), IH cfg C al S b i → (∀ e ∈ es, sizeOf e < S) → wfSeq cfg C κ arg m b es = true →
      Ope.EachL (nodeOk cfg al) es → al i → i ≤ cfg.input.length → CapsOk cfg C al s →
      Does cfg C al b v (usesEnvList cfg es) m (C.nulAll κ.null es) (C.lkAny κ.leak es) (.seqL es) i s
        fun n st => seqLoop (run n) cfg es i st
  | [], b, i, s, _, _, _, _, ha, hi, hs => by
    refine ⟨_, .seq_nil, ⟨fun h => (by cases h), ?_⟩, ?_⟩
    · rintro _ _ _ ⟨⟩; exact ⟨Nat.le_refl _, hi, ha, fun _ => rfl, hs⟩
    · intro B st hr _
      exact ⟨0, st, rfl, after_same hr (Same.refl _) (Nat.le_refl _) hi rfl rfl⟩
  | e :: es, b, i, s, ih, hS, hw, hn, ha, hi, hs => by
    simp only [wfSeq, Bool.and_eq_true, Bool.or_eq_true, Bool.not_eq_true'] at hw
    simp only [Ope.EachL] at hn
    have hSe := hS e List.mem_cons_self
    have hSs : ∀ e ∈ es, sizeOf e < S := fun e' h => hS e' (List.mem_cons_of_mem _ h)
    obtain ⟨x, hp, hx, hsim⟩ := ih e b i hi (Or.inr ⟨rfl, Or.inr ⟨rfl, hSe⟩⟩) κ arg v m s hw.1.1 hκ hv hn.1 ha hi hs
    have u1 : usesEnv cfg e = true → usesEnvList cfg (e :: es) = true := fun h => by simp [usesEnvList, h]
    have u2 : usesEnvList cfg es = true → usesEnvList cfg (e :: es) = true := fun h => by simp [usesEnvList, h]
    cases x with
    | fail c =>
      refine ⟨_, .seq_fail hp, ResOk.failed fun h => ?_, ?_⟩
      · have := hx.cut h
        simp [Cert.lkAny, this]
      · exact Sim.andThen_fail (hsim.mono (Nat.le_refl _) u1)
    | ok j c s1 =>
      obtain ⟨a1, a2, a3, a4, a5⟩ := hx.pos j c s1 rfl
      have hrest : ∃ b2, (i < j ∨ (j = i ∧ b2 ≤ b)) ∧
          Does cfg C al b2 v (usesEnvList cfg es) m (C.nulAll κ.null es) (C.lkAny κ.leak es) (.seqL es) j s1
            fun n st => seqLoop (run n) cfg es j st := by
        rcases Nat.lt_or_eq_of_le a1 with hlt | rfl
        · exact ⟨C.top, Or.inl hlt, seqL_does hκ hv es C.top j s1 (ih.later hlt) hSs hw.1.2 hn.2 a3 a2 a5⟩
        · exact ⟨b, Or.inr ⟨rfl, Nat.le_refl _⟩,
            seqL_does hκ hv es b i s1 ih hSs (hw.2.resolve_left (by rw [a4 rfl]; simp)) hn.2 a3 a2 a5⟩
      obtain ⟨b2, hb2, y, hp2, hy, hsim2⟩ := hrest
      refine ⟨_, .seq_cons hp hp2, ?_, ?_⟩
      · refine hx.seq hy (fun h1 h2 h3 => ?_) fun h => ?_
        · simp [Cert.nulAll, h1 h3, h2]
        · simpa [Cert.lkAny] using h
      · exact Sim.andThen (g := fun n j st => seqLoop (run n) cfg es j st) hsim hsim2 (run_fmono _ _) (seq_mono es j) hb2 u1 u2

theorem kwScan_bounds {kw : KwGuard} {t : List Byte} {k : Nat} (h : kwScan kw t = some k) : 0 < k ∧ k ≤ t.length := by
  unfold kwScan at h
  cases t with
  | nil => cases h
  | cons b t =>
    simp only at h
    split at h
    · injection h with h
      subst h
      have : (t.takeWhile (· ∈ kw.rest)).length ≤ t.length := (List.takeWhile_prefix _).length_le
      simp only [List.length_cons]
      omega
    · cases h

theorem claim_seq (hc : CertOk cfg C al) {es : List Ope} {kw : Option KwGuard} {b i : Nat}
    (ih : IH cfg C al (sizeOf (Ope.seq es kw)) b i) : Claim cfg C al (.seq es kw) b i := by
  intro κ arg v m s hw hκ hv hn ha hi hs
  simp only [wf] at hw
  simp only [Ope.Each] at hn
  have hS : ∀ e ∈ es, sizeOf e < sizeOf (Ope.seq es kw) := by
    intro e he
    have := List.sizeOf_lt_of_mem he
    simp only [Ope.seq.sizeOf_spec]; omega
  have hD := seqL_does hκ hv es b i s ih hS hw hn.2 ha hi hs
  cases kw with
  | none =>
    refine Does.ope hc hD (fun x h => .seq h) ?_
    intro n st hi
    unfold parseOpe
    rw [if_neg (by omega)]; rfl
  | some kw =>
    have hk := hn.1
    simp only [nodeOk] at hk
    have hk := hk v m i s ha hi
    have hpo : ∀ n st, parseOpe (run n) cfg (.seq es (some kw)) i st = match kwGuarded (run n) cfg kw i st with
        | some r => r
        | none => seqLoop (run n) cfg es i st := by
      intro n st
      unfold parseOpe
      rw [if_neg (by omega)]; rfl
    cases hsc : kwScan kw (cfg.rest i) with
    | none =>
      rw [hsc] at hk
      refine ⟨_, .seq hk, ResOk.failed (by intro h; cases h), ?_⟩
      refine Sim.failed 1 (fun st => setErr cfg st i) (fun st => same_setErr' _ _ _ _) ?_
      intro B st hr
      show parseOpe (run 0) cfg (.seq es (some kw)) i st = _
      rw [hpo]
      simp only [kwGuarded, hsc]
    | some k =>
      obtain ⟨k0, kl⟩ := kwScan_bounds hsc
      rw [rest_length] at kl
      rw [hsc] at hk
      simp only at hk
      by_cases h1 : (kw.minLen ≤ k ∧ k ≤ kw.maxLen) ∧ Trie.toLower ((cfg.rest i).take k) ∈ kw.exact
      · rw [if_pos h1] at hk
        refine ⟨_, .seq hk, ResOk.failed (by intro h; cases h), ?_⟩
        refine Sim.failed 1 (fun st => setErr cfg st i) (fun st => same_setErr' _ _ _ _) ?_
        intro B st hr
        show parseOpe (run 0) cfg (.seq es (some kw)) i st = _
        rw [hpo]
        simp only [kwGuarded, hsc]
        rw [if_pos h1]
      · rw [if_neg h1] at hk
        by_cases h2 : (kw.minLen ≤ k ∧ k ≤ kw.maxLen) ∧ Trie.toLower ((cfg.rest i).take k) ∈ kw.pref
        · refine Does.ope hc hD (fun x h => .seq h) ?_
          intro n st hi
          rw [hpo]
          simp only [kwGuarded, hsc]
          rw [if_neg h1, if_pos h2]
        · obtain ⟨hal, hk⟩ := hk.resolve_left h2
          obtain ⟨x, hp, hx, hsim⟩ := skip_does (v := v) (m := m)
            (s := { s with vs := { s.vs with tokens := s.vs.tokens ++ [(i, k)] } }) hc
            (SkipAt.later ih (j := i + k) (by omega) (by omega)) hv.empty hal (by omega) hs
          refine ⟨x, .seq (hk x hp), ?_, ?_⟩
          · refine ⟨fun h => (by have := hx.cut h; cases this), fun j c s' e => ?_⟩
            obtain ⟨h1, h2, h3, h4, h5⟩ := hx.pos j c s' e
            exact ⟨by omega, h2, h3, fun hj => by omega, h5⟩
          · have hs2 : Sim cfg C b v (usesEnv cfg (.seq es (some kw))) m i s x fun n st =>
                skipWs (run n) cfg (i + k) (addToken cfg (i, k) st) :=
              (Sim.shift (fun B st hr => after_token (i, k) hr (by omega) (by omega)) hsim (Or.inl (by omega))).mono
                (Nat.le_refl _) (by intro h; cases h)
            refine hs2.ope fun n st hi => ?_
            rw [hpo]
            simp only [kwGuarded, hsc]
            rw [if_neg h1, if_neg h2]

/-! ## Choices -/

theorem same_fsErr' (st : St V) (f : FirstSet) (k i : Nat) : Same st (fsErr st f k i) := by
  unfold fsErr; split
  · exact same_err _ _ _
  · exact Same.refl _

theorem same_altStart {st : St V} (b : Bool) (h : cfg.hasCut = true → st.cut.head? = some false) :
    Same st ((resetCut cfg st).setKeep b) := by
  have : resetCut cfg st = st := by
    unfold resetCut
    split
    · rename_i hc
      have := h hc
      unfold St.setCut
      split
      · rfl
      · rename_i c t hct
        rw [hct] at this
        simp only [List.head?_cons, Option.some.injEq] at this
        subst this
        rw [← hct]
    · rfl
  rw [this]
  exact same_err _ _ _

theorem After.setChoice {B : List (Nat × Nat)} {i j : Nat} {c : Bool} {s1 : PSt V} {st st1 : St V} (n k : Nat)
    (a : After cfg C B i (.ok j c s1) st st1) :
    After cfg C B i (.ok j c { s1 with vs := { s1.vs with choiceCount := n, choice := k } }) st
      { st1 with vs := { st1.vs with choiceCount := n, choice := k } } where
  res := by rintro _ _ _ ⟨⟩; exact ⟨(a.res _ _ _ rfl).1, fun hr => by rw [(a.res _ _ _ rfl).2 hr]⟩
  cut := a.cut
  recd := a.recd
  memo := a.memo
  lr := a.lr
  held := a.held
  capl := a.capl
  p := a.p.post (keep_vs _ _) ⟨rfl, rfl, rfl⟩
  ext := ⟨a.ext.vals, a.ext.tags, a.ext.tokens, a.ext.name⟩

/-- A side condition on the contexts that depends only on the entries of rules under way. -/
def Steady (Q : List (Nat × Nat) → St V → Prop) : Prop :=
  ∀ B st st', Q B st → (∀ q ∈ B, st'.lrMemo.lookup (q.1, 0, q.2) = st.lrMemo.lookup (q.1, 0, q.2)) → Q B st'

theorem steady_true : Steady (V := V) fun _ _ => True := fun _ _ _ _ _ => trivial

/-- The result of a choice whose first alternative has the result `x` and whose other alternatives have the result `y`. -/
def choRes (total k : Nat) (x y : PRes V) : PRes V :=
  match x with
  | .ok j c s1 => .ok j c { s1 with vs := { s1.vs with choiceCount := total, choice := k } }
  | .fail true => .fail true
  | .fail false => y

/-- One round of the choice loop. -/
theorem cho_step {Q : List (Nat × Nat) → St V → Prop} (hQ : Steady Q) {v : Env} {m : Mode} {b i total k : Nat} {s : PSt V}
    {fs : List FirstSet} {u1 u2 u : Bool} {e : Ope} {es : List Ope} {x y : PRes V} (h1 : u1 = true → u = true)
    (h2 : u2 = true → u = true) (hlk : cfg.hasCut = true ∨ x.cutOf = false)
    (hfs : fsSkip fs[k]? (cfg.rest i) = true → x = .fail false)
    (hsim : ∀ B st, Rel cfg C B b m i s st → (u1 = true → EnvRel cfg v st) → Q B st →
      ∃ n st', run n cfg (.ope e) i st = .ok (x.pos, st') ∧ After cfg C B i x st st')
    (hsim2 : ∀ B st, Rel cfg C B b m i s st → (u2 = true → EnvRel cfg v st) → Q B st →
      (cfg.hasCut = true → st.cut.head? = some false) →
      ∃ n st', choLoop (run n) cfg total fs es (k + 1) i st = .ok (y.pos, st') ∧ After cfg C B i y st st')
    (B : List (Nat × Nat)) (st : St V) (hr : Rel cfg C B b m i s st) (he : u = true → EnvRel cfg v st) (hq : Q B st)
    (hcut : cfg.hasCut = true → st.cut.head? = some false) :
    ∃ n st', choLoop (run n) cfg total fs (e :: es) k i st = .ok ((choRes total k x y).pos, st') ∧
      After cfg C B i (choRes total k x y) st st' := by
  by_cases hsk : fsSkip fs[k]? (cfg.rest i) = true
  · -- skipped by its first set
    have hxf := hfs hsk
    subst hxf
    have hsm := same_fsErr' st (fs[k]?.getD {}) k i
    obtain ⟨n, st', e1, a⟩ := hsim2 B _ (hr.same hsm) (fun h => (he (h2 h)).of hsm.keep.ruleStack hsm.keep.args)
      (hQ B st _ hq fun q _ => by rw [hsm.memo.lrMemo]) (by rw [hsm.cut]; exact hcut)
    refine ⟨n, st', ?_, a.pre hsm⟩
    unfold choLoop
    rw [if_pos hsk]
    exact e1
  · -- tried
    have hsm := same_altStart (cfg := cfg) (k > 0) hcut
    obtain ⟨n, st', e1, a⟩ := hsim B _ (hr.same hsm) (fun h => (he (h1 h)).of hsm.keep.ruleStack hsm.keep.args)
      (hQ B st _ hq fun q _ => by rw [hsm.memo.lrMemo])
    replace a := a.pre hsm
    cases x with
    | ok j c s1 =>
      refine ⟨n, _, ?_, a.setChoice total k⟩
      unfold choLoop
      rw [if_neg hsk, e1]; rfl
    | fail c =>
      have cutv : (cfg.hasCut && (st'.rollback st.snapshot).cut.headD false) = c := by
        cases hh : cfg.hasCut with
        | false =>
          have := hlk.resolve_left (by rw [hh]; simp)
          simp only [PRes.cutOf] at this
          rw [this]; rfl
        | true =>
          have h1 : (st'.rollback st.snapshot).cut = orHead c st.cut := a.cut
          rw [h1]
          cases hct : st.cut with
          | nil => have := hcut hh; rw [hct] at this; cases this
          | cons q t =>
            have := hcut hh
            rw [hct] at this
            simp only [List.head?_cons, Option.some.injEq] at this
            subst this
            simp [orHead]
      cases c with
      | true =>
        refine ⟨n, _, ?_, (after_back hr a).2⟩
        unfold choLoop
        rw [if_neg hsk, e1]
        simp only [Out.bind, PRes.pos]
        rw [if_pos cutv]; rfl
      | false =>
        have ab := (after_back hr a).1
        have hcut' : (st'.rollback st.snapshot).cut = st.cut := by
          have := ab.cut
          simp only [PRes.cutOf, orHead_false] at this
          exact this
        obtain ⟨n2, st2, e2, a2⟩ := hsim2 B _ (hr.back a)
          (fun h => (he (h2 h)).of ab.p.keep.ruleStack ab.p.keep.args) (hQ B st _ hq ab.held) (by rw [hcut']; exact hcut)
        have as := ab.seq a2
        simp only [PRes.cutOf, PRes.orCut_false] at as
        refine ⟨max n n2, st2, ?_, as⟩
        unfold choLoop
        rw [if_neg hsk, (run_le (Nat.le_max_left n n2) _ _ _ _).eq_ok e1]
        simp only [Out.bind, PRes.pos]
        rw [cutv]
        simp only [Bool.false_eq_true, if_false]
        exact (choLoop_le (recLe_run (Nat.le_max_right n n2)) _ _ _ _ _ _ _).eq_ok e2

/-- The reference semantics of one round. -/
theorem cho_step_peg {G : Gram V} {v : Env} {m : Mode} {i total k : Nat} {s : PSt V} {e : Ope} {es : List Ope} {x y : PRes V}
    (h1 : Peg G v m (.ope e) i s x) (h2 : Peg G v m (.choL es (k + 1) total) i s y) :
    Peg G v m (.choL (e :: es) k total) i s (choRes total k x y) := by
  cases x with
  | ok j c s1 => exact .cho_ok h1
  | fail c =>
    cases c with
    | true => exact .cho_cut h1
    | false => exact .cho_next h1 h2

theorem choL_does {κ : MCtx} {arg : Bool} {v : Env} {m : Mode} {b i total : Nat} {s : PSt V} {fs : List FirstSet}
    (hκ : arg = true → κ = {}) (hv : EnvOk cfg C al κ v) (ha : al i) (hi : i ≤ cfg.input.length) (hs : CapsOk cfg C al s) :
    ∀ (es : List Ope) (k : Nat), (∀ e ∈ es, Claim cfg C al e b i) → wfAll cfg C κ arg m b es = true →
      Ope.EachL (nodeOk cfg al) es → (∀ (q : Nat) (f : FirstSet) (e : Ope), fs[k + q]? = some f → es[q]? = some e → FsOk cfg al f e) →
      (cfg.hasCut = true ∨ C.lkAny κ.leak es = false) →
      ∃ x, Peg cfg.gram v m (.choL es k total) i s x ∧ ResOk cfg C al (C.nulAny κ.null es) (C.lkAny κ.leak es) i x ∧
        ∀ B st, Rel cfg C B b m i s st → (usesEnvList cfg es = true → EnvRel cfg v st) →
          (cfg.hasCut = true → st.cut.head? = some false) →
          ∃ n st', choLoop (run n) cfg total fs es k i st = .ok (x.pos, st') ∧ After cfg C B i x st st'
  | [], k, _, _, _, _, _ =>
    ⟨_, .cho_nil, ResOk.failed (by intro h; cases h), fun B st hr _ _ => ⟨0, st, rfl, after_fail hr (Same.refl _)⟩⟩
  | e :: es, k, hcl, hw, hn, hf, hlk => by
    simp only [wfAll, Bool.and_eq_true] at hw
    simp only [Ope.EachL] at hn
    have hlk1 : cfg.hasCut = true ∨ C.lk κ.leak e = false := hlk.imp id fun h => by
      simp only [Cert.lkAny, Bool.or_eq_false_iff] at h; exact h.1
    obtain ⟨x, hp, hx, hsim⟩ := hcl e List.mem_cons_self κ arg v m s hw.1 hκ hv hn.1 ha hi hs
    obtain ⟨y, hp2, hy, hsim2⟩ := choL_does hκ hv ha hi hs (total := total) (fs := fs) es (k + 1)
      (fun e' h => hcl e' (List.mem_cons_of_mem _ h)) hw.2 hn.2
      (fun q f e' h1 h2 => hf (q + 1) f e' (by rw [← h1]; congr 1; omega) (by simpa using h2))
      (hlk.imp id fun h => by simp only [Cert.lkAny, Bool.or_eq_false_iff] at h; exact h.2)
    have u1 : usesEnv cfg e = true → usesEnvList cfg (e :: es) = true := fun h => by simp [usesEnvList, h]
    have u2 : usesEnvList cfg es = true → usesEnvList cfg (e :: es) = true := fun h => by simp [usesEnvList, h]
    refine ⟨_, cho_step_peg hp hp2, ?_, fun B st hr he hcut => cho_step steady_true u1 u2 ?_ ?_
      (fun B st hr he _ => hsim B st hr he) (fun B st hr he _ hcut => hsim2 B st hr he hcut) B st hr he trivial hcut⟩
    · cases x with
      | ok j c s1 =>
        refine ⟨fun h => ?_, ?_⟩
        · have := hx.cut h
          simp [Cert.lkAny, this]
        · rintro _ _ _ ⟨⟩
          obtain ⟨a1, a2, a3, a4, a5⟩ := hx.pos j c s1 rfl
          exact ⟨a1, a2, a3, fun h => by simp [Cert.nulAny, a4 h], a5⟩
      | fail c =>
        cases c with
        | true =>
          refine ResOk.failed fun _ => ?_
          have := hx.cut rfl
          simp [Cert.lkAny, this]
        | false => exact hy.weaken (fun h => by simp [Cert.nulAny, h]) (fun h => by simp [Cert.lkAny, h])
    · refine hlk1.imp id fun h => ?_
      cases hq : x.cutOf with
      | false => rfl
      | true => have := hx.cut hq; simp_all
    · intro hfs
      cases hk : fs[k]? with
      | none => rw [hk] at hfs; simp [fsSkip] at hfs
      | some f =>
        rw [hk] at hfs
        exact hf 0 f e hk rfl v m i s x ha hfs hp

/-- A choice does what its loop does, and ends the scope of cuts. -/
theorem cho_of_loop {Q : List (Nat × Nat) → St V → Prop} (hQ : Steady Q) (hc : CertOk cfg C al) {v : Env} {u : Bool} {m : Mode}
    {es : List Ope} {fs : List FirstSet} {b i : Nat} {s : PSt V} {x : PRes V} (hn : (Ope.cho es false fs).Each (nodeOk cfg al))
    (hi : i ≤ cfg.input.length) (hlk : cfg.hasCut = true ∨ x.cutOf = false)
    (hsim : ∀ B st, Rel cfg C B b m i s st → (u = true → EnvRel cfg v st) → Q B st →
      (cfg.hasCut = true → st.cut.head? = some false) →
      ∃ n st', choLoop (run n) cfg es.length fs es 0 i st = .ok (x.pos, st') ∧ After cfg C B i x st st')
    (B : List (Nat × Nat)) (st : St V) (hr : Rel cfg C B b m i s st) (he : u = true → EnvRel cfg v st) (hq : Q B st) :
    ∃ n st', run n cfg (.ope (.cho es false fs)) i st = .ok (x.noCut.pos, st') ∧ After cfg C B i x.noCut st st' := by
  refine Sim.ope_core_at hc hn hr ?_
  have hpos : x.noCut.pos = x.pos := by cases x <;> rfl
  have hres : ∀ {st' : St V}, (∀ j c s', x = .ok j c s' → st'.caps = s'.caps ∧ (cfg.recognizeOnly = false → st'.vs = s'.vs)) →
      ∀ j c s', x.noCut = .ok j c s' → st'.caps = s'.caps ∧ (cfg.recognizeOnly = false → st'.vs = s'.vs) := by
    intro st' h j c s' e
    cases x with
    | fail => cases e
    | ok j1 c1 s1 => cases e; exact h _ _ _ rfl
  have hcutOf : x.noCut.cutOf = false := by cases x <;> rfl
  cases hh : cfg.hasCut with
  | false =>
    obtain ⟨n, st', e1, a⟩ := hsim B st hr he hq (by rw [hh]; intro h; cases h)
    refine ⟨n, st'.setKeep false, ?_, ?_⟩
    · unfold parseOpe
      rw [if_neg (by omega)]
      simp only [parseCho, hh, Bool.false_and, pushCut, choExit, Bool.false_eq_true, if_false]
      rw [after_ok]
      exact ⟨_, _, e1, by rw [hpos]; rfl⟩
    · refine ⟨hres a.res, ?_, a.recd, a.memo, a.lr, a.held, a.capl⟩
      have := a.cut
      rw [hlk.resolve_left (by rw [hh]; simp)] at this
      rw [hcutOf]
      exact this
  | true =>
    have hr' : Rel cfg C B b m i s { st with cut := false :: st.cut } :=
      { hr with pre := hr.pre.same ⟨rfl, rfl, rfl⟩ rfl }
    obtain ⟨n, st', e1, a⟩ := hsim B _ hr' (fun h => (he h).of rfl rfl) (hQ B st _ hq fun _ _ => rfl) (fun _ => rfl)
    refine ⟨n, { st'.setKeep false with cut := st'.cut.tail }, ?_, ?_⟩
    · unfold parseOpe
      rw [if_neg (by omega)]
      simp only [parseCho, hh, Bool.true_and, Bool.not_false, pushCut, choExit, if_true]
      rw [after_ok]
      exact ⟨_, _, e1, by rw [hpos]; rfl⟩
    · refine ⟨hres a.res, ?_, a.recd, a.memo, a.lr, a.held, a.capl⟩
      rw [hcutOf, orHead_false]
      show st'.cut.tail = st.cut
      rw [a.cut]; rfl

theorem claim_cho (hc : CertOk cfg C al) {es : List Ope} {l : Bool} {fs : List FirstSet} {b i : Nat}
    (ih : IH cfg C al (sizeOf (Ope.cho es l fs)) b i) : Claim cfg C al (.cho es l fs) b i := by
  intro κ arg v m s hw hκ hv hn ha hi hs
  simp only [wf, Bool.and_eq_true, Bool.not_eq_true', Bool.or_eq_true] at hw
  obtain ⟨⟨rfl, hw⟩, hlk⟩ := hw
  have hn' := hn
  simp only [Ope.Each, nodeOk] at hn
  have hcl : ∀ e ∈ es, Claim cfg C al e b i := by
    intro e he
    refine ih e b i hi (Or.inr ⟨rfl, Or.inr ⟨rfl, ?_⟩⟩)
    have := List.sizeOf_lt_of_mem he
    simp only [Ope.cho.sizeOf_spec]; omega
  obtain ⟨x, hp, hx, hsim⟩ := choL_does hκ hv ha hi hs (total := es.length) (fs := fs) es 0 hcl hw hn.2
    (fun q f e h1 h2 => hn.1 q f e (by simpa using h1) h2) hlk
  refine ⟨_, .cho hp, ?_, fun B st hr he => cho_of_loop steady_true hc hn' hi ?_ (fun B st hr he _ hcut => hsim B st hr he hcut)
    B st hr he trivial⟩
  · cases x with
    | fail c => exact ResOk.failed (by intro h; cases h)
    | ok j c s1 =>
      refine ⟨fun h => (by cases h), ?_⟩
      rintro _ _ _ ⟨⟩
      exact hx.pos j c s1 rfl
  · refine hlk.imp id fun h => ?_
    cases hq : x.cutOf with
    | false => rfl
    | true => have := hx.cut hq; simp_all

theorem claim_cut (hc : CertOk cfg C al) {b i : Nat} : Claim cfg C al .cut b i := by
  intro κ arg v m s hw hκ hv hn ha hi hs
  refine ⟨_, .cut, ⟨fun _ => rfl, ?_⟩, ?_⟩
  · rintro _ _ _ ⟨⟩; exact ⟨Nat.le_refl _, hi, ha, fun _ => rfl, hs⟩
  · refine Sim.ope_core hc hn ?_
    intro B st hr _
    refine ⟨0, st.setCut true, ?_, ?_⟩
    · unfold parseOpe
      rw [if_neg (by omega)]; rfl
    · have hsm := same_setCut st true
      have hk := keep_setCut st true
      refine ⟨?_, setCut_cut st, ?_, hr.memo.same hsm.memo,
        hr.lr.same hsm.lrMemo (by unfold St.setCut; split <;> rfl), fun _ _ => by rw [hsm.lrMemo],
        fun _ => by unfold St.setCut; split <;> rfl⟩
      · rintro _ _ _ ⟨⟩
        have : (st.setCut true).caps = st.caps ∧ (st.setCut true).vs = st.vs := by unfold St.setCut; split <;> exact ⟨rfl, rfl⟩
        exact ⟨this.1.trans hr.caps, fun h => this.2.trans (hr.vs h)⟩
      · have : (st.setCut true).recovered = st.recovered := by unfold St.setCut; split <;> rfl
        exact this.trans hr.recd

/-! ## Repetitions -/

theorem loop0_does {κ : MCtx} {arg : Bool} {v : Env} {m : Mode} {b i0 : Nat} {e : Ope} {mx : Option Nat}
    (hκ : arg = true → κ = {}) (hv : EnvOk cfg C al κ v) (hw : wf cfg C κ arg m b e = true) (hn : e.Each (nodeOk cfg al))
    (hend : C.nul κ.null e = false ∨ mx.isSome = true) (hcl : ∀ j, i0 ≤ j → j ≤ cfg.input.length → Claim cfg C al e b j) :
    ∀ (N i count : Nat) (s : PSt V), (cfg.input.length - i) + (mx.getD 0 - count) < N → i0 ≤ i → al i →
      i ≤ cfg.input.length → CapsOk cfg C al s →
      Does cfg C al b v (usesEnv cfg e) m true (C.lk κ.leak e) (.loop e 0 mx count) i s
        fun n st => run n cfg (.rep e mx count) i st
  | 0, _, _, _, h, _, _, _, _ => absurd h (Nat.not_lt_zero _)
  | N + 1, i, count, s, hN, hi0, ha, hi, hs => by
    have hrun : ∀ n st, run (n + 1) cfg (.rep e mx count) i st = repRound (run n) cfg e mx count i st := fun _ _ => rfl
    cases hmx : mx.all (count < ·) with
    | false =>
      refine ⟨_, .loop_full hmx, ⟨fun h => (by cases h), ?_⟩, ?_⟩
      · rintro _ _ _ ⟨⟩; exact ⟨Nat.le_refl _, hi, ha, fun _ => rfl, hs⟩
      · intro B st hr _
        refine ⟨1, st, ?_, after_same hr (Same.refl _) (Nat.le_refl _) hi rfl rfl⟩
        show repRound (run 0) cfg e mx count i st = _
        unfold repRound
        rw [hmx]; rfl
    | true =>
      obtain ⟨x, hp, hx, hsim⟩ := hcl i hi0 hi κ arg v m s hw hκ hv hn ha hi hs
      cases x with
      | fail c =>
        refine ⟨_, .loop_end hmx hp, ⟨fun h => hx.cut h, ?_⟩, ?_⟩
        · rintro _ _ _ ⟨⟩; exact ⟨Nat.le_refl _, hi, ha, fun _ => rfl, hs⟩
        · intro B st hr he
          obtain ⟨n, st', e1, a⟩ := hsim B st hr he
          refine ⟨n + 1, _, ?_, (after_back hr a).1⟩
          show repRound (run n) cfg e mx count i st = _
          unfold repRound
          rw [hmx]
          simp only [if_true, e1, Out.bind]; rfl
      | ok j c s1 =>
        obtain ⟨a1, a2, a3, a4, a5⟩ := hx.pos j c s1 rfl
        have hdec : (cfg.input.length - j) + (mx.getD 0 - (count + 1)) < N := by
          rcases Nat.lt_or_eq_of_le a1 with hlt | rfl
          · omega
          · have h1 := hend.resolve_left (by rw [a4 rfl]; simp)
            cases mx with
            | none => cases h1
            | some M =>
              simp only [Option.all_some, decide_eq_true_eq] at hmx
              simp only [Option.getD_some] at hN ⊢
              omega
        obtain ⟨y, hp2, hy, hsim2⟩ := loop0_does hκ hv hw hn hend hcl N j (count + 1) s1 hdec (by omega) a3 a2 a5
        refine ⟨_, .loop_more hmx hp hp2, hx.seq hy (fun _ _ _ => rfl) (fun h => h.elim id id), ?_⟩
        intro B st hr he
        obtain ⟨n1, st1, e1, A1⟩ := hsim B st hr he
        obtain ⟨n2, st2, e2, A2⟩ := hsim2 B st1
          (hr.next A1 (by rcases Nat.lt_or_eq_of_le a1 with h | h; exact Or.inl h; exact Or.inr ⟨h.symm, Nat.le_refl _⟩))
          fun h => (he h).of A1.p.keep.ruleStack A1.p.keep.args
        refine ⟨max n1 n2 + 1, st2, ?_, A1.seq A2⟩
        show repRound (run (max n1 n2)) cfg e mx count i st = _
        unfold repRound
        rw [hmx]
        simp only [if_true, (run_le (Nat.le_max_left n1 n2) _ _ _ _).eq_ok e1, Out.bind, PRes.pos]
        rw [(run_le (Nat.le_max_right n1 n2) _ _ _ _).eq_ok e2]
        cases y <;> rfl

theorem andThen_assoc (x : Out (Res V)) (f g : Nat → St V → Out (Res V)) :
    Verif.andThen (Verif.andThen x f) g = Verif.andThen x fun j st => Verif.andThen (f j st) g := by
  unfold Verif.andThen
  cases x with
  | ok r =>
    obtain ⟨_ | j, st⟩ := r
    · rfl
    · rfl
  | ub w => rfl
  | oof => rfl

theorem loopN_does {κ : MCtx} {arg : Bool} {v : Env} {m : Mode} {b i0 : Nat} {e : Ope} {mx : Option Nat}
    (hκ : arg = true → κ = {}) (hv : EnvOk cfg C al κ v) (hw : wf cfg C κ arg m b e = true) (hn : e.Each (nodeOk cfg al))
    (hend : C.nul κ.null e = false ∨ mx.isSome = true) (hcl : ∀ j, i0 ≤ j → j ≤ cfg.input.length → Claim cfg C al e b j) :
    ∀ (k i count : Nat) (s : PSt V), i0 ≤ i → al i → i ≤ cfg.input.length → CapsOk cfg C al s →
      Does cfg C al b v (usesEnv cfg e) m (k == 0 || C.nul κ.null e) (C.lk κ.leak e) (.loop e k mx count) i s
        fun n st => Verif.andThen (repMin (run n) cfg e k i st) fun j st => run n cfg (.rep e mx (count + k)) j st
  | 0, i, count, s, hi0, ha, hi, hs =>
    loop0_does hκ hv hw hn hend hcl _ i count s (Nat.lt_succ_self _) hi0 ha hi hs
  | k + 1, i, count, s, hi0, ha, hi, hs => by
    obtain ⟨x, hp, hx, hsim⟩ := hcl i hi0 hi κ arg v m s hw hκ hv hn ha hi hs
    have hprog : (fun (n : Nat) (st : St V) => Verif.andThen (repMin (run n) cfg e (k + 1) i st) fun j st => run n cfg (.rep e mx (count + (k + 1))) j st)
        = fun n st => Verif.andThen (run n cfg (.ope e) i st) fun j st =>
            Verif.andThen (repMin (run n) cfg e k j st) fun j st => run n cfg (.rep e mx (count + 1 + k)) j st := by
      funext n st
      rw [show count + (k + 1) = count + 1 + k by omega]
      exact andThen_assoc (run n cfg (.ope e) i st) (fun j st => repMin (run n) cfg e k j st) _
    rw [hprog]
    cases x with
    | fail c => exact ⟨_, .loop_fail hp, ResOk.failed fun h => hx.cut h, Sim.andThen_fail hsim⟩
    | ok j c s1 =>
      obtain ⟨a1, a2, a3, a4, a5⟩ := hx.pos j c s1 rfl
      obtain ⟨y, hp2, hy, hsim2⟩ := loopN_does hκ hv hw hn hend hcl k j (count + 1) s1 (by omega) a3 a2 a5
      refine ⟨_, .loop_must hp hp2, hx.seq hy (fun h _ h3 => by simp [h h3]) (fun h => h.elim id id), ?_⟩
      refine Sim.andThen (g := fun n j st => Verif.andThen (repMin (run n) cfg e k j st) fun j st => run n cfg (.rep e mx (count + 1 + k)) j st)
        hsim hsim2 (run_fmono _ _) ?_ ?_ id id
      · intro n n' st hle
        exact andThen_le (repMin_le (recLe_run hle) _ _ _ _ _) fun _ _ => run_le hle _ _ _ _
      · rcases Nat.lt_or_eq_of_le a1 with h | h
        · exact Or.inl h
        · exact Or.inr ⟨h.symm, Nat.le_refl _⟩

theorem spanScan_le {bit : Byte → Bool} {mn : Nat} {mx : Option Nat} {t : List Byte} {k : Nat}
    (h : spanScan bit mn mx t = some k) : k ≤ t.length := by
  have key : ∀ q : Nat, (if q < mn then none else some q) = some k → q ≤ t.length → k ≤ t.length := by
    intro q hq hl
    split at hq
    · cases hq
    · injection hq with hq; omega
  cases mx with
  | none => exact key _ h (List.takeWhile_prefix _).length_le
  | some M => exact key _ h (Nat.le_trans (List.takeWhile_prefix _).length_le (List.length_take_le' _ _))

theorem claim_rep (hc : CertOk cfg C al) {e : Ope} {mn : Nat} {mx : Option Nat} {sp : Option Cls} {b i : Nat}
    (ih : IH cfg C al (sizeOf (Ope.rep e mn mx sp)) b i) : Claim cfg C al (.rep e mn mx sp) b i := by
  intro κ arg v m s hw hκ hv hn ha hi hs
  simp only [wf, Bool.and_eq_true, Bool.not_eq_true', Bool.or_eq_true] at hw
  simp only [Ope.Each] at hn
  cases sp with
  | none =>
    have hcl : ∀ j, i ≤ j → j ≤ cfg.input.length → Claim cfg C al e b j := by
      intro j h1 h2
      refine ih e b j h2 ?_
      rcases Nat.lt_or_eq_of_le h1 with h | h
      · exact Or.inl h
      · exact Or.inr ⟨h.symm, Or.inr ⟨rfl, by simp only [Ope.rep.sizeOf_spec]; omega⟩⟩
    have hD := loopN_does hκ hv hw.1 hn.2 hw.2 hcl mn i 0 s (Nat.le_refl _) ha hi hs
    refine Does.ope hc hD (fun x h => .rep h) ?_
    intro n st hi
    unfold parseOpe
    rw [if_neg (by omega)]
    simp only [parseRep, Nat.zero_add]
  | some c =>
    have hsp := hn.1
    simp only [nodeOk] at hsp
    have hsp := hsp v m i s ha hi
    have hpo : ∀ n st, parseOpe (run n) cfg (.rep e mn mx (some c)) i st =
        match spanScan c.asciiBit mn mx (cfg.rest i) with
        | none => .ok (none, setErr cfg st (i + (match mx with
            | none => ((cfg.rest i).takeWhile c.asciiBit).length
            | some m => (((cfg.rest i).take m).takeWhile c.asciiBit).length)))
        | some k => .ok (some (i + k), st) := by
      intro n st
      unfold parseOpe
      rw [if_neg (by omega)]
      cases mx with
      | none =>
        simp only [parseRep, spanScan]
        generalize ((cfg.rest i).takeWhile c.asciiBit).length = k
        by_cases hk : k < mn
        · simp only [hk, if_true]
        · simp only [hk, if_false]
      | some M =>
        simp only [parseRep, spanScan]
        generalize (((cfg.rest i).take M).takeWhile c.asciiBit).length = k
        by_cases hk : k < mn
        · simp only [hk, if_true]
        · simp only [hk, if_false]
    cases hsc : spanScan c.asciiBit mn mx (cfg.rest i) with
    | none =>
      rw [hsc] at hsp
      refine ⟨_, .rep hsp, ResOk.failed (by intro h; cases h), ?_⟩
      refine Sim.failed 1 (fun st => setErr cfg st (i + (match mx with
            | none => ((cfg.rest i).takeWhile c.asciiBit).length
            | some m => (((cfg.rest i).take m).takeWhile c.asciiBit).length))) (fun st => same_setErr' _ _ _ _) ?_
      · intro B st hr
        show parseOpe (run 0) cfg (.rep e mn mx (some c)) i st = _
        rw [hpo, hsc]; cases mx <;> rfl
    | some k =>
      rw [hsc] at hsp
      obtain ⟨h1, h2, h3⟩ := hsp
      have hk : k ≤ cfg.input.length - i := by
        rw [← rest_length]
        exact spanScan_le hsc
      refine ⟨_, .rep h3, ⟨fun h => (by cases h), ?_⟩, ?_⟩
      · rintro _ _ _ ⟨⟩
        exact ⟨by omega, by omega, h1, fun h => by simp [Cert.nul, h2 (by omega)], hs⟩
      · intro B st hr _
        refine ⟨1, st, ?_, after_same hr (Same.refl _) (by omega) (by omega) rfl rfl⟩
        show parseOpe (run 0) cfg (.rep e mn mx (some c)) i st = _
        rw [hpo, hsc]; rfl

/-! ## Predicates -/

theorem claim_and (hc : CertOk cfg C al) {e : Ope} {b i : Nat}
    (ih : IH cfg C al (sizeOf (Ope.and_ e)) b i) : Claim cfg C al (.and_ e) b i := by
  intro κ arg v m s hw hκ hv hn ha hi hs
  simp only [wf] at hw
  have hn' := hn
  simp only [Ope.Each] at hn
  obtain ⟨x, hp, hx, hsim⟩ := ih e b i hi (Or.inr ⟨rfl, Or.inr ⟨rfl, by simp⟩⟩) κ arg v m s hw hκ hv hn.2 ha hi hs
  have run1 : ∀ {B st}, Rel cfg C B b m i s st → (usesEnv cfg e = true → EnvRel cfg v st) →
      ∃ n st', parseOpe (run n) cfg (.and_ e) i st = .ok (x.pos.map fun _ => i, st'.rollback st.snapshot) ∧
        After cfg C B i x st st' := by
    intro B st hr he
    obtain ⟨n, st', e1, a⟩ := hsim B st hr he
    refine ⟨n, st', ?_, a⟩
    unfold parseOpe
    rw [if_neg (by omega)]
    simp only [parseAnd, e1, Out.bind]
  cases x with
  | ok j c s1 =>
    refine ⟨_, .and_ok hp, ⟨fun h => hx.cut h, ?_⟩, ?_⟩
    · rintro _ _ _ ⟨⟩; exact ⟨Nat.le_refl _, hi, ha, fun _ => rfl, hs⟩
    · refine Sim.ope_core hc hn' ?_
      intro B st hr he
      obtain ⟨n, st', e1, a⟩ := run1 hr he
      exact ⟨n, _, e1, (after_back hr a).1.toCore⟩
  | fail c =>
    refine ⟨_, .and_fail hp, ResOk.failed fun h => hx.cut h, ?_⟩
    refine Sim.ope_core hc hn' ?_
    intro B st hr he
    obtain ⟨n, st', e1, a⟩ := run1 hr he
    exact ⟨n, _, e1, (after_back hr a).2.toCore⟩

theorem claim_not (hc : CertOk cfg C al) {e : Ope} {b i : Nat}
    (ih : IH cfg C al (sizeOf (Ope.not_ e)) b i) : Claim cfg C al (.not_ e) b i := by
  intro κ arg v m s hw hκ hv hn ha hi hs
  simp only [wf] at hw
  have hn' := hn
  simp only [Ope.Each] at hn
  obtain ⟨x, hp, hx, hsim⟩ := ih e b i hi (Or.inr ⟨rfl, Or.inr ⟨rfl, by simp⟩⟩) κ arg v m s hw hκ hv hn.2 ha hi hs
  cases x with
  | ok j c s1 =>
    refine ⟨_, .not_fail hp, ResOk.failed fun h => hx.cut h, ?_⟩
    refine Sim.ope_core hc hn' ?_
    intro B st hr he
    obtain ⟨n, st', e1, a⟩ := hsim B st hr he
    refine ⟨n, _, ?_, ((after_back hr a).2.same (same_setErr' cfg _ i none)).toCore⟩
    unfold parseOpe
    rw [if_neg (by omega)]
    simp only [parseNot, e1, Out.bind]; rfl
  | fail c =>
    refine ⟨_, .not_ok hp, ⟨fun h => hx.cut h, ?_⟩, ?_⟩
    · rintro _ _ _ ⟨⟩; exact ⟨Nat.le_refl _, hi, ha, fun _ => rfl, hs⟩
    · refine Sim.ope_core hc hn' ?_
      intro B st hr he
      obtain ⟨n, st', e1, a⟩ := hsim B st hr he
      refine ⟨n, _, ?_, (after_back hr a).1.toCore⟩
      unfold parseOpe
      rw [if_neg (by omega)]
      simp only [parseNot, e1, Out.bind]; rfl

/-! ## Captures -/

theorem claim_capScope (hc : CertOk cfg C al) {e : Ope} {b i : Nat}
    (ih : IH cfg C al (sizeOf (Ope.capScope e)) b i) : Claim cfg C al (.capScope e) b i := by
  intro κ arg v m s hw hκ hv hn ha hi hs
  simp only [wf] at hw
  have hn' := hn
  simp only [Ope.Each] at hn
  obtain ⟨x, hp, hx, hsim⟩ := ih e b i hi (Or.inr ⟨rfl, Or.inr ⟨rfl, by simp⟩⟩) κ arg v m s hw hκ hv hn.2 ha hi hs
  have run1 : ∀ {B st}, Rel cfg C B b m i s st → (usesEnv cfg e = true → EnvRel cfg v st) →
      ∃ n st', parseOpe (run n) cfg (.capScope e) i st = .ok (x.pos, { st' with caps := st.caps }) ∧
        After cfg C B i x st st' := by
    intro B st hr he
    obtain ⟨n, st', e1, a⟩ := hsim B st hr he
    refine ⟨n, st', ?_, a⟩
    unfold parseOpe
    rw [if_neg (by omega)]
    simp only [parseCapScope]
    rw [after_ok]
    exact ⟨_, _, e1, by rw [resize_prefix a.p.keep.caps]⟩
  cases x with
  | ok j c s1 =>
    obtain ⟨a1, a2, a3, a4, a5⟩ := hx.pos j c s1 rfl
    refine ⟨_, .scope_ok hp, ⟨fun h => hx.cut h, ?_⟩, ?_⟩
    · rintro _ _ _ ⟨⟩; exact ⟨a1, a2, a3, a4, hs⟩
    · refine Sim.ope_core hc hn' ?_
      intro B st hr he
      obtain ⟨n, st', e1, a⟩ := run1 hr he
      refine ⟨n, _, e1, ?_, a.cut, a.recd, a.memo, a.lr, a.held, fun _ => rfl⟩
      rintro _ _ _ ⟨⟩
      exact ⟨hr.caps, fun h => (a.res _ _ _ rfl).2 h⟩
  | fail c =>
    refine ⟨_, .scope_fail hp, ResOk.failed fun h => hx.cut h, ?_⟩
    refine Sim.ope_core hc hn' ?_
    intro B st hr he
    obtain ⟨n, st', e1, a⟩ := run1 hr he
    exact ⟨n, _, e1, by rintro _ _ _ ⟨⟩, a.cut, a.recd, a.memo, a.lr, a.held, fun _ => rfl⟩

theorem claim_cap (hc : CertOk cfg C al) {nm : List Byte} {e : Ope} {b i : Nat}
    (ih : IH cfg C al (sizeOf (Ope.cap nm e)) b i) : Claim cfg C al (.cap nm e) b i := by
  intro κ arg v m s hw hκ hv hn ha hi hs
  simp only [wf, Bool.and_eq_true, Bool.not_eq_true'] at hw
  have hn' := hn
  simp only [Ope.Each] at hn
  obtain ⟨x, hp, hx, hsim⟩ := ih e b i hi (Or.inr ⟨rfl, Or.inr ⟨rfl, by simp; omega⟩⟩) κ arg v m s hw.2 hκ hv hn.2 ha hi hs
  cases x with
  | ok j c s1 =>
    obtain ⟨a1, a2, a3, a4, a5⟩ := hx.pos j c s1 rfl
    refine ⟨_, .cap_ok hp, ⟨fun h => hx.cut h, ?_⟩, ?_⟩
    · rintro _ _ _ ⟨⟩
      refine ⟨a1, a2, a3, a4, ?_, fun h => by rw [hw.1.1, hw.1.2] at h; rcases h with h | h <;> cases h⟩
      intro q hq
      simp only [List.mem_append, List.mem_singleton] at hq
      rcases hq with hq | rfl
      · exact a5.1 q hq
      · exact hc.pos.slice i j ha a3 a1
    · refine Sim.ope_core hc hn' ?_
      intro B st hr he
      obtain ⟨n, st', e1, a⟩ := hsim B st hr he
      refine ⟨n, { st' with caps := st'.caps ++ [(nm, (cfg.rest i).take (j - i))] }, ?_, ?_, a.cut, a.recd, a.memo, a.lr, a.held, fun h => by rw [hw.1.2] at h; cases h⟩
      · unfold parseOpe
        rw [if_neg (by omega)]
        simp only [parseCap]
        rw [andThen_ok]
        exact Or.inr ⟨j, st', e1, rfl⟩
      · rintro _ _ _ ⟨⟩
        refine ⟨?_, fun h => (a.res _ _ _ rfl).2 h⟩
        show st'.caps ++ _ = s1.caps ++ _
        rw [(a.res _ _ _ rfl).1]; rfl
  | fail c =>
    refine ⟨_, .cap_fail hp, ResOk.failed fun h => hx.cut h, ?_⟩
    refine (Sim.andThen_fail (g := fun n j (st : St V) => .ok (some j, { st with caps := st.caps ++ [(nm, (cfg.rest i).take (j - i))] })) hsim).ope ?_
    intro n st hi
    unfold parseOpe
    rw [if_neg (by omega)]; rfl

/-! ## Scopes -/

theorem claim_ign (hc : CertOk cfg C al) {e : Ope} {b i : Nat}
    (ih : IH cfg C al (sizeOf (Ope.ign e)) b i) : Claim cfg C al (.ign e) b i := by
  intro κ arg v m s hw hκ hv hn ha hi hs
  simp only [wf] at hw
  have hn' := hn
  simp only [Ope.Each] at hn
  obtain ⟨x, hp, hx, hsim⟩ := ih e b i hi (Or.inr ⟨rfl, Or.inr ⟨rfl, by simp⟩⟩) κ arg v m { s with vs := {} } hw hκ hv hn.2 ha hi hs
  have run1 : ∀ {B st}, Rel cfg C B b m i s st → (usesEnv cfg e = true → EnvRel cfg v st) →
      ∃ n st', parseOpe (run n) cfg (.ign e) i st = .ok (x.pos, { st' with vs := st.vs }) ∧
        After cfg C B i x { st with vs := {} } st' := by
    intro B st hr he
    have hr' : Rel cfg C B b m i { s with vs := {} } { st with vs := {} } :=
      { hr with pre := hr.pre.same ⟨rfl, rfl, rfl⟩ rfl, vs := fun _ => rfl }
    obtain ⟨n, st', e1, a⟩ := hsim B _ hr' (fun h => (he h).of rfl rfl)
    refine ⟨n, st', ?_, a⟩
    unfold parseOpe
    rw [if_neg (by omega)]
    simp only [parseIgn, inScope]
    rw [after_ok]
    exact ⟨_, _, e1, rfl⟩
  cases x with
  | ok j c s1 =>
    refine ⟨_, .ign_ok hp, ⟨fun h => hx.cut h, ?_⟩, ?_⟩
    · rintro _ _ _ ⟨⟩
      obtain ⟨a1, a2, a3, a4, a5⟩ := hx.pos j c s1 rfl
      exact ⟨a1, a2, a3, a4, a5⟩
    · refine Sim.ope_core hc hn' ?_
      intro B st hr he
      obtain ⟨n, st', e1, a⟩ := run1 hr he
      refine ⟨n, _, e1, ?_, a.cut, a.recd, a.memo, a.lr, a.held, a.capl⟩
      rintro _ _ _ ⟨⟩
      exact ⟨(a.res _ _ _ rfl).1, fun h => hr.vs h⟩
  | fail c =>
    refine ⟨_, .ign_fail hp, ResOk.failed fun h => hx.cut h, ?_⟩
    refine Sim.ope_core hc hn' ?_
    intro B st hr he
    obtain ⟨n, st', e1, a⟩ := run1 hr he
    exact ⟨n, _, e1, by rintro _ _ _ ⟨⟩, a.cut, a.recd, a.memo, a.lr, a.held, a.capl⟩

theorem claim_ws (hc : CertOk cfg C al) {e : Ope} {b i : Nat}
    (ih : IH cfg C al (sizeOf (Ope.ws e)) b i) : Claim cfg C al (.ws e) b i := by
  intro κ arg v m s hw hκ hv hn ha hi hs
  simp only [wf, Bool.and_eq_true, Bool.or_eq_true] at hw
  have hn' := hn
  simp only [Ope.Each] at hn
  by_cases hm : m.ws = true
  · refine ⟨_, .ws_in hm, ⟨fun h => (by cases h), ?_⟩, ?_⟩
    · rintro _ _ _ ⟨⟩; exact ⟨Nat.le_refl _, hi, ha, fun _ => rfl, hs⟩
    · intro B st hr _
      refine ⟨1, st, ?_, after_same hr (Same.refl _) (Nat.le_refl _) hi rfl rfl⟩
      show parseOpe (run 0) cfg (.ws e) i st = _
      unfold parseOpe
      rw [if_neg (by omega)]
      simp only [parseWs, hr.inWs, hm, if_true]; rfl
  · have hm' : m.ws = false := by simpa using hm
    obtain ⟨x, hp, hx, hsim⟩ := ih e b i hi (Or.inr ⟨rfl, Or.inr ⟨rfl, by simp⟩⟩) κ arg v { m with ws := true } s
      (hw.2.resolve_left hm) hκ hv hn.2 ha hi hs
    refine ⟨x, .ws_out hm' hp, hx.weaken (fun _ => rfl) id, ?_⟩
    refine Sim.ope_core hc hn' ?_
    intro B st hr he
    have hr' : Rel cfg C B b { m with ws := true } i s { st with inWs := true } :=
      { hr with pre := hr.pre.same ⟨rfl, rfl, rfl⟩ rfl, inWs := rfl }
    obtain ⟨n, st', e1, a⟩ := hsim B _ hr' (fun h => (he h).of rfl rfl)
    refine ⟨n, { st' with inWs := false }, ?_, a.res, a.cut, a.recd, a.memo, a.lr, a.held, a.capl⟩
    unfold parseOpe
    rw [if_neg (by omega)]
    simp only [parseWs, hr.inWs, hm', Bool.false_eq_true, if_false]
    rw [after_ok]
    exact ⟨_, _, e1, rfl⟩

end Verif
