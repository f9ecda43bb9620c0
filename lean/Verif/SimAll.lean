import Verif.SimLR
/-!
# The engine agrees with the reference semantics: rules, macros, and everything together
-/

namespace Verif
open Out CharClass

variable {V : Type} {cfg : Cfg V} {C : Cert} {al : Nat → Prop}

/-- A rule. -/
theorem hold_does (hc : CertOk cfg C al) {r : Nat} {d : Def} (hd : cfg.rules[r]? = some d) (hmac : d.isMacro = false)
    {m : Mode} (hm : C.modes r m = true) {b i S : Nat} {s : PSt V} (hb : C.rank r < b)
    (ih : IH cfg C al S b i) (ha : al i) (hi : i ≤ cfg.input.length) (hs : CapsOk cfg C al s) :
    ∃ x, Peg cfg.gram {} m (.hold r) i s x ∧ ResOk cfg C al (C.null r) (C.leak r) i x ∧
      ∀ B st, Rel cfg C B b m i s st → ArgsAt cfg d st →
        ∃ n st', run n cfg (.hold r) i st = .ok (x.pos, st') ∧ After cfg C B i x st st' ∧ True := by
  obtain ⟨caps, f⟩ := s
  have hs0 : CapsOk cfg C al (⟨caps, {}⟩ : PSt V) := hs
  cases hlr : d.isLR with
  | false =>
    obtain ⟨y, hpy, hy, hsim⟩ := body_does hc hd hmac hlr hm (fun e => ih e _ _ hi (Or.inr ⟨rfl, Or.inl hb⟩)) (ih.lower (S' := 0) hb) ha hi hs0
    obtain ⟨h1, h2⟩ := hold_of_body (f := f) hc hd hmac hlr hm hb hs hpy hy hsim
    refine ⟨_, holdRes_peg (G := cfg.gram) (caps := caps) hd hlr hpy f, h1, ?_⟩
    intro B st hr hargs
    obtain ⟨n, st', e1, a, -⟩ := h2 B st hr hargs
    exact ⟨n, st', e1, a, trivial⟩
  | true =>
    obtain ⟨es, fs, lead, bs, D⟩ := lr_data hc hd hmac hlr hm
    have hcaps : caps = [] := hs.2 (Or.inr D.capless)
    subst hcaps
    obtain ⟨x, hp, hx, hsim⟩ := lr_hold (f := f) hc D hb ih ha hi hs0
    refine ⟨x, hp, hx.weaken (by intro h; cases h) (by intro h; cases h), ?_⟩
    intro B st hr hargs
    obtain ⟨n, st', e1, a⟩ := hsim B st hr hargs
    exact ⟨n, st', e1, a, trivial⟩

theorem lookupArg_nil (ps : List (List Byte)) (nm : List Byte) : lookupArg ps [] nm = none := by
  unfold lookupArg; simp

mutual
theorem resolve_nil (ps qs : List (List Byte)) : ∀ e : Ope, resolve ps [] e = resolve qs [] e
  | .seq es _ => by simp only [resolve, resolveList_nil ps qs es]
  | .cho es _ _ => by simp only [resolve, resolveList_nil ps qs es]
  | .rep e _ _ _ => by simp only [resolve, resolve_nil ps qs e]
  | .and_ e => by simp only [resolve, resolve_nil ps qs e]
  | .not_ e => by simp only [resolve, resolve_nil ps qs e]
  | .dict _ _ => by simp only [resolve]
  | .lit _ _ => by simp only [resolve]
  | .cls _ => by simp only [resolve]
  | .chr _ => by simp only [resolve]
  | .dot => by simp only [resolve]
  | .capScope e => by simp only [resolve, resolve_nil ps qs e]
  | .cap _ e => by simp only [resolve, resolve_nil ps qs e]
  | .tok e => by simp only [resolve, resolve_nil ps qs e]
  | .ign e => by simp only [resolve, resolve_nil ps qs e]
  | .usr _ => by simp only [resolve]
  | .weak _ => by simp only [resolve]
  | .ref _ _ _ => by simp only [resolve, lookupArg_nil]
  | .param _ _ => by simp only [resolve, lookupArg_nil]
  | .ws e => by simp only [resolve, resolve_nil ps qs e]
  | .bref _ => by simp only [resolve]
  | .prec a _ _ _ => by simp only [resolve, resolve_nil ps qs a]
  | .recov _ _ _ => by simp only [resolve, lookupArg_nil]
  | .cut => by simp only [resolve]
  | .null => by simp only [resolve]

theorem resolveList_nil (ps qs : List (List Byte)) : ∀ es : List Ope, resolveList ps [] es = resolveList qs [] es
  | [] => rfl
  | e :: es => by simp only [resolveList, resolve_nil ps qs e, resolveList_nil ps qs es]
end

theorem claim_ref (hc : CertOk cfg C al) {r : Nat} {nm : List Byte} {as : List Ope} {b i S : Nat}
    (ih : IH cfg C al S b i) : Claim cfg C al (.ref r nm as) b i := by
  intro κ arg v m s hw hκ hv hn ha hi hs
  have hn' := hn
  simp only [Ope.Each] at hn
  simp only [wf] at hw
  cases hd : cfg.rules[r]? with
  | none => rw [hd] at hw; cases hw
  | some d =>
    rw [hd] at hw
    simp only [Bool.and_eq_true, Bool.or_eq_true, Bool.not_eq_true', decide_eq_true_eq] at hw
    obtain ⟨⟨⟨⟨hlr, hm⟩, -⟩, hb⟩, hargs⟩ := hw
    cases hmac : d.isMacro with
    | false =>
      obtain ⟨x, hp, hx, hsim⟩ := hold_does hc hd hmac hm hb ih ha hi hs
      have hx' : ResOk cfg C al (C.nul κ.null (.ref r nm as)) (C.lk κ.leak (.ref r nm as)) i x := by
        simp only [Cert.nul, Cert.lk]; exact hx
      refine ⟨x, .ref hd hmac hp, hx', ?_⟩
      intro B st hr _
      obtain ⟨n, st', e1, a, -⟩ := ref_of_hold hc hd hmac (T := fun _ => True) (fun _ _ _ => trivial) hn' hsim B st hr
      exact ⟨n, st', e1, a⟩
    | true =>
      rw [hmac] at hargs hlr
      have hlr : d.isLR = false := hlr.resolve_right (by simp)
      have hargs := hargs.resolve_left (by simp)
      obtain ⟨⟨hlen, hex⟩, hwa⟩ := hargs
      have hκ' : (if arg = true then ({} : MCtx) else κ) = κ := by
        cases arg with
        | false => rfl
        | true => rw [hκ rfl]; rfl
      rw [hκ'] at hwa
      have hlen : as.length = d.params.length := by simpa using hlen
      have hex : ∃ m, C.amodes r m = true := by
        rw [List.any_eq_true] at hex
        obtain ⟨m, _, h⟩ := hex
        exact ⟨m, h⟩
      have hv' := call_env hv hmac (hc.names r d hd) hlen hwa hn.2 hex
      have haok := args_ok hv (d := d) hmac hwa hn.2 hex
      obtain ⟨x, hp, hx, hsim⟩ := ih d.ope (C.rank r) i hi (Or.inr ⟨rfl, Or.inl hb⟩) (C.ctx r d) false _ m s
        (hc.macro_ r d hd hmac m hm) (by intro h; cases h) hv' (hc.node r d m hd hm (notPrec_of_wf (hc.macro_ r d hd hmac m hm))) ha hi hs
      have hx' : ResOk cfg C al (C.nul κ.null (.ref r nm as)) (C.lk κ.leak (.ref r nm as)) i x := by
        simp only [Cert.nul, Cert.lk]; exact hx.weaken (hc.null r d hd) (hc.leak r d hd)
      refine ⟨x, .call hd hmac hp, hx', ?_⟩
      refine Sim.ope_core hc hn' ?_
      intro B st hr he
      have hu : usesEnv cfg (.ref r nm as) = true := by simp [usesEnv, hd, hmac]
      obtain ⟨cur, rest, c, inst, tl, h1, h2, h3, h4⟩ := he hu
      have hres : resolveList c.params v.args as = resolveList v.params v.args as := by
        rcases h4 with h4 | ⟨h4, -⟩
        · rw [h4]; exact resolveList_nil _ _ _
        · rw [h4]
      have hub : ¬ (as ≠ [] && decide (v.args.length > c.params.length)) = true := by
        simp only [Bool.and_eq_true, decide_eq_true_eq, not_and, Nat.not_lt]
        intro _
        rcases h4 with h4 | ⟨h4, h5⟩
        · rw [h4]; exact Nat.zero_le _
        · rw [h4]; exact h5
      have hlen' : (resolveList v.params v.args as).length = d.params.length := by rw [resolveList_eq_map]; simpa using hlen
      have hr1 := (hr.bound (Nat.le_of_lt hb)).pushArgs (resolveList v.params v.args as, 0)
        (fun e he => noPrec_of_each e (haok e he).node)
      have hr2 : Rel cfg C B (C.rank r) m i s
          { st with args := (resolveList v.params v.args as, 0) :: st.args, ruleStack := r :: st.ruleStack } :=
        { hr1 with pre := hr1.pre.same ⟨rfl, rfl, rfl⟩ rfl }
      obtain ⟨n, st', e1, a⟩ := hsim B _ hr2 (fun _ => ⟨r, st.ruleStack, d, 0, st.args, rfl, hd, rfl, Or.inr ⟨rfl, Nat.le_of_eq hlen'⟩⟩)
      refine ⟨n + 1, { st' with args := st'.args.tail, ruleStack := st'.ruleStack.tail }, ?_, a.res, a.cut, a.recd, a.memo, a.lr, a.held, a.capl⟩
      unfold parseOpe
      rw [if_neg (by omega)]
      simp only [refer, hd, hmac, if_true, h1, h3, h2, if_neg hub, hlr, Bool.false_eq_true, if_false, withArgs, hres]
      rw [after_ok]
      refine ⟨x.pos, { st' with ruleStack := st'.ruleStack.tail }, ?_, rfl⟩
      show holder (run n) cfg r i _ = _
      unfold holder
      simp only [hd, hmac, hlr, Bool.not_false, Bool.and_self, if_true]
      rw [after_ok]
      refine ⟨x.pos, st', ?_, rfl⟩
      rw [← e1, ← h1, ← h3]

theorem claim_param (hc : CertOk cfg C al) {k : Nat} {nm : List Byte} {b i S : Nat}
    (ih : IH cfg C al S b i) : Claim cfg C al (.param k nm) b i := by
  intro κ arg v m s hw hκ hv hn ha hi hs
  cases arg with
  | true =>
    rw [hκ rfl] at hw
    simp [wf] at hw
  | false =>
    simp only [wf, Bool.and_eq_true, Bool.false_eq_true, if_false, decide_eq_true_eq] at hw
    obtain ⟨a, h1, hok⟩ := hv.byPos k hw.2.1
    obtain ⟨x, hp, hx, hsim⟩ := ih a κ.bound i hi (Or.inr ⟨rfl, Or.inl hw.2.2⟩) {} true v m s (hok.wf m hw.1) (fun _ => rfl)
      hv.empty hok.node ha hi hs
    have hx' : ResOk cfg C al (C.nul κ.null (.param k nm)) (C.lk κ.leak (.param k nm)) i x := by
      simp only [Cert.nul, Cert.lk]; exact hx.weaken hok.null hok.leak
    refine ⟨x, .param h1 hp, hx', ?_⟩
    refine Sim.ope_core hc hn ?_
    intro B st hr he
    obtain ⟨n, st', e1, a'⟩ := hsim B st (hr.bound (Nat.le_of_lt hw.2.2)) (fun _ => he (by simp [usesEnv]))
    refine ⟨n, st', ?_, a'.toCore⟩
    obtain ⟨cur, rest, c, inst, tl, _, _, h3, _⟩ := he (by simp [usesEnv])
    unfold parseOpe
    rw [if_neg (by omega)]
    simp only [parseParam, h3, h1]
    exact e1

/-! ## Everything -/

theorem claim_step (hc : CertOk cfg C al) (hword : WordOk cfg al) (e : Ope) (b i : Nat) (ih : IH cfg C al (sizeOf e) b i) :
    Claim cfg C al e b i := by
  have bad : (∀ κ arg m, wf cfg C κ arg m b e = false) → Claim cfg C al e b i := by
    intro h κ arg v m s hw
    rw [h] at hw; cases hw
  cases e with
  | seq es kw => exact claim_seq hc ih
  | cho es l fs => exact claim_cho hc ih
  | rep e mn mx sp => exact claim_rep hc ih
  | and_ e => exact claim_and hc ih
  | not_ e => exact claim_not hc ih
  | dict ws ic => exact claim_dict hc hword ih
  | lit t ic => exact claim_lit hc hword ih
  | cls c => exact claim_single hc (f := c.matchLen) rfl b i
  | chr c => exact claim_single hc (f := matchChar c) rfl b i
  | dot => exact claim_single hc (f := matchAny) rfl b i
  | capScope e => exact claim_capScope hc ih
  | cap nm e => exact claim_cap hc ih
  | tok e => exact claim_tok hc ih
  | ign e => exact claim_ign hc ih
  | usr _ => exact bad fun _ _ _ => by simp only [wf]
  | weak _ => exact bad fun _ _ _ => by simp only [wf]
  | ref r nm as => exact claim_ref hc ih
  | param k nm => exact claim_param hc ih
  | ws e => exact claim_ws hc ih
  | bref nm => exact claim_bref hc hword ih
  | prec _ _ _ _ => exact bad fun _ _ _ => by simp only [wf]
  | recov _ _ _ => exact bad fun _ _ _ => by simp only [wf]
  | cut => exact claim_cut hc
  | null => exact bad fun _ _ _ => by simp only [wf]

theorem claim_all (hc : CertOk cfg C al) (hword : WordOk cfg al) (e : Ope) (b i : Nat) (hi : i ≤ cfg.input.length) : Claim cfg C al e b i := by
  apply claim_step hc hword
  intro e' b' i' hi' hl
  exact claim_all hc hword e' b' i' hi'
termination_by (cfg.input.length - i, b, sizeOf e)
decreasing_by
  rcases hl with hl | ⟨rfl, hl | ⟨rfl, hl⟩⟩
  · exact Prod.Lex.left _ _ (by omega)
  · exact Prod.Lex.right _ (Prod.Lex.left _ _ hl)
  · exact Prod.Lex.right _ (Prod.Lex.right _ hl)

end Verif
