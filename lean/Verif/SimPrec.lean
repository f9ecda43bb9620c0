import Verif.SimRules
/-!
# The engine agrees with the reference semantics: precedence climbing
-/

namespace Verif
open Out CharClass

variable {V : Type} {cfg : Cfg V} {C : Cert} {al : Nat → Prop}

/-- The claims available at position `i` below rank `b`. -/
structure Avail (cfg : Cfg V) (C : Cert) (al : Nat → Prop) (b i : Nat) : Prop where
  here : ∀ e, Claim cfg C al e b i
  ih : IH cfg C al 0 b i

theorem Avail.later {b i b' j : Nat} (h : Avail cfg C al b i) (hj : i < j) (hl : j ≤ cfg.input.length) : Avail cfg C al b' j :=
  ⟨fun e => h.ih e b' j hl (Or.inl hj), h.ih.later hj⟩

theorem Avail.move {b i b' j : Nat} (h : Avail cfg C al b i) (hl : j ≤ cfg.input.length) (hj : i < j ∨ (j = i ∧ b' = b)) :
    Avail cfg C al b' j := by
  rcases hj with hj | ⟨rfl, rfl⟩
  · exact h.later hj hl
  · exact h

theorem each_ref (q : Nat) (nm : List Byte) : (Ope.ref q nm []).Each (nodeOk cfg al) := by
  simp [Ope.Each, Ope.EachL, nodeOk]

/-- The operator rule: like any rule, and it reports its token. -/
theorem binop_does (hc : CertOk cfg C al) {q : Nat} {nm : List Byte} {d : Def} (hd : cfg.rules[q]? = some d)
    (hmac : d.isMacro = false) (hfl : d.ope.isPrec = false) (hlr : d.isLR = false) {m : Mode} {b i : Nat} {caps : List (List Byte × List Byte)} {f : Frame V}
    (hw : wf cfg C {} false m b (.ref q nm []) = true) (hav : Avail cfg C al b i) (ha : al i) (hi : i ≤ cfg.input.length)
    (hs : CapsOk cfg C al (⟨caps, f⟩ : PSt V)) :
    ∃ y, Peg cfg.gram {} m (.body d) i ⟨caps, {}⟩ y ∧
      Peg cfg.gram {} m (.ope (.ref q nm [])) i ⟨caps, f⟩ (holdRes cfg.gram q d i f y) ∧
      ResOk cfg C al (C.null q) (C.leak q) i (holdRes cfg.gram q d i f y) ∧
      ∀ B st, Rel cfg C B b m i ⟨caps, f⟩ st → ∃ n st', run n cfg (.ope (.ref q nm [])) i st =
        .ok ((holdRes cfg.gram q d i f y).pos, st') ∧ After cfg C B i (holdRes cfg.gram q d i f y) st st' ∧
        Toks cfg q d i (holdRes cfg.gram q d i f y) y st' := by
  simp only [wf, hd, Bool.and_eq_true, Bool.not_eq_true', decide_eq_true_eq] at hw
  obtain ⟨⟨⟨⟨-, hm⟩, -⟩, hb⟩, -⟩ := hw
  have hs0 : CapsOk cfg C al (⟨caps, {}⟩ : PSt V) := hs
  obtain ⟨y, hpy, hy, hsim⟩ := body_plain hc hd hmac hlr hfl hm (hav.ih _ _ _ hi (Or.inr ⟨rfl, Or.inl hb⟩)) (hav.ih.lower (S' := 0) hb)
    ha hi hs0
  obtain ⟨h1, h2⟩ := hold_of_body (f := f) hc hd hmac hlr hm hb hs hpy hy hsim
  exact ⟨y, hpy, .ref hd hmac (holdRes_peg (G := cfg.gram) (caps := caps) hd hlr hpy f), h1, ref_of_hold hc hd hmac Toks.args (each_ref q nm) h2⟩

theorem ref_vals {G : Gram V} {v : Env} {m : Mode} {q : Nat} {nm : List Byte} {d : Def} (hd : G.rules[q]? = some d)
    (hmac : d.isMacro = false) (hig : d.ignoreSV = false) {i : Nat} {s s' : PSt V} {j : Nat} {c : Bool}
    (h : Peg G v m (.ope (.ref q nm [])) i s (.ok j c s')) : s'.vs.vals ≠ [] := by
  cases h with
  | one_ok h => simp [Ope.single] at h
  | ref hd' hm' h =>
    rw [hd] at hd'; cases hd'
    cases h with
    | rule_ok hd' => rw [hd] at hd'; cases hd'; simp [pushValue, hig]
    | rule_pred hd' => rw [hd] at hd'; cases hd'; simp [pushValue, hig]
    | lr_ok h1 h2 h3 h4 h5 h6 h7 =>
      rw [hd] at h1; cases h1
      obtain ⟨w, hw⟩ := lr_vals hd h2 (.lr_ok hd h2 h3 h4 h5 h6 h7)
      rw [hw]; simp [pushValue, hig]
  | call hd' hm' => rw [hd] at hd'; cases hd'; rw [hmac] at hm'; cases hm'

/-- What is left after an expression of operands and operators. -/
structure PAfter (cfg : Cfg V) (C : Cert) (B : List (Nat × Nat)) (i : Nat) (x : PRes V) (st st' : St V) : Prop
    extends Core cfg C B x st st' where
  p : P cfg i st (x.pos, st')
  name : st'.vs.name = st.vs.name

theorem After.toP {B : List (Nat × Nat)} {i : Nat} {x : PRes V} {st st' : St V} (a : After cfg C B i x st st') :
    PAfter cfg C B i x st st' := ⟨a.toCore, a.p, a.ext.name⟩

theorem Rel.nextP {B : List (Nat × Nat)} {b b2 : Nat} {m : Mode} {i j : Nat} {c : Bool} {s s1 : PSt V} {st st1 : St V}
    (h : Rel cfg C B b m i s st) (a : PAfter cfg C B i (.ok j c s1) st st1) (hb : i < j ∨ (j = i ∧ b2 = b)) :
    Rel cfg C B b2 m j s1 st1 where
  pre := h.pre.step a.p
  caps := (a.res _ _ _ rfl).1
  vs := (a.res _ _ _ rfl).2
  tok := by rw [a.p.keep.tokCount]; exact h.tok
  inWs := a.p.keep.inWs.trans h.inWs
  prec := by rw [a.p.keep.precToks]; exact h.prec
  recd := a.recd
  args := by rw [a.p.keep.args]; exact h.args
  busy := by
    intro q hq
    obtain ⟨h1, h2⟩ := h.busy q hq
    rcases hb with hb | ⟨rfl, rfl⟩
    · exact ⟨by omega, fun e => by omega⟩
    · exact ⟨h1, h2⟩
  memo := a.memo
  lr := a.lr
  lra := by rw [a.p.act]; exact h.lra
  capl hq := (a.capl hq).trans (h.capl hq)
  act := by rw [a.p.keep.active]; exact h.act

theorem post_P {n : Nat} {t : Task V} {i : Nat} {st st' : St V} {x : Option Nat} (hp : Pre cfg i st)
    (hg : ∀ r inst cyc j v, t ≠ .grow r inst cyc j v) (h : run n cfg t i st = .ok (x, st')) : P cfg i st (x, st') := by
  have tp : TaskPre cfg t i st := by
    cases t <;> first | trivial | exact absurd rfl (hg _ _ _ _ _)
  have hP := run_good n cfg t i st _ hp.slots hp.ok hp.le tp h
  refine ⟨hP.ok, hP.keep, ?_, hP.bounds⟩
  have := hP.act
  cases t <;> first | exact this | exact absurd rfl (hg _ _ _ _ _)

/-- The constituents of a precedence rule that passed the test. -/
structure PrecInfo (cfg : Cfg V) (C : Cert) (m : Mode) (r a b : Nat) (anm bnm : List Byte) (dr da db : Def) : Prop where
  pack : cfg.packrat = false
  reco : cfg.recognizeOnly = false
  capl : C.capless = true
  rd : cfg.rules[r]? = some dr
  ad : cfg.rules[a]? = some da
  bd : cfg.rules[b]? = some db
  rmac : dr.isMacro = false
  amac : da.isMacro = false
  bmac : db.isMacro = false
  ract : dr.disableAction = true
  bact : db.disableAction = false
  aval : da.ignoreSV = false
  bval : db.ignoreSV = false
  bflat : db.ope.isPrec = false
  blr : db.isLR = false
  bnull : C.null b = false
  atTop : wf cfg C {} false m C.top (.ref a anm []) = true
  btTop : wf cfg C {} false m C.top (.ref b bnm []) = true

section
variable {m : Mode} {r a b : Nat} {anm bnm : List Byte} {dr da db : Def} {info : List (List Byte × Nat × Byte)}

/-- The loop, from position `i`. -/
def LoopOk (cfg : Cfg V) (C : Cert) (al : Nat → Prop) (m : Mode) (r a b : Nat) (anm bnm : List Byte)
    (info : List (List Byte × Nat × Byte)) (i : Nat) : Prop :=
  ∀ bd mp start s, Avail cfg C al bd i → wf cfg C {} false m bd (.ref b bnm []) = true → al i → i ≤ cfg.input.length →
    CapsOk cfg C al s → s.vs.vals ≠ [] →
    ∃ x, Peg cfg.gram {} m (.precL (.ref a anm []) (.ref b bnm []) info r mp start) i s x ∧
      ResOk cfg C al true (C.leak a || C.leak b) i x ∧ (∀ j c s', x = .ok j c s' → s'.vs.vals ≠ []) ∧
      ∀ B st, Rel cfg C B bd m i s st → (∃ t tl, st.precToks = (b, t) :: tl) →
        ∃ n st', run n cfg (.precLoop (.ref a anm []) (.ref b bnm []) info r mp b start) i st = .ok (x.pos, st') ∧
          PAfter cfg C B i x st st'

/-- An operand and the loop. -/
theorem prec_of_loop (hc : CertOk cfg C al) (hi : PrecInfo cfg C m r a b anm bnm dr da db) {i : Nat}
    (hl : ∀ j, i ≤ j → LoopOk cfg C al m r a b anm bnm info j) {bd : Nat} (mp : Nat) {s : PSt V} (hav : Avail cfg C al bd i)
    (hwa : wf cfg C {} false m bd (.ref a anm []) = true) (hwb : C.null a = true → wf cfg C {} false m bd (.ref b bnm []) = true)
    (ha : al i) (hle : i ≤ cfg.input.length) (hs : CapsOk cfg C al s) :
    ∃ x, Peg cfg.gram {} m (.prec (.ref a anm []) (.ref b bnm []) info r mp) i s x ∧
      ResOk cfg C al (C.null a) (C.leak a || C.leak b) i x ∧ (∀ j c s', x = .ok j c s' → s'.vs.vals ≠ []) ∧
      ∀ B st, Rel cfg C B bd m i s st →
        ∃ n st', run n cfg (.prec (.ref a anm []) (.ref b bnm []) info r mp) i st = .ok (x.pos, st') ∧ PAfter cfg C B i x st st' := by
  obtain ⟨x, hp, hx, hsim⟩ := hav.here (.ref a anm []) {} false {} m s hwa (by intro h; cases h) (EnvOk.none _ _ _) (each_ref a anm) ha hle hs
  simp only [Cert.nul, Cert.lk] at hx
  have hu : usesEnv cfg (.ref a anm []) = false := by simp [usesEnv, hi.ad, hi.amac]
  rw [hu] at hsim
  have hstep : ∀ n st, run (n + 1) cfg (.prec (.ref a anm []) (.ref b bnm []) info r mp) i st =
      parsePrec (run n) cfg (.ref a anm []) (.ref b bnm []) info r mp i st := fun _ _ => rfl
  cases x with
  | fail c =>
    refine ⟨_, .prec_fail hp, ResOk.failed (fun h => by simp [hx.cut h]), (by intro _ _ _ h; cases h), ?_⟩
    intro B st hr
    obtain ⟨n, st', e1, a1⟩ := hsim B st hr (by intro h; cases h)
    refine ⟨n + 1, st', ?_, a1.toP⟩
    rw [hstep]; unfold parsePrec
    rw [andThen_ok]
    exact Or.inl ⟨_, e1, rfl⟩
  | ok j c s1 =>
    obtain ⟨b1, b2, b3, b4, b5⟩ := hx.pos j c s1 rfl
    have hmv : ∃ bd2, (i < j ∨ (j = i ∧ bd2 = bd)) ∧ wf cfg C {} false m bd2 (.ref b bnm []) = true := by
      rcases Nat.lt_or_eq_of_le b1 with h | rfl
      · exact ⟨C.top, Or.inl h, hi.btTop⟩
      · exact ⟨bd, Or.inr ⟨rfl, rfl⟩, hwb (b4 rfl)⟩
    obtain ⟨bd2, hmv, hwb2⟩ := hmv
    obtain ⟨z, hz, hzr, hzv, hzs⟩ := hl j b1 bd2 mp i s1 (hav.move b2 hmv) hwb2 b3 b2 b5 (ref_vals (G := cfg.gram) hi.ad hi.amac hi.aval hp)
    refine ⟨z.orCut c, .prec_atom hp hz, ⟨?_, ?_⟩, ?_, ?_⟩
    · intro h
      have : c = true ∨ z.cutOf = true := by cases z <;> simpa [PRes.orCut, PRes.cutOf] using h
      rcases this with h | h
      · have := hx.cut h; simp [this]
      · exact hzr.cut h
    · intro k c' s' e
      cases z with
      | fail => cases e
      | ok k2 c2 s2 =>
        cases e
        obtain ⟨d1, d2, d3, d4, d5⟩ := hzr.pos _ _ _ rfl
        exact ⟨by omega, d2, d3, fun h => b4 (by omega), d5⟩
    · intro k c' s' e
      cases z with
      | fail => cases e
      | ok k2 c2 s2 => cases e; exact hzv _ _ _ rfl
    · intro B st hr
      obtain ⟨n1, st1, e1, a1⟩ := hsim B st hr (by intro h; cases h)
      have hr1 := hr.nextP a1.toP hmv
      have hr2 : Rel cfg C B bd2 m j s1 { st1 with precToks := (b, []) :: st1.precToks } :=
        { hr1 with
          pre := hr1.pre.same ⟨rfl, rfl, rfl⟩ rfl
          prec := by
            intro q hq
            simp only [List.map_cons, List.mem_cons] at hq
            rcases hq with rfl | hq
            · simp [actionOff, hi.bd, hi.bact]
            · exact hr1.prec q hq }
      obtain ⟨n2, st2, e2, a2⟩ := hzs B _ hr2 ⟨_, _, rfl⟩
      have e3 : run (max n1 n2 + 1) cfg (.prec (.ref a anm []) (.ref b bnm []) info r mp) i st =
          .ok ((z.orCut c).pos, { st2 with precToks := st2.precToks.tail }) := by
        rw [hstep]; unfold parsePrec
        rw [andThen_ok]
        right
        refine ⟨j, st1, (run_fmono _ _).ok e1 (Nat.le_max_left _ _), ?_⟩
        have hbr : binopRule cfg (.ref b bnm []) r st1 = .ok b := by
          unfold binopRule; simp only [hi.rd, hi.rmac, Bool.false_eq_true, if_false]
        rw [hbr]
        simp only [Out.bind]
        rw [after_ok]
        refine ⟨z.pos, st2, (run_fmono _ _).ok e2 (Nat.le_max_right _ _), ?_⟩
        cases z <;> rfl
      refine ⟨_, _, e3, ⟨?_, ?_, a2.recd, a2.memo, a2.lr, ?_, ?_⟩, post_P hr.pre (by intros; simp) e3, a2.name.trans a1.ext.name⟩
      · intro j' c' s' e
        cases z with
        | fail => cases e
        | ok k2 c2 s2 => cases e; exact a2.res _ _ _ rfl
      · have := a2.cut
        rw [show (z.orCut c).cutOf = (c || z.cutOf) by cases z <;> rfl, ← orHead_orHead]
        exact this.trans (congrArg _ a1.cut)
      · intro q h; exact (a2.held q h).trans (a1.held q h)
      · intro h; exact (a2.capl h).trans (a1.capl h)

/-- Combining operand, operator and operand. -/
theorem precReduce_does (hc : CertOk cfg C al) (hact : actionOff cfg r true = true) (start k : Nat) (st : St V)
    (hpt : ∀ q ∈ st.precToks.map (·.1), actionOff cfg q false = true) :
    ∃ dt, precReduce cfg r start k st = { st with dt := dt, vs := precFrame cfg.gram r start k st.vs } := by
  have hne : ∀ e ∈ st.precToks, ¬ e.1 = r := by
    intro e he h
    have := hpt e.1 (List.mem_map_of_mem he)
    rw [h] at this
    simp only [actionOff] at this hact
    cases hd : cfg.rules[r]? with
    | none => rw [hd] at this; cases this
    | some d =>
      rw [hd] at this hact
      simp only [Option.map_some, Option.getD_some, beq_iff_eq] at this hact
      rw [this] at hact; cases hact
  have hmap : ∀ f : Frame V, (st.precToks.map fun e => if e.1 = r then (e.1, f.token cfg.input) else e) = st.precToks := by
    intro f
    rw [List.map_congr_left (g := id), List.map_id]
    intro e he
    rw [if_neg (hne e he)]; rfl
  have hany : st.precToks.any (fun e => decide (e.1 = r)) = false := by
    rw [List.any_eq_false]
    intro e he
    simpa using hne e he
  unfold precReduce precFrame Cfg.gram hasAction
  rw [hany]
  cases ha : cfg.action r with
  | none => exact ⟨st.dt, by simp [ha]⟩
  | some f =>
    simp only [Option.isSome_some, Bool.true_or, if_true, Option.map_some, callAction, ha, hmap]
    exact ⟨_, by rw [hc.dt.action r f ha]⟩

theorem loop_all (hc : CertOk cfg C al) (hi : PrecInfo cfg C m r a b anm bnm dr da db) (i : Nat) :
    LoopOk cfg C al m r a b anm bnm info i := by
  by_cases hlen : cfg.input.length ≤ i
  · intro bd mp start s hav hwb ha hle hs hv
    refine ⟨_, .prec_eof hlen, ⟨(by intro h; cases h), ?_⟩, ?_, ?_⟩
    · rintro _ _ _ ⟨⟩; exact ⟨Nat.le_refl _, hle, ha, fun _ => rfl, hs⟩
    · rintro _ _ _ ⟨⟩; exact hv
    · intro B st hr _
      refine ⟨1, st, ?_, (after_same hr (Same.refl st) (Nat.le_refl _) hle rfl rfl).toP⟩
      show precRound (run 0) cfg _ _ info r mp b start i st = _
      unfold precRound
      rw [if_neg (by omega)]; rfl
  have hlt : i < cfg.input.length := by omega
  have IHl : ∀ j, i < j → LoopOk cfg C al m r a b anm bnm info j := fun j hj => loop_all hc hi j
  intro bd mp start s hav hwb ha hle hs hv
  obtain ⟨caps, f⟩ := s
  have hs0 : CapsOk cfg C al (⟨caps, {}⟩ : PSt V) := hs
  obtain ⟨y, hpb, hp, hx, hsim⟩ := binop_does (f := {}) hc hi.bd hi.bmac hi.bflat hi.blr hwb hav ha hle hs0
  have hstep : ∀ n st, run (n + 1) cfg (.precLoop (.ref a anm []) (.ref b bnm []) info r mp b start) i st =
      precRound (run n) cfg (.ref a anm []) (.ref b bnm []) info r mp b start i st := fun _ _ => rfl
  -- running the operator rule
  have hrun : ∀ B st, Rel cfg C B bd m i ⟨caps, f⟩ st → (∃ t tl, st.precToks = (b, t) :: tl) → ∃ n st1,
      run n cfg (.ope (.ref b bnm [])) i { st with vs := {} } = .ok ((holdRes cfg.gram b db i {} y).pos, st1) ∧
      After cfg C B i (holdRes cfg.gram b db i {} y) { st with vs := {} } st1 ∧
      ((holdRes cfg.gram b db i {} y).pos.isSome = true → (st1.precToks.head?.map (·.2)).getD [] = holdTok cfg.gram b db i y) := by
    intro B st hr ⟨t, tl, ht⟩
    have hr0 : Rel cfg C B bd m i ⟨caps, {}⟩ { st with vs := {} } :=
      { hr with
        pre := hr.pre.same ⟨rfl, rfl, rfl⟩ rfl
        vs := fun _ => rfl }
    obtain ⟨n, st1, e1, a1, tk⟩ := hsim B _ hr0
    refine ⟨n, st1, e1, a1, fun h => ?_⟩
    have hk : st1.precToks.map (·.1) = st.precToks.map (·.1) := a1.p.keep.precToks
    rw [ht] at hk
    cases hq : st1.precToks with
    | nil => rw [hq] at hk; cases hk
    | cons e es =>
      rw [hq] at hk
      simp only [List.map_cons, List.cons.injEq] at hk
      have := tk hi.pack hi.reco hi.bact h e (by rw [hq]; exact List.mem_cons_self) hk.1
      simpa using this
  -- stopping here
  have hstop : ∀ c, (c = true → C.leak b = true) → Peg cfg.gram {} m (.precL (.ref a anm []) (.ref b bnm []) info r mp start) i ⟨caps, f⟩
        (.ok i c ⟨caps, f⟩) →
      (∀ B st, Rel cfg C B bd m i ⟨caps, f⟩ st → (∃ t tl, st.precToks = (b, t) :: tl) → ∃ n st1,
        run n cfg (.precLoop (.ref a anm []) (.ref b bnm []) info r mp b start) i st = .ok (some i, { st1 with vs := st.vs }) ∧
        After cfg C B i (holdRes cfg.gram b db i {} y) { st with vs := {} } st1 ∧ (holdRes cfg.gram b db i {} y).cutOf = c) →
      ∃ x, Peg cfg.gram {} m (.precL (.ref a anm []) (.ref b bnm []) info r mp start) i ⟨caps, f⟩ x ∧
        ResOk cfg C al true (C.leak a || C.leak b) i x ∧ (∀ j c s', x = .ok j c s' → s'.vs.vals ≠ []) ∧
        ∀ B st, Rel cfg C B bd m i ⟨caps, f⟩ st → (∃ t tl, st.precToks = (b, t) :: tl) →
          ∃ n st', run n cfg (.precLoop (.ref a anm []) (.ref b bnm []) info r mp b start) i st = .ok (x.pos, st') ∧
            PAfter cfg C B i x st st' := by
    intro c hcl hpg hgo
    refine ⟨_, hpg, ⟨fun h => by simp [hcl h], ?_⟩, ?_, ?_⟩
    · rintro _ _ _ ⟨⟩; exact ⟨Nat.le_refl _, hle, ha, fun _ => rfl, hs⟩
    · rintro _ _ _ ⟨⟩; exact hv
    · intro B st hr ht
      obtain ⟨n, st1, e, a1, hcut⟩ := hgo B st hr ht
      refine ⟨n, _, e, ⟨?_, ?_, a1.recd, a1.memo, a1.lr, a1.held, fun h => a1.capl h⟩, post_P hr.pre (by intros; simp) e, rfl⟩
      · rintro _ _ _ ⟨⟩
        exact ⟨(a1.capl hi.capl).trans hr.caps, fun h => hr.vs h⟩
      · have := a1.cut
        rw [hcut] at this
        exact this
  cases hxx : holdRes cfg.gram b db i {} y with
  | fail c =>
    rw [hxx] at hp hx
    refine hstop c (fun h => hx.cut h) (.prec_noOp hlt hp) ?_
    intro B st hr ht
    obtain ⟨n, st1, e1, a1, -⟩ := hrun B st hr ht
    refine ⟨n + 1, st1, ?_, a1, by rw [hxx]; rfl⟩
    rw [hxx] at e1
    rw [hstep]; unfold precRound
    rw [if_pos hlt, e1]
    rfl
  | ok j c s1 =>
    obtain ⟨c', s', hy1, hy2⟩ := holdRes_ok (show (holdRes cfg.gram b db i {} y).pos = some j by rw [hxx]; rfl)
    rw [hxx] at hp hx
    obtain ⟨b1, b2, b3, b4, b5⟩ := hx.pos j c s1 rfl
    have hij : i < j := by
      rcases Nat.lt_or_eq_of_le b1 with h | h
      · exact h
      · have := b4 h.symm; rw [hi.bnull] at this; cases this
    rw [hy1] at hpb
    have htok : holdTok cfg.gram b db i y = (ruleFrame b db i j s'.vs).token cfg.gram.input := by rw [hy1]; rfl
    -- the engine after reading the operator
    have hrun2 : ∀ B st, Rel cfg C B bd m i ⟨caps, f⟩ st → (∃ t tl, st.precToks = (b, t) :: tl) → ∃ n st1,
        run n cfg (.ope (.ref b bnm [])) i { st with vs := {} } = .ok (some j, st1) ∧
        After cfg C B i (.ok j c s1) { st with vs := {} } st1 ∧
        (st1.precToks.head?.map (·.2)).getD [] = (ruleFrame b db i j s'.vs).token cfg.gram.input := by
      intro B st hr ht
      obtain ⟨n, st1, e1, a1, htk⟩ := hrun B st hr ht
      rw [hxx] at e1 a1 htk
      exact ⟨n, st1, e1, a1, (htk rfl).trans htok⟩
    have stopHere : (∀ l as, info.lookup ((ruleFrame b db i j s'.vs).token cfg.gram.input) = some (l, as) → l < mp) → _ := fun hlow =>
      hstop c (fun h => hx.cut h) (.prec_stop hlt hi.bd hpb hp hlow) (by
        intro B st hr ht
        obtain ⟨n, st2, e1, a1, htk⟩ := hrun2 B st hr ht
        refine ⟨n + 1, st2, ?_, by rw [hxx]; exact a1, by rw [hxx]; rfl⟩
        rw [hstep]; unfold precRound
        rw [if_pos hlt, e1]
        simp only [Out.bind, htk]
        cases hlk : info.lookup ((ruleFrame b db i j s'.vs).token cfg.gram.input) with
        | none => rfl
        | some la =>
          obtain ⟨l, as⟩ := la
          simp only
          rw [if_pos (hlow l as hlk)])
    cases hlk : info.lookup ((ruleFrame b db i j s'.vs).token cfg.gram.input) with
    | none => exact stopHere (fun l as h => by rw [hlk] at h; cases h)
    | some la =>
      obtain ⟨l, as⟩ := la
      by_cases hlow : l < mp
      · exact stopHere (fun l' as' h => by rw [hlk] at h; cases h; exact hlow)
      -- going on
      have hmp : mp ≤ l := by omega
      have hvals : ∃ ov ovs, s1.vs.vals = ov :: ovs := by
        have := ref_vals (G := cfg.gram) hi.bd hi.bmac hi.bval hp
        cases h : s1.vs.vals with
        | nil => exact absurd h this
        | cons o os => exact ⟨o, os, rfl⟩
      obtain ⟨ov, ovs, hov⟩ := hvals
      have hs1 : CapsOk cfg C al ({ s1 with vs := {} } : PSt V) := b5
      have hav2 : Avail cfg C al C.top j := hav.later hij b2
      obtain ⟨z, hz, hzr, hzv, hzs⟩ := prec_of_loop (info := info) hc hi (fun j' hj' => IHl j' (by omega)) (nextLevel l as) hav2 hi.atTop
        (fun _ => hi.btTop) b3 b2 hs1
      -- the engine after reading the right operand
      have hrun3 : ∀ B st, Rel cfg C B bd m i ⟨caps, f⟩ st → (∃ t tl, st.precToks = (b, t) :: tl) → ∃ n st1 st2,
          run n cfg (.ope (.ref b bnm [])) i { st with vs := {} } = .ok (some j, st1) ∧
          After cfg C B i (.ok j c s1) { st with vs := {} } st1 ∧
          (st1.precToks.head?.map (·.2)).getD [] = (ruleFrame b db i j s'.vs).token cfg.gram.input ∧
          run n cfg (.prec (.ref a anm []) (.ref b bnm []) info r (nextLevel l as)) j { st1 with vs := {} } = .ok (z.pos, st2) ∧
          PAfter cfg C B j z { st1 with vs := {} } st2 := by
        intro B st hr ht
        obtain ⟨n1, st1, e1, a1, htk⟩ := hrun2 B st hr ht
        have hr0 : Rel cfg C B bd m i ⟨caps, {}⟩ { st with vs := {} } :=
          { hr with
            pre := hr.pre.same ⟨rfl, rfl, rfl⟩ rfl
            vs := fun _ => rfl }
        have hr1 : Rel cfg C B C.top m j s1 st1 := hr0.nextP a1.toP (Or.inl hij)
        have hr2 : Rel cfg C B C.top m j { s1 with vs := {} } { st1 with vs := {} } :=
          { hr1 with
            pre := hr1.pre.same ⟨rfl, rfl, rfl⟩ rfl
            vs := fun _ => rfl }
        obtain ⟨n2, st2, e2, a2⟩ := hzs B _ hr2
        exact ⟨max n1 n2, st1, st2, (run_fmono _ _).ok e1 (Nat.le_max_left _ _), a1, htk,
          (run_fmono _ _).ok e2 (Nat.le_max_right _ _), a2⟩
      have hvals1 : ∀ {B} {st st1 : St V}, After cfg C B i (.ok j c s1) { st with vs := {} } st1 → st1.vs.vals = ov :: ovs := by
        intro B st st1 a1
        rw [(a1.res _ _ _ rfl).2 hi.reco]; exact hov
      cases z with
      | fail cz =>
        refine ⟨_, .prec_noRhs hlt hi.bd hpb hp hlk hmp hz, ResOk.failed ?_, (by intro _ _ _ h; cases h), ?_⟩
        · intro h
          simp only [Bool.or_eq_true] at h
          rcases h with h | h
          · simp [hx.cut h]
          · exact hzr.cut h
        · intro B st hr ht
          obtain ⟨n, st1, st2, e1, a1, htk, e2, a2⟩ := hrun3 B st hr ht
          have e : run (n + 1) cfg (.precLoop (.ref a anm []) (.ref b bnm []) info r mp b start) i st = .ok (none, { st2 with vs := st.vs }) := by
            rw [hstep]; unfold precRound
            rw [if_pos hlt, e1]
            simp only [Out.bind, htk, hlk, if_neg hlow, hvals1 a1]
            have e2' : run n cfg (.prec (.ref a anm []) (.ref b bnm []) info r (if as = 76 then l + 1 else l)) j { st1 with vs := {} } =
              .ok (none, st2) := e2
            rw [e2']
          refine ⟨n + 1, _, e, ⟨?_, ?_, a2.recd, a2.memo, a2.lr, ?_, ?_⟩, post_P hr.pre (by intros; simp) e, rfl⟩
          · intro _ _ _ h; cases h
          · have h1 := a1.cut
            have h2 := a2.cut
            show st2.cut = orHead (c || cz) st.cut
            rw [← orHead_orHead]
            exact h2.trans (congrArg _ h1)
          · intro q h; exact (a2.held q h).trans (a1.held q h)
          · intro h; exact (a2.capl h).trans (a1.capl h)
      | ok k cz s2 =>
        obtain ⟨d1, d2, d3, d4, d5⟩ := hzr.pos _ _ _ rfl
        have hrv : ∃ rv rvs, s2.vs.vals = rv :: rvs := by
          cases h : s2.vs.vals with
          | nil => exact absurd h (hzv _ _ _ rfl)
          | cons o os => exact ⟨o, os, rfl⟩
        obtain ⟨rv, rvs, hrv⟩ := hrv
        have hik : i < k := by omega
        obtain ⟨w, hw, hwr, hwv, hws⟩ := IHl k hik C.top mp start
          { s2 with vs := precFrame cfg.gram r start k { f with vals := f.vals ++ [ov, rv] } } (hav.later hik d2) hi.btTop d3 d2 d5
          (by simp only [precFrame]; split <;> simp)
        refine ⟨w.orCut (c || cz), .prec_more hlt hi.bd hpb hp hlk hmp hz hov hrv hw, ⟨?_, ?_⟩, ?_, ?_⟩
        · intro h
          have : (c = true ∨ cz = true) ∨ w.cutOf = true := by cases w <;> simpa [PRes.orCut, PRes.cutOf] using h
          rcases this with (h | h) | h
          · simp [hx.cut h]
          · exact hzr.cut h
          · exact hwr.cut h
        · intro k2 c2 s3 e
          cases w with
          | fail => cases e
          | ok k3 c3 s4 =>
            cases e
            obtain ⟨g1, g2, g3, g4, g5⟩ := hwr.pos _ _ _ rfl
            exact ⟨by omega, g2, g3, fun _ => rfl, g5⟩
        · intro k2 c2 s3 e
          cases w with
          | fail => cases e
          | ok k3 c3 s4 => cases e; exact hwv _ _ _ rfl
        · intro B st hr ht
          obtain ⟨n, st1, st2, e1, a1, htk, e2, a2⟩ := hrun3 B st hr ht
          have hkeys : st2.precToks.map (·.1) = st.precToks.map (·.1) := a2.p.keep.precToks.trans a1.p.keep.precToks
          obtain ⟨dt, hred⟩ := precReduce_does (r := r) hc (by simp [actionOff, hi.rd, hi.ract]) start k
            { st2 with vs := { st.vs with vals := (st.vs.vals ++ [ov]) ++ [rv] } } (by rw [hkeys]; exact hr.prec)
          have hr0 : Rel cfg C B bd m i ⟨caps, {}⟩ { st with vs := {} } :=
            { hr with
              pre := hr.pre.same ⟨rfl, rfl, rfl⟩ rfl
              vs := fun _ => rfl }
          have hr1 : Rel cfg C B C.top m j s1 st1 := hr0.nextP a1.toP (Or.inl hij)
          have hr2 : Rel cfg C B C.top m j { s1 with vs := {} } { st1 with vs := {} } :=
            { hr1 with
              pre := hr1.pre.same ⟨rfl, rfl, rfl⟩ rfl
              vs := fun _ => rfl }
          have hr3 : Rel cfg C B C.top m k s2 st2 := by
            have hb : j < k ∨ (k = j ∧ C.top = C.top) := by
              rcases Nat.lt_or_eq_of_le d1 with h | h
              · exact Or.inl h
              · exact Or.inr ⟨h.symm, rfl⟩
            exact hr2.nextP a2 hb
          have hvs : st.vs = f := hr.vs hi.reco
          have hr4 : Rel cfg C B C.top m k { s2 with vs := precFrame cfg.gram r start k { f with vals := f.vals ++ [ov, rv] } }
              { ({ st2 with vs := { st.vs with vals := (st.vs.vals ++ [ov]) ++ [rv] } } : St V) with
                dt := dt, vs := precFrame cfg.gram r start k { st.vs with vals := (st.vs.vals ++ [ov]) ++ [rv] } } :=
            { hr3 with
              pre := hr3.pre.same ⟨rfl, rfl, rfl⟩ rfl
              vs := fun _ => by rw [hvs, List.append_assoc]; rfl }
          obtain ⟨n2, st3, e3, a3⟩ := hws B _ hr4 (by
            obtain ⟨t, tl, ht⟩ := ht
            rw [ht] at hkeys
            cases hq : st2.precToks with
            | nil => rw [hq] at hkeys; cases hkeys
            | cons e es =>
              rw [hq] at hkeys
              simp only [List.map_cons, List.cons.injEq] at hkeys
              exact ⟨e.2, es, by rw [← hkeys.1]⟩)
          have e : run (max n n2 + 1) cfg (.precLoop (.ref a anm []) (.ref b bnm []) info r mp b start) i st =
              .ok ((w.orCut (c || cz)).pos, st3) := by
            rw [hstep]; unfold precRound
            rw [if_pos hlt, (run_fmono _ _).ok e1 (Nat.le_max_left n n2)]
            simp only [Out.bind, htk, hlk, if_neg hlow, hvals1 a1]
            have e2' : run (max n n2) cfg (.prec (.ref a anm []) (.ref b bnm []) info r (if as = 76 then l + 1 else l)) j
              { st1 with vs := {} } = .ok (some k, st2) := (run_fmono _ _).ok e2 (Nat.le_max_left n n2)
            have hrv2 : st2.vs.vals = rv :: rvs := by rw [(a2.res _ _ _ rfl).2 hi.reco]; exact hrv
            rw [e2']
            simp only [hrv2]
            rw [hred]
            have := (run_fmono _ _).ok e3 (Nat.le_max_right n n2)
            rw [this]
            cases w <;> rfl
          refine ⟨_, _, e, ⟨?_, ?_, a3.recd, a3.memo, a3.lr, ?_, ?_⟩, post_P hr.pre (by intros; simp) e, ?_⟩
          · intro j' c' s' h
            cases w with
            | fail => cases h
            | ok k3 c3 s4 => cases h; exact a3.res _ _ _ rfl
          · have h1 := a1.cut
            have h2 := a2.cut
            have h3 := a3.cut
            rw [show (w.orCut (c || cz)).cutOf = ((c || cz) || w.cutOf) by cases w <;> rfl, ← orHead_orHead, ← orHead_orHead]
            exact h3.trans (congrArg _ (h2.trans (congrArg _ h1)))
          · intro q h; exact ((a3.held q h).trans (a2.held q h)).trans (a1.held q h)
          · intro h; exact ((a3.capl h).trans (a2.capl h)).trans (a1.capl h)
          · refine a3.name.trans ?_
            show (precFrame cfg.gram r start k _).name = st.vs.name
            unfold precFrame; split <;> rfl
termination_by cfg.input.length - i
decreasing_by omega

end

theorem body_does (hc : CertOk cfg C al) {r : Nat} {d : Def} (hd : cfg.rules[r]? = some d) (hmac : d.isMacro = false)
    (hlr : d.isLR = false)
    {m : Mode} (hm : C.modes r m = true) {i : Nat} {caps : List (List Byte × List Byte)} (hcl : ∀ e, Claim cfg C al e (C.rank r) i)
    (ih : IH cfg C al 0 (C.rank r) i) (ha : al i) (hi : i ≤ cfg.input.length) (hs : CapsOk cfg C al (⟨caps, {}⟩ : PSt V)) :
    Does cfg C al (C.rank r) {} (usesEnv cfg d.ope) m (C.null r) (C.leak r) (.body d) i ⟨caps, {}⟩ (bodyOf cfg d i) := by
  cases hpr : d.ope.isPrec with
  | false => exact body_plain hc hd hmac hlr hpr hm (hcl _) ih ha hi hs
  | true =>
    have hw := (hc.body r d hd hmac hlr m hm).1
    rw [hpr, if_pos rfl] at hw
    refine body_of_ope hc hd hmac hlr hm ?_ ih
    generalize hm' : ({ m with tok := m.tok || d.noWs } : Mode) = m' at hw ⊢
    cases hope : d.ope with
    | prec A B info rule =>
      rw [hope] at hw
      unfold Cert.precOk at hw
      split at hw
      case h_2 => cases hw
      rename_i _ a anm b bnm info' rule' heq
      cases heq
      simp only [Bool.and_eq_true, Bool.not_eq_true', beq_iff_eq] at hw
      obtain ⟨⟨⟨⟨⟨⟨⟨⟨⟨⟨⟨⟨⟨w1, w2⟩, w3⟩, w4⟩, w5⟩, w6⟩, w7⟩, w8⟩, w9⟩, w10⟩, w11⟩, w12⟩, w13⟩, w14⟩ := hw
      subst w4
      cases hda : cfg.rules[a]? with
      | none => simp [hasValue, hda] at w7
      | some da =>
      cases hdb : cfg.rules[b]? with
      | none => simp [hasValue, hdb] at w8
      | some db =>
      simp only [hasValue, flatBody, actionOff, hda, hdb, hd, Option.map_some, Option.getD_some, Bool.and_eq_true, Bool.not_eq_true',
        beq_iff_eq] at w5 w6 w7 w8 w9
      have pi : PrecInfo cfg C m' rule a b anm bnm d da db :=
        ⟨w1, w2, w3, hd, hda, hdb, hmac, w7.1, w8.1, w5, w6, w7.2, w8.2, w9.1, w9.2, w10, w12, w13⟩
      obtain ⟨x, hp, hx, -, hsim⟩ := prec_of_loop (info := info) hc pi (fun j _ => loop_all hc pi j) 0 ⟨hcl, ih⟩ w11
        (fun h => by
          simp only [Bool.or_eq_true, Bool.not_eq_true'] at w14
          exact w14.resolve_left (by rw [h]; simp)) ha hi hs
      refine ⟨x, .prec hp, ?_, ?_⟩
      · simp only [Cert.nul, Cert.lk]; exact hx
      · intro B st hr _
        obtain ⟨n, st', e1, a1⟩ := hsim B st hr
        have hvs : st.vs = {} := hr.vs w2
        refine ⟨n + 1, st', ?_, a1.toCore, a1.p, ?_⟩
        · show parseOpe (run n) cfg (.prec (.ref a anm []) (.ref b bnm []) info rule) i st = .ok (x.pos, st')
          unfold parseOpe
          rw [if_neg (by omega)]
          exact e1
        · refine ⟨?_, ?_, ?_, a1.name⟩ <;> rw [hvs] <;> exact List.nil_prefix
    | _ => rw [hope] at hpr; cases hpr

end Verif
