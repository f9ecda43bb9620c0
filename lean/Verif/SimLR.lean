import Verif.SimPrec
/-!
# The engine agrees with the reference semantics: left-recursive rules

A rule `A <- A r1 / ... / A rn / b` at `i` is evaluated with the result "fails" remembered for `A` at `i`, which gives the result
of `b`, and then again and again with the last result remembered, until it gets no longer.
-/

namespace Verif
open Out CharClass

variable {V : Type} {cfg : Cfg V} {C : Cert} {al : Nat → Prop}

/-! ## The alternatives -/

/-- A left-recursive alternative. -/
def lrAlt (r : Nat) (p : List Byte × List Ope) : Ope := .seq (.ref r p.1 [] :: p.2) none

theorem lrSplit_lead (r : Nat) : ∀ es : List Ope, (es.take (lrSplit r es).1.length).all Ope.unguarded = true →
    ∃ lead : List (List Byte × List Ope), (lrSplit r es).1 = lead.map (·.2) ∧ es = lead.map (lrAlt r) ++ (lrSplit r es).2
  | [], _ => ⟨[], rfl, rfl⟩
  | e :: rest, h => by
    have stop : lrSplit r (e :: rest) = ([], e :: rest) → ∃ lead : List (List Byte × List Ope),
        (lrSplit r (e :: rest)).1 = lead.map (·.2) ∧ e :: rest = lead.map (lrAlt r) ++ (lrSplit r (e :: rest)).2 := by
      intro h; rw [h]; exact ⟨[], rfl, rfl⟩
    cases e with
    | seq l kw =>
      cases l with
      | nil => exact stop rfl
      | cons a l =>
        cases a with
        | ref r' nm as =>
          cases as with
          | nil =>
            by_cases hr : r' = r
            · have hs : lrSplit r (.seq (.ref r' nm [] :: l) kw :: rest) = (l :: (lrSplit r rest).1, (lrSplit r rest).2) := by
                simp only [lrSplit, hr, if_true]
              rw [hs] at h ⊢
              simp only [List.length_cons, List.take_succ_cons, List.all_cons, Bool.and_eq_true] at h
              obtain ⟨lead, h1, h2⟩ := lrSplit_lead r rest h.2
              refine ⟨(nm, l) :: lead, by simp [h1], ?_⟩
              have hk : kw = none := by
                have := h.1
                simp only [Ope.unguarded, Option.isNone_iff_eq_none] at this
                exact this
              simp only [List.map_cons, List.cons_append, lrAlt, hk, hr]
              exact congrArg _ h2
            · exact stop (by simp only [lrSplit, hr, if_false])
          | cons b as => exact stop rfl
        | _ => exact stop rfl
    | _ => exact stop rfl

/-- What the test establishes about a left-recursive rule. -/
structure LrData (cfg : Cfg V) (C : Cert) (al : Nat → Prop) (m : Mode) (r : Nat) (d : Def) (es : List Ope) (fs : List FirstSet)
    (lead : List (List Byte × List Ope)) (bs : List Ope) : Prop where
  rule : cfg.rules[r]? = some d
  isLR : d.isLR = true
  mac : d.isMacro = false
  noWs : d.noWs = false
  ope : d.ope = .cho es false fs
  split : lrSplit r es = (lead.map (·.2), bs)
  alts : es = lead.map (lrAlt r) ++ bs
  pred : cfg.predicate r = none
  capless : C.capless = true
  null : C.null r = false
  base : wfAll cfg C {} false m (C.rank r) bs = true
  tails : ∀ p ∈ lead, wfSeq cfg C {} false m C.top p.2 = true
  cut : cfg.hasCut = true ∨ C.lkAny false es = false
  mode : C.modes r m = true
  single : ∀ m', C.modes r m' = true → m' = m
  node : d.ope.Each (nodeOk cfg al)
  fs : ∀ (k : Nat) (f : FirstSet), fs[k]? = some f → k < lead.length → ∀ v m i s x, al i → fsSkip (some f) (cfg.rest i) = true →
    Peg cfg.gram v m (.choL bs lead.length es.length) i s x → x.pos = none

theorem allModes_all (m : Mode) : m ∈ allModes := by
  rcases m with ⟨_ | _, _ | _⟩ <;> simp [allModes]

theorem lr_data (hc : CertOk cfg C al) {r : Nat} {d : Def} {m : Mode} (hd : cfg.rules[r]? = some d) (hmac : d.isMacro = false)
    (hlr : d.isLR = true) (hm : C.modes r m = true) : ∃ es fs lead bs, LrData cfg C al m r d es fs lead bs := by
  obtain ⟨hfs, hok⟩ := hc.lr r d hd hmac hlr m hm
  unfold Cert.lrOk at hok
  cases hope : d.ope with
  | cho es l fs =>
    rw [hope] at hok hfs
    simp only [Bool.and_eq_true, Bool.not_eq_true', Bool.or_eq_true, List.all_eq_true, beq_iff_eq, Option.isNone_iff_eq_none] at hok
    obtain ⟨⟨⟨⟨⟨⟨⟨⟨⟨⟨hpred, h1⟩, h2⟩, h3⟩, h4⟩, h5⟩, h6⟩, h7⟩, h8⟩, h9⟩, h10⟩ := hok
    subst h1
    obtain ⟨lead, e1, e2⟩ := lrSplit_lead r es (by rw [List.all_eq_true]; exact h6)
    have hlen : (lrSplit r es).1.length = lead.length := by rw [e1, List.length_map]
    refine ⟨es, fs, lead, (lrSplit r es).2, hd, hlr, hmac, h2, hope, by rw [← e1], e2, hpred, h4, h5, h7, ?_, h9, hm, ?_, ?_, ?_⟩
    · intro p hp
      exact h8 p.2 (by rw [e1]; exact List.mem_map_of_mem hp)
    · intro m' hm'
      exact (h10 m' (allModes_all m')).resolve_left (by rw [hm']; simp)
    · exact hc.node r d m hd hm (by rw [hope]; rfl)
    · intro k f hk hlt v m' i s x ha hsk hp
      rw [← hlen] at hlt hp
      exact hfs k f hk hlt v m' i s x ha hsk hp
  | _ => rw [hope] at hok; cases hok

/-! ## Rounds -/

/-- The results `zs` of the first alternatives (from number `k` on) and the result `y` of the others combined. -/
def loopRes (total : Nat) : List (PRes V) → Nat → PRes V → PRes V
  | [], _, y => y
  | z :: zs, k, y => choRes total k z (loopRes total zs (k + 1) y)

/-- Either all first alternatives fail without a cut, or the others do not matter. -/
theorem loopRes_cases (total : Nat) : ∀ (zs : List (PRes V)) (k : Nat), (∀ y, loopRes total zs k y = y) ∨
    ∃ w, ∀ y, loopRes total zs k y = w
  | [], _ => Or.inl fun _ => rfl
  | z :: zs, k => by
    cases z with
    | ok j c s => exact Or.inr ⟨_, fun _ => rfl⟩
    | fail c =>
      cases c with
      | true => exact Or.inr ⟨_, fun _ => rfl⟩
      | false => exact loopRes_cases total zs (k + 1)

theorem loopRes_fails (total : Nat) : ∀ (zs : List (PRes V)) (k : Nat) (y : PRes V), (∀ z ∈ zs, z = .fail false) → loopRes total zs k y = y
  | [], _, _, _ => rfl
  | z :: zs, k, y, h => by
    rw [loopRes, h z List.mem_cons_self]
    exact loopRes_fails total zs (k + 1) y fun z hz => h z (List.mem_cons_of_mem _ hz)

/-- The remembered result of rule `r` at `i` is `seed`. -/
def Seeded (r i : Nat) (seed : Option (Nat × Option V)) (B : List (Nat × Nat)) (st : St V) : Prop :=
  (r, i) ∈ B ∧ st.lrMemo.lookup (r, 0, i) = some seed

theorem steady_seeded (r i : Nat) (seed : Option (Nat × Option V)) : Steady (Seeded r i seed) :=
  fun _ _ _ h hh => ⟨h.1, (hh (r, i) h.1).trans h.2⟩

/-- The loop over all alternatives. -/
theorem lrLoop {Q : List (Nat × Nat) → St V → Prop} (hQ : Steady Q) {v : Env} {m : Mode} {b i total : Nat} {s : PSt V} {r : Nat}
    {fs : List FirstSet} {bs : List Ope} {y : PRes V} :
    ∀ (lead : List (List Byte × List Ope)) (zs : List (PRes V)) (k : Nat), lead.length = zs.length →
      (∀ (q : Nat) (p : List Byte × List Ope) (z : PRes V), lead[q]? = some p → zs[q]? = some z →
        (cfg.hasCut = true ∨ z.cutOf = false) ∧ (fsSkip fs[k + q]? (cfg.rest i) = true → z = .fail false) ∧
        ∀ B st, Rel cfg C B b m i s st → (usesEnvList cfg p.2 = true → EnvRel cfg v st) → Q B st →
          ∃ n st', run n cfg (.ope (lrAlt r p)) i st = .ok (z.pos, st') ∧ After cfg C B i z st st') →
      (∀ B st, Rel cfg C B b m i s st → (usesEnvList cfg bs = true → EnvRel cfg v st) → Q B st →
        (cfg.hasCut = true → st.cut.head? = some false) →
        ∃ n st', choLoop (run n) cfg total fs bs (k + lead.length) i st = .ok (y.pos, st') ∧ After cfg C B i y st st') →
      ∀ B st, Rel cfg C B b m i s st → (usesEnvList cfg (lead.map (lrAlt r) ++ bs) = true → EnvRel cfg v st) → Q B st →
        (cfg.hasCut = true → st.cut.head? = some false) →
        ∃ n st', choLoop (run n) cfg total fs (lead.map (lrAlt r) ++ bs) k i st = .ok ((loopRes total zs k y).pos, st') ∧
          After cfg C B i (loopRes total zs k y) st st'
  | [], zs, k, hl, _, hb => by
    cases zs with
    | cons z zs => cases hl
    | nil => exact hb
  | p :: lead, zs, k, hl, ha, hb => by
    cases zs with
    | nil => cases hl
    | cons z zs =>
      obtain ⟨h1, h2, h3⟩ := ha 0 p z rfl rfl
      have ih := lrLoop hQ lead zs (k + 1) (by simpa using hl)
        (fun q p' z' e1 e2 => by
          have := ha (q + 1) p' z' (by simpa using e1) (by simpa using e2)
          rw [show k + (q + 1) = k + 1 + q by omega] at this
          exact this)
        (by rw [show k + 1 + lead.length = k + (p :: lead).length by simp only [List.length_cons]; omega]; exact hb)
      intro B st hr he hq hcut
      refine cho_step (u := usesEnvList cfg (lrAlt r p :: (lead.map (lrAlt r) ++ bs))) (u1 := usesEnvList cfg p.2) (v := v)
        hQ ?_ ?_ h1 h2 h3 ih B st hr he hq hcut
      · intro h; simp [usesEnvList, lrAlt, usesEnv, h]
      · intro h; simp [usesEnvList, h]

theorem nulAny_iff (p : Bool) : ∀ es : List Ope, C.nulAny p es = true ↔ ∃ e ∈ es, C.nul p e = true
  | [] => by simp [Cert.nulAny]
  | e :: es => by simp [Cert.nulAny, nulAny_iff p es]

theorem lkAny_iff (p : Bool) : ∀ es : List Ope, C.lkAny p es = true ↔ ∃ e ∈ es, C.lk p e = true
  | [] => by simp [Cert.lkAny]
  | e :: es => by simp [Cert.lkAny, lkAny_iff p es]

theorem usesEnvList_iff : ∀ es : List Ope, usesEnvList cfg es = true ↔ ∃ e ∈ es, usesEnv cfg e = true
  | [] => by simp [usesEnvList]
  | e :: es => by simp [usesEnvList, usesEnvList_iff es]

section
variable {m : Mode} {r : Nat} {d : Def} {es : List Ope} {fs : List FirstSet} {lead : List (List Byte × List Ope)} {bs : List Ope}

/-- The left-recursive reference under a seed. -/
theorem ref_seeded (D : LrData cfg C al m r d es fs lead bs) {i : Nat} (hi : i ≤ cfg.input.length) (nm : List Byte) (st : St V)
    {seed : Option (Nat × Option V)} (h : st.lrMemo.lookup (r, 0, i) = some seed) (n : Nat) :
    run (n + 2) cfg (.ope (.ref r nm [])) i st = .ok (seed.map (·.1), match seed with
      | none => { st with lrRefs := setInsert (r, 0) st.lrRefs }
      | some jv => emplace cfg d jv.2 { st with lrRefs := setInsert (r, 0) st.lrRefs }) := by
  show parseOpe (run (n + 1)) cfg (.ref r nm []) i st = _
  unfold parseOpe
  rw [if_neg (by omega)]
  simp only [refer, D.rule, D.mac, D.isLR, Bool.false_eq_true, if_false, Bool.not_true, Bool.and_false, Bool.false_and, withArgs]
  rw [after_ok]
  have hh : ∀ st' : St V, run (n + 1) cfg (.hold r) i st' = lrHold (run n) cfg r d i st' := by
    intro st'
    show holder (run n) cfg r i st' = _
    unfold holder
    simp only [D.rule, D.isLR, D.mac, Bool.not_true, Bool.and_false, Bool.false_eq_true, if_false, if_true]
  rw [hh]
  unfold lrHold
  simp only [h]
  cases seed with
  | none => exact ⟨_, _, rfl, rfl⟩
  | some jv =>
    refine ⟨_, _, rfl, ?_⟩
    simp only [Option.map_some]
    unfold emplace
    split <;> rfl

theorem emplace_push (D : LrData cfg C al m r d es fs lead bs) (v : Option V) (st : St V) : ∃ g, emplace cfg d v st = { st with vs := g } ∧
    (cfg.recognizeOnly = false → g = pushValue d v st.vs) := by
  unfold emplace pushValue
  cases hr : cfg.recognizeOnly with
  | true => exact ⟨st.vs, by simp, fun h => by cases h⟩
  | false =>
    cases hs : d.ignoreSV with
    | true => exact ⟨st.vs, by simp, fun _ => by simp⟩
    | false => exact ⟨_, by simp only [Bool.not_false, Bool.and_self, if_true]; rfl, fun _ => by simp⟩

theorem lrOk_refs (D : LrData cfg C al m r d es fs lead bs) {B : List (Nat × Nat)} {st : St V} (h : LrOk cfg C B st) :
    LrOk cfg C B { st with lrRefs := setInsert (r, 0) st.lrRefs } := by
  refine ⟨?_, h.2⟩
  intro k hk
  simp only [setInsert] at hk
  split at hk
  · exact h.1 k hk
  · rcases List.mem_cons.mp hk with rfl | hk
    · exact ⟨d, D.rule, D.isLR⟩
    · exact h.1 k hk

/-- A reference to the rule itself, in the first round. -/
theorem ref_none (hc : CertOk cfg C al) (D : LrData cfg C al m r d es fs lead bs) {b i : Nat} {s : PSt V} (nm : List Byte)
    {B : List (Nat × Nat)} {st : St V} (hr : Rel cfg C B b m i s st) (hq : st.lrMemo.lookup (r, 0, i) = some none) :
    ∃ st', run 2 cfg (.ope (.ref r nm [])) i st = .ok (none, st') ∧ After cfg C B i (.fail false) st st' := by
  have e := ref_seeded D hr.pre.le nm st hq 0
  refine ⟨_, e, after_of_core (t := .ope (.ref r nm [])) hc (noPrec_of_each _ (each_ref (cfg := cfg) (al := al) r nm)) (by intros; simp) hr.pre e ?_⟩
  exact ⟨by rintro _ _ _ ⟨⟩, (orHead_false _).symm, hr.recd, hr.memo.same rfl, lrOk_refs D hr.lr, fun _ _ => rfl, fun _ => rfl⟩

/-- A reference to the rule itself, when it has grown to `j`. -/
theorem ref_some (hc : CertOk cfg C al) (D : LrData cfg C al m r d es fs lead bs) {b i j : Nat} {v v' : Option V} {s : PSt V} (nm : List Byte)
    {B : List (Nat × Nat)} {st : St V} (hr : Rel cfg C B b m i s st) (hq : st.lrMemo.lookup (r, 0, i) = some (some (j, v)))
    (hv : cfg.recognizeOnly = false → ∀ g, pushValue d v g = pushValue d v' g) :
    ∃ st', run 2 cfg (.ope (.ref r nm [])) i st = .ok (some j, st') ∧
      After cfg C B i (.ok j false { s with vs := pushValue d v' s.vs }) st st' := by
  have e := ref_seeded D hr.pre.le nm st hq 0
  obtain ⟨g, hg, hg'⟩ := emplace_push D v { st with lrRefs := setInsert (r, 0) st.lrRefs }
  simp only [Option.map_some, hg] at e
  refine ⟨_, e, after_of_core (t := .ope (.ref r nm [])) hc (noPrec_of_each _ (each_ref (cfg := cfg) (al := al) r nm)) (by intros; simp) hr.pre e ?_⟩
  refine ⟨?_, (orHead_false _).symm, hr.recd, hr.memo.same rfl, lrOk_refs D hr.lr, fun _ _ => rfl, fun _ => rfl⟩
  rintro _ _ _ ⟨⟩
  refine ⟨hr.caps, fun h => ?_⟩
  show g = pushValue d v' s.vs
  rw [hg' h, hv h]
  show pushValue d v' st.vs = _
  rw [hr.vs h]

theorem alt_eq {i : Nat} (hi : i ≤ cfg.input.length) (p : List Byte × List Ope) (st : St V) (n : Nat) :
    run (n + 1) cfg (.ope (lrAlt r p)) i st =
      Verif.andThen (run n cfg (.ope (.ref r p.1 [])) i st) fun j st => seqLoop (run n) cfg p.2 j st := by
  show parseOpe (run n) cfg (lrAlt r p) i st = _
  unfold parseOpe lrAlt
  rw [if_neg (by omega)]; rfl

theorem LrData.nodes (D : LrData cfg C al m r d es fs lead bs) : ∀ e ∈ es, e.Each (nodeOk cfg al) := by
  have h := D.node
  rw [D.ope] at h
  simp only [Ope.Each] at h
  exact eachL_iff.mp h.2

theorem LrData.tailNodes (D : LrData cfg C al m r d es fs lead bs) {p : List Byte × List Ope} (hp : p ∈ lead) :
    Ope.EachL (nodeOk cfg al) p.2 := by
  have h := D.nodes (lrAlt r p) (by rw [D.alts]; exact List.mem_append_left _ (List.mem_map_of_mem hp))
  simp only [lrAlt, Ope.Each, Ope.EachL] at h
  exact h.2.2

theorem LrData.notNull (D : LrData cfg C al m r d es fs lead bs) (hc : CertOk cfg C al) : C.nulAny false bs = false := by
  cases h : C.nulAny false bs with
  | false => rfl
  | true =>
    rw [nulAny_iff] at h
    obtain ⟨e, he, hn⟩ := h
    have h1 : C.nul false d.ope = true := by
      rw [D.ope]; simp only [Cert.nul]; rw [nulAny_iff]
      exact ⟨e, by rw [D.alts]; exact List.mem_append_right _ he, hn⟩
    have := hc.null r d D.rule (by rw [show C.ctx r d = {} by simp [Cert.ctx, D.mac]]; exact h1)
    rw [D.null] at this; cases this

theorem LrData.cutBase (D : LrData cfg C al m r d es fs lead bs) : cfg.hasCut = true ∨ C.lkAny false bs = false := by
  refine D.cut.imp id fun h => ?_
  cases h' : C.lkAny false bs with
  | false => rfl
  | true =>
    rw [lkAny_iff] at h'
    obtain ⟨e, he, hn⟩ := h'
    have : C.lkAny false es = true := by
      rw [lkAny_iff]; exact ⟨e, by rw [D.alts]; exact List.mem_append_right _ he, hn⟩
    rw [h] at this; cases this

theorem LrData.cutTail (D : LrData cfg C al m r d es fs lead bs) {p : List Byte × List Ope} (hp : p ∈ lead) :
    cfg.hasCut = true ∨ C.lkAny false p.2 = false := by
  refine D.cut.imp id fun h => ?_
  cases h' : C.lkAny false p.2 with
  | false => rfl
  | true =>
    have : C.lkAny false es = true := by
      rw [lkAny_iff]
      refine ⟨lrAlt r p, by rw [D.alts]; exact List.mem_append_left _ (List.mem_map_of_mem hp), ?_⟩
      simp only [lrAlt, Cert.lk, Cert.lkAny, h', Bool.or_true]
    rw [h] at this; cases this

/-- The other alternatives. -/
theorem base_does (hc : CertOk cfg C al) (D : LrData cfg C al m r d es fs lead bs) {i : Nat} {s : PSt V}
    (hcl : ∀ e, Claim cfg C al e (C.rank r) i) (ha : al i) (hi : i ≤ cfg.input.length) (hs : CapsOk cfg C al s) :
    ∃ x, Peg cfg.gram {} m (.choL bs lead.length es.length) i s x ∧ ResOk cfg C al false (C.lkAny false bs) i x ∧
      ∀ B st, Rel cfg C B (C.rank r) m i s st → (usesEnvList cfg bs = true → EnvRel cfg {} st) →
        (cfg.hasCut = true → st.cut.head? = some false) →
        ∃ n st', choLoop (run n) cfg es.length fs bs (0 + lead.length) i st = .ok (x.pos, st') ∧ After cfg C B i x st st' := by
  have hn := D.node
  rw [D.ope] at hn
  simp only [Ope.Each, nodeOk] at hn
  obtain ⟨x, hp, hx, hsim⟩ := choL_does (κ := {}) (arg := false) (v := {}) (m := m) (b := C.rank r) (total := es.length) (fs := fs)
    (by intro h; cases h) (EnvOk.none cfg C al) ha hi hs bs lead.length (fun e _ => hcl e) D.base
    (eachL_iff.mpr fun e he => D.nodes e (by rw [D.alts]; exact List.mem_append_right _ he))
    (fun q f e h1 h2 => hn.1 (lead.length + q) f e h1 (by
      rw [D.alts, List.getElem?_append_right (by rw [List.length_map]; omega), List.length_map]
      rw [show lead.length + q - lead.length = q by omega]; exact h2))
    D.cutBase
  rw [D.notNull hc] at hx
  refine ⟨x, hp, hx, ?_⟩
  rw [Nat.zero_add]
  exact hsim

/-- The body of the rule, given its loop. -/
theorem lr_body {Q : List (Nat × Nat) → St V → Prop} (hQ : Steady Q) (hc : CertOk cfg C al) (D : LrData cfg C al m r d es fs lead bs)
    {i : Nat} {s : PSt V} {x : PRes V} (hi : i ≤ cfg.input.length) (hlk : cfg.hasCut = true ∨ x.cutOf = false)
    (hsim : ∀ B st, Rel cfg C B (C.rank r) m i s st → (usesEnvList cfg (lead.map (lrAlt r) ++ bs) = true → EnvRel cfg {} st) → Q B st →
      (cfg.hasCut = true → st.cut.head? = some false) →
      ∃ n st', choLoop (run n) cfg es.length fs (lead.map (lrAlt r) ++ bs) 0 i st = .ok (x.pos, st') ∧ After cfg C B i x st st')
    (B : List (Nat × Nat)) (st : St V) (hr : Rel cfg C B (C.rank r) m i s st) (he : usesEnv cfg d.ope = true → EnvRel cfg {} st)
    (hq : Q B st) : ∃ n st', bodyOf cfg d i n st = .ok (x.noCut.pos, st') ∧ After cfg C B i x.noCut st st' := by
  rw [← D.alts] at hsim
  have hn := D.node
  rw [D.ope] at hn he
  obtain ⟨n, st', e1, a⟩ := cho_of_loop hQ hc hn hi hlk hsim B st hr (fun h => he (by simp only [usesEnv]; exact h)) hq
  refine ⟨n, st', ?_, a⟩
  simp only [bodyOf, D.noWs, Bool.false_eq_true, if_false, D.ope]
  exact e1

/-- The first round: the result is that of the other alternatives. -/
theorem lr_first (hc : CertOk cfg C al) (D : LrData cfg C al m r d es fs lead bs) {i : Nat} {s : PSt V} {xb : PRes V}
    (hi : i ≤ cfg.input.length) (hx : ResOk cfg C al false (C.lkAny false bs) i xb)
    (hb : ∀ B st, Rel cfg C B (C.rank r) m i s st → (usesEnvList cfg bs = true → EnvRel cfg {} st) →
        (cfg.hasCut = true → st.cut.head? = some false) →
        ∃ n st', choLoop (run n) cfg es.length fs bs (0 + lead.length) i st = .ok (xb.pos, st') ∧ After cfg C B i xb st st') :
    ∀ B st, Rel cfg C B (C.rank r) m i s st → (usesEnv cfg d.ope = true → EnvRel cfg {} st) → Seeded r i none B st →
      ∃ n st', bodyOf cfg d i n st = .ok (xb.noCut.pos, st') ∧ After cfg C B i xb.noCut st st' := by
  refine lr_body (steady_seeded r i none) hc D hi ?_ ?_
  · refine D.cutBase.imp id fun h => ?_
    cases hq : xb.cutOf with
    | false => rfl
    | true => have := hx.cut hq; simp_all
  · have := lrLoop (cfg := cfg) (C := C) (steady_seeded r i none) (v := {}) (m := m) (b := C.rank r) (i := i) (s := s) (r := r) (fs := fs) (bs := bs)
      (total := es.length) (y := xb) lead (lead.map fun _ => .fail false) 0 (by simp) ?_ (fun B st hr he _ hcut => hb B st hr he hcut)
    · rw [loopRes_fails _ _ _ _ (fun z hz => by obtain ⟨_, _, h⟩ := List.mem_map.mp hz; exact h.symm)] at this
      exact this
    · intro q p z h1 h2
      have hz : z = .fail false := by
        rw [List.getElem?_map, h1] at h2
        simp only [Option.map_some, Option.some.injEq] at h2
        exact h2.symm
      subst hz
      refine ⟨Or.inr rfl, fun _ => rfl, ?_⟩
      intro B st hr _ hq
      obtain ⟨st', e, a⟩ := ref_none hc D p.1 hr hq.2
      refine ⟨3, st', ?_, a⟩
      rw [alt_eq hi, e]; rfl

/-- A further round: the alternatives continue where the rule has come. -/
theorem lr_again (hc : CertOk cfg C al) (D : LrData cfg C al m r d es fs lead bs) {i j : Nat} {s : PSt V} {xb : PRes V} {v' : Option V}
    (hi : i ≤ cfg.input.length) (hj : i < j) (hjl : j ≤ cfg.input.length) (ha : al i) (haj : al j) (hs : CapsOk cfg C al s)
    (hx : ResOk cfg C al false (C.lkAny false bs) i xb) (hp : Peg cfg.gram {} m (.choL bs lead.length es.length) i s xb)
    (hok : xb.pos ≠ none) {S : Nat} (ih : IH cfg C al S (C.rank r) i)
    (hb : ∀ B st, Rel cfg C B (C.rank r) m i s st → (usesEnvList cfg bs = true → EnvRel cfg {} st) →
        (cfg.hasCut = true → st.cut.head? = some false) →
        ∃ n st', choLoop (run n) cfg es.length fs bs (0 + lead.length) i st = .ok (xb.pos, st') ∧ After cfg C B i xb st st') :
    ∃ zs : List (PRes V), Peg cfg.gram {} m (.choL ((lead.map (·.2)).map (.seq · none)) 0 es.length) j
        { s with vs := pushValue d v' s.vs } (loopRes es.length zs 0 (.fail false)) ∧
      ResOk cfg C al true true j (loopRes es.length zs 0 (.fail false)) ∧
      ∀ v, (cfg.recognizeOnly = false → ∀ g, pushValue d v g = pushValue d v' g) →
      ∀ B st, Rel cfg C B (C.rank r) m i s st → (usesEnv cfg d.ope = true → EnvRel cfg {} st) → Seeded r i (some (j, v)) B st →
        ∃ n st', bodyOf cfg d i n st = .ok ((loopRes es.length zs 0 xb).noCut.pos, st') ∧
          After cfg C B i (loopRes es.length zs 0 xb).noCut st st' := by
  -- the tails
  have tail : ∀ p ∈ lead, ∃ z, Peg cfg.gram {} m (.seqL p.2) j { s with vs := pushValue d v' s.vs } z ∧ ResOk cfg C al true true j z ∧
      (C.lkAny false p.2 = false → z.cutOf = false) ∧
      ∀ v, (cfg.recognizeOnly = false → ∀ g, pushValue d v g = pushValue d v' g) →
        ∀ B st, Rel cfg C B (C.rank r) m i s st → (usesEnvList cfg p.2 = true → EnvRel cfg {} st) → Seeded r i (some (j, v)) B st →
          ∃ n st', run n cfg (.ope (lrAlt r p)) i st = .ok (z.pos, st') ∧ After cfg C B i z st st' := by
    intro p hmem
    obtain ⟨z, hpz, hz, hsim⟩ := seqL_does (κ := {}) (arg := false) (v := {}) (m := m) (S := sizeOf p.2) (by intro h; cases h)
      (EnvOk.none cfg C al) p.2 C.top j { s with vs := pushValue d v' s.vs } (ih.later hj) (fun e he => List.sizeOf_lt_of_mem he)
      (D.tails p hmem) (D.tailNodes hmem) haj hjl hs
    refine ⟨z, hpz, hz.weaken (fun _ => rfl) (fun _ => rfl), ?_, ?_⟩
    · intro h
      cases hq : z.cutOf with
      | false => rfl
      | true => have := hz.cut hq; simp_all
    · intro v hv B st hr he hq
      obtain ⟨st1, e1, a1⟩ := ref_some hc D (v' := v') p.1 hr hq.2 hv
      obtain ⟨n2, st2, e2, a2⟩ := hsim B st1 (hr.next a1 (Or.inl hj)) fun h => (he h).of a1.p.keep.ruleStack a1.p.keep.args
      have a3 := a1.seq a2
      simp only [PRes.orCut_false] at a3
      refine ⟨max 2 n2 + 1, st2, ?_, a3⟩
      rw [alt_eq hi, andThen_ok]
      right
      exact ⟨j, st1, (run_fmono _ _).ok e1 (Nat.le_max_left _ _), (seq_mono p.2 j).ok (n := n2) e2 (Nat.le_max_right _ _)⟩
  -- all tails
  have all : ∀ l : List (List Byte × List Ope), (∀ p ∈ l, p ∈ lead) → ∀ k, ∃ zs : List (PRes V), l.length = zs.length ∧
      Peg cfg.gram {} m (.choL ((l.map (·.2)).map (.seq · none)) k es.length) j { s with vs := pushValue d v' s.vs }
        (loopRes es.length zs k (.fail false)) ∧
      ResOk cfg C al true true j (loopRes es.length zs k (.fail false)) ∧
      ∀ (q : Nat) (p : List Byte × List Ope) (z : PRes V), l[q]? = some p → zs[q]? = some z → (C.lkAny false p.2 = false → z.cutOf = false) ∧
        ∀ v, (cfg.recognizeOnly = false → ∀ g, pushValue d v g = pushValue d v' g) →
        ∀ B st, Rel cfg C B (C.rank r) m i s st → (usesEnvList cfg p.2 = true → EnvRel cfg {} st) → Seeded r i (some (j, v)) B st →
          ∃ n st', run n cfg (.ope (lrAlt r p)) i st = .ok (z.pos, st') ∧ After cfg C B i z st st' := by
    intro l
    induction l with
    | nil => exact fun _ k => ⟨[], rfl, .cho_nil, ResOk.failed fun _ => rfl, fun q p z h => (by simp at h)⟩
    | cons p l ihl =>
      intro hm k
      obtain ⟨z, h1, h2, h3, h4⟩ := tail p (hm p List.mem_cons_self)
      obtain ⟨zs, g1, g2, g3, g4⟩ := ihl (fun p hp => hm p (List.mem_cons_of_mem _ hp)) (k + 1)
      refine ⟨z :: zs, by simp [g1], ?_, ?_, ?_⟩
      · simp only [List.map_cons, loopRes]
        exact cho_step_peg (.seq h1) g2
      · simp only [loopRes]
        cases z with
        | fail c =>
          cases c with
          | true => exact ResOk.failed fun _ => rfl
          | false => exact g3
        | ok j' c s' =>
          refine ⟨fun _ => rfl, ?_⟩
          rintro _ _ _ ⟨⟩
          exact h2.pos j' c s' rfl
      · intro q p' z' e1 e2
        cases q with
        | zero => cases e1; cases e2; exact ⟨h3, h4⟩
        | succ q => exact g4 q p' z' (by simpa using e1) (by simpa using e2)
  obtain ⟨zs, hlen, hpz, hrz, hz⟩ := all lead (fun _ h => h) 0
  refine ⟨zs, hpz, hrz, ?_⟩
  intro v hv
  refine lr_body (steady_seeded r i (some (j, v))) hc D hi ?_ ?_
  · rcases D.cut with h | h
    · exact Or.inl h
    · right
      have key : ∀ (zs : List (PRes V)) k, (∀ z ∈ zs, z.cutOf = false) → xb.cutOf = false →
          (loopRes es.length zs k xb).cutOf = false := by
        intro zs
        induction zs with
        | nil => intro k _ h; exact h
        | cons z zs ihz =>
          intro k h1 h2
          have hz := h1 z List.mem_cons_self
          cases z with
          | ok => exact hz
          | fail c =>
            cases c with
            | true => cases hz
            | false => exact ihz (k + 1) (fun z h => h1 z (List.mem_cons_of_mem _ h)) h2
      refine key zs 0 ?_ ?_
      · intro z hmem
        obtain ⟨q, hq, e⟩ := List.mem_iff_getElem.mp hmem
        have hq' : q < lead.length := by omega
        refine (hz q lead[q] z (by simp [hq']) (by simp [hq, e])).1 ?_
        cases h' : C.lkAny false lead[q].2 with
        | false => rfl
        | true =>
          have : C.lkAny false es = true := by
            rw [lkAny_iff]
            refine ⟨lrAlt r lead[q], by rw [D.alts]; exact List.mem_append_left _ (List.mem_map_of_mem (List.getElem_mem hq')), ?_⟩
            simp only [lrAlt, Cert.lk, Cert.lkAny, h', Bool.or_true]
          rw [h] at this; cases this
      · cases hq : xb.cutOf with
        | false => rfl
        | true =>
          have h1 := hx.cut hq
          have : C.lkAny false es = true := by
            rw [lkAny_iff] at h1 ⊢
            obtain ⟨e, he, hn⟩ := h1
            exact ⟨e, by rw [D.alts]; exact List.mem_append_right _ he, hn⟩
          rw [h] at this; cases this
  · refine lrLoop (steady_seeded r i (some (j, v))) lead zs 0 hlen ?_ (fun B st hr he _ hcut => hb B st hr he hcut)
    intro q p z h1 h2
    obtain ⟨h3, h4⟩ := hz q p z h1 h2
    have hq : q < lead.length := by
      rcases Nat.lt_or_ge q lead.length with h | h
      · exact h
      · rw [List.getElem?_eq_none h] at h1; cases h1
    refine ⟨(D.cutTail (List.mem_of_getElem? h1)).imp id h3, fun hsk => ?_, h4 v hv⟩
    exfalso
    rw [Nat.zero_add] at hsk
    cases hk : fs[q]? with
    | none => rw [hk] at hsk; simp [fsSkip] at hsk
    | some f =>
      rw [hk] at hsk
      have hq : q < lead.length := by
        rcases Nat.lt_or_ge q lead.length with h | h
        · exact h
        · rw [List.getElem?_eq_none h] at h1; cases h1
      exact hok (D.fs q f hk hq _ _ _ _ _ ha hsk hp)

/-! ## The state between rounds -/

/-- What one round leaves. -/
structure Round (cfg : Cfg V) (C : Cert) (B : List (Nat × Nat)) (r : Nat) (d : Def) (m : Mode) (i : Nat) (f : Frame V) (y : PRes V)
    (st : St V) (res : VRes V) : Prop where
  pos : res.1 = y.pos
  val : cfg.recognizeOnly = false → y.pos.isSome = true → ∀ g, pushValue d res.2.1 g = pushValue d (holdVal cfg.gram r d i y) g
  rel : Rel cfg C B (C.rank r) m i ⟨[], f⟩ res.2.2
  held : ∀ q ∈ B, res.2.2.lrMemo.lookup (q.1, 0, q.2) = st.lrMemo.lookup (q.1, 0, q.2)
  cut : res.2.2.cut = st.cut
  args : res.2.2.args = st.args

theorem lr_round (hc : CertOk cfg C al) (D : LrData cfg C al m r d es fs lead bs) {i : Nat} {y : PRes V} {seed : Option (Nat × Option V)}
    (hsim : ∀ B st, Rel cfg C B (C.rank r) m i ⟨[], {}⟩ st → (usesEnv cfg d.ope = true → EnvRel cfg {} st) → Seeded r i seed B st →
      ∃ n st', bodyOf cfg d i n st = .ok (y.noCut.pos, st') ∧ After cfg C B i y.noCut st st')
    {f : Frame V} {B : List (Nat × Nat)} {st : St V} (hr : Rel cfg C B (C.rank r) m i ⟨[], f⟩ st) (hargs : ArgsAt cfg d st)
    (hq : Seeded r i seed B st) : ∃ n res, doParse (run n) cfg r d i st = .ok res ∧ Round cfg C B r d m i f y st res := by
  obtain ⟨n, res, e1, a⟩ := doParse_does (steady_seeded r i seed) hc D.rule D.mac f hsim B st hr hargs hq
  have hres : holdRes cfg.gram r d i f y.noCut = match y with
      | .fail _ => .fail false
      | .ok j _ s' => .ok j false ⟨s'.caps, pushValue d (holdVal cfg.gram r d i y) f⟩ := by
    have hp : cfg.gram.predicate r = none := by simp [Cfg.gram, D.pred]
    cases y with
    | fail => rfl
    | ok => unfold holdRes accepts; simp only [PRes.noCut, hp, if_true]; rfl
  have hval : holdVal cfg.gram r d i y.noCut = holdVal cfg.gram r d i y := by cases y <;> rfl
  have hpos : (holdRes cfg.gram r d i f y.noCut).pos = y.pos := by rw [hres]; cases y <;> rfl
  have hcut : (holdRes cfg.gram r d i f y.noCut).cutOf = false := by rw [hres]; cases y <;> rfl
  have hP := doParse_P (run_good n) hc.slots hr.pre.ok hr.pre.le e1
  refine ⟨n, res, e1, a.pos.trans hpos, ?_, ?_, a.held, ?_, hP.keep.args⟩
  · intro h1 h2
    have := a.val h1 (by rw [hpos]; exact h2)
    rw [hval] at this
    exact this
  · exact {
      pre := ⟨hr.pre.slots, hP.ok, hr.pre.le, hr.pre.top.of_args hP.keep.args⟩
      caps := (a.capl D.capless).trans hr.caps
      vs := fun h => (a.vs h).trans (hr.vs h)
      tok := by rw [hP.keep.tokCount]; exact hr.tok
      inWs := hP.keep.inWs.trans hr.inWs
      prec := by rw [hP.keep.precToks]; exact hr.prec
      recd := a.recd
      args := by rw [hP.keep.args]; exact hr.args
      busy := hr.busy
      memo := a.memo
      lr := a.lr
      lra := by rw [hP.act]; exact hr.lra
      capl := fun h => (a.capl h).trans (hr.capl h)
      act := by rw [a.active]; exact hr.act }
  · have := a.cut
    rw [hcut, orHead_false] at this
    exact this

/-- Entries with some keys removed. -/
theorem lookup_filter_key (p : LRKey → Bool) (k : LRKey) : ∀ l : List (LRKey × Option (Nat × Option V)),
    (l.filter fun e => p e.1).lookup k = if p k then l.lookup k else none
  | [] => by simp
  | e :: l => by
    have ih := lookup_filter_key p k l
    obtain ⟨a, b⟩ := e
    by_cases hk : k = a
    · subst hk
      by_cases hp : p k = true
      · rw [List.filter_cons_of_pos (by exact hp), if_pos hp]; simp
      · rw [List.filter_cons_of_neg (by exact hp), ih, if_neg hp, if_neg hp]
    · have hk' : (k == a) = false := by simpa using hk
      by_cases hp : p a = true
      · rw [List.filter_cons_of_pos (by exact hp), List.lookup_cons, List.lookup_cons, hk', ih]
      · rw [List.filter_cons_of_neg (by exact hp), ih, List.lookup_cons, hk']

theorem clearMemo_st (r i : Nat) (st : St V) : ∃ mm, clearMemo cfg r i st = { st with memo := mm } ∧
    ∀ k, mm k = st.memo k ∨ mm k = none := by
  unfold clearMemo
  split
  · split
    · refine ⟨_, rfl, fun k => ?_⟩
      unfold fset
      split
      · exact Or.inr rfl
      · exact Or.inl rfl
    · exact ⟨_, rfl, fun _ => Or.inl rfl⟩
  · exact ⟨_, rfl, fun _ => Or.inl rfl⟩

/-- What a growing round starts with. -/
def clean (cfg : Cfg V) (r i : Nat) (cyc : List (Nat × Nat)) (st : St V) : St V :=
  { clearMemo cfg r i st with lrMemo := (clearMemo cfg r i st).lrMemo.filter fun e =>
      !(e.1.2.2 = i && (e.1.1, e.1.2.1) ≠ (r, 0) && (e.1.1, e.1.2.1) ∈ cyc && e.1 ∉ (clearMemo cfg r i st).lrActive) }

theorem clean_rel {B : List (Nat × Nat)} {i : Nat} {s : PSt V} {st : St V} {cyc : List (Nat × Nat)}
    (hcyc : ∀ k ∈ cyc, isLRRule cfg k.1) (hr : Rel cfg C B (C.rank r) m i s st) :
    Rel cfg C B (C.rank r) m i s (clean cfg r i cyc st) ∧
      (∀ q ∈ B, (clean cfg r i cyc st).lrMemo.lookup (q.1, 0, q.2) = st.lrMemo.lookup (q.1, 0, q.2)) ∧
      (clean cfg r i cyc st).cut = st.cut ∧ (clean cfg r i cyc st).args = st.args := by
  obtain ⟨mm, hmm, hk⟩ := clearMemo_st (cfg := cfg) r i st
  have hcl : StOk cfg (clearMemo cfg r i st) := (keep_clearMemo cfg r i st).2.2 hr.pre.ok
  have hok : StOk cfg (clean cfg r i cyc st) := by
    unfold clean
    refine hcl.lrFilter _ ?_
    intro e he
    simp [he]
  have hlk : ∀ k, (clean cfg r i cyc st).lrMemo.lookup k =
      if (!(k.2.2 = i && (k.1, k.2.1) ≠ (r, 0) && (k.1, k.2.1) ∈ cyc && k ∉ st.lrActive)) then st.lrMemo.lookup k else none := by
    intro k
    unfold clean
    rw [hmm]
    exact lookup_filter_key (fun k => !(k.2.2 = i && (k.1, k.2.1) ≠ (r, 0) && (k.1, k.2.1) ∈ cyc && k ∉ st.lrActive)) k st.lrMemo
  have hst : ∃ ll, clean cfg r i cyc st = { st with memo := mm, lrMemo := ll } := by
    unfold clean; rw [hmm]; exact ⟨_, rfl⟩
  obtain ⟨ll, hst⟩ := hst
  have hkeep : ∀ q ∈ B, (clean cfg r i cyc st).lrMemo.lookup (q.1, 0, q.2) = st.lrMemo.lookup (q.1, 0, q.2) := by
    intro q hq
    rw [hlk, if_pos]
    simp only [Bool.not_eq_true', Bool.and_eq_false_iff, decide_eq_false_iff_not, Decidable.not_not]
    by_cases h : (q.1, 0) ∈ cyc
    · exact Or.inr (hr.lra q hq (hcyc (q.1, 0) h))
    · exact Or.inl (Or.inr h)
  refine ⟨?_, hkeep, by rw [hst], by rw [hst]⟩
  rw [hst] at hlk hok ⊢
  exact { hr with
    pre := ⟨hr.pre.slots, hok, hr.pre.le, hr.pre.top⟩
    memo := by
      intro hp r' d' sl i' h1 h2
      have := hr.memo hp r' d' sl i' h1 h2
      simp only
      rcases hk (cfg.memoIdx sl i') with e | e
      · rw [e]; exact this
      · rw [e]; trivial
    lr := by
      refine ⟨hr.lr.1, fun r' p e he => ?_⟩
      rw [hlk] at he
      split at he
      · exact hr.lr.2 r' p e he
      · cases he }

/-- Recording a result of the rule under way. -/
theorem set_rel {B : List (Nat × Nat)} {i : Nat} {s : PSt V} {st : St V} (hr : Rel cfg C ((r, i) :: B) (C.rank r) m i s st)
    (e : Option (Nat × Option V)) (he : ∀ j v, e = some (j, v) → i ≤ j ∧ j ≤ cfg.input.length) :
    Rel cfg C ((r, i) :: B) (C.rank r) m i s { st with lrMemo := lrSet (r, 0, i) e st.lrMemo } :=
  { hr with
    pre := ⟨hr.pre.slots, hr.pre.ok.lrSet r 0 i e he, hr.pre.le, hr.pre.top⟩
    lr := by
      refine ⟨hr.lr.1, fun r' p e' h => ?_⟩
      simp only [lrSet_lookup] at h
      split at h
      · rename_i h'; simp at h'; rw [h'.1, h'.2]; exact Or.inl List.mem_cons_self
      · exact hr.lr.2 r' p e' h }

theorem set_held {B : List (Nat × Nat)} {i : Nat} (hB : (r, i) ∉ B) (l : List (LRKey × Option (Nat × Option V))) (e : Option (Nat × Option V)) :
    ∀ q ∈ B, (lrSet (r, 0, i) e l).lookup (q.1, 0, q.2) = l.lookup (q.1, 0, q.2) := by
  intro q hq
  rw [lrSet_lookup, if_neg]
  intro h
  simp at h
  exact hB (by rw [← h.1, ← h.2]; exact hq)

/-- The memo table without the mark of a rule that has been finished. -/
theorem memo_drop {B : List (Nat × Nat)} {i : Nat} {st : St V} (h : MemoOk cfg C ((r, i) :: B) st)
    (hn : ∀ sl, cfg.packrat = true → cfg.slot (cfg.defId r) = some sl → st.memo (cfg.memoIdx sl i) = some none →
      ∀ m f, C.modes r m = true → Peg cfg.gram {} m (.hold r) i ⟨[], f⟩ (.fail false)) : MemoOk cfg C B st := by
  intro hp r' d' sl i' h1 h2
  have := h hp r' d' sl i' h1 h2
  split
  · trivial
  · rename_i e; rw [e] at this
    rcases this with h' | h'
    · rcases List.mem_cons.mp h' with h' | h'
      · cases h'
        exact Or.inr (hn sl hp h2 e)
      · exact Or.inl h'
    · exact Or.inr h'
  · rename_i e; rw [e] at this; exact this

/-- The end: the value goes to the caller, and the result is remembered. -/
theorem done_core (hc : CertOk cfg C al) (D : LrData cfg C al m r d es fs lead bs) {i j : Nat} {v w : Option V} {f : Frame V} {B : List (Nat × Nat)}
    {st : St V} (hB : (r, i) ∉ B) (hj : i ≤ j) (hjl : j ≤ cfg.input.length) (hr : Rel cfg C ((r, i) :: B) (C.rank r) m i ⟨[], f⟩ st)
    (hlk : st.lrMemo.lookup (r, 0, i) = some (some (j, v)))
    (hv : cfg.recognizeOnly = false → ∀ g, pushValue d v g = pushValue d w g)
    (hfin : ∀ f, Peg cfg.gram {} m (.hold r) i ⟨[], f⟩ (.ok j false ⟨[], pushValue d w f⟩)) :
    ∃ st', growDone cfg r 0 d i j v st = (some j, st') ∧ Core cfg C B (.ok j false ⟨[], pushValue d w f⟩) st st' := by
  have htrue : ∃ v', (cfg.recognizeOnly = false → v' = v) ∧ ∀ m f, C.modes r m = true →
      Peg cfg.gram {} m (.hold r) i ⟨[], f⟩ (.ok j false ⟨[], pushValue d v' f⟩) := by
    refine ⟨if cfg.recognizeOnly then w else v, fun h => (by simp [h]), fun m' g hm => ?_⟩
    rw [D.single m' hm]
    have := hfin g
    cases hreco : cfg.recognizeOnly with
    | true => simp only [if_true]; exact this
    | false => rw [← hv hreco g] at this; simp only [Bool.false_eq_true, if_false]; exact this
  unfold growDone
  simp only [D.mac, Bool.false_eq_true, if_false]
  have hw : ∃ mm, writeMemo cfg r i j v st = { st with memo := mm } ∧ MemoOk cfg C B { st with memo := mm } := by
    unfold writeMemo
    cases hp : cfg.packrat with
    | false => exact ⟨st.memo, rfl, fun h => by rw [hp] at h; cases h⟩
    | true =>
      simp only [if_true]
      cases hsl : cfg.slot (cfg.defId r) with
      | none =>
        refine ⟨st.memo, rfl, memo_drop (MemoOk.same hr.memo rfl) fun sl _ h => ?_⟩
        rw [hsl] at h; cases h
      | some sl =>
        have hslt := hc.slots hp r sl hsl
        have hsz : cfg.memoIdx sl i < cfg.memoSize := by
          unfold Cfg.memoSize Cfg.memoIdx
          have : cfg.cachedCount * i ≤ cfg.cachedCount * cfg.input.length := Nat.mul_le_mul_left _ hr.pre.le
          rw [Nat.mul_add, Nat.mul_one]
          omega
        have hidx : ∀ r' d' sl' i', cfg.rules[r']? = some d' → cfg.slot (cfg.defId r') = some sl' →
            cfg.memoIdx sl' i' = cfg.memoIdx sl i → r' = r ∧ i' = i := by
          intro r' d' sl' i' h1 h2 h3
          obtain ⟨e1, e2⟩ := memoIdx_inj (hc.slots hp r' sl' h2) hslt h3
          subst e1
          exact ⟨hc.slotInj hp r' r d' d sl' h1 D.rule h2 hsl, e2⟩
        have key : ∀ e : Option (Option (Nat × Option V)), (e = none ∨ e = some (some (j - i, v))) →
            MemoOk cfg C B { st with memo := fset st.memo (cfg.memoIdx sl i) e } := by
          intro e he
          refine memo_drop (r := r) (i := i) ?_ ?_
          · intro _ r' d' sl' i' h1 h2
            have := hr.memo hp r' d' sl' i' h1 h2
            by_cases hx : cfg.memoIdx sl' i' = cfg.memoIdx sl i
            · obtain ⟨rfl, rfl⟩ := hidx r' d' sl' i' h1 h2 hx
              rw [D.rule] at h1; cases h1
              simp only [fset, hx, if_true]
              rcases he with rfl | rfl
              · trivial
              · simp only [show i' + (j - i') = j by omega]; exact htrue
            · simp only [fset, hx, if_false]; exact this
          · intro sl' _ h2 h3
            rw [hsl] at h2; cases h2
            simp only [fset, if_true] at h3
            rcases he with rfl | rfl <;> cases h3
        simp only [hsz, if_true]
        split
        · exact ⟨_, rfl, key _ (Or.inr rfl)⟩
        · exact ⟨_, rfl, key _ (Or.inl rfl)⟩
  obtain ⟨mm, hmm, hmo⟩ := hw
  rw [hmm]
  obtain ⟨g, hg, hg'⟩ := emplace_push D v { st with memo := mm, lrActive := st.lrActive.filter (· ≠ (r, 0, i)) }
  refine ⟨_, congrArg (Prod.mk (some j)) hg, ?_, (orHead_false _).symm, hr.recd, hmo.same rfl, ?_, fun _ _ => rfl, fun _ => rfl⟩
  · rintro _ _ _ ⟨⟩
    refine ⟨hr.caps, fun h => ?_⟩
    show g = _
    rw [hg' h, hv h]
    show pushValue d w st.vs = _
    rw [hr.vs h]
  · refine ⟨hr.lr.1, fun r' p e he => ?_⟩
    rcases hr.lr.2 r' p e he with h | h
    · rcases List.mem_cons.mp h with h | h
      · cases h
        have he : st.lrMemo.lookup (r, 0, i) = some e := he
        rw [hlk] at he; cases he
        exact Or.inr ⟨d, D.rule, D.isLR, D.mac, htrue⟩
      · exact Or.inl h
    · exact Or.inr h

theorem Core.from {B : List (Nat × Nat)} {x : PRes V} {a b c : St V} (h : Core cfg C B x b c) (hcut : b.cut = a.cut)
    (hheld : ∀ q ∈ B, b.lrMemo.lookup (q.1, 0, q.2) = a.lrMemo.lookup (q.1, 0, q.2)) (hcaps : b.caps = a.caps) : Core cfg C B x a c :=
  ⟨h.res, by rw [h.cut, hcut], h.recd, h.memo, h.lr, fun q hq => (h.held q hq).trans (hheld q hq), fun h' => (h.capl h').trans hcaps⟩

/-- Growing. -/
theorem grow_does (hc : CertOk cfg C al) (D : LrData cfg C al m r d es fs lead bs) {i j0 : Nat} {c0 : Bool} {s0 : PSt V}
    (hi : i ≤ cfg.input.length) (ha : al i)
    (hx : ResOk cfg C al false (C.lkAny false bs) i (.ok j0 c0 s0))
    (hp : Peg cfg.gram {} m (.choL bs lead.length es.length) i ⟨[], {}⟩ (.ok j0 c0 s0)) {S : Nat} (ih : IH cfg C al S (C.rank r) i)
    (hb : ∀ B st, Rel cfg C B (C.rank r) m i ⟨[], {}⟩ st → (usesEnvList cfg bs = true → EnvRel cfg {} st) →
        (cfg.hasCut = true → st.cut.head? = some false) →
        ∃ n st', choLoop (run n) cfg es.length fs bs (0 + lead.length) i st = .ok (some j0, st') ∧ After cfg C B i (.ok j0 c0 s0) st st')
    (hcaps : CapsOk cfg C al (⟨[], {}⟩ : PSt V)) :
    ∀ (k j : Nat) (v' : Option V), cfg.input.length - j ≤ k → i < j → j ≤ cfg.input.length → al j → j0 ≤ j →
      (∀ J w, Peg cfg.gram {} m (.grow r i) j ⟨[], pushValue d v' {}⟩ (.ok J false ⟨[], pushValue d w {}⟩) →
        ∀ f, Peg cfg.gram {} m (.hold r) i ⟨[], f⟩ (.ok J false ⟨[], pushValue d w f⟩)) →
      ∃ J w, Peg cfg.gram {} m (.grow r i) j ⟨[], pushValue d v' {}⟩ (.ok J false ⟨[], pushValue d w {}⟩) ∧ j ≤ J ∧
        J ≤ cfg.input.length ∧ al J ∧
        ∀ B st f v cyc, Rel cfg C ((r, i) :: B) (C.rank r) m i ⟨[], f⟩ st → ArgsAt cfg d st →
          st.lrMemo.lookup (r, 0, i) = some (some (j, v)) →
          (cfg.recognizeOnly = false → ∀ g, pushValue d v g = pushValue d v' g) → (∀ k ∈ cyc, isLRRule cfg k.1) → (r, i) ∉ B →
          ∃ n st', run n cfg (.grow r 0 cyc j v) i st = .ok (some J, st') ∧ Core cfg C B (.ok J false ⟨[], pushValue d w f⟩) st st' := by
  intro k
  induction k using Nat.strongRecOn with
  | ind k ihk =>
  intro j v' hk hij hjl haj hj0 hfin
  obtain ⟨zs, hpz, hrz, hrun⟩ := lr_again (s := ⟨[], {}⟩) (v' := v') hc D hi hij hjl ha haj hcaps hx hp (by simp [PRes.pos]) ih hb
  have hlead : (lrSplit r es).1 = lead.map (·.2) := by rw [D.split]
  have round : ∀ B st f v cyc, Rel cfg C ((r, i) :: B) (C.rank r) m i ⟨[], f⟩ st → ArgsAt cfg d st →
      st.lrMemo.lookup (r, 0, i) = some (some (j, v)) →
      (cfg.recognizeOnly = false → ∀ g, pushValue d v g = pushValue d v' g) → (∀ k ∈ cyc, isLRRule cfg k.1) →
      ∃ n res, doParse (run n) cfg r d i (clean cfg r i cyc st) = .ok res ∧
        Round cfg C ((r, i) :: B) r d m i f (loopRes es.length zs 0 (.ok j0 c0 s0)) st res := by
    intro B st f v cyc hr hargs hlk hv hcyc
    obtain ⟨h1, h2, h3, h4⟩ := clean_rel hcyc hr
    obtain ⟨n, res, e1, a⟩ := lr_round hc D (hrun v hv) h1 (by unfold ArgsAt at hargs ⊢; rw [h4]; exact hargs)
      ⟨List.mem_cons_self, (h2 (r, i) List.mem_cons_self).trans hlk⟩
    exact ⟨n, res, e1, a.pos, a.val, a.rel, fun q hq => (a.held q hq).trans (h2 q hq), a.cut.trans h3, a.args.trans h4⟩
  have heq : ∀ n cyc v st, run (n + 1) cfg (.grow r 0 cyc j v) i st =
      (doParse (run n) cfg r d i (clean cfg r i cyc st)).bind fun x =>
        match x.1 with
        | none => .ok (growDone cfg r 0 d i j v x.2.2)
        | some j' =>
          if j' ≤ j then .ok (growDone cfg r 0 d i j v x.2.2)
          else run n cfg (.grow r 0 cyc j' x.2.1) i
            { x.2.2 with lrMemo := lrSet (r, 0, i) (some (j', x.2.1)) x.2.2.lrMemo } := by
    intro n cyc v st
    show growRound (run n) cfg r 0 cyc j v i st = _
    unfold growRound
    simp only [D.rule, D.mac, Bool.false_eq_true, if_false]
    rfl
  -- the rule stops growing
  have stop : Peg cfg.gram {} m (.grow r i) j ⟨[], pushValue d v' {}⟩ (.ok j false ⟨[], pushValue d v' {}⟩) →
      (∀ k', (loopRes es.length zs 0 (.ok j0 c0 s0)).pos = some k' → k' ≤ j) →
      ∃ J w, Peg cfg.gram {} m (.grow r i) j ⟨[], pushValue d v' {}⟩ (.ok J false ⟨[], pushValue d w {}⟩) ∧ j ≤ J ∧
        J ≤ cfg.input.length ∧ al J ∧
        ∀ B st f v cyc, Rel cfg C ((r, i) :: B) (C.rank r) m i ⟨[], f⟩ st → ArgsAt cfg d st →
          st.lrMemo.lookup (r, 0, i) = some (some (j, v)) →
          (cfg.recognizeOnly = false → ∀ g, pushValue d v g = pushValue d v' g) → (∀ k ∈ cyc, isLRRule cfg k.1) → (r, i) ∉ B →
          ∃ n st', run n cfg (.grow r 0 cyc j v) i st = .ok (some J, st') ∧ Core cfg C B (.ok J false ⟨[], pushValue d w f⟩) st st' := by
    intro hpg hle
    refine ⟨j, v', hpg, Nat.le_refl _, hjl, haj, ?_⟩
    intro B st f v cyc hr hargs hlk hv hcyc hB
    obtain ⟨n, res, e1, a⟩ := round B st f v cyc hr hargs hlk hv hcyc
    obtain ⟨st', e2, cr⟩ := done_core hc D (v := v) (w := v') hB (Nat.le_of_lt hij) hjl a.rel ((a.held (r, i) List.mem_cons_self).trans hlk) hv
      (hfin j v' hpg)
    refine ⟨n + 1, st', ?_, cr.from a.cut (fun q hq => a.held q (List.mem_cons_of_mem _ hq)) (a.rel.caps.trans hr.caps.symm)⟩
    rw [heq, e1]
    simp only [Out.bind, a.pos]
    cases hpos : (loopRes es.length zs 0 (.ok j0 c0 s0)).pos with
    | none => simp only [e2]
    | some k' => simp only [if_pos (hle k' hpos), e2]
  rcases loopRes_cases es.length zs 0 with hall | ⟨w, hw⟩
  · rw [hall] at hpz
    refine stop (.grow_stop D.rule D.ope (by rw [hlead]; exact hpz)) ?_
    rw [hall]
    intro k' h; cases h; exact hj0
  · rw [hw] at hpz hrz
    cases w with
    | fail c =>
      refine stop (.grow_stop D.rule D.ope (by rw [hlead]; exact hpz)) ?_
      rw [hw]
      intro k' h; cases h
    | ok k' c s' =>
      obtain ⟨a1, a2, a3, -, a5⟩ := hrz.pos k' c s' rfl
      have hs' : s'.caps = [] := a5.2 (Or.inr D.capless)
      rcases Nat.lt_or_ge j k' with hlt | hge
      · -- the rule has grown
        have hgv : holdVal cfg.gram r d i (.ok k' c s') = ruleValue cfg.gram r d i k' (ruleFrame r d i k' s'.vs) none := by
          have : cfg.gram.predicate r = none := by simp [Cfg.gram, D.pred]
          simp only [holdVal, this]
        have more : ∀ x, Peg cfg.gram {} m (.grow r i) k' ⟨[], pushValue d (holdVal cfg.gram r d i (.ok k' c s')) {}⟩ x →
            Peg cfg.gram {} m (.grow r i) j ⟨[], pushValue d v' {}⟩ x := by
          intro x hpx
          refine .grow_more D.rule D.ope (by rw [hlead]; exact hpz) hlt ?_
          rw [hs', ← hgv]; exact hpx
        obtain ⟨J, w, h1, h2, h3, h4, h5⟩ := ihk (cfg.input.length - k') (by omega) k' (holdVal cfg.gram r d i (.ok k' c s')) (Nat.le_refl _) (by omega) a2 a3 (by omega)
          (fun J w hpg => hfin J w (more _ hpg))
        refine ⟨J, w, more _ h1, by omega, h3, h4, ?_⟩
        intro B st f v cyc hr hargs hlk hv hcyc hB
        obtain ⟨n, res, e1, a⟩ := round B st f v cyc hr hargs hlk hv hcyc
        rw [hw] at a
        have hpos : res.1 = some k' := a.pos
        obtain ⟨n2, st', e2, cr⟩ := h5 B { res.2.2 with lrMemo := lrSet (r, 0, i) (some (k', res.2.1)) res.2.2.lrMemo } f res.2.1 cyc
          (set_rel a.rel _ (by rintro _ _ ⟨⟩; exact ⟨by omega, a2⟩))
          (by unfold ArgsAt at hargs ⊢; rw [show ({ res.2.2 with lrMemo := lrSet (r, 0, i) (some (k', res.2.1)) res.2.2.lrMemo } : St V).args = _ from a.args]; exact hargs)
          (by simp only [lrSet_lookup, if_true]) (fun h => a.val h rfl) hcyc hB
        refine ⟨max n n2 + 1, st', ?_, cr.from a.cut (fun q hq => (set_held hB _ _ q hq).trans (a.held q (List.mem_cons_of_mem _ hq)))
          (a.rel.caps.trans hr.caps.symm)⟩
        rw [heq, (doParse_le (run_le (Nat.le_max_left n n2)) cfg r d i _).eq_ok e1]
        simp only [Out.bind, hpos, if_neg (Nat.not_le.mpr hlt)]
        exact (run_le (Nat.le_max_right n n2) cfg _ _ _).eq_ok e2
      · refine stop (.grow_idle D.rule D.ope (by rw [hlead]; exact hpz) hge) ?_
        rw [hw]
        intro k'' h; cases h; exact hge

/-- A left-recursive rule. -/
theorem lr_hold (hc : CertOk cfg C al) (D : LrData cfg C al m r d es fs lead bs) {b i S : Nat} {f : Frame V} (hb : C.rank r < b)
    (ih : IH cfg C al S b i) (ha : al i) (hi : i ≤ cfg.input.length) (hcaps : CapsOk cfg C al (⟨[], {}⟩ : PSt V)) :
    ∃ x, Peg cfg.gram {} m (.hold r) i ⟨[], f⟩ x ∧ ResOk cfg C al false false i x ∧
      ∀ B st, Rel cfg C B b m i ⟨[], f⟩ st → ArgsAt cfg d st →
        ∃ n st', run n cfg (.hold r) i st = .ok (x.pos, st') ∧ After cfg C B i x st st' := by
  obtain ⟨xb, hpb, hxb, hsimb⟩ := base_does hc D (s := ⟨[], {}⟩) (fun e => ih e _ _ hi (Or.inr ⟨rfl, Or.inl hb⟩)) ha hi hcaps
  have hsplit : (lrSplit r es).2 = bs ∧ (lrSplit r es).1.length = lead.length := by rw [D.split]; simp
  -- entering
  have enter : ∀ B st, Rel cfg C B b m i ⟨[], f⟩ st → st.lrMemo.lookup (r, 0, i) = none →
      Rel cfg C ((r, i) :: B) (C.rank r) m i ⟨[], f⟩ { st with
          lrMemo := lrSet (r, 0, i) none st.lrMemo
          lrActive := setInsert (r, 0, i) st.lrActive
          lrRefs := [] } := by
    intro B st hr hno
    have hset := hr.pre.ok.lrSet r 0 i none (by intro _ _ h; cases h)
    exact { hr with
      pre := ⟨hr.pre.slots, ⟨hset.memo, hset.lr, by
        intro k hk
        simp only [setInsert] at hk
        split at hk
        · exact hset.act k hk
        · rcases List.mem_cons.mp hk with rfl | hk
          · exact ⟨by simp only [lrSet_lookup, if_true]; rfl, d, D.rule, D.isLR⟩
          · exact hset.act k hk⟩, hr.pre.le, hr.pre.top⟩
      busy := hr.enter hb
      memo := by
        intro hp r' d' sl' i' h1 h2
        have := hr.memo hp r' d' sl' i' h1 h2
        simp only
        split
        · trivial
        · rename_i e; rw [e] at this; exact this.imp (List.mem_cons_of_mem _) id
        · rename_i e; rw [e] at this; exact this
      lr := by
        refine ⟨fun k hk => (by cases hk), fun r' p e h => ?_⟩
        simp only [lrSet_lookup] at h
        split at h
        · rename_i h'; simp at h'; rw [h'.1, h'.2]; exact Or.inl List.mem_cons_self
        · exact (hr.lr.2 r' p e h).imp (List.mem_cons_of_mem _) id
      lra := by
        have hmem : ∀ k, k = (r, 0, i) ∨ k ∈ st.lrActive → k ∈ setInsert (r, 0, i) st.lrActive := by
          intro k hk
          unfold setInsert
          split
          · rename_i h'; rcases hk with rfl | hk
            · exact h'
            · exact hk
          · exact List.mem_cons.mpr hk
        intro q hq hl
        rcases List.mem_cons.mp hq with rfl | hq
        · exact hmem _ (Or.inl rfl)
        · exact hmem _ (Or.inr (hr.lra q hq hl))
      act := fun hp r' d' p h1 h2 => List.mem_cons_of_mem _ (hr.act hp r' d' p h1 h2) }
  have first : ∀ B st, Rel cfg C B b m i ⟨[], f⟩ st → ArgsAt cfg d st → st.lrMemo.lookup (r, 0, i) = none →
      ∃ n res, doParse (run n) cfg r d i { st with
          lrMemo := lrSet (r, 0, i) none st.lrMemo
          lrActive := setInsert (r, 0, i) st.lrActive
          lrRefs := [] } = .ok res ∧ Round cfg C ((r, i) :: B) r d m i f xb { st with
          lrMemo := lrSet (r, 0, i) none st.lrMemo
          lrActive := setInsert (r, 0, i) st.lrActive
          lrRefs := [] } res := by
    intro B st hr hargs hno
    exact lr_round hc D (lr_first hc D hi hxb hsimb) (enter B st hr hno) hargs ⟨List.mem_cons_self, by simp only [lrSet_lookup, if_true]⟩
  have heq : ∀ n st tl, st.args = ([], 0) :: tl → st.lrMemo.lookup (r, 0, i) = none → run (n + 1) cfg (.hold r) i st =
      (doParse (run n) cfg r d i { st with
          lrMemo := lrSet (r, 0, i) none st.lrMemo
          lrActive := setInsert (r, 0, i) st.lrActive
          lrRefs := [] }).bind fun x =>
        match x.1 with
        | none => .ok (none, { x.2.2 with
            lrRefs := (if x.2.2.lrRefs = [] then [] else setInsert (r, 0) x.2.2.lrRefs).foldr setInsert st.lrRefs
            lrActive := x.2.2.lrActive.filter (· ≠ (r, 0, i)) })
        | some j => run n cfg (.grow r 0 (if x.2.2.lrRefs = [] then [] else setInsert (r, 0) x.2.2.lrRefs) j x.2.1) i
            { x.2.2 with
              lrRefs := (if x.2.2.lrRefs = [] then [] else setInsert (r, 0) x.2.2.lrRefs).foldr setInsert st.lrRefs
              lrMemo := lrSet (r, 0, i) (some (j, x.2.1)) x.2.2.lrMemo } := by
    intro n st tl htl hno
    show holder (run n) cfg r i st = _
    unfold holder
    simp only [D.rule, D.isLR, D.mac, Bool.false_and, Bool.false_eq_true, if_false, if_true]
    unfold lrHold
    simp only [htl, hno]
    rw [← htl]
    rfl
  -- a remembered result
  have known : ∀ (x : PRes V), Peg cfg.gram {} m (.hold r) i ⟨[], f⟩ x → ∀ B st e tl, Rel cfg C B b m i ⟨[], f⟩ st → st.args = ([], 0) :: tl →
      st.lrMemo.lookup (r, 0, i) = some e → ∃ n st', run n cfg (.hold r) i st = .ok (x.pos, st') ∧ Core cfg C B x st st' := by
    intro x hpx B st e tl hr htl hlk
    obtain ⟨d', h1, -, -, h2⟩ := (hr.lr.2 r i e hlk).resolve_left (hr.notBusy hb)
    rw [D.rule] at h1; cases h1
    have hrn : run 1 cfg (.hold r) i st = lrHold (run 0) cfg r d i st := by
      show holder (run 0) cfg r i st = _
      unfold holder
      simp only [D.rule, D.isLR, D.mac, Bool.false_and, Bool.false_eq_true, if_false, if_true]
    cases e with
    | none =>
      have := hpx.det (h2 m f D.mode)
      subst this
      refine ⟨1, { st with lrRefs := setInsert (r, 0) st.lrRefs }, ?_, ?_⟩
      · rw [hrn]; unfold lrHold; simp only [htl, hlk]; rw [← htl]; rfl
      · exact ⟨by rintro _ _ _ ⟨⟩, (orHead_false _).symm, hr.recd, hr.memo.same rfl, lrOk_refs D hr.lr, fun _ _ => rfl, fun _ => rfl⟩
    | some jv =>
      obtain ⟨j, v⟩ := jv
      obtain ⟨v', hv', hpg⟩ := h2
      have := hpx.det (hpg m f D.mode)
      subst this
      obtain ⟨g, hg, hg'⟩ := emplace_push D v { st with lrRefs := setInsert (r, 0) st.lrRefs }
      refine ⟨1, { st with lrRefs := setInsert (r, 0) st.lrRefs, vs := g }, ?_, ?_⟩
      · rw [hrn]; unfold lrHold; simp only [htl, hlk]; rw [← htl]; exact congrArg (fun z => Out.ok (some j, z)) hg
      · refine ⟨?_, (orHead_false _).symm, hr.recd, hr.memo.same rfl, lrOk_refs D hr.lr, fun _ _ => rfl, fun _ => rfl⟩
        rintro _ _ _ ⟨⟩
        refine ⟨hr.caps, fun h => ?_⟩
        show g = _
        rw [hg' h, hv' h]
        show pushValue d v st.vs = _
        rw [hr.vs h]
  have wrap : ∀ x : PRes V, Peg cfg.gram {} m (.hold r) i ⟨[], f⟩ x →
      (∀ B st tl, Rel cfg C B b m i ⟨[], f⟩ st → ArgsAt cfg d st → st.args = ([], 0) :: tl → st.lrMemo.lookup (r, 0, i) = none →
        ∃ n st', run n cfg (.hold r) i st = .ok (x.pos, st') ∧ Core cfg C B x st st') →
      ∀ B st, Rel cfg C B b m i ⟨[], f⟩ st → ArgsAt cfg d st →
        ∃ n st', run n cfg (.hold r) i st = .ok (x.pos, st') ∧ After cfg C B i x st st' := by
    intro x hpx hnew B st hr hargs
    obtain ⟨tl, htl⟩ := hargs (Or.inr (Or.inr D.isLR))
    have : ∃ n st', run n cfg (.hold r) i st = .ok (x.pos, st') ∧ Core cfg C B x st st' := by
      cases hlk : st.lrMemo.lookup (r, 0, i) with
      | none => exact hnew B st tl hr hargs htl hlk
      | some e => exact known x hpx B st e tl hr htl hlk
    obtain ⟨n, st', e1, c⟩ := this
    exact ⟨n, st', e1, after_of_core (t := .hold r) hc trivial (by intros; simp) hr.pre e1 c⟩
  have hrefs : ∀ (l : List (Nat × Nat)) (st : St V), (∀ k ∈ l, isLRRule cfg k.1) → (∀ k ∈ st.lrRefs, isLRRule cfg k.1) →
      (∀ k ∈ (if l = [] then [] else setInsert (r, 0) l), isLRRule cfg k.1) ∧
      ∀ k ∈ (if l = [] then [] else setInsert (r, 0) l).foldr setInsert st.lrRefs, isLRRule cfg k.1 := by
    intro l st h1 h2
    have hins : ∀ (a : Nat × Nat) l', isLRRule cfg a.1 → (∀ k ∈ l', isLRRule cfg k.1) → ∀ k ∈ setInsert a l', isLRRule cfg k.1 := by
      intro a l' h1 h2 k hk
      unfold setInsert at hk
      split at hk
      · exact h2 k hk
      · rcases List.mem_cons.mp hk with rfl | hk
        · exact h1
        · exact h2 k hk
    have hc1 : ∀ k ∈ (if l = [] then [] else setInsert (r, 0) l), isLRRule cfg k.1 := by
      split
      · intro k hk; cases hk
      · exact hins (r, 0) l ⟨d, D.rule, D.isLR⟩ h1
    refine ⟨hc1, ?_⟩
    have : ∀ l' : List (Nat × Nat), (∀ k ∈ l', isLRRule cfg k.1) → ∀ k ∈ l'.foldr setInsert st.lrRefs, isLRRule cfg k.1 := by
      intro l'
      induction l' with
      | nil => intro _; exact h2
      | cons a l' ihl =>
        intro h
        exact hins a _ (h a List.mem_cons_self) (ihl fun k hk => h k (List.mem_cons_of_mem _ hk))
    exact this _ hc1
  cases xb with
  | fail c =>
    have hpf : ∀ g, Peg cfg.gram {} m (.hold r) i ⟨[], g⟩ (.fail false) := fun g =>
      .lr_fail D.rule D.isLR D.noWs D.ope (by rw [hsplit.1, hsplit.2]; exact hpb)
    refine ⟨.fail false, hpf f, ResOk.failed (by intro h; cases h), wrap _ (hpf f) ?_⟩
    intro B st tl hr hargs htl hno
    obtain ⟨n, res, e1, a⟩ := first B st hr hargs hno
    have hpos : res.1 = none := a.pos
    refine ⟨n + 1, _, by rw [heq n st tl htl hno, e1]; simp only [Out.bind, hpos]; rfl, ?_⟩
    have hold : ∀ q ∈ B, res.2.2.lrMemo.lookup (q.1, 0, q.2) = st.lrMemo.lookup (q.1, 0, q.2) := fun q hq =>
      (a.held q (List.mem_cons_of_mem _ hq)).trans (set_held (hr.notBusy hb) _ _ q hq)
    refine ⟨by rintro _ _ _ ⟨⟩, a.cut.trans (orHead_false _).symm, a.rel.recd, ?_, ⟨?_, ?_⟩, hold, fun _ => a.rel.caps.trans hr.caps.symm⟩
    · refine (memo_drop (r := r) (i := i) a.rel.memo ?_).same rfl
      intro _ _ _ _ m' g hm'
      rw [D.single m' hm']; exact hpf g
    · exact (hrefs _ st a.rel.lr.1 hr.lr.1).2
    · intro r' p e he
      rcases a.rel.lr.2 r' p e he with h | h
      · rcases List.mem_cons.mp h with h | h
        · cases h
          have he : res.2.2.lrMemo.lookup (r, 0, i) = some e := he
          rw [a.held (r, i) List.mem_cons_self] at he
          simp only [lrSet_lookup, if_true] at he
          cases he
          refine Or.inr ⟨d, D.rule, D.isLR, D.mac, ?_⟩
          intro m' g hm'
          rw [D.single m' hm']; exact hpf g
        · exact Or.inl h
      · exact Or.inr h
  | ok j0 c0 s0 =>
    obtain ⟨b1, b2, b3, b4, b5⟩ := hxb.pos j0 c0 s0 rfl
    have hs0 : s0.caps = [] := b5.2 (Or.inr D.capless)
    have hlt : i < j0 := by
      rcases Nat.lt_or_eq_of_le b1 with h | h
      · exact h
      · have := b4 h.symm; cases this
    have hgv : holdVal cfg.gram r d i (.ok j0 c0 s0) = ruleValue cfg.gram r d i j0 (ruleFrame r d i j0 s0.vs) none := by
      have : cfg.gram.predicate r = none := by simp [Cfg.gram, D.pred]
      simp only [holdVal, this]
    have fin : ∀ J w, Peg cfg.gram {} m (.grow r i) j0 ⟨[], pushValue d (holdVal cfg.gram r d i (.ok j0 c0 s0)) {}⟩
          (.ok J false ⟨[], pushValue d w {}⟩) → ∀ g, Peg cfg.gram {} m (.hold r) i ⟨[], g⟩ (.ok J false ⟨[], pushValue d w g⟩) := by
      intro J w hpg g
      have := Peg.lr_ok (G := cfg.gram) (s := ⟨[], g⟩) (c := c0) (c' := false) D.rule D.isLR D.noWs D.ope (by simp [Cfg.gram, D.pred])
        (by rw [hsplit.1, hsplit.2]; exact hpb) (by rw [hs0, ← hgv]; exact hpg)
      simp only [add_push] at this
      exact this
    obtain ⟨J, w, h1, h2, h3, h4, h5⟩ := grow_does hc D hi ha hxb hpb (ih.lower (S' := 0) hb) hsimb hcaps _ j0 (holdVal cfg.gram r d i (.ok j0 c0 s0))
      (Nat.le_refl _) hlt b2 b3 (Nat.le_refl _) fin
    have hpx := fin J w h1 f
    refine ⟨_, hpx, ⟨fun h => (by cases h), ?_⟩, wrap _ hpx ?_⟩
    · rintro _ _ _ ⟨⟩
      exact ⟨by omega, h3, h4, fun h => by omega, hcaps⟩
    intro B st tl hr hargs htl hno
    obtain ⟨n, res, e1, a⟩ := first B st hr hargs hno
    have hpos : res.1 = some j0 := a.pos
    have hrf := hrefs _ st a.rel.lr.1 hr.lr.1
    have hrel := set_rel a.rel (some (j0, res.2.1)) (by rintro _ _ ⟨⟩; exact ⟨by omega, b2⟩)
    have hrel : Rel cfg C ((r, i) :: B) (C.rank r) m i ⟨[], f⟩ { res.2.2 with
        lrRefs := (if res.2.2.lrRefs = [] then [] else setInsert (r, 0) res.2.2.lrRefs).foldr setInsert st.lrRefs
        lrMemo := lrSet (r, 0, i) (some (j0, res.2.1)) res.2.2.lrMemo } :=
      { hrel with
        pre := hrel.pre.same ⟨rfl, rfl, rfl⟩ rfl
        lr := ⟨hrf.2, hrel.lr.2⟩ }
    obtain ⟨n2, st', e2, cr⟩ := h5 B _ f res.2.1 (if res.2.2.lrRefs = [] then [] else setInsert (r, 0) res.2.2.lrRefs) hrel
      (fun _ => ⟨tl, a.args.trans htl⟩) (by simp only [lrSet_lookup, if_true]) (fun h => a.val h rfl) hrf.1 (hr.notBusy hb)
    refine ⟨max n n2 + 1, st', ?_, cr.from a.cut (fun q hq => (set_held (hr.notBusy hb) _ _ q hq).trans
      ((a.held q (List.mem_cons_of_mem _ hq)).trans (set_held (hr.notBusy hb) _ _ q hq))) (a.rel.caps.trans hr.caps.symm)⟩
    rw [heq _ st tl htl hno, (doParse_le (run_le (Nat.le_max_left n n2)) cfg r d i _).eq_ok e1]
    simp only [Out.bind, hpos]
    exact (run_le (Nat.le_max_right n n2) cfg _ _ _).eq_ok e2

end

end Verif
