import Verif.Annotate
/-!
# Grammars as the loader leaves them

`Cfg.withRules`: white space and word expressions are the bodies of the rules `%whitespace` and `%word` (shared with the rules,
so annotated with them).
-/

namespace Verif
open CharClass Props

variable {V : Type} {C Cw : Cert} {F Fw : FsCert}

/-- peglib.h 6402-6416: `start_rule.whitespaceOpe = wsp(rule.get_core_operator())`, `start_rule.wordOpe =
rule.get_core_operator()`; `wsp` (peglib.h 2309-2311) is `Whitespace(Ignore(ope))`. -/
def Cfg.withRules (base : Cfg V) (wsR wordR : Option Nat) (rs : List Def) : Cfg V :=
  { base with
    rules := rs
    ws := wsR.bind fun r => (rs[r]?).map fun d => Ope.ws (.ign d.ope)
    word := wordR.bind fun r => (rs[r]?).map Def.ope }

/-- Well-behaved callbacks: their answers do not depend on the user datum, user-defined operators only append to the scope,
and no predicate is set when values are not collected. -/
structure CallsOk (cfg : Cfg V) : Prop where
  user : ∀ id i f dt, f.vals <+: (cfg.user id i f dt).2.1.vals ∧ f.tags <+: (cfg.user id i f dt).2.1.tags ∧
      f.tokens <+: (cfg.user id i f dt).2.1.tokens ∧ (cfg.user id i f dt).2.1.name = f.name
  dt : DtFree cfg
  reco : cfg.recognizeOnly = true → ∀ r, cfg.predicate r = none

/-- A grammar without annotations that passes both tests. -/
structure Tested (cfg : Cfg V) (C : Cert) (F : FsCert) (kw : List Ope → Bool) : Prop where
  cert : C.check cfg = true
  first : F.check C cfg kw = true

theorem map_plain_self {cfg : Cfg V} {kw : List Ope → Bool} (h : F.check C cfg kw = true) : cfg.rules.map Def.plain = cfg.rules := by
  refine (List.map_congr_left fun d hd => ?_).trans (List.map_id _)
  obtain ⟨r, hr⟩ := List.mem_iff_getElem?.mp hd
  simp only [Def.plain, plain_bareR (FsCert.check_rule h hr).1, id]

theorem plain_word {rs rs' : List Def} (h : rs'.map Def.plain = rs) (r : Nat) :
    (rs'[r]?.map Def.ope).map Ope.plain = rs[r]?.map Def.ope := by
  rw [← h]
  simp only [List.getElem?_map, Option.map_map]
  rfl

section
variable {base : Cfg V} {wsR wordR : Option Nat} {rs : List Def} {kw : List Ope → Bool}

theorem ws_plain {rs' : List Def} (h : rs'.map Def.plain = rs) :
    (base.withRules wsR wordR rs').ws.map Ope.plain = (base.withRules wsR wordR rs).ws := by
  show (wsR.bind fun r => (rs'[r]?).map fun d => Ope.ws (.ign d.ope)).map Ope.plain = _
  cases wsR with
  | none => rfl
  | some r =>
    show ((rs'[r]?).map fun d => Ope.ws (.ign d.ope)).map Ope.plain = (rs[r]?).map fun d => Ope.ws (.ign d.ope)
    rw [← h]
    simp only [List.getElem?_map, Option.map_map]
    congr 1

theorem word_plain {rs' : List Def} (h : rs'.map Def.plain = rs) :
    (base.withRules wsR wordR rs').word.map Ope.plain = (base.withRules wsR wordR rs).word := by
  show (wordR.bind fun r => (rs'[r]?).map Def.ope).map Ope.plain = _
  cases wordR with
  | none => rfl
  | some r => exact plain_word h r

theorem annOf {rs' : List Def} (h : rs'.map Def.plain = rs) :
    AnnOf (base.withRules wsR wordR rs) (base.withRules wsR wordR rs') where
  input := rfl
  gram := by
    have h1 := ws_plain (base := base) (wsR := wsR) (wordR := wordR) h
    have h2 := word_plain (base := base) (wsR := wsR) (wordR := wordR) h
    unfold Gram.plain Cfg.gram
    simp only [h1, h2]
    congr 1

theorem annotates (ht : Tested (base.withRules wsR wordR rs) C F kw) {rs' : List Def} (h : rs'.map Def.plain = rs) :
    Annotates (base.withRules wsR wordR rs) (base.withRules wsR wordR rs') where
  rules := h.trans (map_plain_self ht.first).symm
  ws := by
    rw [ws_plain h]
    show (wsR.bind fun r => (rs[r]?).map fun d => Ope.ws (.ign d.ope)) = (wsR.bind fun r => (rs[r]?).map fun d => Ope.ws (.ign d.ope)).map Ope.plain
    cases wsR with
    | none => rfl
    | some r =>
      show (rs[r]?).map (fun d => Ope.ws (.ign d.ope)) = ((rs[r]?).map fun d => Ope.ws (.ign d.ope)).map Ope.plain
      cases hd : rs[r]? with
      | none => rfl
      | some d =>
        have := plain_bareR (FsCert.check_rule ht.first (r := r) (d := d) hd).1
        simp only [Option.map_some, Ope.plain, this]
  hasCut := rfl
  packrat := rfl

theorem isPrec_of_noPrec {e : Ope} (h : e.noPrec = true) : e.isPrec = false := by
  cases e <;> first | rfl | simp [Ope.noPrec] at h

theorem isPrec_plain (e : Ope) : e.plain.isPrec = e.isPrec := by cases e <;> simp only [Ope.plain, Ope.isPrec]

theorem hasValue_plain {cfg cfg' : Cfg V} (h : cfg'.rules.map Def.plain = cfg.rules.map Def.plain) (r : Nat) :
    hasValue cfg r = hasValue cfg' r := by
  have : (cfg'.rules.map Def.plain)[r]? = (cfg.rules.map Def.plain)[r]? := by rw [h]
  simp only [List.getElem?_map] at this
  unfold hasValue
  cases h1 : cfg'.rules[r]? <;> cases h2 : cfg.rules[r]? <;> rw [h1, h2] at this <;>
    simp only [Option.map_some, Option.map_none, Option.some.injEq, reduceCtorEq] at this
  · rename_i d d'
    have k1 : d'.isMacro = d.isMacro := (congrArg Def.isMacro this).symm
    have k2 : d'.ignoreSV = d.ignoreSV := (congrArg Def.ignoreSV this).symm
    simp only [Option.map_some, k1, k2]

theorem flatBody_plain {cfg cfg' : Cfg V} (h : cfg'.rules.map Def.plain = cfg.rules.map Def.plain) (r : Nat) :
    flatBody cfg r = flatBody cfg' r := by
  have : (cfg'.rules.map Def.plain)[r]? = (cfg.rules.map Def.plain)[r]? := by rw [h]
  simp only [List.getElem?_map] at this
  unfold flatBody
  cases h1 : cfg'.rules[r]? <;> cases h2 : cfg.rules[r]? <;> rw [h1, h2] at this <;>
    simp only [Option.map_some, Option.map_none, Option.some.injEq, reduceCtorEq] at this
  · rename_i d d'
    have k1 : d'.ope.isPrec = d.ope.isPrec := by
      rw [← isPrec_plain, ← isPrec_plain d.ope]
      exact congrArg (fun d : Def => d.ope.isPrec) this.symm
    have k2 : d'.isLR = d.isLR := (congrArg Def.isLR this).symm
    simp only [Option.map_some, k1, k2]

theorem actionOff_plain {cfg cfg' : Cfg V} (h : cfg'.rules.map Def.plain = cfg.rules.map Def.plain) (r : Nat) (off : Bool) :
    actionOff cfg r off = actionOff cfg' r off := by
  have : (cfg'.rules.map Def.plain)[r]? = (cfg.rules.map Def.plain)[r]? := by rw [h]
  simp only [List.getElem?_map] at this
  unfold actionOff
  cases h1 : cfg'.rules[r]? <;> cases h2 : cfg.rules[r]? <;> rw [h1, h2] at this <;>
    simp only [Option.map_some, Option.map_none, Option.some.injEq, reduceCtorEq] at this
  · rename_i d d'
    have k1 : d'.disableAction = d.disableAction := (congrArg Def.disableAction this).symm
    simp only [Option.map_some, k1]

theorem precOk_plain {cfg cfg' : Cfg V} (h : Annotates cfg cfg') (hr : cfg'.recognizeOnly = cfg.recognizeOnly) (m : Mode)
    (r : Nat) (e : Ope) : C.precOk cfg m r e.plain = C.precOk cfg' m r e := by
  cases e <;> first | (simp only [Ope.plain, Cert.precOk]; done) | skip
  rename_i a b info rule
  cases a <;> first | (simp only [Ope.plain, Cert.precOk]; done) | skip
  rename_i a anm as
  cases as with
  | cons x xs => simp only [Ope.plain, Ope.plainL, Cert.precOk]
  | nil =>
    cases b <;> first | (simp only [Ope.plain, Ope.plainL, Cert.precOk]; done) | skip
    rename_i b bnm bs
    cases bs with
    | cons x xs => simp only [Ope.plain, Ope.plainL, Cert.precOk]
    | nil =>
      have wfa := fun (k : Nat) => wf_plain h C {} false m k (.ref a anm [])
      have wfb := fun (k : Nat) => wf_plain h C {} false m k (.ref b bnm [])
      simp only [Ope.plain, Ope.plainL] at wfa wfb
      simp only [Ope.plain, Ope.plainL, Cert.precOk, h.packrat, hr, hasValue_plain h.rules, actionOff_plain h.rules,
        flatBody_plain h.rules, wfa, wfb]

/-- The left-recursive alternatives have no keyword guards. -/
def NoGuards (rs : List Def) : Prop := ∀ (r : Nat) (d : Def) (es : List Ope) (l : Bool) (fs : List FirstSet), rs[r]? = some d →
  d.ope = .cho es l fs → (es.take (lrSplit r es).1.length).all Ope.unguarded = true

theorem lrOk_plain {cfg cfg' : Cfg V} (h : Annotates cfg cfg') (hp : cfg'.predicate = cfg.predicate) (m : Mode) (r : Nat) (d : Def)
    (hu : ∀ es l fs, d.ope = .cho es l fs → (es.take (lrSplit r es).1.length).all Ope.unguarded = true)
    (ho : C.lrOk cfg m r d.plain = true) : C.lrOk cfg' m r d = true := by
  unfold Cert.lrOk at ho ⊢
  cases he : d.ope with
  | cho es l fs =>
    have hu' := hu es l fs he
    have e1 : d.plain.ope = .cho (Ope.plainL es) l [] := by simp only [Def.plain, he, Ope.plain]
    have e2 : ∀ xs : List (List Ope), (xs.map Ope.plainL).all (wfSeq cfg C {} false m C.top) = xs.all (wfSeq cfg' C {} false m C.top) := by
      intro xs
      rw [List.all_map]
      congr 1
      funext x
      exact wfSeq_plain h C {} false m C.top x
    rw [e1] at ho
    simp only [lrSplit_plain, e2, wfAll_plain h, lkAny_plain, Def.plain] at ho
    simp only [Bool.and_eq_true] at ho ⊢
    obtain ⟨⟨⟨⟨⟨⟨⟨⟨⟨⟨h0, h1⟩, h2⟩, h3⟩, h4⟩, h5⟩, h6⟩, h7⟩, h8⟩, h9⟩, h10⟩ := ho
    exact ⟨⟨⟨⟨⟨⟨⟨⟨⟨⟨by rw [hp]; exact h0, h1⟩, h2⟩, h3⟩, h4⟩, h5⟩, hu'⟩, h7⟩, h8⟩, by rw [h.hasCut]; exact h9⟩, h10⟩
  | _ => (have e1 := congrArg Ope.plain he); simp only [Def.plain, e1, Ope.plain] at ho; exact ho

/-- The annotation gives left-recursive alternatives no keyword guards. -/
theorem noGuards_of_ann {cfg : Cfg V} {al : Nat → Prop} {rs' : List Def} (h : ∀ d ∈ rs', d.ope.Each (AnnNode cfg C F al)) : NoGuards rs' := by
  intro r d es l fs hd ho
  have hall := h d (List.mem_of_getElem? hd)
  rw [ho] at hall
  have hel := hall.2
  rw [List.all_eq_true]
  intro e he
  obtain ⟨k, hk⟩ := List.mem_iff_getElem?.mp he
  rw [List.getElem?_take] at hk
  split at hk
  · rename_i hlt
    obtain ⟨nm, ts, g, hes⟩ := lrSplit_get r es k hlt
    rw [hes] at hk
    cases hk
    have := eachL_iff.mp hel _ (List.mem_of_getElem? hes)
    cases g with
    | none => rfl
    | some g =>
      have h1 := this.1
      simp only [AnnNode, Ope.plainL, Ope.plain] at h1
      cases ts <;> simp [kwSetup, Ope.plainL] at h1
  · cases hk

/-- The test of certificates carries over to the annotated grammar. -/
theorem check_annotated (ht : Tested (base.withRules wsR wordR rs) C F kw) {rs' : List Def} (h : rs'.map Def.plain = rs)
    (hng : NoGuards rs') :
    C.check (base.withRules wsR wordR rs') = true := by
  have hA := annotates ht h
  have hc := ht.cert
  have hlen : rs'.length = rs.length := by rw [← h]; simp
  unfold Cert.check at hc ⊢
  simp only [Bool.and_eq_true, List.all_eq_true] at hc ⊢
  refine ⟨⟨?_, ?_⟩, ?_⟩
  · rintro ⟨d, r⟩ hd
    have hd' : rs'[r]? = some d := List.mem_zipIdx_iff_getElem?.mp hd
    have hd0 : rs[r]? = some d.plain := by rw [← h]; simp [hd']
    have := hc.1.1 (d.plain, r) (List.mem_zipIdx_iff_getElem?.mpr hd0)
    have hctx : C.ctx r d.plain = C.ctx r d := rfl
    have hlr := fun m => lrOk_plain (C := C) hA rfl m r d (hng r d · · · hd')
    have hmac : d.plain.isMacro = d.isMacro := rfl
    have hislr : d.plain.isLR = d.isLR := rfl
    have hnw : d.plain.noWs = d.noWs := rfl
    have hope : d.plain.ope = d.ope.plain := rfl
    have hpar : d.plain.params = d.params := rfl
    have hhm : d.plain.hasMacroRef = d.hasMacroRef := rfl
    unfold Cert.ruleOk at this ⊢
    simp only [hctx, hmac, hislr, hnw, hope, hpar, hhm, wf_plain hA, nul_plain, lk_plain, usesEnv_plain hA, noPrec_plain, skipOk_plain hA,
      isPrec_plain, precOk_plain hA rfl] at this
    simp only [Bool.and_eq_true, List.all_eq_true] at this ⊢
    refine ⟨⟨⟨⟨⟨fun m hm => ?_, this.1.1.1.1.2⟩, this.1.1.1.2⟩, this.1.1.2⟩, this.1.2⟩, this.2⟩
    have h1 := this.1.1.1.1.1 m hm
    rw [Bool.or_eq_true] at h1 ⊢
    refine h1.imp id fun h1 => ?_
    by_cases hmac : d.isMacro = true
    · rw [if_pos hmac] at h1 ⊢; exact h1
    · rw [if_neg hmac] at h1 ⊢
      by_cases hl : d.isLR = true
      · rw [if_pos hl] at h1 ⊢; exact hlr m h1
      · rw [if_neg hl] at h1 ⊢; exact h1
  · have hw := hc.1.2
    have hp := ws_plain (base := base) (wsR := wsR) (wordR := wordR) h
    unfold Cert.wsOk at hw ⊢
    rw [← hp] at hw
    cases hws : (base.withRules wsR wordR rs').ws with
    | none => rfl
    | some w =>
      rw [hws] at hw
      cases w <;> simp only [Option.map_some, Ope.plain, Bool.false_eq_true] at hw
      rw [wf_plain hA, lk_plain, usesEnv_plain hA, noPrec_plain] at hw
      exact hw
  · have hp := hc.2
    have e : (base.withRules wsR wordR rs').rules.length = (base.withRules wsR wordR rs).rules.length := hlen
    unfold Cert.packOk at hp ⊢
    rw [e]
    exact hp

/-- The annotated grammar and its certificate. -/
theorem certOk_annotated (ht : Tested (base.withRules wsR wordR rs) C F kw) (order : List Nat)
    (hkw : KwSound (base.withRules wsR wordR rs) (base.withRules wsR wordR (setupAll rs order)) kw)
    (hcalls : CallsOk base) (hslots : SlotsOk base)
    (hw : ∀ t, Text t → WordAt (base.withRules wsR wordR (setupAll rs order)) t 0) :
    CertOk (base.withRules wsR wordR (setupAll rs order)) C (Bdry base.input) := by
  have hG := FsOkG.of_check ht.cert ht.first
  obtain ⟨h1, h2⟩ := setupAll_ok hG (fun r d hd => (FsCert.check_rule ht.first hd).1) order
  have hchk := check_annotated ht h1 (noGuards_of_ann h2)
  have hA := annOf (base := base) (wsR := wsR) (wordR := wordR) h1
  have hnode : ∀ (r : Nat) (d : Def), (setupAll rs order)[r]? = some d → d.ope.isPrec = false →
      d.ope.Each (nodeOk (base.withRules wsR wordR (setupAll rs order)) (Bdry base.input)) := by
    intro r d hd hnp
    have hd0 : rs[r]? = some d.plain := by
      have h1' : (setupAll rs order).map Def.plain = rs := h1
      have : rs[r]? = ((setupAll rs order).map Def.plain)[r]? := by rw [h1']
      rw [this]; simp [hd]
    obtain ⟨k1, -, k3, k4, -⟩ := FsCert.check_rule ht.first (r := r) hd0
    have hnp' : d.ope.noPrec = true := by
      rw [← noPrec_plain]
      exact Ope.noPrec_of_bare _ (Ope.bare_of_bareR k1 ((isPrec_plain _).trans hnp))
    exact nodeOk_of_ann hA hkw hw d.ope (h2 d (List.mem_of_getElem? hd)) hnp' k3 k4
  refine CertOk.of_check hchk hslots hcalls.user ⟨hcalls.dt.action, hcalls.dt.predicate, hcalls.dt.leave⟩ (alOk_bdry C hw)
    hcalls.reco ?_ (fun r d _ hd _ => hnode r d hd) ?_
  · intro r d m hd _ hm hl
    have hd0 : rs[r]? = some d.plain := by
      have h1' : (setupAll rs order).map Def.plain = rs := h1
      have : rs[r]? = ((setupAll rs order).map Def.plain)[r]? := by rw [h1']
      rw [this]
      have hd' : (setupAll rs order)[r]? = some d := hd
      simp [hd']
    exact lrFs_of_ann hA hd0 hm hl (h2 d (List.mem_of_getElem? hd)) (FsCert.check_rule ht.first (r := r) hd0).2.2.2.1
  intro e he
  change (wsR.bind fun r => ((setupAll rs order)[r]?).map fun d => Ope.ws (.ign d.ope)) = some (.ws e) at he
  cases wsR with
  | none => cases he
  | some r =>
    simp only [Option.bind_some, Option.map_eq_some_iff] at he
    obtain ⟨d, hd, he⟩ := he
    cases he
    refine ⟨trivial, hnode r d hd ?_⟩
    have hwo : C.wsOk (base.withRules (some r) wordR (setupAll rs order)) = true := by
      unfold Cert.check at hchk
      simp only [Bool.and_eq_true] at hchk
      exact hchk.1.2
    have hws : (base.withRules (some r) wordR (setupAll rs order)).ws = some (.ws (.ign d.ope)) := by
      show (some r).bind (fun r => ((setupAll rs order)[r]?).map fun d => Ope.ws (.ign d.ope)) = _
      rw [Option.bind_some, hd]; rfl
    unfold Cert.wsOk at hwo
    rw [hws] at hwo
    simp only [Bool.and_eq_true, Ope.noPrec] at hwo
    exact isPrec_of_noPrec hwo.2

end

/-! ## The word expression -/

theorem check_congr {cfg cfg' : Cfg V} (h : SameShape cfg cfg') (hp : cfg.packrat = false)
    (hr : cfg'.recognizeOnly = cfg.recognizeOnly) : C.check cfg' = C.check cfg := by
  have hp' : cfg'.packrat = false := h.packrat.trans hp
  have h1 : ∀ x : Def × Nat, C.ruleOk cfg' x.2 x.1 = C.ruleOk cfg x.2 x.1 := by
    intro x
    have hpr : ∀ (m : Mode) (r : Nat) (e : Ope), C.precOk cfg' m r e = C.precOk cfg m r e := by
      intro m r e
      unfold Cert.precOk
      split
      · simp only [hasValue, flatBody, actionOff, h.rules, h.packrat, hr, wf_congr h]
      · rfl
    have hlo : ∀ (m : Mode) (r : Nat) (d : Def), C.lrOk cfg' m r d = C.lrOk cfg m r d := by
      intro m r d
      unfold Cert.lrOk
      split
      · have e : wfSeq cfg' C {} false m C.top = wfSeq cfg C {} false m C.top := funext fun x => wfSeq_congr h C {} false m C.top x
        rw [wfAll_congr h, e, h.hasCut, h.predicate]
      · rfl
    unfold Cert.ruleOk
    simp only [wf_congr h, skipOk_congr h, usesEnv_rules h.rules, hpr, hlo, hr]
  have h2 : C.wsOk cfg' = C.wsOk cfg := by
    unfold Cert.wsOk
    rw [h.ws]
    cases cfg.ws with
    | none => rfl
    | some w => cases w <;> simp only [wf_congr h, usesEnv_rules h.rules]
  have h3 : C.packOk cfg' = C.packOk cfg := by
    unfold Cert.packOk; rw [hp, hp']; rfl
  unfold Cert.check
  rw [h2, h3, h.rules]
  simp only [h1]

/-- No rule is called. -/
def refFree (names : List (List Byte)) : Cert :=
  { rank := fun _ => 0, null := fun _ => true, leak := fun _ => true, modes := fun _ _ => false, top := 0, names := names }

mutual
/-- No choice inside. -/
def Ope.choFree : Ope → Bool
  | .seq es _ => Ope.choFreeL es
  | .cho .. => false
  | .rep e _ _ _ => e.choFree
  | .and_ e => e.choFree
  | .not_ e => e.choFree
  | .capScope e => e.choFree
  | .cap _ e => e.choFree
  | .tok e => e.choFree
  | .ign e => e.choFree
  | .ws e => e.choFree
  | .ref .. => false
  | .recov .. => false
  | .prec .. => false
  | _ => true

def Ope.choFreeL : List Ope → Bool
  | [] => true
  | e :: es => e.choFree && Ope.choFreeL es
end

mutual
/-- Without choices, what is known about annotations does not depend on the rest of the grammar. -/
theorem ann_choFree {cfg cfg' : Cfg V} {C C' : Cert} {F F' : FsCert} {al al' : Nat → Prop} (hr : cfg'.rules = cfg.rules) :
    ∀ e : Ope, e.plain.choFree = true → e.Each (AnnNode cfg C F al) → e.Each (AnnNode cfg' C' F' al')
  | .seq es g, hc, h => by
    simp only [Ope.plain, Ope.choFree] at hc
    refine ⟨?_, annL_choFree hr es hc h.2⟩
    cases g with
    | none => trivial
    | some g => simp only [AnnNode, hr]; exact h.1
  | .cho .., hc, h => by simp [Ope.plain, Ope.choFree] at hc
  | .rep e mn mx sp, hc, h => by
    simp only [Ope.plain, Ope.choFree] at hc
    refine ⟨?_, ann_choFree hr e hc h.2⟩
    cases sp with
    | none => trivial
    | some c => exact h.1
  | .and_ e, hc, h => ⟨trivial, ann_choFree hr e (by simpa only [Ope.plain, Ope.choFree] using hc) h.2⟩
  | .not_ e, hc, h => ⟨trivial, ann_choFree hr e (by simpa only [Ope.plain, Ope.choFree] using hc) h.2⟩
  | .capScope e, hc, h => ⟨trivial, ann_choFree hr e (by simpa only [Ope.plain, Ope.choFree] using hc) h.2⟩
  | .cap _ e, hc, h => ⟨trivial, ann_choFree hr e (by simpa only [Ope.plain, Ope.choFree] using hc) h.2⟩
  | .tok e, hc, h => ⟨trivial, ann_choFree hr e (by simpa only [Ope.plain, Ope.choFree] using hc) h.2⟩
  | .ign e, hc, h => ⟨trivial, ann_choFree hr e (by simpa only [Ope.plain, Ope.choFree] using hc) h.2⟩
  | .ws e, hc, h => ⟨trivial, ann_choFree hr e (by simpa only [Ope.plain, Ope.choFree] using hc) h.2⟩
  | .ref .., hc, h => by simp [Ope.plain, Ope.choFree] at hc
  | .recov .., hc, h => by simp [Ope.plain, Ope.choFree] at hc
  | .prec .., hc, h => by simp [Ope.plain, Ope.choFree] at hc
  | .dict .., _, _ => trivial
  | .lit .., _, _ => trivial
  | .cls _, _, _ => trivial
  | .chr _, _, _ => trivial
  | .dot, _, _ => trivial
  | .usr _, _, _ => trivial
  | .weak _, _, _ => trivial
  | .param .., _, _ => trivial
  | .bref _, _, _ => trivial
  | .cut, _, _ => trivial
  | .null, _, _ => trivial

theorem annL_choFree {cfg cfg' : Cfg V} {C C' : Cert} {F F' : FsCert} {al al' : Nat → Prop} (hr : cfg'.rules = cfg.rules) :
    ∀ es : List Ope, Ope.choFreeL (Ope.plainL es) = true → Ope.EachL (AnnNode cfg C F al) es → Ope.EachL (AnnNode cfg' C' F' al') es
  | [], _, _ => trivial
  | e :: es, hc, h => by
    simp only [Ope.plainL, Ope.choFreeL, Bool.and_eq_true] at hc
    exact ⟨ann_choFree hr e hc.1 h.1, annL_choFree hr es hc.2 h.2⟩
end

/-- All parameter names. -/
def allParams (rs : List Def) : List (List Byte) := rs.flatMap (·.params)

/-- The sequences that get no keyword guard. -/
def noKw (rs : List Def) (es : List Ope) : Bool := (kwSetup rs es).isNone

/-- The word expression passes the tests: either the grammar as a whole passes them without white space and word rule, or the
word expression calls no rule and has no choice (for example `[a-z]+`). -/
def WordTested (base : Cfg V) (wordR : Option Nat) (rs : List Def) : Prop :=
  ∀ (r : Nat) (d : Def), wordR = some r → rs[r]? = some d →
    (∃ (C : Cert) (F : FsCert) (b : Nat), Tested ((base.dummy []).withRules none none rs) C F (noKw rs) ∧
      wf ((base.dummy []).withRules none none rs) C {} false {} b d.ope = true ∧
      usesEnv ((base.dummy []).withRules none none rs) d.ope = false) ∨
    (wf ((base.dummy []).withRules none none rs) (refFree (allParams rs)) {} false {} 0 d.ope && d.ope.choFree &&
      (⟨fun _ => false, fun _ => false⟩ : FsCert).okO (refFree []) false (noKw rs) d.ope &&
      !usesEnv ((base.dummy []).withRules none none rs) d.ope) = true

section
variable {base : Cfg V} {wsR wordR : Option Nat} {rs : List Def} {kw : List Ope → Bool}

theorem dummy_shape (inp : List Byte) (rs : List Def) :
    SameShape ((base.dummy []).withRules none none rs) ((base.dummy inp).withRules none none rs) := ⟨rfl, rfl, rfl, rfl, rfl⟩

theorem calls_dummy (h : CallsOk base) (inp : List Byte) : CallsOk (base.dummy inp) :=
  ⟨h.user, ⟨h.dt.action, h.dt.predicate, h.dt.leave⟩, fun h => by cases h⟩

theorem tested_dummy {rs : List Def} {kw : List Ope → Bool} (h : Tested ((base.dummy []).withRules none none rs) C F kw)
    (inp : List Byte) : Tested ((base.dummy inp).withRules none none rs) C F kw :=
  ⟨(check_congr (dummy_shape inp rs) rfl rfl).trans h.cert, h.first⟩

theorem wordCert_annotated (ht : Tested (base.withRules wsR wordR rs) C F kw) (hword : WordTested base wordR rs)
    (hcalls : CallsOk base) (order : List Nat) {inp : List Byte} {i : Nat} (hi : Bdry inp i) :
    WordCert (base.withRules wsR wordR (setupAll rs order)) inp i := by
  have hG := FsOkG.of_check ht.cert ht.first
  obtain ⟨h1, h2⟩ := setupAll_ok hG (fun r d hd => (FsCert.check_rule ht.first hd).1) order
  have h1 : (setupAll rs order).map Def.plain = rs := h1
  have hchk := check_annotated ht h1 (noGuards_of_ann h2)
  intro w hw
  change (wordR.bind fun r => ((setupAll rs order)[r]?).map Def.ope) = some w at hw
  rcases wordR_cases : wordR with _ | r
  · rw [wordR_cases] at hw; cases hw
  · have hr : wordR = some r := wordR_cases
    rw [← wordR_cases]
    rw [hr] at hw
    simp only [Option.bind_some, Option.map_eq_some_iff] at hw
    obtain ⟨d, hd, rfl⟩ := hw
    have hd0 : rs[r]? = some d.plain := by
      have : rs[r]? = ((setupAll rs order).map Def.plain)[r]? := by rw [h1]
      rw [this]; simp [hd]
    have hsh : Annotates ((base.dummy inp).withRules none none rs) ((base.dummy inp).withRules none none (setupAll rs order)) :=
      ⟨h1.trans (map_plain_self ht.first).symm, rfl, rfl, rfl⟩
    have hw0 : ∀ t, Text t → WordAt ((base.dummy inp).withRules none none (setupAll rs order)) t 0 := by
      intro _ _ w h; cases h
    have henv : ∀ e, usesEnv ((base.dummy []).withRules none none rs) e.plain = false →
        usesEnv (base.withRules wsR wordR (setupAll rs order)) e = false := by
      intro e he
      have hsh0 : Annotates ((base.dummy []).withRules none none rs) ((base.dummy []).withRules none none (setupAll rs order)) :=
        ⟨h1.trans (map_plain_self ht.first).symm, rfl, rfl, rfl⟩
      rw [usesEnv_plain hsh0 e] at he
      rw [← he]
      exact usesEnv_rules (cfg' := base.withRules wsR wordR (setupAll rs order)) (cfg := (base.dummy []).withRules none none (setupAll rs order)) rfl e
    rcases hword r d.plain hr hd0 with ⟨Cw, Fw, b, k1, k2, k3⟩ | k
    · have hc := certOk_annotated (base := base.dummy inp) (wsR := none) (wordR := none) (tested_dummy k1 inp) order
        (kwSound_none _ _) (calls_dummy hcalls inp) (slotsOk_of rfl) hw0
      refine ⟨Cw, b, Bdry inp, hc, ?_, ?_, ?_, hi⟩
      · have e := wf_plain hsh Cw {} false {} b d.ope
        show wf ((base.dummy inp).withRules none none (setupAll rs order)) _ _ _ _ _ _ = true
        rw [← e, wf_congr (dummy_shape inp rs)]
        exact k2
      · obtain ⟨-, -, -, -, ⟨m, hm⟩, -⟩ := FsCert.check_rule k1.first (r := r) hd0
        exact hc.node r d m hd hm ((isPrec_plain _).symm.trans (notPrec_of_wf k2))
      · exact henv _ k3
    · simp only [Bool.and_eq_true, Bool.not_eq_true'] at k
      obtain ⟨⟨⟨k1, k2⟩, k3⟩, k4⟩ := k
      have hrule : ∀ (r : Nat) (d : Def), (setupAll rs order)[r]? = some d → _ := fun r d hd => Cert.ruleOk_of hchk (r := r) (d := d) hd
      simp only [Cert.ruleOk, Bool.and_eq_true, List.all_eq_true, Bool.or_eq_true, Bool.not_eq_true'] at hrule
      have hnames : ∀ (r : Nat) (d : Def), (setupAll rs order)[r]? = some d → ∀ p ∈ d.params, p ∈ allParams rs := by
        intro r d hd p hp
        have hd0 : d.plain ∈ rs := by rw [← h1]; exact List.mem_map_of_mem (List.mem_of_getElem? hd)
        exact List.mem_flatMap.mpr ⟨d.plain, hd0, hp⟩
      have hnp : d.ope.noPrec = true := by
        rw [← noPrec_plain]
        exact Ope.noPrec_of_bare _ (Ope.bare_of_bareR (FsCert.check_rule ht.first (r := r) hd0).1 (notPrec_of_wf k1))
      have hplits : d.plain.ope.litsO = true := (FsCert.check_rule ht.first (r := r) hd0).2.2.1
      have hpos : AlOk ((base.dummy inp).withRules none none (setupAll rs order)) (refFree (allParams rs)) (Bdry inp) := alOk_bdry _ hw0
      have hcert : CertOk ((base.dummy inp).withRules none none (setupAll rs order)) (refFree (allParams rs)) (Bdry inp) := {
        frame := ⟨fun r d hd hm _ => (hrule r d hd).2.resolve_right (fun h => by rw [hm] at h; cases h.1), fun h => (by cases h), (fun w h => by cases h), hcalls.user⟩
        slots := slotsOk_of rfl
        dt := ⟨hcalls.dt.action, hcalls.dt.predicate, hcalls.dt.leave⟩
        pos := hpos
        body := fun r d _ _ _ m h => by cases h
        lr := fun r d _ _ _ m h => by cases h
        macro_ := fun r d _ _ m h => by cases h
        null := fun r d _ _ => rfl
        leak := fun r d _ _ => rfl
        names := hnames
        env := by
          intro r d hd hm hu
          have hu' : usesEnv (base.withRules wsR wordR (setupAll rs order)) d.ope = true := by
            rw [← hu]; exact usesEnv_rules (cfg' := base.withRules wsR wordR (setupAll rs order)) (cfg := (base.dummy inp).withRules none none (setupAll rs order)) rfl _
          rcases (hrule r d hd).1.2 with (h | h) | h
          · rw [hm] at h; cases h
          · rw [hu'] at h; cases h
          · exact h
        node := fun r d m _ h => by cases h
        ws := fun w h => by cases h
        reco := fun h => by cases h
        ids := fun h => by cases h
        idLt := fun h => by cases h
        slotInj := fun h => by cases h
        cached := fun h => by cases h }
      refine ⟨refFree (allParams rs), 0, Bdry inp, hcert, ?_, ?_, ?_, hi⟩
      · have e := wf_plain hsh (refFree (allParams rs)) {} false {} 0 d.ope
        show wf ((base.dummy inp).withRules none none (setupAll rs order)) _ _ _ _ _ _ = true
        rw [← e, wf_congr (dummy_shape inp rs)]
        exact k1
      · refine nodeOk_of_ann (cfg := (base.dummy inp).withRules none none rs) (kw := noKw rs) (C := refFree [])
          (F := ⟨fun _ => false, fun _ => false⟩) (annOf h1) (kwSound_none _ _) hw0 d.ope
          (ann_choFree (cfg := base.withRules wsR wordR rs) (cfg' := (base.dummy inp).withRules none none rs) rfl d.ope k2 (h2 d (List.mem_of_getElem? hd))) hnp hplits k3
      · exact henv _ k4

/-- A tested grammar, ready to be annotated by the loader. -/
structure Loaded (base : Cfg V) (wsR wordR : Option Nat) (rs : List Def) (C : Cert) (F : FsCert) (kw : List Ope → Bool) (r : Nat) :
    Prop where
  tested : Tested (base.withRules wsR wordR rs) C F kw
  word : WordTested base wordR rs
  guards : ∀ order, KwSound (base.withRules wsR wordR rs) (base.withRules wsR wordR (setupAll rs order)) kw
  calls : CallsOk base
  slots : SlotsOk base
  text : Text base.input
  rule : ∃ d, rs[r]? = some d ∧ d.isMacro = false
  mode : C.modes r {} = true

/-- Whatever the order in which the loader annotates the rules, the annotated grammar is ready. -/
theorem Loaded.ready {r : Nat} (h : Loaded base wsR wordR rs C F kw r) (order : List Nat) :
    Ready (base.withRules wsR wordR (setupAll rs order)) C (Bdry base.input) r where
  cert := certOk_annotated h.tested order (h.guards order) h.calls h.slots
    (fun t ht => (wordCert_annotated h.tested h.word h.calls order (i := 0) ht).at (Nat.zero_le _))
  word i hi := wordCert_annotated h.tested h.word h.calls order hi
  start := h.text
  rule := by
    obtain ⟨d, hd, k1⟩ := h.rule
    have hG := FsOkG.of_check h.tested.cert h.tested.first
    obtain ⟨h1, -⟩ := setupAll_ok hG (fun r d hd => (FsCert.check_rule h.tested.first hd).1) order
    have h1 : (setupAll rs order).map Def.plain = rs := h1
    rw [← h1, List.getElem?_map, Option.map_eq_some_iff] at hd
    obtain ⟨d', hd', rfl⟩ := hd
    exact ⟨d', hd', k1⟩
  mode := h.mode

/-- The grammar without annotations is ready, too. -/
theorem Loaded.ready_plain {r : Nat} (h : Loaded base wsR wordR rs C F kw r) :
    Ready (base.withRules wsR wordR rs) C (Bdry base.input) r := h.ready []

end

end Verif
