import Verif.SimParse
import Verif.Props.Engine
/-!
# A computable test of grammars

`Cert.check cfg C` evaluates the conditions of `CertOk` that do not concern annotations and callbacks.  It does not look at
the input.
-/

namespace Verif
open CharClass Props

variable {V : Type}

/-- What the test reads of a configuration. -/
structure SameShape (cfg cfg' : Cfg V) : Prop where
  rules : cfg'.rules = cfg.rules
  ws : cfg'.ws = cfg.ws
  hasCut : cfg'.hasCut = cfg.hasCut
  packrat : cfg'.packrat = cfg.packrat
  predicate : cfg'.predicate = cfg.predicate

theorem skipOk_congr {cfg cfg' : Cfg V} (h : SameShape cfg cfg') (C : Cert) (m : Mode) (b : Nat) :
    C.skipOk cfg' m b = C.skipOk cfg m b := by
  unfold Cert.skipOk; rw [h.ws]

mutual
theorem wf_congr {cfg cfg' : Cfg V} (h : SameShape cfg cfg') (C : Cert) (κ : MCtx) (arg : Bool) (m : Mode) (b : Nat) : ∀ e : Ope,
    wf cfg' C κ arg m b e = wf cfg C κ arg m b e
  | .seq es _ => by simp only [wf]; exact wfSeq_congr h C κ arg m b es
  | .cho es l fs => by simp only [wf, wfAll_congr h C κ arg m b es, h.hasCut]
  | .rep e mn mx sp => by simp only [wf, wf_congr h C κ arg m b e]
  | .and_ e => by simp only [wf, wf_congr h C κ arg m b e]
  | .not_ e => by simp only [wf, wf_congr h C κ arg m b e]
  | .dict _ _ => by simp only [wf]
  | .lit t ic => by simp only [wf, skipOk_congr h]
  | .cls _ => by simp only [wf]
  | .chr _ => by simp only [wf]
  | .dot => by simp only [wf]
  | .capScope e => by simp only [wf, wf_congr h C κ arg m b e]
  | .cap _ e => by simp only [wf, wf_congr h C κ arg m b e, h.packrat]
  | .tok e => by simp only [wf, wf_congr h C κ arg { m with tok := true } b e, skipOk_congr h]
  | .ign e => by simp only [wf, wf_congr h C κ arg m b e]
  | .usr _ => by simp only [wf]
  | .weak _ => by simp only [wf]
  | .ref r nm as => by
    simp only [wf, h.rules]
    cases hd : cfg.rules[r]? with
    | none => rfl
    | some d => simp only; rw [wfArgs_congr h C (if arg then {} else κ) r as]
  | .param k nm => by simp only [wf]
  | .ws e => by simp only [wf, wf_congr h C κ arg { m with ws := true } b e]
  | .bref _ => by simp only [wf, skipOk_congr h, h.packrat]
  | .prec .. => by simp only [wf]
  | .recov .. => by simp only [wf]
  | .cut => by simp only [wf, h.hasCut]
  | .null => by simp only [wf]

theorem wfSeq_congr {cfg cfg' : Cfg V} (h : SameShape cfg cfg') (C : Cert) (κ : MCtx) (arg : Bool) (m : Mode) (b : Nat) :
    ∀ es : List Ope, wfSeq cfg' C κ arg m b es = wfSeq cfg C κ arg m b es
  | [] => by simp only [wfSeq]
  | e :: es => by
    simp only [wfSeq, wf_congr h C κ arg m b e, wfSeq_congr h C κ arg m b es, wfSeq_congr h C κ arg m C.top es]

theorem wfAll_congr {cfg cfg' : Cfg V} (h : SameShape cfg cfg') (C : Cert) (κ : MCtx) (arg : Bool) (m : Mode) (b : Nat) :
    ∀ es : List Ope, wfAll cfg' C κ arg m b es = wfAll cfg C κ arg m b es
  | [] => by simp only [wfAll]
  | e :: es => by simp only [wfAll, wf_congr h C κ arg m b e, wfAll_congr h C κ arg m b es]

theorem wfArgs_congr {cfg cfg' : Cfg V} (h : SameShape cfg cfg') (C : Cert) (κ : MCtx) (r : Nat) :
    ∀ as : List Ope, wfArgs cfg' C κ r as = wfArgs cfg C κ r as
  | [] => by simp only [wfArgs]
  | a :: as => by
    simp only [wfArgs, wf_congr h C κ true ⟨false, false⟩ (C.abound r) a, wf_congr h C κ true ⟨false, true⟩ (C.abound r) a,
      wf_congr h C κ true ⟨true, false⟩ (C.abound r) a, wf_congr h C κ true ⟨true, true⟩ (C.abound r) a,
      wfArgs_congr h C κ r as]
end

/-- The conditions on rule `r`. -/
def Cert.ruleOk (C : Cert) (cfg : Cfg V) (r : Nat) (d : Def) : Bool :=
  (allModes.all fun m => !C.modes r m ||
    if d.isMacro then wf cfg C (C.ctx r d) false m (C.rank r) d.ope
    else if d.isLR then Cert.lrOk cfg C m r d
    else (if d.ope.isPrec then C.precOk cfg { m with tok := m.tok || d.noWs } r d.ope
        else wf cfg C {} false { m with tok := m.tok || d.noWs } (C.rank r) d.ope) &&
      (!(d.noWs && C.nul false d.ope) || C.skipOk cfg m (C.rank r))) &&
  (!C.nul (C.ctx r d).null d.ope || C.null r) && (!C.lk (C.ctx r d).leak d.ope || C.leak r) &&
  d.params.all (C.names.contains ·) && (d.isMacro || !usesEnv cfg d.ope || d.hasMacroRef) &&
  (d.ope.noPrec || (!d.isMacro && !cfg.recognizeOnly))

/-- The conditions on white space. -/
def Cert.wsOk (C : Cert) (cfg : Cfg V) : Bool :=
  match cfg.ws with
  | none => true
  | some (.ws e) => wf cfg C {} false ⟨false, true⟩ C.wsBound e && !C.lk false e && !usesEnv cfg e && e.noPrec
  | some _ => false

/-- The conditions for packrat parsing. -/
def Cert.packOk (C : Cert) (cfg : Cfg V) : Bool :=
  !cfg.packrat ||
  (List.range cfg.rules.length).all fun r =>
    decide (cfg.defId r < cfg.defCount) &&
    ((List.range cfg.rules.length).all fun r' => r == r' || (cfg.defId r != cfg.defId r' &&
      ((cfg.slot (cfg.defId r)).isNone || cfg.slot (cfg.defId r) != cfg.slot (cfg.defId r')))) &&
    ((cfg.slot (cfg.defId r)).isNone || (!C.leak r &&
      allModes.all fun m => allModes.all fun m' => !C.modes r m || !C.modes r m' || m == m'))

def Cert.check (C : Cert) (cfg : Cfg V) : Bool :=
  (cfg.rules.zipIdx.all fun x => C.ruleOk cfg x.2 x.1) && C.wsOk cfg && C.packOk cfg

theorem mem_allModes (m : Mode) : m ∈ allModes := by
  rcases m with ⟨a, b⟩
  cases a <;> cases b <;> decide

theorem Cert.ruleOk_of {C : Cert} {cfg : Cfg V} (h : C.check cfg = true) {r : Nat} {d : Def} (hd : cfg.rules[r]? = some d) :
    C.ruleOk cfg r d = true := by
  unfold Cert.check at h
  simp only [Bool.and_eq_true, List.all_eq_true] at h
  exact h.1.1 (d, r) (List.mem_zipIdx_iff_getElem?.mpr hd)

theorem CertOk.of_check {C : Cert} {cfg : Cfg V} {al : Nat → Prop} (h : C.check cfg = true) (hslots : SlotsOk cfg)
    (huser : ∀ id i f dt, f.vals <+: (cfg.user id i f dt).2.1.vals ∧ f.tags <+: (cfg.user id i f dt).2.1.tags ∧
      f.tokens <+: (cfg.user id i f dt).2.1.tokens ∧ (cfg.user id i f dt).2.1.name = f.name)
    (hdt : DtFree cfg) (hpos : AlOk cfg C al) (hreco : cfg.recognizeOnly = true → ∀ r, cfg.predicate r = none)
    (hlr : ∀ (r : Nat) (d : Def) (m : Mode), cfg.rules[r]? = some d → C.modes r m = true → d.isMacro = false → d.isLR = true →
      LrFs cfg al r d.ope)
    (hnode : ∀ (r : Nat) (d : Def) (m : Mode), cfg.rules[r]? = some d → C.modes r m = true → d.ope.isPrec = false →
      d.ope.Each (nodeOk cfg al))
    (hnodew : ∀ e, cfg.ws = some (.ws e) → e.Each (nodeOk cfg al)) : CertOk cfg C al := by
  have hws : C.wsOk cfg = true := by
    unfold Cert.check at h
    simp only [Bool.and_eq_true] at h
    exact h.1.2
  have hpk : C.packOk cfg = true := by
    unfold Cert.check at h
    simp only [Bool.and_eq_true] at h
    exact h.2
  have hrule : ∀ (r : Nat) (d : Def), cfg.rules[r]? = some d → _ := fun r d hd => Cert.ruleOk_of h hd
  simp only [Cert.ruleOk, Bool.and_eq_true, List.all_eq_true, Bool.or_eq_true, Bool.not_eq_true'] at hrule
  have hpack : cfg.packrat = true → ∀ r < cfg.rules.length, cfg.defId r < cfg.defCount ∧
      (∀ r' < cfg.rules.length, r = r' ∨ cfg.defId r ≠ cfg.defId r' ∧
        (cfg.slot (cfg.defId r) = none ∨ cfg.slot (cfg.defId r) ≠ cfg.slot (cfg.defId r'))) ∧
      (cfg.slot (cfg.defId r) = none ∨ C.leak r = false ∧ ∀ m m', C.modes r m = true → C.modes r m' = true → m = m') := by
    intro hp
    unfold Cert.packOk at hpk
    rw [hp] at hpk
    simp only [Bool.not_true, Bool.false_or, List.all_eq_true, List.mem_range, Bool.and_eq_true, decide_eq_true_eq,
      Bool.or_eq_true, beq_iff_eq, bne_iff_ne, Option.isNone_iff_eq_none, Bool.not_eq_true'] at hpk
    intro r hr
    obtain ⟨⟨h1, h2⟩, h3⟩ := hpk r hr
    refine ⟨h1, h2, h3.imp id fun h3 => ⟨h3.1, fun m m' a a' => ?_⟩⟩
    rcases h3.2 m (mem_allModes m) m' (mem_allModes m') with (h | h) | h
    · rw [h] at a; cases a
    · rw [h] at a'; cases a'
    · exact h
  have lt {r : Nat} {d : Def} (hd : cfg.rules[r]? = some d) : r < cfg.rules.length := by
    exact (List.getElem?_eq_some_iff.mp hd).1
  refine ⟨⟨fun r d hd hm _ => (hrule r d hd).2.resolve_right (by simp [hm]), fun hr r d hd => (hrule r d hd).2.resolve_right (by simp [hr]), ?_, huser⟩, hslots, hdt, hpos, ?_, ?_, ?_, ?_, ?_, ?_,
    ?_, hnode, ?_, hreco, ?_, ?_, ?_, ?_⟩
  · intro w hw
    unfold Cert.wsOk at hws
    rw [hw] at hws
    cases w <;> simp_all [Ope.noPrec]
  · intro r d hd hm hl m hmode
    have := (hrule r d hd).1.1.1.1.1 m (mem_allModes m)
    rw [hmode, hm, hl] at this
    simp only [Bool.true_eq_false, false_or, Bool.false_eq_true, if_false, Bool.and_eq_true, Bool.or_eq_true,
      Bool.not_eq_true'] at this
    refine ⟨this.1, fun h1 h2 => ?_⟩
    rcases this.2 with h | h
    · rw [h1, h2] at h; cases h
    · exact h
  · intro r d hd hm hl m hmode
    refine ⟨hlr r d m hd hmode hm hl, ?_⟩
    have := (hrule r d hd).1.1.1.1.1 m (mem_allModes m)
    rw [hmode, hm, hl] at this
    simpa using this
  · intro r d hd hm m hmode
    have := (hrule r d hd).1.1.1.1.1 m (mem_allModes m)
    rw [hmode, hm] at this
    simpa using this
  · intro r d hd hn
    rcases (hrule r d hd).1.1.1.1.2 with h | h
    · rw [hn] at h; cases h
    · exact h
  · intro r d hd hn
    rcases (hrule r d hd).1.1.1.2 with h | h
    · rw [hn] at h; cases h
    · exact h
  · intro r d hd p hp
    have := (hrule r d hd).1.1.2 p hp
    simpa using this
  · intro r d hd hm hu
    rcases (hrule r d hd).1.2 with (h | h) | h
    · rw [hm] at h; cases h
    · rw [hu] at h; cases h
    · exact h
  · intro w hw
    unfold Cert.wsOk at hws
    rw [hw] at hws
    cases w with
    | ws e =>
      simp only [Bool.and_eq_true, Bool.not_eq_true'] at hws
      exact ⟨e, rfl, hws.1.1.1, hws.1.1.2, hws.1.2, hnodew e hw⟩
    | _ => simp at hws
  · intro hp r r' d d' hd hd' he
    rcases (hpack hp r (lt hd)).2.1 r' (lt hd') with h | h
    · exact h
    · exact absurd he h.1
  · intro hp r d hd
    exact (hpack hp r (lt hd)).1
  · intro hp r r' d d' s hd hd' h1 h2
    rcases (hpack hp r (lt hd)).2.1 r' (lt hd') with h | h
    · exact h
    · rcases h.2 with h | h
      · rw [h] at h1; cases h1
      · exact absurd (h1.trans h2.symm) h
  · intro hp r d s hd hs
    rcases (hpack hp r (lt hd)).2.2 with h | h
    · rw [h] at hs; cases hs
    · exact h

mutual
/-- The expression carries no annotations. -/
def Ope.bare : Ope → Bool
  | .seq es kw => kw.isNone && Ope.bareL es
  | .cho es _ fs => fs.isEmpty && Ope.bareL es
  | .rep e _ _ sp => sp.isNone && e.bare
  | .and_ e => e.bare
  | .not_ e => e.bare
  | .capScope e => e.bare
  | .cap _ e => e.bare
  | .tok e => e.bare
  | .ign e => e.bare
  | .ws e => e.bare
  | .ref _ _ as => Ope.bareL as
  | .recov _ _ as => Ope.bareL as
  | .prec .. => false
  | _ => true

def Ope.bareL : List Ope → Bool
  | [] => true
  | e :: es => e.bare && Ope.bareL es
end

/-- A rule's body carries no annotations; it may be a precedence operator. -/
def Ope.bareR : Ope → Bool
  | .prec a b _ _ => a.bare && b.bare
  | e => e.bare

theorem Ope.bare_of_bareR : ∀ {e : Ope}, e.bareR = true → e.isPrec = false → e.bare = true := by
  intro e h hp
  cases e <;> first | exact h | cases hp

theorem Ope.bareR_of_bare {e : Ope} (h : e.bare = true) : e.bareR = true := by
  cases e <;> first | exact h | (simp [Ope.bare] at h)

mutual
theorem Ope.noPrec_of_bare : ∀ e : Ope, e.bare = true → e.noPrec = true
  | .seq es kw, h => by
    simp only [Ope.bare, Bool.and_eq_true] at h
    simp only [Ope.noPrec, Ope.noPrecL_of_bare es h.2]
  | .cho es l fs, h => by
    simp only [Ope.bare, Bool.and_eq_true] at h
    simp only [Ope.noPrec, Ope.noPrecL_of_bare es h.2]
  | .rep e mn mx sp, h => by
    simp only [Ope.bare, Bool.and_eq_true] at h
    simp only [Ope.noPrec, Ope.noPrec_of_bare e h.2]
  | .and_ e, h => by simp only [Ope.bare] at h; simp only [Ope.noPrec, Ope.noPrec_of_bare e h]
  | .not_ e, h => by simp only [Ope.bare] at h; simp only [Ope.noPrec, Ope.noPrec_of_bare e h]
  | .capScope e, h => by simp only [Ope.bare] at h; simp only [Ope.noPrec, Ope.noPrec_of_bare e h]
  | .cap _ e, h => by simp only [Ope.bare] at h; simp only [Ope.noPrec, Ope.noPrec_of_bare e h]
  | .tok e, h => by simp only [Ope.bare] at h; simp only [Ope.noPrec, Ope.noPrec_of_bare e h]
  | .ign e, h => by simp only [Ope.bare] at h; simp only [Ope.noPrec, Ope.noPrec_of_bare e h]
  | .ws e, h => by simp only [Ope.bare] at h; simp only [Ope.noPrec, Ope.noPrec_of_bare e h]
  | .ref _ _ as, h => by simp only [Ope.bare] at h; simp only [Ope.noPrec, Ope.noPrecL_of_bare as h]
  | .recov _ _ as, h => by simp only [Ope.bare] at h; simp only [Ope.noPrec, Ope.noPrecL_of_bare as h]
  | .prec .., h => by simp [Ope.bare] at h
  | .dict .., _ => rfl
  | .lit .., _ => rfl
  | .cls _, _ => rfl
  | .chr _, _ => rfl
  | .dot, _ => rfl
  | .param .., _ => rfl
  | .usr _, _ => rfl
  | .weak _, _ => rfl
  | .bref _, _ => rfl
  | .cut, _ => rfl
  | .null, _ => rfl

theorem Ope.noPrecL_of_bare : ∀ es : List Ope, Ope.bareL es = true → Ope.noPrecList es = true
  | [], _ => rfl
  | e :: es, h => by
    simp only [Ope.bareL, Bool.and_eq_true] at h
    simp only [Ope.noPrecList, Ope.noPrec_of_bare e h.1, Ope.noPrecL_of_bare es h.2, Bool.and_self]
end

mutual
theorem bare_nodeOk {cfg : Cfg V} (hw : ∀ t, WordAt cfg t 0) : ∀ (e : Ope), e.bare = true → e.Each (nodeOk cfg fun _ => True)
  | .seq es kw, h => by
    simp only [Ope.bare, Bool.and_eq_true, Option.isNone_iff_eq_none] at h
    rw [h.1]
    exact ⟨trivial, bareL_nodeOk hw es h.2⟩
  | .cho es l fs, h => by
    simp only [Ope.bare, Bool.and_eq_true, List.isEmpty_iff] at h
    rw [h.1]
    exact ⟨(fun k f e h => by simp at h), bareL_nodeOk hw es h.2⟩
  | .rep e mn mx sp, h => by
    simp only [Ope.bare, Bool.and_eq_true, Option.isNone_iff_eq_none] at h
    rw [h.1]
    exact ⟨trivial, bare_nodeOk hw e h.2⟩
  | .and_ e, h => ⟨trivial, bare_nodeOk hw e (by simpa only [Ope.bare] using h)⟩
  | .not_ e, h => ⟨trivial, bare_nodeOk hw e (by simpa only [Ope.bare] using h)⟩
  | .dict _ _, _ => fun _ _ _ => trivial
  | .lit _ _, _ => ⟨fun _ _ _ _ => trivial, hw _⟩
  | .cls _, _ => trivial
  | .chr _, _ => trivial
  | .dot, _ => trivial
  | .capScope e, h => ⟨trivial, bare_nodeOk hw e (by simpa only [Ope.bare] using h)⟩
  | .cap _ e, h => ⟨trivial, bare_nodeOk hw e (by simpa only [Ope.bare] using h)⟩
  | .tok e, h => ⟨trivial, bare_nodeOk hw e (by simpa only [Ope.bare] using h)⟩
  | .ign e, h => ⟨trivial, bare_nodeOk hw e (by simpa only [Ope.bare] using h)⟩
  | .usr _, _ => trivial
  | .weak _, _ => trivial
  | .ref _ _ as, h => ⟨trivial, bareL_nodeOk hw as (by simpa only [Ope.bare] using h)⟩
  | .param _ _, _ => trivial
  | .ws e, h => ⟨trivial, bare_nodeOk hw e (by simpa only [Ope.bare] using h)⟩
  | .bref _, _ => trivial
  | .prec .., h => by simp [Ope.bare] at h
  | .recov _ _ as, h => ⟨trivial, bareL_nodeOk hw as (by simpa only [Ope.bare] using h)⟩
  | .cut, _ => trivial
  | .null, _ => trivial

theorem bareL_nodeOk {cfg : Cfg V} (hw : ∀ t, WordAt cfg t 0) : ∀ (es : List Ope), Ope.bareL es = true → Ope.EachL (nodeOk cfg fun _ => True) es
  | [], _ => trivial
  | e :: es, h => by
    simp only [Ope.bareL, Bool.and_eq_true] at h
    exact ⟨bare_nodeOk hw e h.1, bareL_nodeOk hw es h.2⟩
end

/-- A grammar without left-recursive rules. -/
theorem noLR_of {rs : List Def} {P : Nat → Def → Prop} {Q : Nat → Mode → Prop} (h : ∀ d ∈ rs, d.isLR = false) (r : Nat) (d : Def) (m : Mode)
    (hd : rs[r]? = some d) (_ : Q r m) (_ : d.isMacro = false) (hl : d.isLR = true) : P r d := by
  rw [h d (List.mem_of_getElem? hd)] at hl; cases hl

/-- Without first sets there is nothing to check for left-recursive rules. -/
theorem lrFs_bare {cfg : Cfg V} {al : Nat → Prop} {r : Nat} {e : Ope} (h : e.bare = true) : LrFs cfg al r e := by
  cases e <;> try trivial
  simp only [Ope.bare, Bool.and_eq_true, List.isEmpty_iff] at h
  rw [h.1]
  intro k f hf
  simp at hf

end Verif
