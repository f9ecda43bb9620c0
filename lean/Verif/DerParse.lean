import Verif.DerProofs
/-!
# Whole parses and derivations; a computable test of grammars
-/

namespace Verif
open Out CharClass

variable {V : Type}

/-- What `Lg` asks of one node. -/
def Lg.node (L : Lg) : Ope → Prop
  | .seq _ (some k) => L.kw k
  | .rep _ _ _ (some c) => L.span c
  | .dict w ic => L.dict w ic
  | .lit s ic => L.lit s ic
  | .cls c => L.one (.cls c)
  | .chr c => L.one (.chr c)
  | .dot => L.one .dot
  | .usr id => L.usr id
  | .weak _ => False
  | .prec .. => False
  | .recov .. => L.K.recov = true
  | .bref _ => L.bref
  | _ => True

mutual
/-- `p` holds at every node. -/
def Ope.allB (p : Ope → Bool) : Ope → Bool
  | .seq es kw => p (.seq [] kw) && Ope.allBL p es
  | .cho es _ _ => Ope.allBL p es
  | .rep e mn mx sp => p (.rep .null mn mx sp) && e.allB p
  | .and_ e => e.allB p
  | .not_ e => e.allB p
  | .capScope e => e.allB p
  | .cap _ e => e.allB p
  | .tok e => e.allB p
  | .ign e => e.allB p
  | .ref _ _ as => Ope.allBL p as
  | .ws e => e.allB p
  | .recov r nm as => p (.recov r nm []) && Ope.allBL p as
  | .weak _ => false
  | .prec .. => false
  | e => p e

def Ope.allBL (p : Ope → Bool) : List Ope → Bool
  | [] => true
  | e :: es => e.allB p && Ope.allBL p es
end

mutual
theorem Ope.Ok.of_allB {L : Lg} {p : Ope → Bool} (hp : ∀ e, p e = true → L.node e) : ∀ (e : Ope), e.allB p = true → e.Ok L
  | .seq es kw, h => by
    simp only [Ope.allB, Bool.and_eq_true] at h
    simp only [Ope.Ok]
    exact ⟨by rintro k rfl; exact hp _ h.1, Ope.OkL.of_allBL hp es h.2⟩
  | .cho es _ _, h => by simp only [Ope.allB] at h; simp only [Ope.Ok]; exact Ope.OkL.of_allBL hp es h
  | .rep e mn mx sp, h => by
    simp only [Ope.allB, Bool.and_eq_true] at h
    simp only [Ope.Ok]
    exact ⟨by rintro c rfl; exact hp _ h.1, Ope.Ok.of_allB hp e h.2⟩
  | .and_ e, h => by simp only [Ope.allB] at h; simp only [Ope.Ok]; exact Ope.Ok.of_allB hp e h
  | .not_ e, h => by simp only [Ope.allB] at h; simp only [Ope.Ok]; exact Ope.Ok.of_allB hp e h
  | .dict w ic, h => by simp only [Ope.allB] at h; simp only [Ope.Ok]; exact hp _ h
  | .lit s ic, h => by simp only [Ope.allB] at h; simp only [Ope.Ok]; exact hp _ h
  | .cls c, h => by simp only [Ope.allB] at h; simp only [Ope.Ok]; exact hp _ h
  | .chr c, h => by simp only [Ope.allB] at h; simp only [Ope.Ok]; exact hp _ h
  | .dot, h => by simp only [Ope.allB] at h; simp only [Ope.Ok]; exact hp _ h
  | .capScope e, h => by simp only [Ope.allB] at h; simp only [Ope.Ok]; exact Ope.Ok.of_allB hp e h
  | .cap _ e, h => by simp only [Ope.allB] at h; simp only [Ope.Ok]; exact Ope.Ok.of_allB hp e h
  | .tok e, h => by simp only [Ope.allB] at h; simp only [Ope.Ok]; exact Ope.Ok.of_allB hp e h
  | .ign e, h => by simp only [Ope.allB] at h; simp only [Ope.Ok]; exact Ope.Ok.of_allB hp e h
  | .usr id, h => by simp only [Ope.allB] at h; simp only [Ope.Ok]; exact hp _ h
  | .weak _, h => by simp [Ope.allB] at h
  | .ref _ _ as, h => by simp only [Ope.allB] at h; simp only [Ope.Ok]; exact Ope.OkL.of_allBL hp as h
  | .param .., _ => by simp only [Ope.Ok]
  | .ws e, h => by simp only [Ope.allB] at h; simp only [Ope.Ok]; exact Ope.Ok.of_allB hp e h
  | .bref _, h => by simp only [Ope.allB] at h; simp only [Ope.Ok]; exact hp _ h
  | .prec .., h => by simp [Ope.allB] at h
  | .recov r nm as, h => by
    simp only [Ope.allB, Bool.and_eq_true] at h
    simp only [Ope.Ok]
    exact ⟨hp _ h.1, Ope.OkL.of_allBL hp as h.2⟩
  | .cut, _ => by simp only [Ope.Ok]
  | .null, _ => by simp only [Ope.Ok]

theorem Ope.OkL.of_allBL {L : Lg} {p : Ope → Bool} (hp : ∀ e, p e = true → L.node e) : ∀ (es : List Ope), Ope.allBL p es = true →
    Ope.OkL L es
  | [], _ => by simp only [Ope.OkL]
  | e :: es, h => by
    simp only [Ope.allBL, Bool.and_eq_true] at h
    simp only [Ope.OkL]
    exact ⟨Ope.Ok.of_allB hp e h.1, Ope.OkL.of_allBL hp es h.2⟩
end

/-- A rule body: an expression without operator precedence inside, or one operator expression. -/
def Ope.bodyB (p : Ope → Bool) : Ope → Bool
  | .prec a b _ _ => a.allB p && b.allB p
  | e => e.allB p

theorem BodyOk.of_bodyB {L : Lg} {p : Ope → Bool} (hp : ∀ e, p e = true → L.node e) {e : Ope} (h : e.bodyB p = true) :
    BodyOk L e := by
  unfold Ope.bodyB at h
  split at h
  · simp only [Bool.and_eq_true] at h
    exact .inr ⟨_, _, _, _, rfl, Ope.Ok.of_allB hp _ h.1, Ope.Ok.of_allB hp _ h.2⟩
  · exact .inl (Ope.Ok.of_allB hp _ h)

/-- The computable part of the hypotheses: `p` is tested at the leaves. -/
def derCheck (p : Ope → Bool) (cfg : Cfg V) : Bool :=
  (cfg.rules.all fun d => d.ope.bodyB p && (!d.isMacro || (!d.isLR && d.ope.allB p)) &&
    (d.isMacro || d.hasMacroRef || envFree cfg.rules d.ope) && (!cfg.recognizeOnly || d.ope.allB p)) &&
  (cfg.ws.all fun w => w.allB p && envFree cfg.rules w) &&
  (!cfg.packrat || (List.range cfg.rules.length).all fun r => (List.range cfg.rules.length).all fun r' =>
    r == r' || (cfg.slot (cfg.defId r)).isNone || cfg.slot (cfg.defId r) != cfg.slot (cfg.defId r'))

/-- User-defined parsers only append to the scope they are called in. -/
def UserAppends (cfg : Cfg V) : Prop :=
  ∀ id i f dt, f.vals <+: (cfg.user id i f dt).2.1.vals ∧ f.tags <+: (cfg.user id i f dt).2.1.tags ∧
    f.tokens <+: (cfg.user id i f dt).2.1.tokens ∧ (cfg.user id i f dt).2.1.name = f.name

/-- The part of the hypotheses that does not speak of positions. -/
structure DShape (cfg : Cfg V) (L : Lg) : Prop where
  frame : FrameOk cfg
  slots : SlotsOk cfg
  body : ∀ (r : Nat) (d : Def), cfg.rules[r]? = some d → BodyOk L d.ope
  lr : ∀ (r : Nat) (d : Def), cfg.rules[r]? = some d → d.isMacro = true → d.isLR = false ∧ d.ope.Ok L
  env : ∀ (r : Nat) (d : Def), cfg.rules[r]? = some d → d.isMacro = false → d.hasMacroRef = false →
    envFree cfg.rules d.ope = true
  ws : ∀ w, cfg.ws = some w → w.Ok L ∧ envFree cfg.rules w = true
  slotInj : cfg.packrat = true → ∀ (r r' : Nat) (d d' : Def) (s : Nat), cfg.rules[r]? = some d → cfg.rules[r']? = some d' →
    cfg.slot (cfg.defId r) = some s → cfg.slot (cfg.defId r') = some s → r = r'

theorem DShape.of_check {cfg : Cfg V} {L : Lg} {p : Ope → Bool} (hp : ∀ e, p e = true → L.node e)
    (h : derCheck p cfg = true) (hs : SlotsOk cfg) (hu : UserAppends cfg) : DShape cfg L := by
  unfold derCheck at h
  simp only [Bool.and_eq_true, List.all_eq_true] at h
  obtain ⟨⟨h1, h2⟩, h3⟩ := h
  have hb : ∀ (r : Nat) (d : Def), cfg.rules[r]? = some d → _ := fun r d hd => h1 d (List.mem_of_getElem? hd)
  refine ⟨⟨?_, ?_, ?_, hu⟩, hs, fun r d hd => .of_bodyB hp (hb r d hd).1.1.1, ?_, ?_, ?_, ?_⟩
  · intro r d hd hm _
    have := (hb r d hd).1.1.2
    simp only [hm, Bool.not_true, Bool.false_or, Bool.and_eq_true] at this
    exact (Ope.Ok.of_allB hp _ this.2).noPrec
  · intro hr r d hd
    have := (hb r d hd).2
    simp only [hr, Bool.not_true, Bool.false_or] at this
    exact (Ope.Ok.of_allB hp _ this).noPrec
  · intro w hw
    rw [hw] at h2
    simp only [Option.all_some, Bool.and_eq_true] at h2
    exact (Ope.Ok.of_allB hp _ h2.1).noPrec
  · intro r d hd hm
    have := (hb r d hd).1.1.2
    simp only [hm, Bool.not_true, Bool.false_or, Bool.and_eq_true, Bool.not_eq_true'] at this
    exact ⟨this.1, Ope.Ok.of_allB hp _ this.2⟩
  · intro r d hd hm hr
    have := (hb r d hd).1.2
    simpa only [hm, hr, Bool.false_or] using this
  · intro w hw
    rw [hw] at h2
    simp only [Option.all_some, Bool.and_eq_true] at h2
    exact ⟨Ope.Ok.of_allB hp _ h2.1, h2.2⟩
  · intro hpk r r' d d' s hd hd' e e'
    rw [hpk] at h3
    simp only [Bool.not_true, Bool.false_or, List.all_eq_true, List.mem_range, Bool.or_eq_true, beq_iff_eq, bne_iff_ne,
      Option.isNone_iff_eq_none] at h3
    rcases h3 r (List.getElem?_eq_some_iff.mp hd).1 r' (List.getElem?_eq_some_iff.mp hd').1 with (h | h) | h
    · exact h
    · rw [h] at e; cases e
    · exact absurd (e.trans e'.symm) h

/-- Without restrictions on positions and captures nothing more is needed. -/
theorem DShape.hyp {cfg : Cfg V} {L : Lg} (h : DShape cfg L) (ha : ∀ i, L.al i) (hc : ∀ nm t, L.K.cap nm t) : DHyp cfg L :=
  ⟨h.frame, h.slots, h.body, h.lr, h.env, h.ws, h.slotInj, fun _ _ _ _ _ _ _ _ _ _ => ha _, fun _ _ _ _ _ _ _ _ _ _ _ => hc _ _⟩

/-- The initial state. -/
theorem dpre_start {cfg : Cfg V} {L : Lg} (h0 : L.al 0) (dt : Option V) (log : Bool) :
    DPre cfg L 0 ({ dt := dt, logOn := log } : St V) := by
  refine ⟨⟨?_, ?_, ?_⟩, Nat.zero_le _, ⟨?_, ?_, ?_, ?_, fun _ => rfl, ?_⟩, h0⟩
  · intro idx len v h; cases h
  · intro r inst p j v h; cases h
  · intro k hk; cases hk
  · intro c hc; cases hc
  · intro _ q d s p len v _ _ h; cases h
  · intro q inst p j v h; cases h
  · intro fr hfr e he
    simp at hfr; subst hfr; cases he
  · exact ⟨(fun p h => by cases h), (fun p h => by cases h), (fun t h => by cases h), (fun t h => by cases h)⟩

/-- The outcome of a successful parse as a derivation: white space, then the start rule `r` from `i` to `j` with value `v`; `f`
is the outermost scope. -/
def DerParse (cfg : Cfg V) (K : DCtx) (r : Nat) (i j : Nat) (v : Option V) (f : Frame V) : Prop :=
  ∃ d g, cfg.rules[r]? = some d ∧ d.isMacro = false ∧ Der cfg K {} .skip 0 {} i g ∧ Der cfg K {} (.rule r v) i {} j {} ∧
    (cfg.recognizeOnly = true ∨ f = pushValue d v g)

/-- **Every successful parse is a derivation.** -/
theorem parseCore_D {cfg : Cfg V} {L : Lg} (H : DHyp cfg L) (h0 : L.al 0) {n r : Nat} {eoi : Bool} {dt : Option V} {log : Bool}
    {res : Result V} (hm : ∀ d, cfg.rules[r]? = some d → d.isMacro = false)
    (h : parseCore n cfg r eoi { dt := dt, logOn := log } = .ok res) (hr : res.ret = true) :
    ∃ i v, DerParse cfg L.K r i res.len v res.st.vs ∧ i ≤ res.len ∧ res.len ≤ cfg.input.length ∧
      (L.K.recov = false → res.recovered = false) := by
  unfold parseCore at h
  simp only at h
  rw [bind_eq_ok] at h
  obtain ⟨⟨x, st1⟩, h1, h⟩ := h
  have hp0 := dpre_start (cfg := cfg) h0 dt log
  have key : StD cfg L st1 ∧ StOk cfg st1 ∧ (∀ i, x = some i → Der cfg L.K {} .skip 0 {} i st1.vs ∧ i ≤ cfg.input.length) ∧
      st1.env = {} := by
    split at h1
    · cases h1
      exact ⟨hp0.d, hp0.ok, fun i e => by cases e; exact ⟨.noSkip, Nat.zero_le _⟩, rfl⟩
    · rename_i w hw
      have p := (run_good n).ope H.slots hp0.ok hp0.le h1
      have q := ope_D (run_good n) (run_goodF n) (run_goodD n) H hp0 (H.ws w hw).1 h1
      refine ⟨q.d, p.ok, fun i e => ⟨.skip hw ?_, ?_⟩, p.keep.env⟩
      · exact q.der i e
      · exact (p.bounds i e).2
  obtain ⟨s1, o1, d1, e1⟩ := key
  cases x with
  | none => cases h; cases hr
  | some i =>
    simp only at h
    rw [bind_eq_ok] at h
    obtain ⟨⟨y, st2⟩, h2, h⟩ := h
    obtain ⟨ds, hi⟩ := d1 i rfl
    have hp1 : DPre cfg L i st1 := ⟨o1, hi, s1, H.closed {} .skip 0 {} i _ (by intro e he; cases he) trivial h0 ds⟩
    have p2 := (run_good n).hold H.slots o1 hi h2
    obtain ⟨s2, d2⟩ := run_goodD n cfg L (.hold r) i st1 _ H hp1 trivial (by intro d _ _ _; rw [e1]) h2
    cases y with
    | none => cases h; cases hr
    | some j =>
      obtain ⟨d, hd, y⟩ := d2 j rfl
      have hmd := hm d hd
      rcases y with ⟨_, v, y1, y2⟩ | ⟨hm', _⟩
      rotate_left
      · rw [hmd] at hm'; cases hm'
      dsimp only at h
      by_cases he : (eoi && decide (j < cfg.input.length)) = true
      · unfold eoiCheck at h
        rw [if_pos he] at h
        cases h; cases hr
      · unfold eoiCheck at h
        rw [if_neg he] at h
        cases h
        refine ⟨i, v, ⟨d, st1.vs, hd, hmd, ds, y1 _, y2⟩, (p2.bounds j rfl).1, (p2.bounds j rfl).2, s2.reco⟩

/-- **Whatever a parse remembers of errors lies at allowed positions**, whether it succeeds or fails. -/
theorem parseCore_errD {cfg : Cfg V} {L : Lg} (H : DHyp cfg L) (h0 : L.al 0) {n r : Nat} {eoi : Bool} {dt : Option V} {log : Bool}
    {res : Result V} (hm : ∀ d, cfg.rules[r]? = some d → d.isMacro = false)
    (h : parseCore n cfg r eoi { dt := dt, logOn := log } = .ok res) : ErrD L res.st.err res.st.logs := by
  unfold parseCore at h
  simp only at h
  rw [bind_eq_ok] at h
  obtain ⟨⟨x, st1⟩, h1, h⟩ := h
  have hp0 := dpre_start (cfg := cfg) h0 dt log
  have key : StD cfg L st1 ∧ StOk cfg st1 ∧ (∀ i, x = some i → Der cfg L.K {} .skip 0 {} i st1.vs ∧ i ≤ cfg.input.length) ∧
      st1.env = {} := by
    split at h1
    · cases h1
      exact ⟨hp0.d, hp0.ok, fun i e => by cases e; exact ⟨.noSkip, Nat.zero_le _⟩, rfl⟩
    · rename_i w hw
      have p := (run_good n).ope H.slots hp0.ok hp0.le h1
      have q := ope_D (run_good n) (run_goodF n) (run_goodD n) H hp0 (H.ws w hw).1 h1
      refine ⟨q.d, p.ok, fun i e => ⟨.skip hw ?_, ?_⟩, p.keep.env⟩
      · exact q.der i e
      · exact (p.bounds i e).2
  obtain ⟨s1, o1, d1, e1⟩ := key
  cases x with
  | none => cases h; exact s1.err
  | some i =>
    simp only at h
    rw [bind_eq_ok] at h
    obtain ⟨⟨y, st2⟩, h2, h⟩ := h
    obtain ⟨ds, hi⟩ := d1 i rfl
    have hp1 : DPre cfg L i st1 := ⟨o1, hi, s1, H.closed {} .skip 0 {} i _ (by intro e he; cases he) trivial h0 ds⟩
    obtain ⟨s2, d2⟩ := run_goodD n cfg L (.hold r) i st1 _ H hp1 trivial (by intro d _ _ _; rw [e1]) h2
    cases y with
    | none => cases h; exact s2.err
    | some j =>
      obtain ⟨d, hd, y⟩ := d2 j rfl
      have hmd := hm d hd
      rcases y with ⟨_, v, y1, y2⟩ | ⟨hm', _⟩
      rotate_left
      · rw [hmd] at hm'; cases hm'
      dsimp only at h
      unfold eoiCheck at h
      by_cases he : (eoi && decide (j < cfg.input.length)) = true
      · rw [if_pos he] at h
        cases h
        have hj : L.al j := H.closed {} (.rule r v) i {} j {} (by intro e he; cases he) trivial hp1.al (y1 _)
        dsimp only
        by_cases hb : optLt st2.err.pos j = true
        · rw [if_pos hb]
          exact ErrD.note (n := ⟨j, "expected end of input".toUTF8.toList, none, true⟩) s2.err hj
        · rw [if_neg hb]
          exact s2.err
      · rw [if_neg he] at h
        cases h
        exact s2.err

end Verif
