import Verif.EngineInv
/-!
# What a (sub)parse does to the scope it runs in

Apart from `PrecedenceClimbing`, which replaces the values of the scope it runs in, every operator only appends values,
tags and tokens to the current scope; abandoning it therefore restores the scope exactly.
-/

namespace Verif
open Out CharClass

variable {V : Type}

mutual
/-- No precedence-climbing operator inside (arguments of references included). -/
def Ope.noPrec : Ope → Bool
  | .seq es _ => Ope.noPrecList es
  | .cho es _ _ => Ope.noPrecList es
  | .rep e _ _ _ => e.noPrec
  | .and_ e => e.noPrec
  | .not_ e => e.noPrec
  | .capScope e => e.noPrec
  | .cap _ e => e.noPrec
  | .tok e => e.noPrec
  | .ign e => e.noPrec
  | .ws e => e.noPrec
  | .ref _ _ as => Ope.noPrecList as
  | .recov _ _ as => Ope.noPrecList as
  | .prec .. => false
  | _ => true

def Ope.noPrecList : List Ope → Bool
  | [] => true
  | e :: es => e.noPrec && Ope.noPrecList es
end

theorem noPrecList_iff (es : List Ope) : Ope.noPrecList es = true ↔ ∀ e ∈ es, e.noPrec = true := by
  induction es with
  | nil => simp [Ope.noPrecList]
  | cons e es ih => simp [Ope.noPrecList, ih]

/-- The scope is only appended to. -/
structure Ext (st st' : St V) : Prop where
  vals : st.vs.vals <+: st'.vs.vals
  tags : st.vs.tags <+: st'.vs.tags
  tokens : st.vs.tokens <+: st'.vs.tokens
  name : st'.vs.name = st.vs.name

theorem Ext.refl (st : St V) : Ext st st := ⟨List.prefix_refl _, List.prefix_refl _, List.prefix_refl _, rfl⟩

theorem Ext.trans {a b c : St V} (h : Ext a b) (h' : Ext b c) : Ext a c :=
  ⟨h.vals.trans h'.vals, h.tags.trans h'.tags, h.tokens.trans h'.tokens, h'.name.trans h.name⟩

theorem Ext.of_vs {st st' : St V} (h : st'.vs = st.vs) : Ext st st' := by
  constructor <;> simp [h]

/-- Going back to a snapshot undoes everything that was appended. -/
theorem rollback_exact {st st' : St V} (h : Ext st st') (hc : st.caps <+: st'.caps) :
    (st'.rollback st.snapshot).vs = st.vs ∧ (st'.rollback st.snapshot).caps = st.caps := by
  refine ⟨?_, resize_prefix hc _⟩
  unfold St.rollback St.snapshot
  simp only [resize_prefix h.vals, resize_prefix h.tags, resize_prefix h.tokens, h.name]

/-- Hypotheses on grammar and callbacks: macros (whose body runs in the caller's scope) contain no precedence operator,
neither does anything when values are not collected; user-defined parsers only append to the scope. -/
structure FrameOk (cfg : Cfg V) : Prop where
  macro_ : ∀ (r : Nat) (d : Def), cfg.rules[r]? = some d → d.isMacro = true → d.isLR = false → d.ope.noPrec = true
  reco : cfg.recognizeOnly = true → ∀ (r : Nat) (d : Def), cfg.rules[r]? = some d → d.ope.noPrec = true
  ws : ∀ w, cfg.ws = some w → w.noPrec = true
  user : ∀ id i f dt, f.vals <+: (cfg.user id i f dt).2.1.vals ∧ f.tags <+: (cfg.user id i f dt).2.1.tags ∧
    f.tokens <+: (cfg.user id i f dt).2.1.tokens ∧ (cfg.user id i f dt).2.1.name = f.name

/-- The macro arguments in scope contain no precedence operator. -/
def TopOk (st : St V) : Prop := ∀ f ∈ st.args.head?, ∀ e ∈ f.1, e.noPrec = true

theorem TopOk.of_args {st st' : St V} (h : TopOk st) (e : st'.args = st.args) : TopOk st' := by
  unfold TopOk; rw [e]; exact h

/-- Everything a run needs. -/
structure Pre (cfg : Cfg V) (i : Nat) (st : St V) : Prop where
  slots : SlotsOk cfg
  ok : StOk cfg st
  le : i ≤ cfg.input.length
  top : TopOk st

theorem Pre.step {cfg : Cfg V} {i j : Nat} {st st' : St V} (h : Pre cfg i st) (p : P cfg i st (some j, st')) :
    Pre cfg j st' := ⟨h.slots, p.ok, (p.bounds j rfl).2, h.top.of_args p.keep.args⟩

theorem Pre.same {cfg : Cfg V} {i : Nat} {st st' : St V} (h : Pre cfg i st) (m : SameMemo st st')
    (a : st'.args = st.args) : Pre cfg i st' := ⟨h.slots, h.ok.same m, h.le, h.top.of_args a⟩

theorem Pre.after {cfg : Cfg V} {i : Nat} {st st' : St V} {r : Option Nat} (h : Pre cfg i st) (p : P cfg i st (r, st')) :
    Pre cfg i st' := ⟨h.slots, p.ok, h.le, h.top.of_args p.keep.args⟩

def TaskF : Task V → Prop
  | .ope e => e.noPrec = true
  | .rep e _ _ => e.noPrec = true
  | .hold _ => True
  | .grow .. => True
  | _ => False

def GoodF (rec : Rec V) : Prop :=
  ∀ cfg t i st r, FrameOk cfg → Pre cfg i st → TaskPre cfg t i st → TaskF t → rec cfg t i st = .ok r → Ext st r.2

section
variable {rec : Rec V} (hg : Good rec) (hf : GoodF rec)
include hg hf

theorem ext_setErr (cfg : Cfg V) (st : St V) (i : Nat) (l : Option ErrLit) : Ext st (setErr cfg st i l) := by
  apply Ext.of_vs; unfold setErr; split <;> rfl

theorem ope_E {cfg : Cfg V} {e : Ope} {i : Nat} {st : St V} {r : Res V} (hk : FrameOk cfg) (hp : Pre cfg i st)
    (he : e.noPrec = true) (h : rec cfg (.ope e) i st = .ok r) : Ext st r.2 :=
  hf cfg (.ope e) i st r hk hp trivial he h

theorem skipWs_E {cfg : Cfg V} {i : Nat} {st : St V} {r : Res V} (hk : FrameOk cfg) (hp : Pre cfg i st)
    (h : skipWs rec cfg i st = .ok r) : Ext st r.2 := by
  unfold skipWs at h
  split at h
  · cases h; exact Ext.refl _
  · split at h
    · cases h; exact Ext.refl _
    · rename_i w hw
      exact ope_E hg hf hk hp (hk.ws w hw) h

theorem terminal_E {cfg : Cfg V} {i : Nat} {st : St V} {m : Option Nat} {r : Res V}
    (h : terminal cfg i st m = .ok r) : Ext st r.2 := by
  unfold terminal at h
  cases m with
  | none => cases h; exact ext_setErr hg hf _ _ _ _
  | some k => cases h; exact Ext.refl _

theorem parseLiteral_E {cfg : Cfg V} {l : List Byte} {ic : Bool} {el : ErrLit} {i : Nat} {st : St V} {r : Res V}
    (hk : FrameOk cfg) (hp : Pre cfg i st) (h : parseLiteral rec cfg l ic el i st = .ok r) : Ext st r.2 := by
  unfold parseLiteral at h
  split at h
  · rename_i hm
    have hl := litMatch_le hm
    rw [rest_length] at hl
    have hp' : Pre cfg (i + l.length) st := ⟨hp.slots, hp.ok, by have := hp.le; omega, hp.top⟩
    split at h
    · exact skipWs_E hg hf hk hp' h
    · rw [bind_eq_ok] at h
      obtain ⟨b, -, h⟩ := h
      cases b
      · exact skipWs_E hg hf hk hp' h
      · simp only [if_true] at h
        rw [bind_eq_ok] at h
        obtain ⟨b, -, h⟩ := h
        cases b
        · cases h; exact ext_setErr hg hf _ _ _ _
        · exact skipWs_E hg hf hk hp' h
  · cases h; exact ext_setErr hg hf _ _ _ _

theorem parseDict_E {cfg : Cfg V} {wl : List (List Byte)} {ic : Bool} {i : Nat} {st : St V} {r : Res V}
    (hk : FrameOk cfg) (hp : Pre cfg i st) (h : parseDict rec cfg wl ic i st = .ok r) : Ext st r.2 := by
  unfold parseDict at h
  have hl := dict_le wl ic (cfg.rest i)
  rw [rest_length] at hl
  by_cases hm : ((Trie.build wl ic).matchText (cfg.rest i)).1 = 0
  · simp only [hm, if_true] at h; cases h; exact ext_setErr hg hf _ _ _ _
  · simp only [hm, if_false] at h
    have k1 : Ext st (st.setChoice wl.length ((Trie.build wl ic).matchText (cfg.rest i)).2) :=
      ⟨List.prefix_refl _, List.prefix_refl _, List.prefix_refl _, rfl⟩
    have s1 : SameMemo st (st.setChoice wl.length ((Trie.build wl ic).matchText (cfg.rest i)).2) := ⟨rfl, rfl, rfl⟩
    have a1 : (st.setChoice wl.length ((Trie.build wl ic).matchText (cfg.rest i)).2).args = st.args := rfl
    generalize st.setChoice wl.length ((Trie.build wl ic).matchText (cfg.rest i)).2 = st1 at h k1 s1 a1
    refine k1.trans ?_
    have hq := hp.same s1 a1
    have hp' : Pre cfg (i + ((Trie.build wl ic).matchText (cfg.rest i)).1) st1 :=
      ⟨hq.slots, hq.ok, by have := hp.le; omega, hq.top⟩
    split at h
    · exact skipWs_E hg hf hk hp' h
    · rw [bind_eq_ok] at h
      obtain ⟨b, -, h⟩ := h
      cases b
      · cases h; exact ext_setErr hg hf _ _ _ _
      · exact skipWs_E hg hf hk hp' h

theorem parseBref_E {cfg : Cfg V} {nm : List Byte} {i : Nat} {st : St V} {r : Res V}
    (hk : FrameOk cfg) (hp : Pre cfg i st) (h : parseBref rec cfg nm i st = .ok r) : Ext st r.2 := by
  unfold parseBref at h
  split at h
  · exact parseLiteral_E hg hf hk hp h
  · cases h; exact Ext.of_vs rfl

theorem ext_addToken (cfg : Cfg V) (t : Nat × Nat) (st : St V) : Ext st (addToken cfg t st) := by
  unfold addToken; split
  · exact Ext.refl _
  · exact ⟨List.prefix_refl _, List.prefix_refl _, List.prefix_append _ _, rfl⟩

theorem tokenBody_E {cfg : Cfg V} {e : Ope} {i : Nat} {st : St V} {r : Res V}
    (hk : FrameOk cfg) (hp : Pre cfg i st) (he : e.noPrec = true)
    (h : tokenBody rec cfg e i st = .ok r) : Ext st r.2 := by
  unfold tokenBody at h
  rw [andThen_ok] at h
  have hp' : Pre cfg i { st with tokCount := st.tokCount + 1 } := hp.same ⟨rfl, rfl, rfl⟩ rfl
  rcases h with ⟨st1, h, rfl⟩ | ⟨j, st1, h, h2⟩
  · rw [after_ok] at h
    obtain ⟨a, st2, h, e2⟩ := h
    cases e2
    have := ope_E hg hf hk hp' he h
    exact ⟨this.vals, this.tags, this.tokens, this.name⟩
  · rw [after_ok] at h
    obtain ⟨a, st2, h, e2⟩ := h
    cases e2
    have x := ope_E hg hf hk hp' he h
    have p := tokUp_P hg (hg.ope hp'.slots hp'.ok hp'.le h)
    have q := p.post (keep_addToken cfg (i, j - i) _) (same_addToken _ _ _)
    have x' : Ext st { st2 with tokCount := st2.tokCount - 1 } := ⟨x.vals, x.tags, x.tokens, x.name⟩
    exact x'.trans ((ext_addToken hg hf _ _ _).trans (skipWs_E hg hf hk (hp.step q) h2))

theorem seqLoop_E {cfg : Cfg V} {es : List Ope} {i : Nat} {st : St V} {r : Res V}
    (hk : FrameOk cfg) (hp : Pre cfg i st) (he : Ope.noPrecList es = true)
    (h : seqLoop rec cfg es i st = .ok r) : Ext st r.2 := by
  induction es generalizing i st with
  | nil => cases h; exact Ext.refl _
  | cons e es ih =>
    simp only [Ope.noPrecList, Bool.and_eq_true] at he
    unfold seqLoop at h
    rw [andThen_ok] at h
    rcases h with ⟨st1, h, rfl⟩ | ⟨j, st1, h, h2⟩
    · exact ope_E hg hf hk hp he.1 h
    · exact (ope_E hg hf hk hp he.1 h).trans (ih (hp.step (hg.ope hp.slots hp.ok hp.le h)) he.2 h2)

theorem parseSeq_E {cfg : Cfg V} {es : List Ope} {kw : Option KwGuard} {i : Nat} {st : St V} {r : Res V}
    (hk : FrameOk cfg) (hp : Pre cfg i st) (he : Ope.noPrecList es = true)
    (h : parseSeq rec cfg es kw i st = .ok r) : Ext st r.2 := by
  unfold parseSeq at h
  cases kw with
  | none => exact seqLoop_E hg hf hk hp he h
  | some k =>
    simp only [Option.bind_some, kwGuarded] at h
    cases hks : kwScan k (cfg.rest i) with
    | none => rw [hks] at h; cases h; exact ext_setErr hg hf _ _ _ _
    | some n =>
      have hn := kwScan_le hg hks
      rw [rest_length] at hn
      rw [hks] at h
      dsimp only at h
      by_cases h1 : (k.minLen ≤ n ∧ n ≤ k.maxLen) ∧ Trie.toLower ((cfg.rest i).take n) ∈ k.exact
      · simp only [if_pos h1] at h; cases h; exact ext_setErr hg hf _ _ _ _
      · simp only [if_neg h1] at h
        by_cases h2 : (k.minLen ≤ n ∧ n ≤ k.maxLen) ∧ Trie.toLower ((cfg.rest i).take n) ∈ k.pref
        · simp only [if_pos h2] at h; exact seqLoop_E hg hf hk hp he h
        · simp only [if_neg h2] at h
          have hq := hp.same (same_addToken cfg (i, n) st) (keep_addToken cfg (i, n) st).args
          exact (ext_addToken hg hf _ _ _).trans
            (skipWs_E hg hf hk ⟨hq.slots, hq.ok, by have := hp.le; omega, hq.top⟩ h)

theorem ext_fsErr (st : St V) (fs : FirstSet) (id i : Nat) : Ext st (fsErr st fs id i) := by
  apply Ext.of_vs; unfold fsErr; split <;> rfl

theorem vs_setCut (st : St V) (b : Bool) : (st.setCut b).vs = st.vs := by
  unfold St.setCut; split <;> rfl

theorem vs_resetCut (cfg : Cfg V) (st : St V) : (resetCut cfg st).vs = st.vs := by
  unfold resetCut; split
  · exact vs_setCut hg hf _ _
  · rfl

theorem choLoop_E {cfg : Cfg V} {total : Nat} {fs : List FirstSet} {es : List Ope} {id i : Nat} {st : St V} {r : Res V}
    (hk : FrameOk cfg) (hp : Pre cfg i st) (he : Ope.noPrecList es = true)
    (h : choLoop rec cfg total fs es id i st = .ok r) : Ext st r.2 := by
  induction es generalizing id st with
  | nil => cases h; exact Ext.refl _
  | cons e es ih =>
    simp only [Ope.noPrecList, Bool.and_eq_true] at he
    unfold choLoop at h
    by_cases hsk : fsSkip fs[id]? (cfg.rest i) = true
    · simp only [hsk, if_true] at h
      exact (ext_fsErr hg hf _ _ _ _).trans (ih (hp.same (same_fsErr _ _ _ _) (keep_fsErr _ _ _ _).args) he.2 h)
    · simp only [hsk] at h
      simp only [Bool.false_eq_true, if_false] at h
      rw [bind_eq_ok] at h
      obtain ⟨⟨a, st1⟩, h1, h⟩ := h
      have hq : Pre cfg i ((resetCut cfg st).setKeep (decide (id > 0))) :=
        (hp.same (same_resetCut cfg st) (keep_resetCut cfg st).args).same (same_setKeep _ _) rfl
      have p1 := hg.ope hq.slots hq.ok hq.le h1
      have p : P cfg i st (a, st1) := P.pre ((keep_resetCut cfg st).trans (keep_setKeep _ (decide (id > 0))))
        (same_resetCut cfg st).lrActive p1
      have x1 := ope_E hg hf hk hq he.1 h1
      have x : Ext st st1 := (Ext.of_vs (st' := (resetCut cfg st).setKeep (decide (id > 0)))
        (vs_resetCut hg hf cfg st)).trans x1
      cases a with
      | some j =>
        cases h
        exact x.trans ⟨List.prefix_refl _, List.prefix_refl _, List.prefix_refl _, rfl⟩
      | none =>
        dsimp only at h
        have e1 : Ext st (st1.rollback st.snapshot) := Ext.of_vs (rollback_exact x p.keep.caps).1
        have p2 : P cfg i st (none, st1.rollback st.snapshot) :=
          P.fail (p.ok.same (same_rollback _ _)) (keep_rollback p.keep) p.act
        split at h
        · cases h; exact e1
        · exact e1.trans (ih (hp.after p2) he.2 h)

theorem parseCho_E {cfg : Cfg V} {es : List Ope} {l : Bool} {fs : List FirstSet} {i : Nat} {st : St V} {r : Res V}
    (hk : FrameOk cfg) (hp : Pre cfg i st) (he : Ope.noPrecList es = true)
    (h : parseCho rec cfg es l fs i st = .ok r) : Ext st r.2 := by
  unfold parseCho at h
  rw [after_ok] at h
  obtain ⟨a, st1, h, rfl⟩ := h
  have hq : Pre cfg i (pushCut (cfg.hasCut && !l) st) := by
    unfold pushCut; split
    · exact hp.same ⟨rfl, rfl, rfl⟩ rfl
    · exact hp
  have x := choLoop_E hg hf hk hq he h
  have e1 : (pushCut (cfg.hasCut && !l) st).vs = st.vs := by unfold pushCut; split <;> rfl
  have e2 : (choExit (cfg.hasCut && !l) st1).vs = st1.vs := by unfold choExit; split <;> rfl
  exact (Ext.of_vs e1).trans (x.trans (Ext.of_vs e2))

theorem repMin_E {cfg : Cfg V} {e : Ope} {n i : Nat} {st : St V} {r : Res V}
    (hk : FrameOk cfg) (hp : Pre cfg i st) (he : e.noPrec = true)
    (h : repMin rec cfg e n i st = .ok r) : Ext st r.2 := by
  induction n generalizing i st with
  | zero => cases h; exact Ext.refl _
  | succ n ih =>
    unfold repMin at h
    rw [andThen_ok] at h
    rcases h with ⟨st1, h, rfl⟩ | ⟨j, st1, h, h2⟩
    · exact ope_E hg hf hk hp he h
    · exact (ope_E hg hf hk hp he h).trans (ih (hp.step (hg.ope hp.slots hp.ok hp.le h)) h2)

theorem repRound_E {cfg : Cfg V} {e : Ope} {mx : Option Nat} {c i : Nat} {st : St V} {r : Res V}
    (hk : FrameOk cfg) (hp : Pre cfg i st) (he : e.noPrec = true)
    (h : repRound rec cfg e mx c i st = .ok r) : Ext st r.2 := by
  unfold repRound at h
  split at h
  · rw [bind_eq_ok] at h
    obtain ⟨⟨a, st1⟩, h1, h⟩ := h
    have p := hg.ope hp.slots hp.ok hp.le h1
    have x := ope_E hg hf hk hp he h1
    cases a with
    | none => cases h; exact Ext.of_vs (rollback_exact x p.keep.caps).1
    | some j => exact x.trans (hf cfg (.rep e mx (c + 1)) j st1 r hk (hp.step p) trivial he h)
  · cases h; exact Ext.refl _

theorem parseRep_E {cfg : Cfg V} {e : Ope} {mn : Nat} {mx : Option Nat} {sp : Option Cls} {i : Nat} {st : St V}
    {r : Res V} (hk : FrameOk cfg) (hp : Pre cfg i st) (he : e.noPrec = true)
    (h : parseRep rec cfg e mn mx sp i st = .ok r) : Ext st r.2 := by
  unfold parseRep at h
  cases sp with
  | some c =>
    have key : ∀ k, (if k < mn then (.ok (none, setErr cfg st (i + k)) : Out (Res V)) else .ok (some (i + k), st)) = .ok r →
        Ext st r.2 := by
      intro k h
      split at h
      · cases h; exact ext_setErr hg hf _ _ _ _
      · cases h; exact Ext.refl _
    exact key _ h
  | none =>
    simp only at h
    rw [andThen_ok] at h
    rcases h with ⟨st1, h, rfl⟩ | ⟨j, st1, h, h2⟩
    · exact repMin_E hg hf hk hp he h
    · have p := repMin_P hg hp.slots hp.ok hp.le h
      exact (repMin_E hg hf hk hp he h).trans (hf cfg (.rep e mx mn) j st1 r hk (hp.step p) trivial he h2)

theorem parseAnd_E {cfg : Cfg V} {e : Ope} {i : Nat} {st : St V} {r : Res V}
    (hk : FrameOk cfg) (hp : Pre cfg i st) (he : e.noPrec = true)
    (h : parseAnd rec cfg e i st = .ok r) : r.2.vs = st.vs ∧ r.2.caps = st.caps := by
  unfold parseAnd at h
  rw [bind_eq_ok] at h
  obtain ⟨⟨a, st1⟩, h1, h⟩ := h
  cases h
  exact rollback_exact (ope_E hg hf hk hp he h1) (hg.ope hp.slots hp.ok hp.le h1).keep.caps

theorem parseNot_E {cfg : Cfg V} {e : Ope} {i : Nat} {st : St V} {r : Res V}
    (hk : FrameOk cfg) (hp : Pre cfg i st) (he : e.noPrec = true)
    (h : parseNot rec cfg e i st = .ok r) : r.2.vs = st.vs ∧ r.2.caps = st.caps := by
  unfold parseNot at h
  rw [bind_eq_ok] at h
  obtain ⟨⟨a, st1⟩, h1, h⟩ := h
  have x := rollback_exact (ope_E hg hf hk hp he h1) (hg.ope hp.slots hp.ok hp.le h1).keep.caps
  cases a with
  | none => cases h; exact x
  | some j =>
    cases h
    constructor
    · rw [← x.1]; show (setErr _ _ _ _).vs = _; unfold setErr; split <;> rfl
    · rw [← x.2]; show (setErr _ _ _ _).caps = _; unfold setErr; split <;> rfl

theorem parseCapScope_E {cfg : Cfg V} {e : Ope} {i : Nat} {st : St V} {r : Res V}
    (hk : FrameOk cfg) (hp : Pre cfg i st) (he : e.noPrec = true)
    (h : parseCapScope rec cfg e i st = .ok r) : Ext st r.2 := by
  unfold parseCapScope at h
  rw [after_ok] at h
  obtain ⟨a, st1, h, rfl⟩ := h
  have x := ope_E hg hf hk hp he h
  exact ⟨x.vals, x.tags, x.tokens, x.name⟩

theorem parseCap_E {cfg : Cfg V} {nm : List Byte} {e : Ope} {i : Nat} {st : St V} {r : Res V}
    (hk : FrameOk cfg) (hp : Pre cfg i st) (he : e.noPrec = true)
    (h : parseCap rec cfg nm e i st = .ok r) : Ext st r.2 := by
  unfold parseCap at h
  rw [andThen_ok] at h
  rcases h with ⟨st1, h, rfl⟩ | ⟨j, st1, h, h2⟩
  · exact ope_E hg hf hk hp he h
  · cases h2
    have x := ope_E hg hf hk hp he h
    exact ⟨x.vals, x.tags, x.tokens, x.name⟩

theorem parseIgn_E {cfg : Cfg V} {e : Ope} {i : Nat} {st : St V} {r : Res V}
    (h : parseIgn rec cfg e i st = .ok r) : r.2.vs = st.vs := by
  unfold parseIgn inScope at h
  rw [after_ok] at h
  obtain ⟨a, st1, h, rfl⟩ := h
  rfl

theorem parseUsr_E {cfg : Cfg V} {n i : Nat} {st : St V} {r : Res V} (hk : FrameOk cfg)
    (h : parseUsr cfg n i st = .ok r) : Ext st r.2 := by
  unfold parseUsr at h
  simp only at h
  obtain ⟨u1, u2, u3, u4⟩ := hk.user n i st.vs st.dt
  split at h
  · cases h; exact ⟨u1, u2, u3, u4⟩
  · split at h
    · cases h; exact ⟨u1, u2, u3, u4⟩
    · cases h

theorem parseWs_E {cfg : Cfg V} {e : Ope} {i : Nat} {st : St V} {r : Res V}
    (hk : FrameOk cfg) (hp : Pre cfg i st) (he : e.noPrec = true)
    (h : parseWs rec cfg e i st = .ok r) : Ext st r.2 := by
  unfold parseWs at h
  split at h
  · cases h; exact Ext.refl _
  · rw [after_ok] at h
    obtain ⟨a, st1, h, rfl⟩ := h
    have x := ope_E hg hf hk (hp.same (st' := { st with inWs := true }) ⟨rfl, rfl, rfl⟩ rfl) he h
    exact ⟨x.vals, x.tags, x.tokens, x.name⟩

theorem doParse_E {cfg : Cfg V} {q : Nat} {d : Def} {i : Nat} {st : St V} {r : VRes V}
    (h : doParse rec cfg q d i st = .ok r) : r.2.2.vs = st.vs := by
  unfold doParse at h
  simp only at h
  rw [bind_eq_ok] at h
  obtain ⟨⟨x, st1⟩, h1, h⟩ := h
  split at h <;> cases h <;> rfl

theorem vs_writeMemo (cfg : Cfg V) (q i j : Nat) (v : Option V) (st : St V) : (writeMemo cfg q i j v st).vs = st.vs := by
  unfold writeMemo
  split
  · split
    · split
      · split <;> rfl
      · rfl
    · rfl
  · rfl

theorem guarded_E {cfg : Cfg V} {q : Nat} {i : Nat} {st : St V} {fn : St V → Out (VRes V)} {r : VRes V}
    (hp : Pre cfg i st) (hq : ¬ isLRRule cfg q)
    (hfn : ∀ st1 x, Pre cfg i st1 → fn st1 = .ok x → Ext st1 x.2.2)
    (h : guarded cfg q i st fn = .ok r) : Ext st r.2.2 := by
  unfold guarded at h
  by_cases hpk : cfg.packrat = true
  · simp only [hpk, if_true] at h
    cases hsl : cfg.slot (cfg.defId q) with
    | none =>
      simp only [hsl] at h
      split at h
      · cases h
      · split at h
        · cases reentered_ok h; exact Ext.refl _
        · rw [bind_eq_ok] at h
          obtain ⟨x, hx, h⟩ := h
          cases h
          have p := hfn { st with active := fset st.active (cfg.defId q) (some i) } _ (hp.same ⟨rfl, rfl, rfl⟩ rfl) hx
          exact ⟨p.vals, p.tags, p.tokens, p.name⟩
    | some s =>
      simp only [hsl] at h
      split at h
      · cases h
      · split at h
        · cases h; exact Ext.refl _
        · cases h; exact Ext.refl _
        · rw [bind_eq_ok] at h
          obtain ⟨x, hx, h⟩ := h
          have p := hfn { st with memo := fset st.memo (cfg.memoIdx s i) (some none) } _
            ⟨hp.slots, hp.ok.fset _ _ (by intro len v e; cases e), hp.le, hp.top⟩ hx
          have p' : Ext st x.2.2 := ⟨p.vals, p.tags, p.tokens, p.name⟩
          obtain ⟨a, v, st1⟩ := x
          cases a with
          | none => cases h; exact p'
          | some j => cases h; exact p'.trans (Ext.of_vs (vs_writeMemo hg hf _ _ _ _ _ _))
  · simp only [hpk] at h
    simp only [Bool.false_eq_true, if_false] at h
    split at h
    · cases h
    · split at h
      · cases reentered_ok h; exact Ext.refl _
      · rename_i inst _ _ hn
        rw [bind_eq_ok] at h
        obtain ⟨x, hx, h⟩ := h
        cases h
        have ho1 : StOk cfg { st with lrMemo := ((q, inst, i), none) :: st.lrMemo } := by
          refine ⟨hp.ok.memo, ?_, ?_⟩
          · intro r inst' p j v hm
            rcases List.mem_cons.mp hm with hm | hm
            · cases hm
            · exact hp.ok.lr r inst' p j v hm
          · intro k hk
            refine ⟨?_, (hp.ok.act k hk).2⟩
            show (List.lookup k (_ :: _)).isSome = true
            rw [List.lookup_cons]
            split
            · rfl
            · exact (hp.ok.act k hk).1
        have p := hfn { st with lrMemo := ((q, inst, i), none) :: st.lrMemo } _ ⟨hp.slots, ho1, hp.le, hp.top⟩ hx
        exact ⟨p.vals, p.tags, p.tokens, p.name⟩

theorem ext_emplace (cfg : Cfg V) (d : Def) (v : Option V) (st : St V) : Ext st (emplace cfg d v st) := by
  unfold emplace
  split
  · exact ⟨List.prefix_append _ _, List.prefix_append _ _, List.prefix_refl _, rfl⟩
  · exact Ext.refl _

/-- Growing does not touch the scope until it emplaces the value. -/
theorem grow_E {cfg : Cfg V} {q inst : Nat} {d : Def} {i j : Nat} {v : Option V} {st : St V} :
    Ext st (growDone cfg q inst d i j v st).2 := by
  unfold growDone
  simp only
  refine Ext.trans ?_ (ext_emplace hg hf _ _ _ _)
  apply Ext.of_vs
  split
  · rfl
  · exact vs_writeMemo hg hf _ _ _ _ _ _


theorem growRound_E {cfg : Cfg V} {q inst : Nat} {cyc : List (Nat × Nat)} {j : Nat} {v : Option V} {i : Nat} {st : St V}
    {r : Res V} (hk : FrameOk cfg) (hp : Pre cfg i st) (h : growRound rec cfg q inst cyc j v i st = .ok r) :
    Ext st r.2 := by
  unfold growRound at h
  cases hd : cfg.rules[q]? with
  | none => rw [hd] at h; cases h
  | some d =>
    simp only [hd] at h
    rw [bind_eq_ok] at h
    obtain ⟨⟨a, v1, st1⟩, hx, h⟩ := h
    have hc : ∃ st0, (if d.isMacro = true then st else clearMemo cfg q i st) = st0 ∧ Keep st st0 ∧
        st0.lrActive = st.lrActive ∧ StOk cfg st0 ∧ st0.vs = st.vs := by
      split
      · exact ⟨_, rfl, Keep.refl _, rfl, hp.ok, rfl⟩
      · obtain ⟨a, b, c⟩ := keep_clearMemo cfg q i st
        refine ⟨_, rfl, a, b, c hp.ok, ?_⟩
        unfold clearMemo; split
        · split <;> rfl
        · rfl
    obtain ⟨st0, he, k0, a0, o0, e0⟩ := hc
    rw [he] at hx
    have p := doParse_P hg hp.slots (o0.lrFilter _ (by intro e he; simp [he])) hp.le hx
    have e1 : st1.vs = st.vs := (doParse_E hg hf hx).trans e0
    have hp1 : TopOk st1 := hp.top.of_args (p.keep.args.trans k0.args)
    cases a with
    | none => cases h; exact (Ext.of_vs e1).trans (grow_E hg hf)
    | some j' =>
      dsimp only at h
      split at h
      · cases h; exact (Ext.of_vs e1).trans (grow_E hg hf)
      · have b := p.bounds j' rfl
        have o := p.ok.lrSet q inst i (some (j', v1)) (by intro j v e; cases e; exact b)
        exact (Ext.of_vs (st' := { st1 with lrMemo := lrSet (q, inst, i) (some (j', v1)) st1.lrMemo }) e1).trans
          (hf cfg (.grow q inst cyc j' v1) i _ r hk ⟨hp.slots, o, hp.le, hp1⟩ b trivial h)

theorem lrHold_E {cfg : Cfg V} {q : Nat} {d : Def} {i : Nat} {st : St V} {r : Res V}
    (hk : FrameOk cfg) (hp : Pre cfg i st) (hd : cfg.rules[q]? = some d) (hl : d.isLR = true)
    (h : lrHold rec cfg q d i st = .ok r) : Ext st r.2 := by
  unfold lrHold at h
  have ho := hp.ok
  split at h
  · cases h
  · rename_i inst _ _
    cases hm : st.lrMemo.lookup (q, inst, i) with
    | some m =>
      simp only [hm] at h
      split at h
      · cases h
        exact (Ext.of_vs (st := st) (st' := { st with lrRefs := setInsert (q, inst) st.lrRefs }) rfl).trans
          (ext_emplace hg hf _ _ _ _)
      · cases h; exact Ext.of_vs rfl
    | none =>
      simp only [hm] at h
      have hna : (q, inst, i) ∉ st.lrActive := by
        intro hc; have := (ho.act _ hc).1; rw [hm] at this; cases this
      rw [bind_eq_ok] at h
      obtain ⟨⟨a, v1, st1⟩, hx, h⟩ := h
      have hsi : setInsert (q, inst, i) st.lrActive = (q, inst, i) :: st.lrActive := if_neg hna
      rw [hsi] at hx
      have o1 : StOk cfg { st with
          lrMemo := Verif.lrSet (q, inst, i) none st.lrMemo
          lrActive := (q, inst, i) :: st.lrActive
          lrRefs := [] } := by
        have o := ho.lrSet q inst i none (by intro j v e; cases e)
        refine ⟨o.memo, o.lr, ?_⟩
        intro k hk
        rcases List.mem_cons.mp hk with rfl | hk
        · refine ⟨?_, d, hd, hl⟩
          show (List.lookup _ (Verif.lrSet _ _ _)).isSome = true
          rw [lrSet_lookup]; simp
        · exact o.act k hk
      have p := doParse_P hg hp.slots o1 hp.le hx
      have e1 : st1.vs = st.vs := doParse_E hg hf hx
      have hp1 : TopOk st1 := hp.top.of_args p.keep.args
      have po : StOk cfg st1 := p.ok
      cases a with
      | none => cases h; exact Ext.of_vs e1
      | some j =>
        dsimp only at h
        have b := p.bounds j rfl
        have o2 : ∀ x, StOk cfg { st1 with
            lrRefs := x, lrMemo := Verif.lrSet (q, inst, i) (some (j, v1)) st1.lrMemo } := by
          intro x
          have o := po.lrSet q inst i (some (j, v1)) (by intro j v e; cases e; exact b)
          exact ⟨o.memo, o.lr, o.act⟩
        have x := hf cfg (.grow q inst _ j v1) i _ r hk ⟨hp.slots, o2 _, hp.le, hp1⟩ b trivial h
        exact (Ext.of_vs (st' := { st1 with vs := st1.vs }) e1).trans ⟨x.vals, x.tags, x.tokens, x.name⟩

theorem opeBody_E {cfg : Cfg V} {q : Nat} {d : Def} {i : Nat} {st : St V} {r : Res V}
    (hk : FrameOk cfg) (hp : Pre cfg i st) (he : d.ope.noPrec = true)
    (h : opeBody rec cfg q d i st = .ok r) : Ext st r.2 := by
  unfold opeBody at h
  rw [after_ok] at h
  obtain ⟨a, st1, h, rfl⟩ := h
  have ev : ∀ st : St V, (popRule (cfg.needsRuleStack || d.hasMacroRef) st).vs = st.vs := by
    intro st; unfold popRule; split <;> rfl
  have ev' : (pushRule (cfg.needsRuleStack || d.hasMacroRef) q st).vs = st.vs := by
    unfold pushRule; split <;> rfl
  have ea : (pushRule (cfg.needsRuleStack || d.hasMacroRef) q st).args = st.args := by
    unfold pushRule; split <;> rfl
  have hq := hp.same (same_pushRule hg (cfg.needsRuleStack || d.hasMacroRef) q st) ea
  refine Ext.trans (Ext.of_vs ev') (Ext.trans ?_ (Ext.of_vs (ev st1)))
  generalize pushRule (cfg.needsRuleStack || d.hasMacroRef) q st = st0 at h hq
  split at h
  · have hq2 : Pre cfg i { st0 with tokCount := st.tokCount + 1 } := hq.same ⟨rfl, rfl, rfl⟩ rfl
    rw [andThen_ok] at h
    rcases h with ⟨st2, h, e2⟩ | ⟨j, st2, h, h2⟩
    · cases e2
      rw [after_ok] at h
      obtain ⟨a, st3, h, e2⟩ := h
      cases e2
      have x := ope_E hg hf hk hq2 he h
      exact ⟨x.vals, x.tags, x.tokens, x.name⟩
    · rw [after_ok] at h
      obtain ⟨a, st3, h, e2⟩ := h
      cases e2
      have x := ope_E hg hf hk hq2 he h
      have p := hg.ope hq2.slots hq2.ok hq2.le h
      have hq3 : Pre cfg j { st3 with tokCount := st3.tokCount - 1 } := (hq2.step p).same ⟨rfl, rfl, rfl⟩ rfl
      have x' : Ext st0 { st3 with tokCount := st3.tokCount - 1 } := ⟨x.vals, x.tags, x.tokens, x.name⟩
      exact x'.trans (skipWs_E hg hf hk hq3 h2)
  · exact ope_E hg hf hk hq he h

theorem holder_E {cfg : Cfg V} {q : Nat} {i : Nat} {st : St V} {r : Res V}
    (hk : FrameOk cfg) (hp : Pre cfg i st) (h : holder rec cfg q i st = .ok r) : Ext st r.2 := by
  unfold holder at h
  cases hd : cfg.rules[q]? with
  | none => rw [hd] at h; cases h
  | some d =>
    simp only [hd] at h
    by_cases hm : (d.isMacro && !d.isLR) = true
    · simp only [hm, if_true] at h
      rw [after_ok] at h
      obtain ⟨a, st1, h, rfl⟩ := h
      simp only [Bool.and_eq_true, Bool.not_eq_true'] at hm
      have x := ope_E hg hf hk (hp.same (st' := { st with ruleStack := q :: st.ruleStack }) ⟨rfl, rfl, rfl⟩ rfl)
        (hk.macro_ q d hd hm.1 hm.2) h
      exact ⟨x.vals, x.tags, x.tokens, x.name⟩
    · simp only [hm] at h
      simp only [Bool.false_eq_true, if_false] at h
      by_cases hl : d.isLR = true
      · simp only [hl, if_true] at h
        exact lrHold_E hg hf hk hp hd hl h
      · simp only [hl] at h
        simp only [Bool.false_eq_true, if_false] at h
        have hq : ¬ isLRRule cfg q := by
          rintro ⟨d', h1, h2⟩; rw [hd] at h1; cases h1; exact hl h2
        split at h
        · rename_i hro
          rw [bind_eq_ok] at h
          obtain ⟨x, hx, h⟩ := h
          cases h
          refine guarded_E hg hf hp hq ?_ hx
          intro st1 y hp1 hy
          rw [bind_eq_ok] at hy
          obtain ⟨z, hz, hy⟩ := hy
          cases hy
          exact opeBody_E hg hf hk hp1 (hk.reco hro q d hd) hz
        · rw [bind_eq_ok] at h
          obtain ⟨⟨a, v, st1⟩, hx, h⟩ := h
          have x : Ext st st1 := guarded_E hg hf hp hq (fun st1 y hp1 hy => Ext.of_vs (doParse_E hg hf hy)) hx
          cases a with
          | none => cases h; exact x
          | some j => cases h; exact x.trans (ext_emplace hg hf _ _ _ _)

omit hg hf in
theorem lookupArg_noPrec {ps : List (List Byte)} {as : List Ope} {nm : List Byte} {e : Ope}
    (h : ∀ e ∈ as, e.noPrec = true) (hl : lookupArg ps as nm = some e) : e.noPrec = true := by
  unfold lookupArg at hl
  rw [Option.map_eq_some_iff] at hl
  obtain ⟨p, hp, rfl⟩ := hl
  exact h _ (List.of_mem_zip (List.mem_of_find?_eq_some hp)).2

omit hg hf in
mutual
theorem resolve_noPrec {ps : List (List Byte)} {as : List Ope} (h : ∀ e ∈ as, e.noPrec = true) (e : Ope)
    (he : e.noPrec = true) : (resolve ps as e).noPrec = true := by
  cases e with
  | seq es kw => simp only [resolve, Ope.noPrec] at he ⊢; exact resolveList_noPrec h es he
  | cho es l fs => simp only [resolve, Ope.noPrec] at he ⊢; exact resolveList_noPrec h es he
  | rep e mn mx sp => simp only [resolve, Ope.noPrec] at he ⊢; exact resolve_noPrec h e he
  | and_ e => simp only [resolve, Ope.noPrec] at he ⊢; exact resolve_noPrec h e he
  | not_ e => simp only [resolve, Ope.noPrec] at he ⊢; exact resolve_noPrec h e he
  | dict w ic => rfl
  | lit s ic => rfl
  | cls c => rfl
  | chr c => rfl
  | dot => rfl
  | capScope e => simp only [resolve, Ope.noPrec] at he ⊢; exact resolve_noPrec h e he
  | cap nm e => simp only [resolve, Ope.noPrec] at he ⊢; exact resolve_noPrec h e he
  | tok e => simp only [resolve, Ope.noPrec] at he ⊢; exact resolve_noPrec h e he
  | ign e => simp only [resolve, Ope.noPrec] at he ⊢; exact resolve_noPrec h e he
  | usr id => rfl
  | weak r => rfl
  | ref r nm as' =>
    simp only [resolve]
    cases hl : lookupArg ps as nm with
    | none => exact he
    | some e => exact lookupArg_noPrec h hl
  | param k nm =>
    simp only [resolve]
    cases hl : lookupArg ps as nm with
    | none => rfl
    | some e => exact lookupArg_noPrec h hl
  | ws e => simp only [resolve, Ope.noPrec] at he ⊢; exact resolve_noPrec h e he
  | bref nm => rfl
  | prec a b info r => simp [Ope.noPrec] at he
  | recov r nm as' =>
    simp only [resolve]
    cases hl : lookupArg ps as nm with
    | none => exact he
    | some e =>
      have := lookupArg_noPrec h hl
      cases e <;> first | rfl | exact this
  | cut => rfl
  | null => rfl

theorem resolveList_noPrec {ps : List (List Byte)} {as : List Ope} (h : ∀ e ∈ as, e.noPrec = true) (es : List Ope)
    (he : Ope.noPrecList es = true) : Ope.noPrecList (resolveList ps as es) = true := by
  cases es with
  | nil => rfl
  | cons e es =>
    simp only [resolveList, Ope.noPrecList, Bool.and_eq_true] at he ⊢
    exact ⟨resolve_noPrec h e he.1, resolveList_noPrec h es he.2⟩
end

theorem withArgs_E {cfg : Cfg V} {i : Nat} {st : St V} {f : List Ope × Nat} {x : St V → Out (Res V)} {r : Res V}
    (hp : Pre cfg i st) (hfr : ∀ e ∈ f.1, e.noPrec = true)
    (hx : ∀ st1 r, Pre cfg i st1 → x st1 = .ok r → Ext st1 r.2)
    (h : withArgs st f x = .ok r) : Ext st r.2 := by
  unfold withArgs at h
  rw [after_ok] at h
  obtain ⟨a, st1, h, rfl⟩ := h
  have y := hx { st with args := f :: st.args } _ ⟨hp.slots, hp.ok.same ⟨rfl, rfl, rfl⟩, hp.le, by
    intro g hg; simp at hg; subst hg; exact hfr⟩ h
  exact ⟨y.vals, y.tags, y.tokens, y.name⟩

theorem refer_E {cfg : Cfg V} {q : Nat} {as : List Ope} {i : Nat} {st : St V} {r : Res V}
    (hk : FrameOk cfg) (hp : Pre cfg i st) (he : Ope.noPrecList as = true)
    (h : refer rec cfg q as i st = .ok r) : Ext st r.2 := by
  unfold refer at h
  have hx : ∀ st1 r, Pre cfg i st1 → rec cfg (.hold q) i st1 = .ok r → Ext st1 r.2 :=
    fun st1 r hp1 h1 => hf cfg (.hold q) i st1 r hk hp1 trivial trivial h1
  split at h
  · cases h
  · split at h
    · split at h
      · cases h
      · cases h
      · rename_i cur _ top inst rest _ ha
        have ht : ∀ e ∈ top, e.noPrec = true := hp.top (top, inst) (by rw [ha]; rfl)
        split at h
        · cases h
        · rename_i c hc
          split at h
          · cases h
          · simp only at h
            have hr := (noPrecList_iff _).mp (resolveList_noPrec (ps := c.params) ht as he)
            split at h
            · have y := withArgs_E (f := (resolveList c.params top as, _)) hg hf
                (hp.same (st' := { st with insts := (intern st.insts (q, (resolveList c.params top as).map instArg)).2 })
                  ⟨rfl, rfl, rfl⟩ rfl) hr hx h
              exact ⟨y.vals, y.tags, y.tokens, y.name⟩
            · exact withArgs_E hg hf hp hr hx h
    · split at h
      · exact hx _ _ hp h
      · exact withArgs_E hg hf hp (by intro e he; cases he) hx h

theorem parseParam_E {cfg : Cfg V} {k : Nat} {i : Nat} {st : St V} {r : Res V}
    (hk : FrameOk cfg) (hp : Pre cfg i st) (h : parseParam rec cfg k i st = .ok r) : Ext st r.2 := by
  unfold parseParam at h
  split at h
  · cases h
  · rename_i top _ _ ha
    split at h
    · cases h
    · rename_i e hke
      exact ope_E hg hf hk hp (hp.top (_, _) (by rw [ha]; rfl) e (List.mem_of_getElem? hke)) h

theorem parseRecov_E {cfg : Cfg V} {q : Nat} {nm : List Byte} {as : List Ope} {i : Nat} {st : St V} {r : Res V}
    (h : parseRecov rec cfg q nm as i st = .ok r) : r.2.vs = st.vs := by
  unfold parseRecov at h
  simp only at h
  rw [bind_eq_ok] at h
  obtain ⟨st0, h0, h⟩ := h
  have e0 : st0.vs = st.vs := by
    split at h0
    · split at h0
      · cases h0
      · split at h0
        · cases h0
        · split at h0 <;> cases h0 <;> rfl
      · cases h0
      · cases h0; rfl
    · cases h0; rfl
  rw [bind_eq_ok] at h
  obtain ⟨⟨a, st1⟩, h1, h⟩ := h
  rw [bind_eq_ok] at h
  obtain ⟨st2, h2, h⟩ := h
  cases h
  refine (vs_setCut hg hf st2 true).trans ?_
  split at h2
  · split at h2
    · rw [bind_eq_ok] at h2
      obtain ⟨o, -, h2⟩ := h2
      cases h2; exact e0
    · cases h2; exact e0
  · cases h2; exact e0

theorem parseOpe_E {cfg : Cfg V} {e : Ope} {i : Nat} {st : St V} {r : Res V}
    (hk : FrameOk cfg) (hp : Pre cfg i st) (he : e.noPrec = true)
    (h : parseOpe rec cfg e i st = .ok r) : Ext st r.2 := by
  unfold parseOpe at h
  rw [if_neg (by have := hp.le; omega)] at h
  cases e with
  | seq es kw => simp only [Ope.noPrec] at he; exact parseSeq_E hg hf hk hp he h
  | cho es l fs => simp only [Ope.noPrec] at he; exact parseCho_E hg hf hk hp he h
  | rep e mn mx sp => simp only [Ope.noPrec] at he; exact parseRep_E hg hf hk hp he h
  | and_ e => simp only [Ope.noPrec] at he; exact Ext.of_vs (parseAnd_E hg hf hk hp he h).1
  | not_ e => simp only [Ope.noPrec] at he; exact Ext.of_vs (parseNot_E hg hf hk hp he h).1
  | dict w ic => exact parseDict_E hg hf hk hp h
  | lit s ic => exact parseLiteral_E hg hf hk hp h
  | cls c => exact terminal_E hg hf h
  | chr c => exact terminal_E hg hf h
  | dot => exact terminal_E hg hf h
  | capScope e => simp only [Ope.noPrec] at he; exact parseCapScope_E hg hf hk hp he h
  | cap nm e => simp only [Ope.noPrec] at he; exact parseCap_E hg hf hk hp he h
  | tok e => simp only [Ope.noPrec] at he; exact tokenBody_E hg hf hk hp he h
  | ign e => exact Ext.of_vs (parseIgn_E hg hf h)
  | usr n => exact parseUsr_E hg hf hk h
  | weak q => exact hf cfg (.hold q) i st r hk hp trivial trivial h
  | ref q nm as => simp only [Ope.noPrec] at he; exact refer_E hg hf hk hp he h
  | param k nm => exact parseParam_E hg hf hk hp h
  | ws e => simp only [Ope.noPrec] at he; exact parseWs_E hg hf hk hp he h
  | bref nm => exact parseBref_E hg hf hk hp h
  | prec a b info q => simp [Ope.noPrec] at he
  | recov q nm as => exact Ext.of_vs (parseRecov_E hg hf h)
  | cut => cases h; exact Ext.of_vs (vs_setCut hg hf _ _)
  | null => cases h

theorem step_goodF : GoodF (step rec) := by
  intro cfg t i st r hk hp ht htf h
  cases t with
  | ope e => exact parseOpe_E hg hf hk hp htf h
  | rep e mx c => exact repRound_E hg hf hk hp htf h
  | hold q => exact holder_E hg hf hk hp h
  | grow q inst cyc j v => exact growRound_E hg hf hk hp h
  | prec a b info q mp => cases htf
  | precLoop a b info q mp bn s => cases htf

end

theorem run_goodF (n : Nat) : GoodF (run (V := V) n) := by
  induction n with
  | zero => intro cfg t i st r _ _ _ _ h; cases h
  | succ n ih => exact step_goodF (run_good n) ih

end Verif
